import Verif.Ntt.Rev
import Mathlib.GroupTheory.OrderOfElement
import Mathlib.Data.List.GetD
/-!
The coefficients, and the transforms as a whole.
-/
namespace Verif.Ntt
open Verif.Modular

theorem coeffLoop {p b L : Nat} (hp : p < 2^31) (hb : b < p) :
    ∃ s, forRangeDown 0 L (coeffStep p) (List.replicate L 0, b) = some s ∧ RepZ p s.1 L (fun i => (b : ZMod p)^(2^(L-1-i))) := by
  have hm : p ≤ 2^31 := by omega
  obtain ⟨s, e, ⟨_, _, R⟩⟩ := forRangeDown_inv (a := 0) (b := L) (s := (List.replicate L 0, b)) (body := coeffStep p)
    (P := fun i (s : List Nat × Nat) => s.2 < p ∧ (s.2 : ZMod p) = (b : ZMod p)^(2^(L-i)) ∧
      RepZ p s.1 L (fun j => if i ≤ j then (b : ZMod p)^(2^(L-1-j)) else 0)) (Nat.zero_le _)
    ⟨hb, by rw [Nat.sub_self, pow_zero, pow_one], ⟨by simp, fun j hj => ⟨0, by simp [hj], by omega, by rw [if_neg (by omega)]; simp⟩⟩⟩ (by
      rintro i ⟨c, iw⟩ _ hi ⟨lw, cw, R⟩
      dsimp only at lw cw R
      obtain ⟨c', ec, Rc⟩ := R.wr hi lw
      obtain ⟨w', ew, lw', cw'⟩ := mul_cast hm lw lw
      refine ⟨(c', w'), by unfold coeffStep; rw [ec, Option.bind_some, ew]; rfl, lw', ?_, Rc.congr ?_⟩
      · dsimp only
        rw [cw', cw, ← pow_add]
        congr 1
        rw [show L - i = (L - (i+1)) + 1 by omega, pow_succ]; omega
      · intro j hj
        by_cases h : j = i
        · subst h
          rw [upd_same, if_pos (Nat.le_refl _), cw, show L - (j+1) = L - 1 - j by omega]
        · rw [upd_ne _ _ h]
          by_cases h2 : i + 1 ≤ j
          · rw [if_pos h2, if_pos (by omega)]
          · rw [if_neg h2, if_neg (by omega)])
  exact ⟨s, e, R.congr (fun j _ => by rw [if_pos (Nat.zero_le _)])⟩

theorem logN_spec {p : Nat} (h2 : 2 ≤ p) (hp : p < 2^31) : (∃ q, p - 1 = 2^(logN p) * q ∧ q % 2 = 1) ∧ logN p < 31 := by
  obtain ⟨⟨q, hq⟩, hn⟩ := (BitManip.C27_ctz (p-1) (by omega)).1 (by omega)
  change p - 1 = 2^(logN p) * q at hq
  change ¬ 2^(logN p + 1) ∣ p - 1 at hn
  refine ⟨⟨q, hq, ?_⟩, ?_⟩
  · by_contra h
    apply hn
    rw [hq, pow_succ]
    exact Nat.mul_dvd_mul_left _ (by omega)
  · by_contra h
    have h1 : 2^31 ≤ 2^(logN p) := Nat.pow_le_pow_right (by omega) (by omega)
    have h3 : 0 < q := by
      rcases Nat.eq_zero_or_pos q with h | h
      · rw [h] at hq; omega
      · exact h
    have : 2^(logN p) ≤ 2^(logN p) * q := Nat.le_mul_of_pos_right _ h3
    omega

section
variable {p g : Nat}

/-- `math::primitive_root<p>` is a generator of the multiplicative group. -/
structure Root (p g : Nat) : Prop where
  prime : p.Prime
  lt : p < 2^31
  order : orderOf (g : ZMod p) = p - 1

/-- The `2^L`-th root of unity used by the transforms, `L` being `logN p`. -/
def rt (p g : Nat) : ZMod p := (g : ZMod p) ^ ((p-1) / 2^(logN p))

/-- The inverse coefficients (`coeff(false)`). -/
def gi (p g i : Nat) : ZMod p := rt p g ^ (2^(logN p - 1 - i))

theorem rt_pow (H : Root p g) : rt p g ^ (2^(logN p)) = 1 := by
  obtain ⟨⟨q, hq, _⟩, _⟩ := logN_spec H.prime.two_le H.lt
  unfold rt
  rw [← pow_mul, Nat.div_mul_cancel ⟨q, hq⟩, ← H.order, pow_orderOf_eq_one]

theorem rt_half (H : Root p g) (hL : 0 < logN p) : rt p g ^ (2^(logN p - 1)) = -1 := by
  haveI : Fact p.Prime := ⟨H.prime⟩
  obtain ⟨⟨q, hq, ho⟩, _⟩ := logN_spec H.prime.two_le H.lt
  have e2 : 2^(logN p) = 2^(logN p - 1) * 2 := by rw [← pow_succ]; congr 1; omega
  have hsq : (rt p g ^ (2^(logN p - 1))) * (rt p g ^ (2^(logN p - 1))) = 1 := by
    rw [← pow_add, ← mul_two, ← e2, rt_pow H]
  rcases mul_self_eq_one_iff.1 hsq with h | h
  · exfalso
    unfold rt at h
    rw [← pow_mul] at h
    have hd := orderOf_dvd_of_pow_eq_one h
    rw [H.order] at hd
    have hqd : (p-1) / 2^(logN p) = q := by
      rw [hq]; exact Nat.mul_div_cancel_left _ (Nat.two_pow_pos _)
    rw [hqd] at hd
    have hpos : 0 < q * 2^(logN p - 1) := Nat.mul_pos (by omega) (Nat.two_pow_pos _)
    have hle := Nat.le_of_dvd hpos hd
    have : p - 1 = 2 * (q * 2^(logN p - 1)) := by
      rw [hq]
      conv_lhs => rw [e2]
      ring
    omega
  · exact h

theorem rt_ne (H : Root p g) : rt p g ≠ 0 := by
  haveI : Fact p.Prime := ⟨H.prime⟩
  intro h
  have := rt_pow H
  rw [h, zero_pow (Nat.two_pow_pos _).ne'] at this
  exact zero_ne_one this

theorem gi_pow (H : Root p g) {i : Nat} (hi : i < logN p) : gi p g i ^ 2^i = -1 := by
  unfold gi
  rw [← pow_mul, ← pow_add, show logN p - 1 - i + i = logN p - 1 by omega, rt_half H (by omega)]

theorem gi_sq {i : Nat} (hi : i + 1 < logN p) : gi p g (i+1) * gi p g (i+1) = gi p g i := by
  unfold gi
  rw [← pow_add, ← mul_two, ← pow_succ, show logN p - 1 - (i+1) + 1 = logN p - 1 - i by omega]

theorem coeff_spec (H : Root p g) : ∃ co co', coeff p g true = some co ∧ coeff p g false = some co' ∧
    RepZ p co (logN p) (fun i => (gi p g i)⁻¹) ∧ RepZ p co' (logN p) (gi p g) := by
  haveI : Fact p.Prime := ⟨H.prime⟩
  have h2 := H.prime.two_le
  have hp := H.lt
  obtain ⟨r, er, lr, cr⟩ := pow_cast (m := p) (by omega) (ofInt_lt (by omega) g) (p := (p-1) >>> logN p) (by
    have : (p-1) >>> logN p ≤ p - 1 := Nat.shiftRight_le _ _
    omega)
  have cr' : (r : ZMod p) = rt p g := by
    rw [cr, ofInt_cast (by omega), Nat.shiftRight_eq_div_pow]
    unfold rt
    simp
  have hr0 : r ≠ 0 := by
    intro h
    rw [h, Nat.cast_zero] at cr'
    exact rt_ne H cr'.symm
  obtain ⟨ri, ei, li, ci⟩ := inv_spec (p := p) (by omega) lr hr0
  obtain ⟨s, es, Rs⟩ := coeffLoop (L := logN p) hp li
  obtain ⟨s', es', Rs'⟩ := coeffLoop (L := logN p) hp lr
  refine ⟨s.1, s'.1, ?_, ?_, Rs.congr ?_, Rs'.congr ?_⟩
  · unfold coeff
    rw [er, Option.bind_some, if_pos rfl, ei, Option.bind_some, es]; rfl
  · unfold coeff
    rw [er, Option.bind_some, if_neg (by decide), Option.bind_some, es']; rfl
  · intro i _
    rw [ci, cr', inv_pow]; rfl
  · intro i _
    rw [cr']; rfl

/-- Coefficients of a vector, zero beyond its end. -/
def cf (p : Nat) (f : List Nat) (i : Nat) : ZMod p := ((f.getD i 0 : Nat) : ZMod p)

theorem cf_ge {p : Nat} {f : List Nat} {i : Nat} (h : f.length ≤ i) : cf p f i = 0 := by
  unfold cf
  rw [List.getD_eq_default _ _ h, Nat.cast_zero]

theorem resize_rep {p n : Nat} (h0 : 0 < p) {f : List Nat} (hf : ∀ a ∈ f, a < p) (hn : f.length ≤ n) : RepZ p (resize p n f) n (cf p f) := by
  have hz : ofInt p 0 = 0 := by
    have := ofInt_eq h0 0
    simpa using this
  unfold resize
  rw [List.take_of_length_le hn, hz]
  refine ⟨by simp; omega, ?_⟩
  intro i hi
  by_cases h : i < f.length
  · refine ⟨f[i], by rw [List.getElem?_append_left h, List.getElem?_eq_getElem h], hf _ (List.getElem_mem h), ?_⟩
    unfold cf
    rw [List.getD_eq_getElem _ _ h]
  · refine ⟨0, ?_, h0, ?_⟩
    · rw [List.getElem?_append_right (by omega), List.getElem?_replicate, if_pos (by omega)]
    · rw [cf_ge (by omega), Nat.cast_zero]

theorem RepZ.cf_eq {n : Nat} {f : List Nat} {φ : Nat → ZMod p} (R : RepZ p f n φ) {i : Nat} (hi : i < n) : cf p f i = φ i := by
  obtain ⟨a, e, _, c⟩ := R.val i hi
  unfold cf
  rw [List.getD_eq_getElem?_getD, e, Option.getD_some, c]

theorem RepZ.red {n : Nat} {f : List Nat} {φ : Nat → ZMod p} (R : RepZ p f n φ) : ∀ a ∈ f, a < p := by
  intro a ha
  obtain ⟨i, hi, rfl⟩ := List.getElem_of_mem ha
  obtain ⟨b, e, l, _⟩ := R.val i (by rw [← R.len]; exact hi)
  rw [List.getElem?_eq_getElem hi] at e
  rw [Option.some.inj e]; exact l

/-- The evaluation points of the forward transform. -/
def pts (p g k j : Nat) : ZMod p := pt (fun i => (gi p g i)⁻¹) k j

theorem gi_inv_pow (H : Root p g) {i : Nat} (hi : i < logN p) : (gi p g i)⁻¹ ^ 2^i = -1 := by
  haveI : Fact p.Prime := ⟨H.prime⟩
  rw [inv_pow, gi_pow H hi, inv_neg, inv_one]

/-- The forward transform evaluates the polynomial at the points. -/
theorem fft_spec (H : Root p g) {k : Nat} (hk : k ≤ logN p) {f : List Nat} (hf : ∀ a ∈ f, a < p) (hc : ceilPow2 f.length = some k) (hl : f.length ≤ 2^k) :
    (∃ f', fft p g false f = some f' ∧ RepZ p f' (2^k) (fun j => ev (cf p f) 0 (2^k) (pts p g k j))) ∧
    (∃ f', fft p g true f = some f' ∧ RepZ p f' (2^k) (fun j => ev (cf p f) 0 (2^k) (pts p g k (rv k j)))) := by
  have h2 := H.prime.two_le
  obtain ⟨_, hL⟩ := logN_spec h2 H.lt
  obtain ⟨co, _, ec, _, RC, _⟩ := coeff_spec H
  have R0 := resize_rep (p := p) (by omega) hf hl
  have E1 : 2^k = 1 * 2^k := (Nat.one_mul _).symm
  rw [E1] at R0
  obtain ⟨f1, e1, R1⟩ := fwdLoop_spec (by omega) H.lt (by omega) RC k 1 _ _ hk R0
  rw [← E1] at e1 R1
  have R1' : RepZ p f1 (2^k) (fun j => ev (cf p f) 0 (2^k) (pts p g k j)) := R1.congr (fun j hj => by
    have := stages_ev (co := fun i => (gi p g i)⁻¹) k (fun i hi => gi_inv_pow H (by omega)) (cf p f) 0 j hj
    rw [Nat.zero_mul, Nat.zero_add] at this
    exact this)
  have hpre : ∀ b, fft p g b f = if b then bitReverse f1 else some f1 := by
    intro b
    unfold fft
    rw [hc, Option.bind_some, if_neg (by omega), shl_some (by omega), Option.bind_some, ec, Option.bind_some]
    rw [← E1] at *
    rw [e1, Option.bind_some]
  refine ⟨⟨f1, by rw [hpre]; rfl, R1'⟩, ?_⟩
  obtain ⟨f2, e2, R2⟩ := bitReverse_spec (by omega) R1'
  exact ⟨f2, by rw [hpre]; exact e2, R2⟩

theorem two_ne (H : Root p g) (hL : 0 < logN p) : (2 : ZMod p) ≠ 0 := by
  haveI : Fact p.Prime := ⟨H.prime⟩
  intro h
  have h2 := H.prime.two_le
  obtain ⟨⟨q, hq, _⟩, _⟩ := logN_spec h2 H.lt
  have : ((2 : Nat) : ZMod p) = 0 := by exact_mod_cast h
  rw [ZMod.natCast_eq_zero_iff] at this
  have hp2 : p = 2 := by
    have := Nat.le_of_dvd (by omega) this
    omega
  rw [hp2] at hq hL
  rw [show logN 2 = (logN 2 - 1) + 1 by omega, pow_succ, Nat.mul_assoc, Nat.mul_left_comm] at hq
  omega

theorem scale_spec (H : Root p g) {k : Nat} (hk : k ≤ logN p) {f : List Nat} {φ : Nat → ZMod p} (R : RepZ p f (2^k) (fun i => 2^k * φ i)) :
    ∃ f', scale p (2^k) f = some f' ∧ RepZ p f' (2^k) φ := by
  haveI : Fact p.Prime := ⟨H.prime⟩
  have h2 := H.prime.two_le
  have hp := H.lt
  have hne : (2 : ZMod p)^k ≠ 0 := by
    cases k with
    | zero => simp
    | succ k => exact pow_ne_zero _ (two_ne H (by omega))
  have hcast : (ofInt p ((2^k : Nat) : Int) : ZMod p) = 2^k := by
    rw [ofInt_cast (by omega)]; push_cast; rfl
  have h0 : ofInt p ((2^k : Nat) : Int) ≠ 0 := by
    intro h
    rw [h, Nat.cast_zero] at hcast
    exact hne hcast.symm
  obtain ⟨c, ec, lc, cc⟩ := inv_spec (p := p) (by omega) (ofInt_lt (by omega) _) h0
  rw [hcast] at cc
  unfold scale
  rw [ec, Option.bind_some]
  obtain ⟨f', e, R'⟩ := forRange_inv (a := 0) (b := 2^k) (s := f) (body := scaleStep p c)
    (P := fun i (f : List Nat) => RepZ p f (2^k) (fun q => if q < i then φ q else 2^k * φ q)) (Nat.zero_le _)
    (R.congr (fun q _ => by rw [if_neg (by omega)])) (by
      intro i f _ hi Ri
      obtain ⟨a, ea, la, ca⟩ := Ri.val i hi
      rw [if_neg (by omega)] at ca
      obtain ⟨y, ey, ly, cy⟩ := mul_cast (by omega) la lc
      obtain ⟨f', ef, Rf⟩ := Ri.wr hi ly
      refine ⟨f', by unfold scaleStep; rw [ea, Option.bind_some, ey, Option.bind_some, ef], Rf.congr ?_⟩
      intro q _
      by_cases h : q = i
      · subst h
        rw [upd_same, if_pos (by omega), cy, ca, cc, mul_comm, ← mul_assoc, inv_mul_cancel₀ hne, one_mul]
      · rw [upd_ne _ _ h]
        by_cases h3 : q < i
        · rw [if_pos h3, if_pos (by omega)]
        · rw [if_neg h3, if_neg (by omega)])
  exact ⟨f', e, R'.congr (fun q hq => by rw [if_pos hq])⟩

/-- The inverse transform of the values of a sequence is the sequence. -/
theorem ifft_spec (H : Root p g) {k : Nat} (hk : k ≤ logN p) {f : List Nat} {φ : Nat → ZMod p} :
    (RepZ p f (2^k) (fun j => ev φ 0 (2^k) (pts p g k j)) → ∃ f', ifft p g false f = some f' ∧ RepZ p f' (2^k) φ) ∧
    (RepZ p f (2^k) (fun j => ev φ 0 (2^k) (pts p g k (rv k j))) → ∃ f', ifft p g true f = some f' ∧ RepZ p f' (2^k) φ) := by
  haveI : Fact p.Prime := ⟨H.prime⟩
  have h2 := H.prime.two_le
  obtain ⟨_, hL⟩ := logN_spec h2 H.lt
  obtain ⟨_, co, _, ec, _, RC⟩ := coeff_spec H
  have hne : ∀ i, gi p g i ≠ 0 := fun i => pow_ne_zero _ (rt_ne H)
  have key : ∀ f : List Nat, RepZ p f (2^k) (fun j => ev φ 0 (2^k) (pts p g k j)) →
      ∃ f', (invLoop p (2^k) k co f).bind (scale p (2^k)) = some f' ∧ RepZ p f' (2^k) φ := by
    intro f R
    have R' : RepZ p f (2^k) (stages (fun i => (gi p g i)⁻¹) k φ) := R.congr (fun j hj => by
      have := stages_ev (co := fun i => (gi p g i)⁻¹) k (fun i hi => gi_inv_pow H (by omega)) φ 0 j hj
      rw [Nat.zero_mul, Nat.zero_add] at this
      exact this.symm)
    obtain ⟨f1, e1, R1⟩ := invLoop_spec (by omega) H.lt (by omega) RC hk R'
    rw [istages_stages k (fun i _ => inv_mul_cancel₀ (hne i))] at R1
    obtain ⟨f2, e2, R2⟩ := scale_spec H hk R1
    exact ⟨f2, by rw [e1, Option.bind_some, e2], R2⟩
  have hres : ∀ {f : List Nat} {ψ : Nat → ZMod p}, RepZ p f (2^k) ψ → resize p (2^k) f = f := by
    intro f ψ R
    unfold resize
    rw [List.take_of_length_le (by rw [R.len]), R.len, Nat.sub_self, List.replicate_zero, List.append_nil]
  constructor
  · intro R
    obtain ⟨f', e, R'⟩ := key f R
    refine ⟨f', ?_, R'⟩
    unfold ifft
    rw [R.len, ceilPow2_pow (by omega), Option.bind_some, if_neg (by omega), shl_some (by omega), Option.bind_some, if_neg (by decide),
      hres R, Option.bind_some, ec, Option.bind_some, e]
  · intro R
    obtain ⟨f1, e1, R1⟩ := bitReverse_spec (by omega) R
    obtain ⟨f', e, R'⟩ := key f1 (R1.congr (fun j hj => by rw [rv_rv k j hj]))
    refine ⟨f', ?_, R'⟩
    unfold ifft
    rw [R.len, ceilPow2_pow (by omega), Option.bind_some, if_neg (by omega), shl_some (by omega), Option.bind_some, if_pos rfl,
      hres R, e1, Option.bind_some, ec, Option.bind_some, e]

end
end Verif.Ntt
