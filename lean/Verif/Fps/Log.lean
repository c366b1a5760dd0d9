import Verif.Fps.Inv
import Verif.Fps.Ode
import Verif.Fps.Model2
/-!
Derivative, integral and logarithm.
-/
namespace Verif.Fps
open Verif.Modular Verif.Ntt
open PowerSeries (coeff coeff_derivative derivative)
open scoped PowerSeries

/-- The series of a list of coefficients. -/
noncomputable def ser (p : Nat) (f : List Nat) : (ZMod p)⟦X⟧ := ps (cf p f)

theorem coeff_ser (p : Nat) (f : List Nat) (k : Nat) : coeff k (ser p f) = cf p f k := coeff_ps _ _

theorem coeff_ser_mul (p : Nat) (f g : List Nat) (k : Nat) : coeff k (ser p f * ser p g) = mulF (cf p f) (cf p g) k := coeff_mul_ps _ _ _

theorem Prod.ser_eq {p N : Nat} {f r h : List Nat} (P : Prod p f r h N) : ser p h = ser p f * ser p r := by
  ext k
  rw [coeff_ser, coeff_ser_mul, P.cf_eq]

theorem _root_.Verif.Ntt.RepZ.dropLast {p n : Nat} {f : List Nat} {φ : Nat → ZMod p} (R : RepZ p f n φ) : RepZ p f.dropLast (n-1) φ := by
  refine ⟨by rw [List.length_dropLast, R.len], fun i hi => ?_⟩
  obtain ⟨a, e, h⟩ := R.val i (by omega)
  refine ⟨a, ?_, h⟩
  rw [List.getElem?_dropLast, if_pos (by rw [R.len]; exact hi), e]

theorem _root_.Verif.Ntt.RepZ.of_red {p : Nat} {f : List Nat} (hf : ∀ a ∈ f, a < p) : RepZ p f f.length (cf p f) := ⟨rfl, fun _ hi => cf_mem hf hi⟩

theorem ofInt_nat {p : Nat} (h0 : 0 < p) (i : Nat) : ofInt p (i : Int) < p ∧ ((ofInt p (i : Int) : Nat) : ZMod p) = (i : ZMod p) := by
  refine ⟨ofInt_lt h0 _, ?_⟩
  rw [ofInt_cast h0]
  push_cast
  rfl

theorem diffF_spec {p : Nat} (h0 : 0 < p) (hp : p < 2^31) {f : List Nat} (hf : ∀ a ∈ f, a < p) :
    ∃ d, diffF p f = some d ∧ d.length = f.length - 1 ∧ (∀ a ∈ d, a < p) ∧ ser p d = d⁄dX _ (ser p f) := by
  have hm : p ≤ 2^31 := by omega
  unfold diffF
  by_cases hl : f.length = 0
  · rw [if_pos hl]
    have : f = [] := List.length_eq_zero_iff.1 hl
    subst this
    refine ⟨[], rfl, rfl, hf, ?_⟩
    ext k
    rw [coeff_derivative, coeff_ser, coeff_ser, cf_ge (by simp), cf_ge (by simp), zero_mul]
  · rw [if_neg hl]
    obtain ⟨h, e, R⟩ := forRange_inv (a := 1) (b := f.length) (s := f) (body := diffStep p)
      (P := fun i (h : List Nat) => RepZ p h f.length (fun k => if k + 1 < i then cf p f (k+1) * (k+1 : ZMod p) else cf p f k)) (by omega)
      ((RepZ.of_red hf).congr (fun k _ => by rw [if_neg (by omega)])) (by
        intro i h h1 h2 Rh
        obtain ⟨a, ea, la, ca⟩ := Rh.val i h2
        rw [if_neg (by omega)] at ca
        obtain ⟨li, ci⟩ := ofInt_nat (p := p) h0 i
        obtain ⟨y, ey, ly, cy⟩ := mul_cast hm la li
        obtain ⟨h', e, R'⟩ := Rh.wr (i := i - 1) (by omega) ly
        refine ⟨h', by unfold diffStep; rw [ea, Option.bind_some, ey, Option.bind_some, e], R'.congr ?_⟩
        intro k _
        by_cases hk : k = i - 1
        · rw [hk, upd_same, if_pos (by omega), cy, ca, ci, show i - 1 + 1 = i by omega]
          congr 1
          rw [← Nat.cast_succ]
          exact congrArg _ (by omega)
        · rw [upd_ne _ _ hk]
          by_cases h3 : k + 1 < i
          · rw [if_pos h3, if_pos (by omega)]
          · rw [if_neg h3, if_neg (by omega)])
    have R' := R.dropLast
    refine ⟨h.dropLast, by rw [e, Option.map_some], R'.len, R'.red, ?_⟩
    ext k
    rw [coeff_derivative, coeff_ser, coeff_ser]
    by_cases hk : k + 1 < f.length
    · rw [R'.cf_eq (by omega), if_pos hk]
    · rw [cf_ge (by rw [R'.len]; omega), cf_ge (by omega), zero_mul]

theorem tableInv_spec {p : Nat} (hpr : p.Prime) (hm : p ≤ 2^31) {tb : List Nat} (h : Full p tb) {i : Nat} (hi : i < p) :
    ∃ v, tableInv p i tb = some v ∧ v.1 < p ∧ (v.1 : ZMod p) = (i : ZMod p)⁻¹ := by
  haveI : Fact p.Prime := ⟨hpr⟩
  obtain ⟨tb', e, hF, hl⟩ := setInv_full hm hi h
  obtain ⟨x, ex, lx, cx⟩ := hF.2.2 i hl
  exact ⟨(x, tb'), by unfold tableInv; rw [e, Option.bind_some, ex, Option.map_some], lx, cx⟩

theorem full_table0 {p : Nat} (hpr : p.Prime) : Full p (table0 p) := by
  haveI : Fact p.Prime := ⟨hpr⟩
  have h2 := hpr.two_le
  unfold Full table0
  refine ⟨by simp, by simpa using h2, ?_⟩
  intro j hj
  have hj : j < 2 := by simpa using hj
  obtain ⟨l0, c0⟩ := ofInt_nat (p := p) (by omega) 0
  obtain ⟨l1, c1⟩ := ofInt_nat (p := p) (by omega) 1
  rcases (show j = 0 ∨ j = 1 by omega) with h | h <;> subst h
  · exact ⟨_, rfl, l0, by rw [show ofInt p 0 = ofInt p ((0:Nat) : Int) from rfl, c0]; simp⟩
  · exact ⟨_, rfl, l1, by rw [show ofInt p 1 = ofInt p ((1:Nat) : Int) from rfl, c1]; simp⟩

theorem inteF_spec {p : Nat} (hpr : p.Prime) (hp : p < 2^31) {tb : List Nat} (hT : Full p tb) {f : List Nat} (hf : ∀ a ∈ f, a < p) (hl : f.length + 1 < p)
    (hl0 : 0 < f.length) :
    ∃ g, inteF p tb f = some g ∧ RepZ p g (f.length + 1) (fun k => if k = 0 then 0 else cf p f (k-1) * (k : ZMod p)⁻¹) := by
  haveI : Fact p.Prime := ⟨hpr⟩
  have hm : p ≤ 2^31 := by omega
  have h2 := hpr.two_le
  unfold inteF
  rw [if_neg (by omega)]
  obtain ⟨tb', et, hT', _⟩ := setInv_full hm hl hT
  have R0 : RepZ p (f ++ [0]) (f.length + 1) (cf p f) := by
    have := pre_rep (p := p) (by omega) hf (f.length + 1)
    unfold pre at this
    rw [List.take_of_length_le (by omega), show f.length + 1 - f.length = 1 by omega] at this
    exact this
  obtain ⟨h, e, R⟩ := forRangeDown_inv (a := 1) (b := f.length + 1) (s := f ++ [0]) (body := inteStep p tb')
    (P := fun i (h : List Nat) => RepZ p h (f.length + 1) (fun k => if i ≤ k then cf p f (k-1) * (k : ZMod p)⁻¹ else cf p f k)) (by omega)
    (R0.congr (fun k hk => by rw [if_neg (by omega)])) (by
      intro i h h1 h2' Rh
      obtain ⟨a, ea, la, ca⟩ := Rh.val (i-1) (by omega)
      rw [if_neg (by omega)] at ca
      obtain ⟨v, ev, lv, cv⟩ := tableInv_spec hpr hm hT' (i := i) (by omega)
      obtain ⟨y, ey, ly, cy⟩ := mul_cast hm la lv
      obtain ⟨h', e, R'⟩ := Rh.wr (i := i) (by omega) ly
      refine ⟨h', by unfold inteStep; rw [ea, Option.bind_some, ev, Option.bind_some, ey, Option.bind_some, e], R'.congr ?_⟩
      intro k _
      by_cases hk : k = i
      · subst hk; rw [upd_same, if_pos (by omega), cy, ca, cv]
      · rw [upd_ne _ _ hk]
        by_cases h3 : i + 1 ≤ k
        · rw [if_pos h3, if_pos (by omega)]
        · rw [if_neg h3, if_neg (by omega)])
  obtain ⟨g, eg, Rg⟩ := R.wr (i := 0) (a := 0) (by omega) (by omega)
  refine ⟨g, by rw [et, Option.bind_some, e, Option.bind_some, eg], Rg.congr ?_⟩
  intro k _
  by_cases hk : k = 0
  · subst hk; rw [upd_same, if_pos rfl, Nat.cast_zero]
  · rw [upd_ne _ _ hk, if_neg hk, if_pos (by omega)]

theorem logTail_spec {p : Nat} (hpr : p.Prime) (hp : p < 2^31) {tb : List Nat} (hT : Full p tb) {t : List Nat} (ht : ∀ a ∈ t, a < p) {n : Nat} (hn0 : 0 < n) (hn : n < p) :
    ∃ l, logTail p tb n t = some l ∧ l.length = n ∧ (∀ a ∈ l, a < p) ∧ coeff 0 (ser p l) = 0 ∧ Agree (n-1) (d⁄dX _ (ser p l)) (ser p t) := by
  haveI : Fact p.Prime := ⟨hpr⟩
  have h2 := hpr.two_le
  have Rt := pre_rep (p := p) (by omega) ht (n-1)
  unfold logTail
  rw [if_neg (by omega)]
  by_cases h1 : n = 1
  · subst h1
    have e : pre (1-1) t = [] := List.length_eq_zero_iff.1 Rt.len
    have Rl := pre_rep (p := p) (f := []) (by omega) (by simp) 1
    refine ⟨pre 1 [], by rw [e]; rfl, Rl.len, Rl.red, ?_, fun k hk => absurd hk (by omega)⟩
    rw [coeff_ser, Rl.cf_eq (by omega), cf_ge (by simp)]
  · obtain ⟨g, eg, Rg⟩ := inteF_spec hpr hp hT Rt.red (by rw [Rt.len]; omega) (by rw [Rt.len]; omega)
    have Rl := pre_rep (p := p) (by omega) Rg.red n
    refine ⟨pre n g, by rw [eg, Option.map_some], Rl.len, Rl.red, ?_, ?_⟩
    · rw [coeff_ser, Rl.cf_eq (by omega), Rg.cf_eq (by omega), if_pos rfl]
    · intro k hk
      rw [coeff_derivative, coeff_ser, coeff_ser, Rl.cf_eq (by omega), Rg.cf_eq (by rw [Rt.len]; omega), if_neg (by omega), Nat.add_sub_cancel, Rt.cf_eq hk,
        mul_assoc, ← Nat.cast_succ, inv_mul_cancel₀ (cast_ne (by omega) (by omega)), mul_one]

/-- `l` holds the logarithm of `F` below `x^n`. -/
def IsLog (p n : Nat) (F : (ZMod p)⟦X⟧) (l : List Nat) : Prop :=
  l.length = n ∧ (∀ a ∈ l, a < p) ∧ coeff 0 (ser p l) = 0 ∧ Agree (n-1) (F * d⁄dX _ (ser p l)) (d⁄dX _ F)

/-- The common part of `log` and `log_dense`. -/
theorem log_of_inv {p r n K : Nat} (H : Root p r) {tb f v : List Nat} (hT : Full p tb) (hf : ∀ a ∈ f, a < p) (hf0 : f[0]? = some 1) (hn0 : 0 < n) (hn : n < p)
    (hv : IsInv p v (n-1) (cf p f)) (hK : K ≤ logN p) (hl : f.length + n ≤ 2^K) :
    ∃ l, (diffF p f).bind (fun d => (some v).bind (fun v => (mulSet p r d v).bind (logTail p tb n))) = some l ∧ IsLog p n (ser p f) l := by
  haveI : Fact p.Prime := ⟨H.prime⟩
  have h2 := H.prime.two_le
  obtain ⟨d, ed, ld, rd, sd⟩ := diffF_spec (p := p) (by omega) H.lt hf
  obtain ⟨hv1, hv2, hv3⟩ := hv
  have hmul : ∃ t, mulSet p r d v = some t ∧ (∀ a ∈ t, a < p) ∧ ser p t = ser p d * ser p v := by
    by_cases hd : d.length = 0
    · have hd' : d = [] := List.length_eq_zero_iff.1 hd
      -- f = [1], so that its reciprocal has at most one term
      have hfl : f.length = 1 := by
        have : 0 < f.length := by
          rcases f with _ | ⟨a, f⟩
          · simp at hf0
          · simp
        omega
      have hf1 : f = [1] := by
        rcases f with _ | ⟨a, _ | ⟨b, f⟩⟩
        · simp at hfl
        · simp at hf0; rw [hf0]
        · simp at hfl
      have hvz : ∀ k, k < v.length → 0 < k → cf p v k = 0 := by
        intro k hk hk0
        have := hv3 k (by omega)
        rw [if_neg (by omega), mulF_comm, mulF_congr (a' := fun i => if i = 0 then (1 : ZMod p) else 0) (b' := cf p v) (fun i _ => by
          rw [hf1, cf_cons]
          by_cases h : i = 0
          · rw [if_pos h, if_pos h, Nat.cast_one]
          · rw [if_neg h, if_neg h, cf_ge (by simp)]) (fun _ _ => rfl), mulF_single_left, if_pos (Nat.zero_le _), one_mul, Nat.sub_zero] at this
        exact this
      have hc : countTerms v v.length < 100 := by
        unfold countTerms
        rw [List.take_of_length_le (le_refl _)]
        rcases hv' : v with _ | ⟨a, v'⟩
        · simp
        · have h0 : v'.countP (· != 0) = 0 := by
            rw [List.countP_eq_zero]
            intro x hx
            obtain ⟨i, hi, ei⟩ := List.getElem_of_mem hx
            have h3 := hvz (i+1) (by rw [hv']; simpa using hi) (by omega)
            rw [hv', cf_cons, if_neg (by omega), Nat.add_sub_cancel] at h3
            unfold cf at h3
            rw [List.getD_eq_getElem _ _ hi, ei] at h3
            have : x = 0 := cast_inj (hv2 x (by rw [hv']; exact List.mem_cons_of_mem _ hx)) (by omega) (by rw [h3, Nat.cast_zero])
            simp [this]
          have := List.countP_cons (p := (· != 0)) (a := a) (l := v')
          rw [this, h0]
          split <;> omega
      obtain ⟨h, N, e, P, _⟩ := mulSparse_spec (p := p) (by omega) H.lt rd hv2
      exact ⟨h, by unfold mulSet; rw [if_pos hc, e], P.rep.red, P.ser_eq⟩
    · obtain ⟨t, N, e, P, _⟩ := mulSet_spec H (k := K) rd hv2 (by omega) hK (by omega)
      exact ⟨t, e, P.rep.red, P.ser_eq⟩
  obtain ⟨t, et, rt, st⟩ := hmul
  obtain ⟨l, el, h1, h3, h4, h5⟩ := logTail_spec H.prime H.lt hT rt hn0 hn
  refine ⟨l, by rw [ed, Option.bind_some, Option.bind_some, et, Option.bind_some, el], h1, h3, h4, ?_⟩
  refine ((Agree.refl _ (ser p f)).mul h5).trans ?_
  rw [st, sd, show ser p f * (d⁄dX _ (ser p f) * ser p v) = d⁄dX _ (ser p f) * (ser p v * ser p f) by ring]
  have h6 : Agree (n-1) (ser p v * ser p f) 1 := by
    intro k hk
    rw [coeff_ser_mul, hv3 k hk, PowerSeries.coeff_one]
  have := (Agree.refl (n-1) (d⁄dX _ (ser p f))).mul h6
  rw [mul_one] at this
  exact this

theorem head_ne {p : Nat} {f : List Nat} (h : f[0]? = some 1) : f.getD 0 0 ≠ 0 := by
  rw [List.getD_eq_getElem?_getD, h]; simp

theorem logF_spec {p r n K : Nat} (H : Root p r) {tb f : List Nat} (hT : Full p tb) (hf : ∀ a ∈ f, a < p) (hf0 : f[0]? = some 1) (hn0 : 0 < n) (hn : n < p)
    (hK : K + 1 ≤ logN p) (hl : f.length + n ≤ 2^K) : ∃ l, logF p r tb f n = some l ∧ IsLog p n (ser p f) l := by
  obtain ⟨v, ev, hv⟩ := invF_spec H (n := n-1) hf (head_ne (p := p) hf0) (K := K) (by omega) hK
  obtain ⟨l, el, h⟩ := log_of_inv H hT hf hf0 hn0 hn hv (K := K) (by omega) hl
  refine ⟨l, ?_, h⟩
  unfold logF
  rw [if_neg (by rw [hf0]; simp), ev]
  exact el

theorem logDense_spec {p r n K : Nat} (H : Root p r) {tb f : List Nat} (hT : Full p tb) (hf : ∀ a ∈ f, a < p) (hf0 : f[0]? = some 1) (hn0 : 0 < n) (hn : n < p)
    (hK : K + 1 ≤ logN p) (hl : f.length + n ≤ 2^K) : ∃ l, logDense p r tb f n = some l ∧ IsLog p n (ser p f) l := by
  obtain ⟨v, ev, hv⟩ := invDense_spec H (n := n-1) hf (head_ne (p := p) hf0) (K := K) (by omega) hK
  obtain ⟨l, el, h⟩ := log_of_inv H hT hf hf0 hn0 hn hv (K := K) (by omega) hl
  refine ⟨l, ?_, h⟩
  unfold logDense
  rw [if_neg (by rw [hf0]; simp), ev]
  exact el

end Verif.Fps
