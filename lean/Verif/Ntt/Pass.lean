import Verif.Ntt.Model
import Verif.Ntt.Ring
import Verif.Modular.Props
/-!
The passes of the model compute the radix-2 stages of `Verif.Ntt.Ring` in `ZMod p`.
-/
namespace Verif.Ntt
open Verif.Modular

/-- `f` has length `n`, its entries are reduced modulo `p` and are given by `φ`. -/
structure RepZ (p : Nat) (f : List Nat) (n : Nat) (φ : Nat → ZMod p) : Prop where
  len : f.length = n
  val : ∀ i, i < n → ∃ a, f[i]? = some a ∧ a < p ∧ (a : ZMod p) = φ i

theorem RepZ.congr {p n : Nat} {f : List Nat} {φ ψ : Nat → ZMod p} (h : RepZ p f n φ) (he : ∀ i, i < n → φ i = ψ i) : RepZ p f n ψ :=
  ⟨h.len, fun i hi => by rw [← he i hi]; exact h.val i hi⟩

theorem RepZ.wr {p n : Nat} {f : List Nat} {φ : Nat → ZMod p} (h : RepZ p f n φ) {i a : Nat} (hi : i < n) (ha : a < p) :
    ∃ f', Verif.wr f i a = some f' ∧ RepZ p f' n (upd φ i (a : ZMod p)) := by
  refine ⟨f.set i a, ?_, by simp [h.len], ?_⟩
  · unfold Verif.wr; rw [if_pos (by rw [h.len]; exact hi)]
  · intro j hj
    by_cases hji : j = i
    · subst hji
      rw [List.getElem?_set_self (by rw [h.len]; exact hi), upd_same]
      exact ⟨a, rfl, ha, rfl⟩
    · rw [List.getElem?_set_ne (Ne.symm hji), upd_ne _ _ hji]
      exact h.val j hj

/-- Two lists with the same representation are equal. -/
theorem RepZ.ext {p n : Nat} {f g : List Nat} {φ ψ : Nat → ZMod p} (hf : RepZ p f n φ) (hg : RepZ p g n ψ) (he : ∀ i, i < n → φ i = ψ i) : f = g := by
  apply List.ext_getElem?
  intro i
  by_cases hi : i < n
  · obtain ⟨a, ea, ha, ca⟩ := hf.val i hi
    obtain ⟨b, eb, hb, cb⟩ := hg.val i hi
    rw [ea, eb, cast_inj ha hb (by rw [ca, cb, he i hi])]
  · rw [List.getElem?_eq_none (by rw [hf.len]; omega), List.getElem?_eq_none (by rw [hg.len]; omega)]

theorem ll_some {x : Int} (h : -2^63 ≤ x ∧ x < 2^63) : ll x = some x := by unfold ll; rw [if_pos h]

/-- A residue of a non-negative integer by `%`. -/
theorem tmod_spec {p : Nat} (hp : 0 < p) {x : Int} (hx : 0 ≤ x) :
    0 ≤ Int.tmod x p ∧ Int.tmod x p < p ∧ ((Int.tmod x p : Int) : ZMod p) = (x : ZMod p) := by
  rw [Int.tmod_eq_emod_of_nonneg hx]
  refine ⟨Int.emod_nonneg _ (by omega), Int.emod_lt_of_pos _ (by omega), by rw [ZMod.intCast_mod]⟩

theorem mul_range {B C x y : Int} (hB : 0 ≤ B) (hx : -B ≤ x ∧ x ≤ B) (hy : 0 ≤ y ∧ y ≤ C) (h : B * C < 2^63) : -2^63 ≤ x * y ∧ x * y < 2^63 := by
  have h1 : x * y ≤ B * C := by nlinarith [mul_nonneg hB hy.1]
  have h2 : -(B * C) ≤ x * y := by nlinarith [mul_nonneg hB hy.1]
  omega

theorem sq_bound {p : Nat} (hp : p < 2^31) : (2 * (p:Int)) * p < 2^63 := by
  have : (p:Int) < 2^31 := by exact_mod_cast hp
  nlinarith

theorem ll_mul {p : Nat} (hp : p < 2^31) {x y : Int} (hx : -(2 * (p:Int)) ≤ x ∧ x ≤ 2 * p) (hy : 0 ≤ y ∧ y ≤ p) : ll (x * y) = some (x * y) :=
  ll_some (mul_range (by omega) hx hy (sq_bound hp))

theorem fwdBf_spec {p : Nat} (h0 : 0 < p) (hp : p < 2^31) {w wh x a b c d : Nat} (hw : w < p) (hwh : wh < p) (hx : x < p) (ha : a < p) (hb : b < p)
    (hc : c < p) (hd : d < p) : ∃ r, fwdBf p w wh x a b c d = some r ∧ (r.1 < p ∧ r.2.1 < p ∧ r.2.2.1 < p ∧ r.2.2.2 < p) ∧
      (r.1 : ZMod p) = a + c + (b + d) ∧ (r.2.1 : ZMod p) = (a + c - (b + d)) * x ∧
      (r.2.2.1 : ZMod p) = (a - c) * w + (b - d) * (w * wh) ∧ (r.2.2.2 : ZMod p) = ((a - c) * w - (b - d) * (w * wh)) * x := by
  have e1 : ll (((a : Int) - c + p) * w) = some (((a : Int) - c + p) * w) := ll_mul hp (by omega) (by omega)
  have e2 : ll (((b : Int) - d + p) * w) = some (((b : Int) - d + p) * w) := ll_mul hp (by omega) (by omega)
  have nu : 0 ≤ ((a : Int) - c + p) * w := mul_nonneg (by omega) (by omega)
  have nv : 0 ≤ ((b : Int) - d + p) * w := mul_nonneg (by omega) (by omega)
  obtain ⟨u0, u1, uc⟩ := tmod_spec h0 nu
  obtain ⟨v0, v1, vc⟩ := tmod_spec h0 nv
  have e3 : ll (Int.tmod (((b : Int) - d + p) * w) p * wh) = some (Int.tmod (((b : Int) - d + p) * w) p * wh) := ll_mul hp (by omega) (by omega)
  have nv' : 0 ≤ Int.tmod (((b : Int) - d + p) * w) p * wh := mul_nonneg v0 (by omega)
  obtain ⟨v0', v1', vc'⟩ := tmod_spec h0 nv'
  have e4 : ll (((a : Int) + c - (b + d)) * x) = some (((a : Int) + c - (b + d)) * x) := ll_mul hp (by omega) (by omega)
  generalize hU : Int.tmod (((a : Int) - c + p) * w) p = U at *
  generalize hV : Int.tmod (Int.tmod (((b : Int) - d + p) * w) p * wh) p = V at *
  have e5 : ll ((U - V) * x) = some ((U - V) * x) := ll_mul hp (by omega) (by omega)
  have cU : (U : ZMod p) = (a - c) * w := by rw [uc]; push_cast; rw [ZMod.natCast_self]; ring
  have cV : (V : ZMod p) = (b - d) * (w * wh) := by
    rw [vc']; push_cast; rw [vc]; push_cast; rw [ZMod.natCast_self]; ring
  refine ⟨(ofInt p ((a : Int) + c + (b + d)), ofInt p (((a : Int) + c - (b + d)) * x), ofInt p (U + V), ofInt p ((U - V) * x)),
    by unfold fwdBf; rw [e1, Option.bind_some, e2, Option.bind_some, e3, Option.bind_some, e4, Option.bind_some, hU, hV, e5]; rfl,
    ⟨by dsimp only; exact ofInt_lt h0 _, by dsimp only; exact ofInt_lt h0 _, by dsimp only; exact ofInt_lt h0 _, by dsimp only; exact ofInt_lt h0 _⟩, ?_, ?_, ?_, ?_⟩
  · dsimp only; rw [ofInt_cast h0]; push_cast; rfl
  · dsimp only; rw [ofInt_cast h0]; push_cast; rfl
  · dsimp only; rw [ofInt_cast h0]; push_cast; rw [cU, cV]
  · dsimp only; rw [ofInt_cast h0]; push_cast; rw [cU, cV]

theorem invBf_spec {p : Nat} (h0 : 0 < p) (hp : p < 2^31) {w wh x a b c d : Nat} (hw : w < p) (hwh : wh < p) (hx : x < p) (ha : a < p) (hb : b < p)
    (hc : c < p) (hd : d < p) : ∃ r, invBf p w wh x a b c d = some r ∧ (r.1 < p ∧ r.2.1 < p ∧ r.2.2.1 < p ∧ r.2.2.2 < p) ∧
      (r.1 : ZMod p) = a + b * w + (c + d * w) * x ∧ (r.2.1 : ZMod p) = a - b * w + (c - d * w) * (x * wh) ∧
      (r.2.2.1 : ZMod p) = a + b * w - (c + d * w) * x ∧ (r.2.2.2 : ZMod p) = a - b * w - (c - d * w) * (x * wh) := by
  have e1 : ll ((b : Int) * w) = some ((b : Int) * w) := ll_mul hp (by omega) (by omega)
  have e2 : ll ((d : Int) * w) = some ((d : Int) * w) := ll_mul hp (by omega) (by omega)
  obtain ⟨b0, b1, bc⟩ := tmod_spec h0 (mul_nonneg (show (0:Int) ≤ b by omega) (show (0:Int) ≤ w by omega))
  obtain ⟨d0, d1, dc⟩ := tmod_spec h0 (mul_nonneg (show (0:Int) ≤ d by omega) (show (0:Int) ≤ w by omega))
  generalize hB : Int.tmod ((b : Int) * w) p = B at *
  generalize hD : Int.tmod ((d : Int) * w) p = D at *
  have e3 : ll ((c + D) * x) = some ((c + D) * x) := ll_mul hp (by omega) (by omega)
  have e4 : ll ((c - D + p) * x) = some ((c - D + p) * x) := ll_mul hp (by omega) (by omega)
  obtain ⟨u0, u1, uc⟩ := tmod_spec h0 (mul_nonneg (show (0:Int) ≤ c + D by omega) (show (0:Int) ≤ x by omega))
  obtain ⟨v0, v1, vc⟩ := tmod_spec h0 (mul_nonneg (show (0:Int) ≤ c - D + p by omega) (show (0:Int) ≤ x by omega))
  have e5 : ll (Int.tmod ((c - D + p) * x) p * wh) = some (Int.tmod ((c - D + p) * x) p * wh) := ll_mul hp (by omega) (by omega)
  obtain ⟨v0', v1', vc'⟩ := tmod_spec h0 (mul_nonneg v0 (show (0:Int) ≤ wh by omega))
  refine ⟨(ofInt p (a + B + Int.tmod ((c + D) * x) p), ofInt p (a - B + p + Int.tmod (Int.tmod ((c - D + p) * x) p * wh) p),
      ofInt p (a + B - Int.tmod ((c + D) * x) p), ofInt p (a - B + p - Int.tmod (Int.tmod ((c - D + p) * x) p * wh) p)),
    by unfold invBf; rw [e1, Option.bind_some, e2, Option.bind_some, hB, hD, e3, Option.bind_some, e4, Option.bind_some, e5]; rfl,
    ⟨by dsimp only; exact ofInt_lt h0 _, by dsimp only; exact ofInt_lt h0 _, by dsimp only; exact ofInt_lt h0 _, by dsimp only; exact ofInt_lt h0 _⟩, ?_, ?_, ?_, ?_⟩
  · dsimp only; rw [ofInt_cast h0]; push_cast; rw [uc, bc]; push_cast; rw [dc]; push_cast; ring
  · dsimp only; rw [ofInt_cast h0]; push_cast; rw [vc', bc]; push_cast; rw [vc]; push_cast; rw [dc, ZMod.natCast_self]; push_cast; ring
  · dsimp only; rw [ofInt_cast h0]; push_cast; rw [uc, bc]; push_cast; rw [dc]; push_cast; ring
  · dsimp only; rw [ofInt_cast h0]; push_cast; rw [vc', bc]; push_cast; rw [vc]; push_cast; rw [dc, ZMod.natCast_self]; push_cast; ring

/-- What a butterfly must deliver. -/
def BfOk (p : Nat) (bf : Nat → Nat → Nat → Nat → Option (Nat × Nat × Nat × Nat)) (A B C D : ZMod p) (TA TB TC TD : ZMod p) : Prop :=
  ∀ a b c d : Nat, a < p → b < p → c < p → d < p → (a : ZMod p) = A → (b : ZMod p) = B → (c : ZMod p) = C → (d : ZMod p) = D →
    ∃ r, bf a b c d = some r ∧ (r.1 < p ∧ r.2.1 < p ∧ r.2.2.1 < p ∧ r.2.2.2 < p) ∧
      (r.1 : ZMod p) = TA ∧ (r.2.1 : ZMod p) = TB ∧ (r.2.2.1 : ZMod p) = TC ∧ (r.2.2.2 : ZMod p) = TD

theorem at4_spec {p n h q : Nat} {f : List Nat} {φ T : Nat → ZMod p} (R : RepZ p f n φ) (hh : 0 < h) (hq : q + 3*h < n)
    {bf : Nat → Nat → Nat → Nat → Option (Nat × Nat × Nat × Nat)}
    (hbf : BfOk p bf (φ q) (φ (q+h)) (φ (q+2*h)) (φ (q+3*h)) (T q) (T (q+h)) (T (q+2*h)) (T (q+3*h))) :
    ∃ f', at4 h q bf f = some f' ∧ RepZ p f' n (fun k => if k = q ∨ k = q+h ∨ k = q+2*h ∨ k = q+3*h then T k else φ k) := by
  obtain ⟨a, ea, ha, ca⟩ := R.val q (by omega)
  obtain ⟨b, eb, hb, cb⟩ := R.val (q+h) (by omega)
  obtain ⟨c, ec, hc, cc⟩ := R.val (q+2*h) (by omega)
  obtain ⟨d, ed, hd, cd⟩ := R.val (q+3*h) (by omega)
  obtain ⟨r, er, ⟨l1, l2, l3, l4⟩, t1, t2, t3, t4⟩ := hbf a b c d ha hb hc hd ca cb cc cd
  obtain ⟨f1, e1, R1⟩ := R.wr (i := q) (by omega) l1
  obtain ⟨f2, e2, R2⟩ := R1.wr (i := q+h) (by omega) l2
  obtain ⟨f3, e3, R3⟩ := R2.wr (i := q+2*h) (by omega) l3
  obtain ⟨f4, e4, R4⟩ := R3.wr (i := q+3*h) (by omega) l4
  refine ⟨f4, ?_, R4.congr ?_⟩
  · unfold at4
    rw [ea, Option.bind_some, eb, Option.bind_some, ec, Option.bind_some, ed, Option.bind_some, er, Option.bind_some, e1, Option.bind_some,
      e2, Option.bind_some, e3, Option.bind_some, e4]
  · intro k _
    by_cases k4 : k = q+3*h
    · subst k4; rw [upd_same, if_pos (by simp), t4]
    rw [upd_ne _ _ k4]
    by_cases k3 : k = q+2*h
    · subst k3; rw [upd_same, if_pos (by simp), t3]
    rw [upd_ne _ _ k3]
    by_cases k2 : k = q+h
    · subst k2; rw [upd_same, if_pos (by simp), t2]
    rw [upd_ne _ _ k2]
    by_cases k1 : k = q
    · subst k1; rw [upd_same, if_pos (by simp), t1]
    rw [upd_ne _ _ k1, if_neg (by omega)]

/-- The vector in the middle of a pass: before chunk `c`, and in chunk `c` before round `i`, the entries are those of the target. -/
def mid {α : Type} (s h c i : Nat) (T φ : Nat → α) (q : Nat) : α :=
  if q < c * s ∨ (q < (c+1) * s ∧ (q - c * s) % h < i) then T q else φ q

theorem mid_step {α : Type} {h c i : Nat} (hi : i < h) (T φ : Nat → α) (q : Nat) :
    (if q = c*(4*h)+i ∨ q = c*(4*h)+i+h ∨ q = c*(4*h)+i+2*h ∨ q = c*(4*h)+i+3*h then T q else mid (4*h) h c i T φ q) = mid (4*h) h c (i+1) T φ q := by
  unfold mid
  rw [Nat.succ_mul c]
  generalize c * (4*h) = b
  by_cases hq : q = b+i ∨ q = b+i+h ∨ q = b+i+2*h ∨ q = b+i+3*h
  · rw [if_pos hq, if_pos]
    refine Or.inr ⟨by omega, ?_⟩
    rcases hq with hq | hq | hq | hq <;> subst hq
    · rw [show b + i - b = i by omega, Nat.mod_eq_of_lt hi]; omega
    · rw [show b + i + h - b = i + h by omega, Nat.add_mod_right, Nat.mod_eq_of_lt hi]; omega
    · rw [show b + i + 2*h - b = i + 2*h by omega, Nat.add_mul_mod_self_right, Nat.mod_eq_of_lt hi]; omega
    · rw [show b + i + 3*h - b = i + 3*h by omega, Nat.add_mul_mod_self_right, Nat.mod_eq_of_lt hi]; omega
  · rw [if_neg hq]
    congr 1
    rw [eq_iff_iff]
    constructor
    · rintro (h1 | ⟨h1, h2⟩)
      · exact Or.inl h1
      · exact Or.inr ⟨h1, by omega⟩
    · rintro (h1 | ⟨h1, h2⟩)
      · exact Or.inl h1
      · by_cases hb : q < b
        · exact Or.inl hb
        refine Or.inr ⟨h1, ?_⟩
        by_contra hne
        have he : (q - b) % h = i := by omega
        have hd := Nat.div_add_mod (q - b) h
        have hlt : (q - b) / h < 4 := by
          rw [Nat.div_lt_iff_lt_mul (by omega)]; omega
        rw [he] at hd
        apply hq
        generalize (q - b) / h = e at hd hlt
        have h4 : e = 0 ∨ e = 1 ∨ e = 2 ∨ e = 3 := by omega
        rcases h4 with h4 | h4 | h4 | h4 <;> rw [h4] at hd
        · left; omega
        · right; left; omega
        · right; right; left; omega
        · right; right; right; omega

theorem mid_before {α : Type} {h c i : Nat} (hi : i < h) (T φ : Nat → α) {e : Nat} (he : e < 4) : mid (4*h) h c i T φ (c*(4*h)+i+e*h) = φ (c*(4*h)+i+e*h) := by
  unfold mid
  rw [if_neg]
  rw [Nat.succ_mul c]
  generalize c * (4*h) = b
  rintro (h1 | ⟨h1, h2⟩)
  · omega
  · rw [show b + i + e*h - b = i + e*h by omega, Nat.add_mul_mod_self_right, Nat.mod_eq_of_lt hi] at h2
    omega

theorem mid_chunk {α : Type} {h c : Nat} (hh : 0 < h) (T φ : Nat → α) (q : Nat) : mid (4*h) h c h T φ q = mid (4*h) h (c+1) 0 T φ q := by
  unfold mid
  congr 1
  rw [eq_iff_iff]
  constructor
  · rintro (h1 | ⟨h1, _⟩)
    · left; rw [Nat.succ_mul c]; omega
    · exact Or.inl h1
  · rintro (h1 | ⟨_, h2⟩)
    · exact Or.inr ⟨h1, Nat.mod_lt _ hh⟩
    · omega

theorem rounds_eq (K : Nat) {s : Nat} (hs : 0 < s) : rounds (K * s) s = K := by
  unfold rounds
  rw [show K * s + s - 1 = (s - 1) + K * s by omega, Nat.add_mul_div_right _ _ hs, Nat.div_eq_of_lt (by omega), Nat.zero_add]

theorem ofInt_one_lt {p : Nat} (h0 : 0 < p) : ofInt p 1 < p := ofInt_lt h0 1
theorem ofInt_one_cast {p : Nat} (h0 : 0 < p) : (ofInt p 1 : ZMod p) = 1 := by rw [ofInt_cast h0]; simp

/-- A radix-4 pass whose butterflies deliver `T` delivers `T`. -/
theorem pass4_spec {p K h w0 w1 : Nat} (h0 : 0 < p) (hp : p < 2^31) (hh : 0 < h) (hw0 : w0 < p) (hw1 : w1 < p) {f : List Nat} {φ T : Nat → ZMod p}
    (R : RepZ p f (K * (4*h)) φ) {bf : Nat → Nat → Nat → Nat → Nat → Nat → Option (Nat × Nat × Nat × Nat)}
    (hbf : ∀ c i w x, c < K → i < h → w < p → x < p → (w : ZMod p) = (w0 : ZMod p)^i → (x : ZMod p) = (w1 : ZMod p)^i →
      BfOk p (bf w x) (φ (c*(4*h)+i)) (φ (c*(4*h)+i+h)) (φ (c*(4*h)+i+2*h)) (φ (c*(4*h)+i+3*h))
        (T (c*(4*h)+i)) (T (c*(4*h)+i+h)) (T (c*(4*h)+i+2*h)) (T (c*(4*h)+i+3*h))) :
    ∃ f', pass4 p (K * (4*h)) (2*h) w0 w1 bf f = some f' ∧ RepZ p f' (K * (4*h)) T := by
  have e4 : 2 * (2*h) = 4*h := by omega
  have e2 : 2*h/2 = h := by omega
  unfold pass4
  rw [e4, e2, rounds_eq K (by omega)]
  obtain ⟨f', e, R'⟩ := forRange_inv (a := 0) (b := K) (P := fun c (f : List Nat) => RepZ p f (K * (4*h)) (mid (4*h) h c 0 T φ)) (s := f)
    (body := fun c f => (forRange 0 h (fun i => step4 p h w0 w1 (c * (4*h) + i) bf) (ofInt p 1, ofInt p 1, f)).map (fun s => s.2.2))
    (Nat.zero_le _) (R.congr (fun q _ => by unfold mid; rw [if_neg (by omega)])) (by
      intro c f _ hc Rc
      obtain ⟨s', e, ⟨_, _, _, _, Rs⟩⟩ := forRange_inv (a := 0) (b := h) (s := (ofInt p 1, ofInt p 1, f))
        (body := fun i => step4 p h w0 w1 (c * (4*h) + i) bf)
        (P := fun i (s : Nat × Nat × List Nat) => s.1 < p ∧ s.2.1 < p ∧ (s.1 : ZMod p) = (w0 : ZMod p)^i ∧ (s.2.1 : ZMod p) = (w1 : ZMod p)^i ∧
          RepZ p s.2.2 (K * (4*h)) (mid (4*h) h c i T φ)) (Nat.zero_le _)
        ⟨ofInt_one_lt h0, ofInt_one_lt h0, by rw [pow_zero]; exact ofInt_one_cast h0, by rw [pow_zero]; exact ofInt_one_cast h0, Rc⟩ (by
          rintro i ⟨w, x, f⟩ _ hi ⟨lw, lx, cw, cx, Ri⟩
          dsimp only at lw lx cw cx Ri
          have hKc : c * (4*h) + 4*h ≤ K * (4*h) := by
            rw [← Nat.succ_mul]; exact Nat.mul_le_mul_right _ hc
          have hb := hbf c i w x hc hi lw lx cw cx
          have m0 := mid_before (c := c) hi T φ (e := 0) (by omega)
          have m1 := mid_before (c := c) hi T φ (e := 1) (by omega)
          have m2 := mid_before (c := c) hi T φ (e := 2) (by omega)
          have m3 := mid_before (c := c) hi T φ (e := 3) (by omega)
          rw [Nat.zero_mul, Nat.add_zero] at m0
          rw [Nat.one_mul] at m1
          rw [← m0, ← m1, ← m2, ← m3] at hb
          obtain ⟨f', ef, Rf⟩ := at4_spec Ri hh (by omega) hb
          obtain ⟨w', ew, lw', cw'⟩ := mul_cast (by omega) lw hw0
          obtain ⟨x', ex, lx', cx'⟩ := mul_cast (by omega) lx hw1
          refine ⟨(w', x', f'), ?_, lw', lx', by rw [cw', cw, pow_succ], by rw [cx', cx, pow_succ], ?_⟩
          · unfold step4
            dsimp only
            rw [ef, Option.bind_some, ew, Option.bind_some, ex]; rfl
          · exact Rf.congr (fun q _ => mid_step hi T φ q))
      refine ⟨s'.2.2, ?_, Rs.congr (fun q _ => mid_chunk hh T φ q)⟩
      rw [e]; rfl)
  refine ⟨f', e, R'.congr (fun q hq => ?_)⟩
  unfold mid
  rw [if_pos (Or.inl hq)]

theorem fwd_index {R : Type} [CommRing R] {h : Nat} (w0 w1 : R) (φ : Nat → R) (c : Nat) {i : Nat} (hi : i < h) :
    S2 h w1 (S2 (2*h) w0 φ) (c*(4*h)+i) = φ (c*(4*h)+i) + φ (c*(4*h)+i+2*h) + (φ (c*(4*h)+i+h) + φ (c*(4*h)+i+3*h)) ∧
    S2 h w1 (S2 (2*h) w0 φ) (c*(4*h)+i+h) = (φ (c*(4*h)+i) + φ (c*(4*h)+i+2*h) - (φ (c*(4*h)+i+h) + φ (c*(4*h)+i+3*h))) * w1^i ∧
    S2 h w1 (S2 (2*h) w0 φ) (c*(4*h)+i+2*h) = (φ (c*(4*h)+i) - φ (c*(4*h)+i+2*h)) * w0^i + (φ (c*(4*h)+i+h) - φ (c*(4*h)+i+3*h)) * w0^(i+h) ∧
    S2 h w1 (S2 (2*h) w0 φ) (c*(4*h)+i+3*h) =
      ((φ (c*(4*h)+i) - φ (c*(4*h)+i+2*h)) * w0^i - (φ (c*(4*h)+i+h) - φ (c*(4*h)+i+3*h)) * w0^(i+h)) * w1^i := by
  have E : c*(4*h) = c*(2*(2*h)) := by ring
  have a1 : S2 (2*h) w0 φ (c*(4*h)+i) = φ (c*(4*h)+i) + φ (c*(4*h)+i+2*h) := by
    rw [E]; exact S2_lo _ _ _ (by omega)
  have a2 : S2 (2*h) w0 φ (c*(4*h)+i+h) = φ (c*(4*h)+i+h) + φ (c*(4*h)+i+3*h) := by
    rw [E, Nat.add_assoc _ i h, S2_lo _ _ _ (by omega), show c*(2*(2*h)) + (i+h) + 2*h = c*(2*(2*h)) + i + 3*h by omega, ← Nat.add_assoc]
  have a3 : S2 (2*h) w0 φ (c*(4*h)+i+2*h) = (φ (c*(4*h)+i) - φ (c*(4*h)+i+2*h)) * w0^i := by
    rw [E]; exact S2_hi _ _ _ (by omega)
  have a4 : S2 (2*h) w0 φ (c*(4*h)+i+3*h) = (φ (c*(4*h)+i+h) - φ (c*(4*h)+i+3*h)) * w0^(i+h) := by
    rw [E, show c*(2*(2*h)) + i + 3*h = c*(2*(2*h)) + (i+h) + 2*h by omega, S2_hi _ _ _ (by omega), ← Nat.add_assoc]
  have F : ∀ k, c*(4*h)+k = (2*c)*(2*h)+k := fun k => by ring
  have F' : c*(4*h)+i+2*h = (2*c+1)*(2*h)+i := by ring
  have F3 : c*(4*h)+i+3*h = (2*c+1)*(2*h)+i+h := by ring
  refine ⟨?_, ?_, ?_, ?_⟩
  · rw [← a1, ← a2, F i]; exact S2_lo _ _ _ hi
  · rw [← a1, ← a2, F i]; exact S2_hi _ _ _ hi
  · rw [← a3, ← a4, F', F3]; exact S2_lo _ _ _ hi
  · rw [← a3, ← a4, F', F3]; exact S2_hi _ _ _ hi

theorem inv_index {R : Type} [CommRing R] {h : Nat} (w0 w1 : R) (φ : Nat → R) (c : Nat) {i : Nat} (hi : i < h) :
    I2 (2*h) w1 (I2 h w0 φ) (c*(4*h)+i) = φ (c*(4*h)+i) + φ (c*(4*h)+i+h) * w0^i + (φ (c*(4*h)+i+2*h) + φ (c*(4*h)+i+3*h) * w0^i) * w1^i ∧
    I2 (2*h) w1 (I2 h w0 φ) (c*(4*h)+i+h) = φ (c*(4*h)+i) - φ (c*(4*h)+i+h) * w0^i + (φ (c*(4*h)+i+2*h) - φ (c*(4*h)+i+3*h) * w0^i) * w1^(i+h) ∧
    I2 (2*h) w1 (I2 h w0 φ) (c*(4*h)+i+2*h) = φ (c*(4*h)+i) + φ (c*(4*h)+i+h) * w0^i - (φ (c*(4*h)+i+2*h) + φ (c*(4*h)+i+3*h) * w0^i) * w1^i ∧
    I2 (2*h) w1 (I2 h w0 φ) (c*(4*h)+i+3*h) = φ (c*(4*h)+i) - φ (c*(4*h)+i+h) * w0^i - (φ (c*(4*h)+i+2*h) - φ (c*(4*h)+i+3*h) * w0^i) * w1^(i+h) := by
  have E : c*(4*h) = c*(2*(2*h)) := by ring
  have F : ∀ k, c*(4*h)+k = (2*c)*(2*h)+k := fun k => by ring
  have F' : c*(4*h)+i+2*h = (2*c+1)*(2*h)+i := by ring
  have F3 : c*(4*h)+i+3*h = (2*c+1)*(2*h)+i+h := by ring
  have a1 : I2 h w0 φ (c*(4*h)+i) = φ (c*(4*h)+i) + φ (c*(4*h)+i+h) * w0^i := by
    rw [F i]; exact I2_lo _ _ _ hi
  have a2 : I2 h w0 φ (c*(4*h)+i+h) = φ (c*(4*h)+i) - φ (c*(4*h)+i+h) * w0^i := by
    rw [F i]; exact I2_hi _ _ _ hi
  have a3 : I2 h w0 φ (c*(4*h)+i+2*h) = φ (c*(4*h)+i+2*h) + φ (c*(4*h)+i+3*h) * w0^i := by
    rw [F', F3]; exact I2_lo _ _ _ hi
  have a4 : I2 h w0 φ (c*(4*h)+i+3*h) = φ (c*(4*h)+i+2*h) - φ (c*(4*h)+i+3*h) * w0^i := by
    rw [F', F3]; exact I2_hi _ _ _ hi
  refine ⟨?_, ?_, ?_, ?_⟩
  · rw [← a1, ← a3, E]; exact I2_lo _ _ _ (by omega)
  · rw [← a2, ← a4, E, Nat.add_assoc _ i h, I2_lo _ _ _ (by omega), show c*(2*(2*h)) + (i+h) + 2*h = c*(2*(2*h)) + i + 3*h by omega]
  · rw [← a1, ← a3, E]; exact I2_hi _ _ _ (by omega)
  · rw [← a2, ← a4, E, show c*(2*(2*h)) + i + 3*h = c*(2*(2*h)) + (i+h) + 2*h by omega, I2_hi _ _ _ (by omega), ← Nat.add_assoc]

theorem pow_small {p w t L : Nat} (hp : p < 2^31) (hL : L ≤ 31) (ht : t < L) (hw : w < p) :
    ∃ wh, pow p w (2^t) = some wh ∧ wh < p ∧ (wh : ZMod p) = (w : ZMod p)^(2^t) :=
  pow_cast (by omega) hw (Nat.pow_lt_pow_right (by omega) (by omega))

theorem fwdPass4_spec {p K t L : Nat} (h0 : 0 < p) (hp : p < 2^31) (hL : L ≤ 31) {co f : List Nat} {γ φ : Nat → ZMod p} (hC : RepZ p co L γ)
    (ht : t + 1 < L) (R : RepZ p f (K * 2^(t+2)) φ) :
    ∃ f', fwdPass4 p (K * 2^(t+2)) (t+1) co f = some f' ∧ RepZ p f' (K * 2^(t+2)) (S2 (2^t) (γ t) (S2 (2^(t+1)) (γ (t+1)) φ)) := by
  obtain ⟨w0, e0, l0, c0⟩ := hC.val (t+1) ht
  obtain ⟨w1, e1, l1, c1⟩ := hC.val t (by omega)
  have E4 : 2^(t+2) = 4 * 2^t := by ring
  have E2 : 2^(t+1) = 2 * 2^t := by ring
  have Eh : 2 * 2^t / 2 = 2^t := by omega
  obtain ⟨wh, eh, lh, ch⟩ := pow_small hp hL (t := t) (by omega) l0
  unfold fwdPass4
  rw [e0, Option.bind_some, show t + 1 - 1 = t by omega, e1, Option.bind_some, E2, Eh, eh, Option.bind_some, E4]
  rw [E4] at R
  refine pass4_spec h0 hp (Nat.two_pow_pos t) l0 l1 R ?_
  intro c i w x hc hi lw lx cw cx a b c' d la lb lc ld ca cb cc cd
  obtain ⟨r, er, hr, r1, r2, r3, r4⟩ := fwdBf_spec h0 hp lw lh lx la lb lc ld
  obtain ⟨i1, i2, i3, i4⟩ := fwd_index (γ (t+1)) (γ t) φ c hi
  refine ⟨r, er, hr, ?_, ?_, ?_, ?_⟩
  · rw [i1, r1, ca, cb, cc, cd]
  · rw [i2, r2, ca, cb, cc, cd, cx, c1]
  · rw [i3, r3, ca, cb, cc, cd, cw, ch, c0, pow_add]
  · rw [i4, r4, ca, cb, cc, cd, cw, ch, cx, c0, c1, pow_add]

theorem invPass4_spec {p K t L : Nat} (h0 : 0 < p) (hp : p < 2^31) (hL : L ≤ 31) {co f : List Nat} {γ φ : Nat → ZMod p} (hC : RepZ p co L γ)
    (ht : t + 1 < L) (R : RepZ p f (K * 2^(t+2)) φ) :
    ∃ f', invPass4 p (K * 2^(t+2)) t co f = some f' ∧ RepZ p f' (K * 2^(t+2)) (I2 (2^(t+1)) (γ (t+1)) (I2 (2^t) (γ t) φ)) := by
  obtain ⟨w1, e1, l1, c1⟩ := hC.val (t+1) ht
  obtain ⟨w0, e0, l0, c0⟩ := hC.val t (by omega)
  have E4 : 2^(t+2) = 4 * 2^t := by ring
  have E2 : 2^(t+1) = 2 * 2^t := by ring
  have Eh : 2 * 2^t / 2 = 2^t := by omega
  obtain ⟨wh, eh, lh, ch⟩ := pow_small hp hL (t := t) (by omega) l1
  unfold invPass4
  rw [e0, Option.bind_some, e1, Option.bind_some, E2, Eh, eh, Option.bind_some, E4]
  rw [E4] at R
  refine pass4_spec h0 hp (Nat.two_pow_pos t) l0 l1 R ?_
  intro c i w x hc hi lw lx cw cx a b c' d la lb lc ld ca cb cc cd
  obtain ⟨r, er, hr, r1, r2, r3, r4⟩ := invBf_spec h0 hp lw lh lx la lb lc ld
  obtain ⟨i1, i2, i3, i4⟩ := inv_index (γ t) (γ (t+1)) φ c hi
  refine ⟨r, er, hr, ?_, ?_, ?_, ?_⟩
  · rw [i1, r1, ca, cb, cc, cd, cw, cx, c0, c1]
  · rw [i2, r2, ca, cb, cc, cd, cw, cx, ch, c0, c1, pow_add]
  · rw [i3, r3, ca, cb, cc, cd, cw, cx, c0, c1]
  · rw [i4, r4, ca, cb, cc, cd, cw, cx, ch, c0, c1, pow_add]

/-- The vector in the middle of a radix-2 pass with `m = 1`. -/
theorem pair_step {p n c : Nat} {f : List Nat} {φ T : Nat → ZMod p} (R : RepZ p f n (fun q => if q < 2*c then T q else φ q)) (hn : 2*c + 1 < n)
    {y z : Nat} (hy : y < p) (hz : z < p) (cy : (y : ZMod p) = T (2*c)) (cz : (z : ZMod p) = T (2*c+1)) :
    ∃ f1 f2, wr f (2*c) y = some f1 ∧ wr f1 (2*c+1) z = some f2 ∧ RepZ p f2 n (fun q => if q < 2*(c+1) then T q else φ q) := by
  obtain ⟨f1, e1, R1⟩ := R.wr (i := 2*c) (by omega) hy
  obtain ⟨f2, e2, R2⟩ := R1.wr (i := 2*c+1) (by omega) hz
  refine ⟨f1, f2, e1, e2, R2.congr ?_⟩
  intro q _
  by_cases h1 : q = 2*c+1
  · subst h1; rw [upd_same, if_pos (by omega), cz]
  rw [upd_ne _ _ h1]
  by_cases h2 : q = 2*c
  · subst h2; rw [upd_same, if_pos (by omega), cy]
  rw [upd_ne _ _ h2]
  by_cases h3 : q < 2*c
  · rw [if_pos h3, if_pos (by omega)]
  · rw [if_neg h3, if_neg (by omega)]

theorem fwdPass2_spec {p K w0 : Nat} (h0 : 0 < p) (hp : p < 2^31) (hw0 : w0 < p) {f : List Nat} {φ : Nat → ZMod p} (R : RepZ p f (K * 2) φ) :
    ∃ f', fwdPass2 p (K * 2) 1 w0 f = some f' ∧ RepZ p f' (K * 2) (S2 1 (w0 : ZMod p) φ) := by
  unfold fwdPass2
  rw [rounds_eq K (by omega)]
  obtain ⟨f', e, R'⟩ := forRange_inv (a := 0) (b := K) (s := f) (P := fun c (f : List Nat) => RepZ p f (K * 2) (fun q => if q < 2*c then S2 1 (w0 : ZMod p) φ q else φ q))
    (body := fun c f => (forRange 0 1 (fun i => fwd2 p 1 w0 (c * (2*1) + i)) (ofInt p 1, f)).map Prod.snd)
    (Nat.zero_le _) (R.congr (fun q _ => by rw [if_neg (by omega)])) (by
      intro c f _ hc Rc
      obtain ⟨a, ea, la, ca⟩ := Rc.val (2*c) (by omega)
      obtain ⟨b, eb, lb, cb⟩ := Rc.val (2*c+1) (by omega)
      rw [if_neg (by omega)] at ca cb
      have hm : p ≤ 2^31 := by omega
      obtain ⟨z, ez, lz, cz⟩ := mul_cast hm (sub_lt hm la lb) (ofInt_one_lt h0)
      have t1 := S2_lo (w0 : ZMod p) φ c (m := 1) (j := 0) (by omega)
      have t2 := S2_hi (w0 : ZMod p) φ c (m := 1) (j := 0) (by omega)
      rw [show c * (2*1) + 0 = 2*c by omega] at t1 t2
      rw [pow_zero, mul_one] at t2
      obtain ⟨f1, f2, e1, e2, R2⟩ := pair_step Rc (by omega) (add_lt hm la lb) lz (by rw [add_cast hm la lb, ca, cb, t1])
        (by rw [cz, sub_cast hm la lb, ca, cb, t2, ofInt_one_cast h0, mul_one])
      obtain ⟨w', ew, _, _⟩ := mul_cast hm (ofInt_one_lt h0) hw0
      refine ⟨f2, ?_, R2⟩
      rw [forRange_one, show c * (2*1) + 0 = 2*c by omega]
      unfold fwd2
      dsimp only
      rw [ea, Option.bind_some, eb, Option.bind_some, e1, Option.bind_some, ez, Option.bind_some, e2, Option.bind_some, ew]
      rfl)
  exact ⟨f', e, R'.congr (fun q hq => by rw [if_pos (by omega)])⟩

theorem invPass2_spec {p K : Nat} (hp : p < 2^31) {f : List Nat} {φ : Nat → ZMod p} (w : ZMod p) (R : RepZ p f (K * 2) φ) :
    ∃ f', invPass2 p (K * 2) f = some f' ∧ RepZ p f' (K * 2) (I2 1 w φ) := by
  unfold invPass2
  rw [rounds_eq K (by omega)]
  obtain ⟨f', e, R'⟩ := forRange_inv (a := 0) (b := K) (s := f) (P := fun c (f : List Nat) => RepZ p f (K * 2) (fun q => if q < 2*c then I2 1 w φ q else φ q))
    (body := fun c => inv2 p (c*2))
    (Nat.zero_le _) (R.congr (fun q _ => by rw [if_neg (by omega)])) (by
      intro c f _ hc Rc
      obtain ⟨a, ea, la, ca⟩ := Rc.val (2*c) (by omega)
      obtain ⟨b, eb, lb, cb⟩ := Rc.val (2*c+1) (by omega)
      rw [if_neg (by omega)] at ca cb
      have hm : p ≤ 2^31 := by omega
      have t1 := I2_lo w φ c (m := 1) (j := 0) (by omega)
      have t2 := I2_hi w φ c (m := 1) (j := 0) (by omega)
      rw [show c * (2*1) + 0 = 2*c by omega, pow_zero, mul_one] at t1 t2
      obtain ⟨f1, f2, e1, e2, R2⟩ := pair_step Rc (by omega) (add_lt hm la lb) (sub_lt hm la lb) (by rw [add_cast hm la lb, ca, cb, t1])
        (by rw [sub_cast hm la lb, ca, cb, t2])
      refine ⟨f2, ?_, R2⟩
      unfold inv2
      rw [Nat.mul_comm c 2, ea, Option.bind_some, eb, Option.bind_some, e1, Option.bind_some, e2])
  exact ⟨f', e, R'.congr (fun q hq => by rw [if_pos (by omega)])⟩

theorem fwdLoop_spec {p L : Nat} (h0 : 0 < p) (hp : p < 2^31) (hL : L ≤ 31) {co : List Nat} {γ : Nat → ZMod p} (hC : RepZ p co L γ) :
    ∀ t K f φ, t ≤ L → RepZ p f (K * 2^t) φ → ∃ f', fwdLoop p (K * 2^t) co t f = some f' ∧ RepZ p f' (K * 2^t) (stages γ t φ) := by
  intro t
  induction t using Nat.strongRecOn with
  | _ t ih =>
    match t, ih with
    | 0, _ => exact fun K f φ _ R => ⟨f, rfl, R⟩
    | 1, _ =>
      intro K f φ ht R
      obtain ⟨w0, e0, l0, c0⟩ := hC.val 0 (by omega)
      rw [show 2^1 = 2 from rfl] at R ⊢
      obtain ⟨f', e, R'⟩ := fwdPass2_spec h0 hp l0 R
      refine ⟨f', ?_, ?_⟩
      · rw [fwdLoop, e0, Option.bind_some, e]
      · rw [stages, stages, pow_zero, ← c0]; exact R'
    | t+2, ih =>
      intro K f φ ht R
      obtain ⟨f1, e1, R1⟩ := fwdPass4_spec h0 hp hL hC (by omega) R
      have E : K * 2^(t+2) = (K*4) * 2^t := by ring
      rw [fwdLoop, e1, Option.bind_some]
      rw [E] at R1 ⊢
      obtain ⟨f2, e2, R2⟩ := ih t (by omega) (K*4) f1 _ (by omega) R1
      exact ⟨f2, e2, by rw [stages, stages]; exact R2⟩

/-- Inverse stages from `s` on. -/
theorem invRounds {p L : Nat} (h0 : 0 < p) (hp : p < 2^31) (hL : L ≤ 31) {co : List Nat} {γ : Nat → ZMod p} (hC : RepZ p co L γ) {s k n : Nat}
    (hk : s + 2*k ≤ L) (hn : n = 2^(s+2*k)) {f : List Nat} {φ : Nat → ZMod p} (R : RepZ p f n (istages γ s φ)) :
    ∃ f', forRange 0 k (fun r => invPass4 p n (s + 2*r) co) f = some f' ∧ RepZ p f' n (istages γ (s+2*k) φ) := by
  obtain ⟨f', e, R'⟩ := forRange_inv (a := 0) (b := k) (s := f) (P := fun r (f : List Nat) => RepZ p f n (istages γ (s+2*r) φ))
    (body := fun r => invPass4 p n (s + 2*r) co) (Nat.zero_le _) R (by
      intro r f _ hr Rr
      have E : n = 2^(2*(k-r-1)) * 2^(s+2*r+2) := by
        rw [hn, ← pow_add]; congr 1; omega
      rw [E] at Rr
      obtain ⟨f', e, R'⟩ := invPass4_spec h0 hp hL hC (t := s+2*r) (by omega) Rr
      rw [← E] at e R'
      refine ⟨f', e, ?_⟩
      rw [show s + 2*(r+1) = s + 2*r + 1 + 1 by omega, istages, istages]
      exact R')
  exact ⟨f', e, R'⟩

theorem invLoop_spec {p L : Nat} (h0 : 0 < p) (hp : p < 2^31) (hL : L ≤ 31) {co : List Nat} {γ : Nat → ZMod p} (hC : RepZ p co L γ) {t : Nat} (ht : t ≤ L)
    {f : List Nat} {φ : Nat → ZMod p} (R : RepZ p f (2^t) φ) :
    ∃ f', invLoop p (2^t) t co f = some f' ∧ RepZ p f' (2^t) (istages γ t φ) := by
  unfold invLoop
  by_cases hodd : t % 2 = 1
  · rw [if_pos hodd]
    have E : 2^t = 2^(t-1) * 2 := by rw [← pow_succ]; congr 1; omega
    rw [E] at R
    obtain ⟨f1, e1, R1⟩ := invPass2_spec hp (γ 0) R
    rw [← E] at e1 R1
    rw [e1]
    simp only [Option.map_some, Option.bind_some]
    have hr : rounds (t - 1) 2 = (t-1)/2 := by
      have := rounds_eq ((t-1)/2) (s := 2) (by omega)
      rwa [show (t-1)/2*2 = t-1 by omega] at this
    rw [hr]
    have R1' : RepZ p f1 (2^t) (istages γ 1 φ) := by rw [istages, istages, pow_zero]; exact R1
    obtain ⟨f2, e2, R2⟩ := invRounds h0 hp hL hC (s := 1) (k := (t-1)/2) (n := 2^t) (by omega) (by congr 1; omega) R1'
    exact ⟨f2, e2, by rw [show 1 + 2*((t-1)/2) = t by omega] at R2; exact R2⟩
  · rw [if_neg hodd]
    simp only [Option.bind_some]
    have hr : rounds (t - 0) 2 = t/2 := by
      have := rounds_eq (t/2) (s := 2) (by omega)
      rwa [show t/2*2 = t by omega] at this
    rw [hr]
    obtain ⟨f2, e2, R2⟩ := invRounds h0 hp hL hC (s := 0) (k := t/2) (n := 2^t) (by omega) (by congr 1; omega) R
    exact ⟨f2, e2, by rw [show 0 + 2*(t/2) = t by omega] at R2; exact R2⟩

end Verif.Ntt
