import Verif.Fps.Inv
import Verif.Ntt.Props
/-!
**C64, C53, C52.** Products, reciprocals and quotients of `Fps` (`fps.hpp`, `sparse_fps.hpp`).

The modulus is a prime `p` below `2^31` with generator `g` (`Ntt.Root`), as for the transforms; `prodCoeff p f r k` is coefficient `k` of the
product modulo `p`, computed from the definition of the product.
-/
namespace Verif.Fps
open Verif.Modular Verif.Ntt

theorem prodCoeff_cast (p : Nat) (f g : List Nat) (k : Nat) : ((prodCoeff p f g k : Nat) : ZMod p) = mulF (cf p f) (cf p g) k := by
  unfold prodCoeff mulF cf
  rw [ZMod.natCast_mod]
  push_cast
  rfl

theorem nat_of_cast {p a b : Nat} (ha : a < p) (hb : b < p) (h : (a : ZMod p) = b) : a = b := cast_inj ha hb h

theorem getD_lt {p : Nat} (h0 : 0 < p) {f : List Nat} (hf : ∀ a ∈ f, a < p) (k : Nat) : f.getD k 0 < p := by
  by_cases h : k < f.length
  · rw [List.getD_eq_getElem _ _ h]; exact hf _ (List.getElem_mem h)
  · rw [List.getD_eq_default _ _ (by omega)]; exact h0

/-- **C64, product (partial: the left factor is not empty).** `f * r` holds coefficient `k` of the product at position `k`, for every `k`, whichever
of the two algorithms is chosen. -/
theorem C64_product_partial {p g : Nat} (H : Root p g) (f r : List Nat) {k : Nat} (hf : ∀ a ∈ f, a < p) (hr : ∀ a ∈ r, a < p) (hf0 : f ≠ [])
    (hk : 2^k ∣ p - 1) (hl : f.length + r.length - 1 ≤ 2^k) :
    ∃ h, mulSet p g f r = some h ∧ (∀ a ∈ h, a < p) ∧ ∀ i, h.getD i 0 = prodCoeff p f r i := by
  have h2 := H.prime.two_le
  obtain ⟨h, N, e, P, _⟩ := mulSet_spec H hf hr (List.length_pos_iff.2 hf0) (supported H hk) hl
  refine ⟨h, e, P.rep.red, fun i => ?_⟩
  refine nat_of_cast (getD_lt (by omega) P.rep.red i) (Nat.mod_lt _ (by omega)) ?_
  rw [prodCoeff_cast, ← P.cf_eq]
  rfl

/-- **C64, sparse product.** The algorithm for sparse right factors needs neither a transform nor a non-empty left factor. -/
theorem C64_product_sparse {p : Nat} (h0 : 0 < p) (hp : p < 2^31) (f r : List Nat) (hf : ∀ a ∈ f, a < p) (hr : ∀ a ∈ r, a < p) :
    ∃ h, mulSparse p f r = some h ∧ (∀ a ∈ h, a < p) ∧ ∀ i, h.getD i 0 = prodCoeff p f r i := by
  obtain ⟨h, N, e, P, _⟩ := mulSparse_spec h0 hp hf hr
  refine ⟨h, e, P.rep.red, fun i => ?_⟩
  refine nat_of_cast (getD_lt (by omega) P.rep.red i) (Nat.mod_lt _ (by omega)) ?_
  rw [prodCoeff_cast, ← P.cf_eq]
  rfl

/-- **C64, violation.** The empty series times a series with 130 non-zero coefficients: `back()` of an empty vector (`convolution.hpp:69`). -/
theorem C64_violation : mulSet 998244353 3 [] (List.replicate 130 1) = none := by decide +kernel

example : mulSet 17 3 [1, 2, 3] [4, 0, 16] = some [4, 8, 11, 15, 14] := by decide +kernel
example : mulSparse 17 [] [4, 0, 16] = some [0, 0] := by decide +kernel

/-- **C53, the dense algorithm.** `inv_dense(n)` has `n` coefficients and its product with `f` is `1` up to `x^n`. -/
theorem C53_dense {p g : Nat} (H : Root p g) (f : List Nat) (n : Nat) {k : Nat} (hf : ∀ a ∈ f, a < p) (h0 : f.getD 0 0 ≠ 0)
    (hk : 2^(k+1) ∣ p - 1) (hn : n ≤ 2^k) :
    ∃ v, invDense p g f n = some v ∧ v.length = n ∧ (∀ a ∈ v, a < p) ∧ ∀ i, i < n → prodCoeff p f v i = if i = 0 then 1 else 0 := by
  have h2 := H.prime.two_le
  obtain ⟨v, e, h1, h3, h4⟩ := invDense_spec H hf h0 hn (supported H hk)
  refine ⟨v, e, h1, h3, fun i hi => ?_⟩
  refine nat_of_cast (Nat.mod_lt _ (by omega)) (by split <;> omega) ?_
  rw [prodCoeff_cast, mulF_comm, h4 i hi]
  split <;> simp

/-- **C53, the sparse algorithm.** No transform is used: any number of coefficients can be asked for. -/
theorem C53_sparse {p : Nat} (hpr : p.Prime) (hp : p < 2^31) (f : List Nat) (n : Nat) (hf : ∀ a ∈ f, a < p) (h0 : f.getD 0 0 ≠ 0) :
    ∃ v, invSparse p f n = some v ∧ v.length = n ∧ (∀ a ∈ v, a < p) ∧ ∀ i, i < n → prodCoeff p f v i = if i = 0 then 1 else 0 := by
  have h2 := hpr.two_le
  obtain ⟨v, e, h1, h3, h4⟩ := invSparse_spec (n := n) hpr hp hf h0
  refine ⟨v, e, h1, h3, fun i hi => ?_⟩
  refine nat_of_cast (Nat.mod_lt _ (by omega)) (by split <;> omega) ?_
  rw [prodCoeff_cast, mulF_comm, h4 i hi]
  split <;> simp

/-- **C53.** `inv(n)`, which chooses between the two, for every number of coefficients. -/
theorem C53_inv {p g : Nat} (H : Root p g) (f : List Nat) (n : Nat) {k : Nat} (hf : ∀ a ∈ f, a < p) (h0 : f.getD 0 0 ≠ 0)
    (hk : 2^(k+1) ∣ p - 1) (hn : n ≤ 2^k) :
    ∃ v, invF p g f n = some v ∧ v.length = n ∧ (∀ a ∈ v, a < p) ∧ ∀ i, i < n → prodCoeff p f v i = if i = 0 then 1 else 0 := by
  unfold invF
  split
  · exact C53_sparse H.prime H.lt f n hf h0
  · exact C53_dense H f n hf h0 hk hn

/-- **C53, uniqueness.** The property determines the result: both algorithms return the same list. -/
theorem C53_agree {p g : Nat} (H : Root p g) (f : List Nat) (n : Nat) {k : Nat} (hf : ∀ a ∈ f, a < p) (h0 : f.getD 0 0 ≠ 0)
    (hk : 2^(k+1) ∣ p - 1) (hn : n ≤ 2^k) : invDense p g f n = invSparse p f n := by
  haveI : Fact p.Prime := ⟨H.prime⟩
  have h2 := H.prime.two_le
  obtain ⟨v, e, l1, r1, i1⟩ := invDense_spec H hf h0 hn (supported H hk)
  obtain ⟨w, e', l2, r2, i2⟩ := invSparse_spec (n := n) H.prime H.lt hf h0
  have hu : cf p f 0 ≠ 0 := by
    intro h
    exact h0 (nat_of_cast (getD_lt (by omega) hf 0) (by omega) (by rw [Nat.cast_zero]; exact h))
  have key : ∀ i, i < n → cf p v i = cf p w i := by
    intro i
    induction i using Nat.strong_induction_on with
    | _ i ih =>
      intro hi
      have a := i1 i hi
      rw [← i2 i hi] at a
      unfold mulF at a
      rw [Finset.sum_range_succ, Finset.sum_range_succ, Nat.sub_self] at a
      have hs : ∑ x ∈ Finset.range i, cf p v x * cf p f (i - x) = ∑ x ∈ Finset.range i, cf p w x * cf p f (i - x) :=
        Finset.sum_congr rfl fun x hx => by
          have := Finset.mem_range.1 hx
          rw [ih x this (by omega)]
      rw [hs] at a
      exact mul_right_cancel₀ hu (add_left_cancel a)
  rw [e, e']
  refine congrArg some (List.ext_getElem (by omega) fun i h3 h4 => ?_)
  have := key i (by omega)
  unfold cf at this
  rw [List.getD_eq_getElem _ _ h3, List.getD_eq_getElem _ _ h4] at this
  exact nat_of_cast (r1 _ (List.getElem_mem h3)) (r2 _ (List.getElem_mem h4)) this

example : invDense 17 3 [2, 1, 0, 5] 5 = some [9, 4, 15, 4, 5] ∧ invSparse 17 [2, 1, 0, 5] 5 = some [9, 4, 15, 4, 5] := by decide +kernel
example : ∃ v, invDense 17 3 [2, 1, 0, 5] 8 = some v ∧ v.length = 8 ∧ (∀ a ∈ v, a < 17) ∧ ∀ i, i < 8 → prodCoeff 17 [2, 1, 0, 5] v i = if i = 0 then 1 else 0 :=
  C53_dense (k := 3) root17 _ 8 (by decide) (by decide) (by decide) (by decide)

theorem mulF_assoc {R : Type} [CommRing R] (a b c : Nat → R) (k : Nat) : mulF (mulF a b) c k = mulF a (mulF b c) k := by
  rw [← coeff_mul_ps, ← coeff_mul_ps, ps_mulF, ps_mulF, mul_assoc]

/-- Below `x^n` multiplication with something that starts `1 + 0x + …` changes nothing. -/
theorem mulF_delta {R : Type} [CommRing R] (a b : Nat → R) {n : Nat} (hb : ∀ k, k < n → b k = if k = 0 then 1 else 0) {k : Nat} (hk : k < n) :
    mulF a b k = a k := by
  rw [mulF_congr (b' := fun i => if i = 0 then 1 else 0) (fun _ _ => rfl) (fun i hi => hb i (by omega)), mulF_single_right, if_pos (Nat.zero_le _), Nat.sub_zero, mul_one]

theorem divF_spec {p g : Nat} (H : Root p g) {f d : List Nat} {k : Nat} (hf : ∀ a ∈ f, a < p) (hd : ∀ a ∈ d, a < p) (hf0 : f ≠ [])
    (h0 : d.getD 0 0 ≠ 0) (hk : k + 1 ≤ logN p) (hl : f.length + d.length - 1 ≤ 2^k) :
    ∃ q N, divF p g f d = some q ∧ RepZ p q N (cf p q) ∧ N ≤ 2^k ∧ (∀ i, i < d.length → mulF (cf p q) (cf p d) i = cf p f i) ∧
      ((∃ i, cf p f i ≠ 0) → 0 < N) := by
  have h2 := H.prime.two_le
  have hfl := List.length_pos_iff.2 hf0
  obtain ⟨v, e, l1, r1, i1⟩ := invF_spec H (n := d.length) hd h0 (K := k) (by omega) hk
  obtain ⟨q, N, e2, P, hN⟩ := mulSet_spec H (k := k) (f := f) (r := v) hf r1 hfl (by omega) (by omega)
  refine ⟨q, N, by unfold divF; rw [e, Option.bind_some, e2], P.rep.congr (fun i hi => (P.rep.cf_eq hi).symm), hN, fun i hi => ?_, ?_⟩
  · rw [mulF_congr (fun j _ => P.cf_eq j) (fun _ _ => rfl), mulF_assoc, mulF_delta _ _ i1 hi]
  · rintro ⟨i, hi⟩
    by_contra hN0
    haveI : Fact p.Prime := ⟨H.prime⟩
    have hz : ps (cf p f) * ps (cf p v) = 0 := by
      ext k
      rw [coeff_mul_ps, P.out k (by omega), map_zero]
    have hd0 : 0 < d.length := by
      by_contra hc
      rw [List.getD_eq_default _ _ (by omega)] at h0
      exact h0 rfl
    rcases mul_eq_zero.1 hz with h | h
    · exact hi (by rw [← coeff_ps (cf p f) i, h, map_zero])
    · have := i1 0 hd0
      rw [← coeff_mul_ps, h, zero_mul, map_zero, if_pos rfl] at this
      exact zero_ne_one this

/-- **C52, quotient (partial).** What `f / r` is when the constant term of `r` is invertible: a series whose product with `r` agrees with `f` in the
coefficients below `x^(r.size())`.  It is neither the polynomial quotient nor the quotient of series to the precision of `f`. -/
theorem C52_quotient_partial {p g : Nat} (H : Root p g) (f d : List Nat) {k : Nat} (hf : ∀ a ∈ f, a < p) (hd : ∀ a ∈ d, a < p) (hf0 : f ≠ [])
    (h0 : d.getD 0 0 ≠ 0) (hk : 2^(k+1) ∣ p - 1) (hl : f.length + d.length - 1 ≤ 2^k) :
    ∃ q, divF p g f d = some q ∧ ∀ i, i < d.length → prodCoeff p q d i = f.getD i 0 := by
  have h2 := H.prime.two_le
  obtain ⟨q, N, e, _, _, h, _⟩ := divF_spec H hf hd hf0 h0 (supported H hk) hl
  refine ⟨q, e, fun i hi => nat_of_cast (Nat.mod_lt _ (by omega)) (getD_lt (by omega) hf i) ?_⟩
  rw [prodCoeff_cast, h i hi]
  rfl

theorem subF_spec {p : Nat} (h0 : 0 < p) (hp : p < 2^31) {f r : List Nat} (hf : ∀ a ∈ f, a < p) (hr : ∀ a ∈ r, a < p) :
    ∃ h, subF p f r = some h ∧ (∀ a ∈ h, a < p) ∧ ∀ i, cf p h i = cf p f i - cf p r i := by
  have hm : p ≤ 2^31 := by omega
  have R0 : RepZ p (if f.length < r.length then pre r.length f else f) (max f.length r.length) (cf p f) := by
    split
    · rw [Nat.max_eq_right (by omega)]; exact pre_rep h0 hf _
    · rw [Nat.max_eq_left (by omega)]
      exact ⟨rfl, fun i hi => cf_mem hf hi⟩
  obtain ⟨h, e, R⟩ := forRange_inv (a := 0) (b := r.length) (s := if f.length < r.length then pre r.length f else f) (body := subStep p r)
    (P := fun i (h : List Nat) => RepZ p h (max f.length r.length) (fun k => if k < i then cf p f k - cf p r k else cf p f k)) (Nat.zero_le _)
    (R0.congr (fun k _ => by rw [if_neg (by omega)])) (by
      intro i h h1 h2 Rh
      obtain ⟨y, ey, ly, cy⟩ := cf_mem hr h2
      obtain ⟨x, ex, lx, cx⟩ := Rh.val i (by omega)
      obtain ⟨h', e, R'⟩ := Rh.wr (i := i) (by omega) (sub_lt hm lx ly)
      refine ⟨h', by unfold subStep; rw [ey, Option.bind_some, ex, Option.bind_some, e], R'.congr ?_⟩
      intro k _
      by_cases hk : k = i
      · subst hk; rw [upd_same, if_pos (by omega), sub_cast hm lx ly, cx, cy, if_neg (by omega)]
      · rw [upd_ne _ _ hk]
        by_cases h3 : k < i
        · rw [if_pos h3, if_pos (by omega)]
        · rw [if_neg h3, if_neg (by omega)])
  refine ⟨h, e, R.red, fun i => ?_⟩
  by_cases hi : i < max f.length r.length
  · rw [R.cf_eq hi]
    by_cases h3 : i < r.length
    · rw [if_pos h3]
    · rw [if_neg h3, cf_ge (f := r) (by omega), sub_zero]
  · rw [cf_ge (by rw [R.len]; omega), cf_ge (by omega), cf_ge (by omega), sub_zero]

theorem normalize_eq (f : List Nat) : ∃ k, f = normalize f ++ List.replicate k 0 := by
  have key : ∀ l : List Nat, ∃ k, l = List.replicate k 0 ++ l.dropWhile (· == 0) := by
    intro l
    induction l with
    | nil => exact ⟨0, rfl⟩
    | cons a l ih =>
      obtain ⟨k, hk⟩ := ih
      by_cases h : a = 0
      · subst h
        refine ⟨k+1, ?_⟩
        rw [List.dropWhile_cons_of_pos (by simp), List.replicate_succ, List.cons_append, ← hk]
      · exact ⟨0, by rw [List.dropWhile_cons_of_neg (by simpa using h)]; rfl⟩
  obtain ⟨k, hk⟩ := key f.reverse
  refine ⟨k, ?_⟩
  unfold normalize
  have := congrArg List.reverse hk
  rw [List.reverse_reverse, List.reverse_append, List.reverse_replicate] at this
  exact this

theorem cf_normalize (p : Nat) (f : List Nat) (i : Nat) : cf p (normalize f) i = cf p f i := by
  obtain ⟨k, hk⟩ := normalize_eq f
  conv_rhs => rw [hk]
  unfold cf
  by_cases h : i < (normalize f).length
  · rw [List.getD_append _ _ _ _ h]
  · rw [List.getD_eq_default _ _ (by omega), List.getD_append_right _ _ _ _ (by omega)]
    congr 1
    by_cases h2 : i - (normalize f).length < k
    · rw [List.getD_eq_getElem _ _ (by simpa using h2), List.getElem_replicate]
    · rw [List.getD_eq_default _ _ (by simpa using h2)]

/-- **C52, remainder (partial).** What `f % r` is when the constant term of `r` is invertible and `f` is not zero: `f - (f / r) * r`, and it vanishes
below `x^(r.size())`. -/
theorem C52_remainder_partial {p g : Nat} (H : Root p g) (f d : List Nat) {k : Nat} (hf : ∀ a ∈ f, a < p) (hd : ∀ a ∈ d, a < p) (hf0 : ∃ a ∈ f, a ≠ 0)
    (h0 : d.getD 0 0 ≠ 0) (hk : 2^(k+2) ∣ p - 1) (hl : f.length + d.length - 1 ≤ 2^k) :
    ∃ q h, divF p g (normalize f) d = some q ∧ modF p g f d = some h ∧ (∀ i, (h.getD i 0 + prodCoeff p q d i) % p = f.getD i 0) ∧
      ∀ i, i < d.length → h.getD i 0 = 0 := by
  have h2 := H.prime.two_le
  have hk' := supported H hk
  obtain ⟨z, hz⟩ := normalize_eq f
  have hnf : ∀ a ∈ normalize f, a < p := fun a ha => hf a (by rw [hz]; exact List.mem_append_left _ ha)
  have hnl : (normalize f).length ≤ f.length := by
    conv_rhs => rw [hz]
    rw [List.length_append]; omega
  have hne : normalize f ≠ [] := by
    intro h
    rw [h] at hz
    obtain ⟨a, ha, h3⟩ := hf0
    rw [hz, List.nil_append] at ha
    exact h3 (List.eq_of_mem_replicate ha)
  obtain ⟨q, N, e, R, hN, h, hpos⟩ := divF_spec H (k := k) hnf hd hne h0 (by omega) (by omega)
  have hd0 : 0 < d.length := by
    by_contra hc
    rw [List.getD_eq_default _ _ (by omega)] at h0
    exact h0 rfl
  have hsum : ∃ t, mulSet p g q d = some t ∧ (∀ a ∈ t, a < p) ∧ ∀ i, cf p t i = mulF (cf p q) (cf p d) i := by
    have hq : 0 < N := by
      obtain ⟨a, ha, h3⟩ := hf0
      obtain ⟨i, hi, e1⟩ := List.getElem_of_mem ha
      refine hpos ⟨i, fun h4 => h3 ?_⟩
      rw [cf_normalize] at h4
      unfold cf at h4
      rw [List.getD_eq_getElem _ _ hi, e1] at h4
      exact nat_of_cast (hf a ha) (by omega) (by rw [h4, Nat.cast_zero])
    have hfl := List.length_pos_iff.2 hne
    obtain ⟨t, M, et, P, _⟩ := mulSet_spec H (k := k+1) (f := q) (r := d) R.red hd (by rw [R.len]; exact hq) (by omega)
      (by rw [R.len, pow_succ]; omega)
    exact ⟨t, et, P.rep.red, P.cf_eq⟩
  obtain ⟨t, et, rt, ct⟩ := hsum
  obtain ⟨s, es, rs, cs⟩ := subF_spec (p := p) (by omega) H.lt hnf rt
  refine ⟨q, s, e, by unfold modF; rw [e, Option.bind_some, et, Option.bind_some, es], fun i => ?_, fun i hi => ?_⟩
  · refine nat_of_cast (Nat.mod_lt _ (by omega)) (getD_lt (by omega) hf i) ?_
    have := cs i
    rw [ct, cf_normalize] at this
    rw [ZMod.natCast_mod, Nat.cast_add, prodCoeff_cast, show ((s.getD i 0 : Nat) : ZMod p) = cf p s i from rfl, this, sub_add_cancel]
    rfl
  refine nat_of_cast (getD_lt (by omega) rs i) (by omega) ?_
  have := cs i
  rw [ct, h i hi, sub_self] at this
  rw [Nat.cast_zero]
  exact this

/-- **C52, violation.** `x² % (1 + x)` is `x⁴`; the remainder is `1`. -/
theorem C52_violation : modF 998244353 3 [0, 0, 1] [1, 1] = some [0, 0, 0, 0, 1] := by decide +kernel

/-- **C52, violation.** `x² / (1 + x)` is `x² - x³`; the polynomial quotient is `x - 1`. -/
theorem C52_violation_quotient : divF 998244353 3 [0, 0, 1] [1, 1] = some [0, 0, 1, 998244352] := by decide +kernel

/-- **C52, violation.** `(1 + x) % x` fails the assertion of `inv`; the remainder is `1`. -/
theorem C52_violation_assert : modF 998244353 3 [1, 1] [0, 1] = none := by decide +kernel

example : ∃ h, mulSet 17 3 [1, 2, 3] [4, 0, 16] = some h ∧ (∀ a ∈ h, a < 17) ∧ ∀ i, h.getD i 0 = prodCoeff 17 [1, 2, 3] [4, 0, 16] i :=
  C64_product_partial (k := 3) root17 _ _ (by decide) (by decide) (by decide) (by decide) (by decide)
example : ∃ q, divF 17 3 [5, 6] [2, 1, 3] = some q ∧ ∀ i, i < 3 → prodCoeff 17 q [2, 1, 3] i = [5, 6].getD i 0 :=
  C52_quotient_partial (k := 2) root17 _ _ (by decide) (by decide) (by decide) (by decide) (by decide) (by decide)
example : ∃ q h, divF 17 3 (normalize [5, 6, 0]) [2, 1] = some q ∧ modF 17 3 [5, 6, 0] [2, 1] = some h ∧
    (∀ i, (h.getD i 0 + prodCoeff 17 q [2, 1] i) % 17 = [5, 6, 0].getD i 0) ∧ ∀ i, i < 2 → h.getD i 0 = 0 :=
  C52_remainder_partial (k := 2) root17 _ _ (by decide) (by decide) ⟨5, by decide, by decide⟩ (by decide) (by decide) (by decide)

end Verif.Fps
