import Verif.Sps.Rest
import Mathlib.Algebra.Ring.Int.Defs
/-!
# Set power series (sps.hpp)

A vector of length `2^n` stands for a function of the subsets of `{0, ..., n-1}`: the value at `S` is in the entry `mask S = Σ_{i ∈ S} 2^i`.
`psum F a S` is the sum over all partitions `P` of the set `S` of `F |P| * Π_{B ∈ P} a B`; `conv` is subset convolution and `cpow` its powers.
-/
namespace Verif.Sps
open Finset Verif.Bitwise Verif.SubsetConv

variable {T : Type}

/-- `a` read from a vector. -/
def at_ [Zero T] (A : List T) (S : Finset Nat) : T := A.getD (mask S) 0

/-! ### C90: `SpsExp` -/

/-- `SpsExp`: the entry of `S` is the sum over all partitions of `S` of the product of the entries of the blocks. -/
theorem C90_exp [CommRing T] [DecidableEq T] (L n : Nat) (hL : n ≤ L) (hn : n < 31) (A : List T) (hA : A.length = 2^n) (h0 : A[0]? = some 0) :
    ∃ out, spsExp L n A = some out ∧ out.length = 2^n ∧
      ∀ S, S ⊆ range n → out[mask S]? = some (∑ P ∈ setPartitions S, ∏ B ∈ P, at_ A B) := by
  obtain ⟨out, e, h⟩ := spsExp_ok hL hn hA h0
  refine ⟨out, e, h.len, fun S hS => ?_⟩
  obtain ⟨h1, h2⟩ := mask_lt hS
  rw [h.val _ h1]
  unfold val psum
  rw [h2]
  simp only [one_mul]
  rfl

example : spsExp 3 3 [0, 1, 2, 3, 5, 7, -1, (4 : Int)] = some [1, 1, 2, 5, 5, 12, 9, 42] := by decide +kernel
example : ∑ P ∈ setPartitions {0, 1}, ∏ B ∈ P, at_ [0, 1, 2, (3 : Int)] B = 5 := by decide +kernel

/-! ### C91: `SpsCompositionEgf` -/

/-- `SpsCompositionEgf`: when `F` has more than `n` coefficients, or at most one, the entry of `S` is the sum over the partitions of `S` of `F[number of
blocks]` times the product of the entries of the blocks.
Missing: `2 ≤ |F| ≤ n`, where it is false, see `C91_short_wrong`. -/
theorem C91_egf_partial [CommRing T] [DecidableEq T] (L n : Nat) (hL : n ≤ L + 1) (hn : n < 31) (F A : List T) (hA : 2^n ≤ A.length) (h0 : A[0]? = some 0)
    (hF : F.length ≤ 1 ∨ n < F.length) :
    ∃ out, compEgf L n F A = some out ∧ out.length = 2^n ∧
      ∀ S, S ⊆ range n → out[mask S]? = some (∑ P ∈ setPartitions S, F.getD P.card 0 * ∏ B ∈ P, at_ A B) := by
  obtain ⟨out, e, h⟩ := compEgf_ok hL hn hA h0 hF
  refine ⟨out, e, h.len, fun S hS => ?_⟩
  obtain ⟨h1, h2⟩ := mask_lt hS
  rw [h.val _ h1]
  unfold val psum
  rw [h2]
  simp only [Nat.zero_add]
  rfl

/-- With `F = 0 + 1 t` and `n = 2` the result should be the argument; the entry of `{0, 1}` is 0 instead of 3: no merge is done when `k = d-1`
(sps.hpp:88-90), which is right only if `d = n`. -/
theorem C91_short_wrong : compEgf 3 2 [0, 1] [0, 1, 2, (3 : Int)] = some [0, 1, 2, 0] ∧
    ∑ P ∈ setPartitions {0, 1}, ([0, 1] : List Int).getD P.card 0 * ∏ B ∈ P, at_ [0, 1, 2, 3] B = 3 := by
  decide +kernel

/-- The same coefficients with a zero appended give the right result. -/
example : compEgf 3 2 [0, 1, 0] [0, 1, 2, (3 : Int)] = some [0, 1, 2, 3] := by decide +kernel
example : compEgf 3 3 [2, 3, 5, 7] [0, 1, 2, 3, 5, 7, -1, (4 : Int)] = some [2, 3, 6, 19, 15, 46, 47, 222] := by decide +kernel

/-! ### C92: `SpsCompositionPoly` -/

/-- `SpsCompositionPoly` with a constant term that is not 0, and more than `n` coefficients (or at most one): the result is `Σ F[i] A^i` for subset
convolution.
Missing: constant term 0, where the result is `Σ F[i] A^i / i!` instead, see `C92_zero_wrong`; and `2 ≤ |F| ≤ n`, see `C92_short_wrong`. -/
theorem C92_poly_partial [CommRing T] [DecidableEq T] (L n : Nat) (hL : n ≤ L + 1) (hn : n < 31) (F A : List T) (c : T) (h0 : A[0]? = some c) (hc : c ≠ 0)
    (hF : F.length ≤ 1 ∨ n < F.length) :
    ∃ out, compPoly L n F A = some out ∧ out.length = 2^n ∧
      ∀ S, S ⊆ range n → out[mask S]? = some (∑ i ∈ range F.length, F.getD i 0 * cpow (at_ A) i S) := by
  obtain ⟨out, e, h⟩ := compPoly_ok hL hn h0 hc hF
  refine ⟨out, e, h.len, fun S hS => ?_⟩
  obtain ⟨h1, h2⟩ := mask_lt hS
  rw [h.val _ h1, h2]
  rfl

/-- The square of a series without constant term: the entry of `{0, 1}` is 2 instead of `2 * 1 * 2 = 4`: the coefficients go to `SpsCompositionEgf`
without the factor `i!` (sps.hpp:116-118). -/
theorem C92_zero_wrong : compPoly 3 2 [0, 0, 1] [0, 1, 2, (3 : Int)] = some [0, 0, 0, 2] ∧
    ∑ i ∈ range 3, ([0, 0, 1] : List Int).getD i 0 * cpow (at_ [0, 1, 2, 3]) i {0, 1} = 4 := by
  decide +kernel

/-- The polynomial `t` applied to `A` gives 0 instead of 3 at `{0, 1}`. -/
theorem C92_short_wrong : compPoly 3 2 [0, 1] [5, 1, 2, (3 : Int)] = some [5, 1, 2, 0] ∧
    ∑ i ∈ range 2, ([0, 1] : List Int).getD i 0 * cpow (at_ [5, 1, 2, 3]) i {0, 1} = 3 := by
  decide +kernel

example : compPoly 3 2 [0, 0, 1] [5, 1, 2, (3 : Int)] = some [25, 10, 20, 34] := by decide +kernel
example : compPoly 3 2 [1, 2, 3, 4] [2, 1, 2, (3 : Int)] = some [49, 62, 124, 294] := by decide +kernel
example : ∑ i ∈ range 3, ([0, 0, 1] : List Int).getD i 0 * cpow (at_ [5, 1, 2, 3]) i {0, 1} = 34 := by decide +kernel

/-! ### C93: `SpsLog` -/

theorem rep_of_sets [Zero T] {out : List T} {n : Nat} {g : Nat → T} (h : Rep out (2^n) g) (S : Finset Nat) (hS : S ⊆ range n) : at_ out S = g (mask S) := by
  unfold at_
  rw [List.getD_eq_getElem?_getD, h.val _ (mask_lt hS).1]; rfl

/-- `SpsLog` gives a series whose exponential is the argument, cut or filled up with zeros to `2^n` entries. -/
theorem C93_log [CommRing T] [DecidableEq T] (L n : Nat) (hL : n ≤ L) (hn : n < 31) (s : List T) (h0 : s[0]? = some 1) :
    ∃ t e, spsLog L n s = some t ∧ t.length = 2^n ∧ spsExp L n t = some e ∧ e.length = 2^n ∧ ∀ i, i < 2^n → e[i]? = some (s.getD i 0) := by
  obtain ⟨t, f, e1, hf0, hf, ht⟩ := spsLog_ok hL hn h0
  have ht0 : t[0]? = some 0 := by
    rw [ht.val 0 (Nat.two_pow_pos n), setOf_zero, psum_empty, hf0]
  obtain ⟨e, e2, he⟩ := spsExp_ok hL hn ht.len ht0
  refine ⟨t, e, e1, ht.len, e2, he.len, fun i hi => ?_⟩
  rw [he.val i hi]
  have hs := setOf_sub hi
  have hlog := exp_log (s := fun U => s.getD (mask U) 0) (a := fun U => if U = ∅ then 0 else - s.getD (mask U) 0)
    (by show s.getD (mask ∅) 0 = 1; rw [mask_empty, List.getD_eq_getElem?_getD, h0]; rfl) (by simp) (fun S hS => by rw [if_neg hS]) hf (setOf i)
  have hm : mask (setOf i) = i := mask_setOf hi
  rw [hm] at hlog
  rw [← hlog]
  unfold val sexp
  congr 1
  refine psum_congr_fun _ (fun U hU => ?_)
  have hU' := Finset.Subset.trans hU hs
  show t.getD (mask U) 0 = _
  rw [List.getD_eq_getElem?_getD, ht.val _ (mask_lt hU').1, (mask_lt hU').2]
  rfl

/-- `SpsLog` undoes `SpsExp`. -/
theorem C93_log_exp [CommRing T] [DecidableEq T] (L n : Nat) (hL : n ≤ L) (hn : n < 31) (A : List T) (hA : A.length = 2^n) (h0 : A[0]? = some 0) :
    ∃ e, spsExp L n A = some e ∧ spsLog L n e = some A := by
  obtain ⟨e, e1, he⟩ := spsExp_ok hL hn hA h0
  have he0 : e[0]? = some 1 := by rw [he.val 0 (Nat.two_pow_pos n), val_zero]
  obtain ⟨t, e', e2, ht, e3, he', hv⟩ := C93_log L n hL hn e he0
  have hee : e' = e := by
    refine List.ext_getElem? (fun i => ?_)
    by_cases hi : i < 2^n
    · rw [hv i hi, he.val i hi, List.getD_eq_getElem?_getD, he.val i hi]; rfl
    · rw [List.getElem?_eq_none (by omega), List.getElem?_eq_none (by rw [he.len]; omega)]
  rw [hee] at e3
  obtain ⟨t2, f, e4, hf0, _, ht2⟩ := spsLog_ok hL hn he0
  have htt : t2 = t := by rw [e2] at e4; exact (Option.some.inj e4).symm
  rw [htt] at ht2
  have ht0 : t[0]? = some 0 := by rw [ht2.val 0 (Nat.two_pow_pos n), setOf_zero, psum_empty, hf0]
  obtain ⟨e5, e6, he5⟩ := spsExp_ok hL hn ht ht0
  have : e5 = e := by rw [e3] at e6; exact (Option.some.inj e6).symm
  rw [this] at he5
  have hinj := exp_inj (a := at_ t) (b := at_ A)
    (by show t.getD (mask ∅) 0 = A.getD (mask ∅) 0
        rw [mask_empty, List.getD_eq_getElem?_getD, ht0, List.getD_eq_getElem?_getD, h0]) (range n)
    (fun S hS => by
      have hm := mask_lt hS
      have h1 := he.val _ hm.1
      rw [he5.val _ hm.1] at h1
      have h2 := Option.some.inj h1
      unfold val at h2
      rw [hm.2] at h2
      exact h2)
  refine ⟨e, e1, ?_⟩
  rw [e2]
  congr 1
  refine List.ext_getElem? (fun i => ?_)
  by_cases hi : i < 2^n
  · have := hinj (setOf i) (setOf_sub hi)
    unfold at_ at this
    rw [mask_setOf hi, List.getD_eq_getElem?_getD, List.getD_eq_getElem?_getD, List.getElem?_eq_getElem (by omega), List.getElem?_eq_getElem (by omega)] at this
    rw [List.getElem?_eq_getElem (by omega), List.getElem?_eq_getElem (by omega)]
    exact congrArg some this
  · rw [List.getElem?_eq_none (by omega), List.getElem?_eq_none (by omega)]

example : spsLog 3 3 [1, 1, 2, 5, 5, 12, 9, (42 : Int)] = some [0, 1, 2, 3, 5, 7, -1, 4] := by decide +kernel
example : spsLog 3 2 [1, 1, (2 : Int)] = some [0, 1, 2, -2] ∧ spsExp 3 2 [0, 1, 2, (-2 : Int)] = some [1, 1, 2, 0] := by decide +kernel

/-! ### C94: `SpsInv` -/

/-- `SpsInv` with constant term 1: the subset convolution of argument and result is the unit. -/
theorem C94_inv [CommRing T] (L n : Nat) (hL : n ≤ L) (hn : n < 31) (s : List T) (hs : s.length ≤ 2^n) (h0 : s[0]? = some 1) :
    ∃ t, spsInv L n s = some t ∧ t.length = 2^n ∧ ∀ S, S ⊆ range n → conv (at_ s) (at_ t) S = if S = ∅ then 1 else 0 := by
  obtain ⟨o, t, e, h, hv⟩ := spsInv_ok hL hn hs h0
  refine ⟨o, e, h.len, fun S hS => ?_⟩
  have hm := mask_lt hS
  have h1 := hv _ hm.1
  rw [sp_conv n _ _ _ hm.1, hm.2] at h1
  have h2 : conv (at_ s) (at_ o) S = conv (fun U => s.getD (mask U) 0) (fun U => t (mask U)) S :=
    conv_congr (fun _ _ => rfl) (fun U hU => rep_of_sets h U (Finset.Subset.trans hU hS))
  rw [h2, h1]
  refine if_congr ⟨fun h => ?_, fun h => ?_⟩ rfl rfl
  · rw [h, setOf_zero] at hm; exact hm.2.symm
  · rw [h, mask_empty]

/-- A constant term other than 1 is not looked at; the result is no inverse, even if there is one. -/
theorem C94_one_needed : spsInv 3 1 [-1, (1 : Int)] = some [1, -1] ∧ conv (at_ [-1, (1 : Int)]) (at_ [1, -1]) ∅ = -1 := by
  decide +kernel

example : spsInv 3 3 [1, 1, 2, 3, 5, -4, 6, (7 : Int)] = some [1, -1, -2, 1, -5, 14, 14, -41] := by decide +kernel
example : spsInv 3 2 [1, (1 : Int)] = some [1, -1, 0, 0] := by decide +kernel

/-! ### C95: the transposed maps -/

/-- `TransposedSubsetConvolution(s, x)` is the transpose of `a ↦ SubsetConvolution(a, s)`: the pairing of `x` with `a * s` is the pairing of the result
with `a`. -/
theorem C95_conv [CommRing T] (L n : Nat) (hL : n ≤ L) (hn : n < 31) (s x : List T) (hs : s.length ≤ 2^n) (hx : x.length = 2^n) :
    ∃ y, transConv L s x = some y ∧ y.length = 2^n ∧
      ∀ a : List T, a.length = 2^n → ∃ b, subsetConvolution L a s = some b ∧ b.length = 2^n ∧
        ∑ i ∈ range (2^n), y.getD i 0 * a.getD i 0 = ∑ i ∈ range (2^n), x.getD i 0 * b.getD i 0 := by
  obtain ⟨y, e, h⟩ := transConv_ok hL hn hs hx
  refine ⟨y, e, h.len, fun a ha => ?_⟩
  have hm : max a.length s.length = 2^n := by omega
  have hp := Nat.two_pow_pos n
  obtain ⟨b, e1, hb⟩ := C31_subset_convolution L a s (by omega) (by rw [hm, lg_pow]; exact hL) (by rw [hm, lg_pow]; exact hn)
  rw [hm, lg_pow] at hb
  refine ⟨b, e1, hb.len, ?_⟩
  have h1 : ∀ i, i ∈ range (2^n) → y.getD i 0 * a.getD i 0 =
      sp n (fun i => s.getD i 0) (fun i => x.getD (2^n - 1 - i) 0) (2^n - 1 - i) * a.getD i 0 := by
    intro i hi
    rw [List.getD_eq_getElem?_getD, h.val i (Finset.mem_range.1 hi)]; rfl
  have h2 : ∀ i, i ∈ range (2^n) → x.getD i 0 * b.getD i 0 = x.getD i 0 * sp n (fun i => s.getD i 0) (fun i => a.getD i 0) i := by
    intro i hi
    have hi' := Finset.mem_range.1 hi
    rw [sp_comm _ _ hi', ← subsetSpec_sp n _ _ i hi', List.getD_eq_getElem?_getD (l := b), hb.val i hi']; rfl
  rw [Finset.sum_congr rfl h1, Finset.sum_congr rfl h2]
  exact sp_adjoint n (fun i => s.getD i 0) (fun i => x.getD i 0) (fun i => a.getD i 0)

/-- `TransposedSpsCompositionEgf(n, s, x)`: the entry `k` is the sum over all `S` of `x[S]` times the sum over the partitions of `S` into `k` blocks of
the product of the entries of the blocks. -/
theorem C95_egf [CommRing T] [DecidableEq T] (L n : Nat) (hL : n ≤ L) (hn : n < 31) (s x : List T) (hs : 2^n ≤ s.length) (hx : 2^n ≤ x.length)
    (h0 : s[0]? = some 0) :
    ∃ y, transEgf L n s x = some y ∧ y.length = n+1 ∧
      ∀ k, k ≤ n → y[k]? = some (∑ S ∈ (range n).powerset, at_ x S * ∑ P ∈ (setPartitions S).filter (fun P => P.card = k), ∏ B ∈ P, at_ s B) := by
  obtain ⟨y, e, h⟩ := transEgf_ok hL hn hs hx h0
  refine ⟨y, e, h.len, fun k hk => ?_⟩
  rw [h.val k (by omega), sum_mask]
  congr 1
  apply Finset.sum_congr rfl
  intro S hS
  have hm := mask_lt (Finset.mem_powerset.1 hS)
  unfold EE val psum
  rw [hm.2, Finset.sum_filter]
  unfold at_
  congr 1
  apply Finset.sum_congr rfl
  intro P _
  show (if 0 + P.card = k then (1 : T) else 0) * ∏ B ∈ P, s.getD (mask B) 0 = _
  rw [Nat.zero_add]
  split
  · rw [one_mul]
  · rw [zero_mul]

theorem card_parts_le {S : Finset Nat} {P : Finset (Finset Nat)} (h : P ∈ setPartitions S) : P.card ≤ S.card := by
  unfold setPartitions at h
  rw [Finset.mem_filter, Finset.mem_powerset] at h
  obtain ⟨h1, h2, h3⟩ := h
  have e : ∑ B ∈ P, ∑ x ∈ S, (if x ∈ B then 1 else 0) = S.card := by
    rw [Finset.sum_comm, Finset.card_eq_sum_ones]
    apply Finset.sum_congr rfl
    intro x hx
    rw [← Finset.card_filter, h3 x hx]
  rw [← e, Finset.card_eq_sum_ones P]
  apply Finset.sum_le_sum
  intro B hB
  obtain ⟨x, hx⟩ := Finset.nonempty_iff_ne_empty.2 (fun hE : B = ∅ => h2 (hE ▸ hB))
  have hxS : x ∈ S := Finset.mem_powerset.1 (h1 hB) hx
  rw [← Finset.card_filter]
  exact Finset.card_pos.2 ⟨x, Finset.mem_filter.2 ⟨hxS, hx⟩⟩

/-- Hence it is the transpose of `F ↦ SpsCompositionEgf(n, F, s)` for `F` with `n+1` coefficients. -/
theorem C95_egf_transpose [CommRing T] [DecidableEq T] (L n : Nat) (hL : n ≤ L) (hn : n < 31) (s x : List T) (hs : 2^n ≤ s.length) (hx : 2^n ≤ x.length)
    (h0 : s[0]? = some 0) :
    ∃ y, transEgf L n s x = some y ∧ y.length = n+1 ∧
      ∀ F : List T, F.length = n+1 → ∃ out, compEgf L n F s = some out ∧ out.length = 2^n ∧
        ∑ k ∈ range (n+1), y.getD k 0 * F.getD k 0 = ∑ i ∈ range (2^n), x.getD i 0 * out.getD i 0 := by
  obtain ⟨y, e, hy, hv⟩ := C95_egf L n hL hn s x hs hx h0
  refine ⟨y, e, hy, fun F hF => ?_⟩
  obtain ⟨out, e1, ho, hv1⟩ := C91_egf_partial L n (by omega) hn F s hs h0 (by omega)
  refine ⟨out, e1, ho, ?_⟩
  rw [sum_mask]
  have h1 : ∀ k, k ∈ range (n+1) → y.getD k 0 * F.getD k 0 =
      ∑ S ∈ (range n).powerset, at_ x S * (∑ P ∈ (setPartitions S).filter (fun P => P.card = k), F.getD k 0 * ∏ B ∈ P, at_ s B) := by
    intro k hk
    rw [List.getD_eq_getElem?_getD, hv k (by rw [Finset.mem_range] at hk; omega), Option.getD_some, Finset.sum_mul]
    apply Finset.sum_congr rfl
    intro S _
    rw [← Finset.mul_sum]; ring
  rw [Finset.sum_congr rfl h1, Finset.sum_comm]
  apply Finset.sum_congr rfl
  intro S hS
  have hS' := Finset.mem_powerset.1 hS
  have h2 : out.getD (mask S) 0 = ∑ P ∈ setPartitions S, F.getD P.card 0 * ∏ B ∈ P, at_ s B := by
    rw [List.getD_eq_getElem?_getD, hv1 S hS']; rfl
  rw [← Finset.mul_sum, h2]
  unfold at_
  congr 1
  have hcard : ∀ P ∈ setPartitions S, P.card ∈ range (n+1) := by
    intro P hP
    have h3 := card_parts_le hP
    have h4 := Finset.card_le_card hS'
    rw [Finset.card_range] at h4
    rw [Finset.mem_range]; omega
  rw [← Finset.sum_fiberwise_of_maps_to hcard]
  apply Finset.sum_congr rfl
  intro k _
  apply Finset.sum_congr rfl
  intro P hP
  rw [(Finset.mem_filter.1 hP).2]

/-- The form with vectors takes `n` from the length of `s`. -/
theorem C95_egf_vector [CommRing T] [DecidableEq T] (L n : Nat) (hL : n ≤ L) (hn : n < 31) (s x : List T) (hs : s.length = 2^n) (hx : 2^n ≤ x.length)
    (h0 : s[0]? = some 0) :
    ∃ y, transEgfVec L s x = some y ∧ y.length = n+1 ∧
      ∀ k, k ≤ n → y[k]? = some (∑ S ∈ (range n).powerset, at_ x S * ∑ P ∈ (setPartitions S).filter (fun P => P.card = k), ∏ B ∈ P, at_ s B) := by
  have hE : s.isEmpty = false := by
    cases s with
    | nil => simp at h0
    | cons _ _ => rfl
  rw [transEgfVec, hE, if_neg (by simp), hs, lg_pow]
  exact C95_egf L n hL hn s x (by omega) hx h0

example : transConv 3 [1, 1, 2, (3 : Int)] [4, 3, 2, 1] = some [14, 5, 3, 1] := by decide +kernel
example : transEgf 3 2 [0, 1, 2, (3 : Int)] [4, 3, 2, 1] = some [4, 10, 2] := by decide +kernel
example : ([4, 3, 2, 1] : List Int).length = 2^2 ∧ ([0, 1, 2, (3 : Int)])[0]? = some 0 := by decide

end Verif.Sps
