import Verif.Fenwick.Proofs
import Verif.Fenwick.Spec
import Mathlib.Algebra.Order.Group.Int
/-! C02 and C03: FenwickTree against a plain list of values. -/
namespace Verif.Fenwick
variable {T : Type}

section helpers
variable [AddCommMonoid T]

theorem specAdd_length : ∀ (vs : List T) (i : Nat) (x : T), (specAdd vs i x).length = vs.length
  | [], _, _ => rfl
  | _ :: _, 0, _ => rfl
  | _ :: vs, i+1, x => by simp [specAdd, specAdd_length vs i x]

theorem specAdd_getD : ∀ (vs : List T) (i : Nat) (x : T) (p : Nat), p < vs.length →
    (specAdd vs i x).getD p 0 = bump (fun p => vs.getD p 0) i x p
  | [], _, _, p, h => by simp at h
  | v :: vs, 0, x, p, h => by cases p <;> simp [specAdd, bump]
  | v :: vs, i+1, x, p, h => by
    cases p with
    | zero => simp [specAdd, bump]
    | succ p =>
      have := specAdd_getD vs i x p (by simpa using h)
      simpa [specAdd, bump] using this

theorem Inv.congr {n : Nat} {tree : List T} {a b : Nat → T} (h : Inv n tree a) (hab : ∀ p, p < n → a p = b p) :
    Inv n tree b := by
  refine ⟨h.len, fun j hj hjn => ?_⟩
  rw [h.node j hj hjn]
  congr 1
  apply Finset.sum_congr rfl
  intro p hp
  simp at hp
  exact hab p (by omega)

theorem addAll_spec {n : Nat} (hn : n + 1 < 2^63) : ∀ (ops : List (Nat × T)) (tree : List T) (vs : List T),
    vs.length = n → Inv n tree (fun p => vs.getD p 0) →
    ∃ t, addAll tree ops = some t ∧ (specAddAll vs ops).length = n ∧
      Inv n t (fun p => (specAddAll vs ops).getD p 0)
  | [], tree, vs, hl, h => ⟨tree, rfl, hl, h⟩
  | (i, x) :: ops, tree, vs, hl, h => by
    obtain ⟨t, e, h1⟩ := add_spec hn h i x
    have h2 : Inv n t (fun p => (specAdd vs i x).getD p 0) :=
      h1.congr (fun p hp => (specAdd_getD vs i x p (by omega)).symm)
    obtain ⟨t', e', h3⟩ := addAll_spec hn ops t (specAdd vs i x) (by rw [specAdd_length, hl]) h2
    exact ⟨t', by simp [addAll, e, e'], by simpa [specAddAll] using h3⟩

theorem sum_range_getD (vs : List T) : ∀ k, k ≤ vs.length → ∑ p ∈ Finset.range k, vs.getD p 0 = prefixSum vs k := by
  intro k
  induction k with
  | zero => intro _; simp [prefixSum]
  | succ k ih =>
    intro hk
    rw [Finset.sum_range_succ, ih (by omega)]
    unfold prefixSum
    rw [List.take_succ_eq_append_getElem (by omega), List.sum_append]
    simp [List.getD_eq_getElem?_getD, List.getElem?_eq_getElem (show k < vs.length by omega)]

end helpers

/-- Histories: a construction followed by additions. -/
inductive Start (T : Type) where
  | size (n : Nat)
  | range (xs : List T)

/-- Model: construct, then add. -/
def run [AddCommMonoid T] : Start T → List (Nat × T) → Option (List T)
  | .size n, ops => addAll (ofSize n) ops
  | .range xs, ops => (ofRange xs).bind (fun t => addAll t ops)

/-- Specification: the plain list after the same history. -/
def plain [AddCommMonoid T] : Start T → List (Nat × T) → List T
  | .size n, ops => specAddAll (List.replicate n 0) ops
  | .range xs, ops => specAddAll xs ops

/-- Number of elements. -/
def Start.len : Start T → Nat
  | .size n => n
  | .range xs => xs.length

theorem run_inv [AddCommMonoid T] (st : Start T) (ops : List (Nat × T)) (hn : st.len + 1 < 2^63) :
    ∃ t, run st ops = some t ∧ (plain st ops).length = st.len ∧ Inv st.len t (fun p => (plain st ops).getD p 0) := by
  cases st with
  | size n =>
    exact addAll_spec hn ops (ofSize n) (List.replicate n 0) (by simp [Start.len])
      ((ofSize_inv n).congr (by intro p hp; simp [List.getD_eq_getElem?_getD, List.getElem?_replicate, hp]))
  | range xs =>
    obtain ⟨t, e, h⟩ := ofRange_spec xs hn
    obtain ⟨t', e', h'⟩ := addAll_spec hn ops t xs rfl h
    exact ⟨t', by simp [run, e, e'], h'⟩

/-- C02 (`sum(index)`): after any construction and any additions, `sum(i)` is the sum of values `0..i`. -/
theorem C02_sum [AddCommMonoid T] (st : Start T) (ops : List (Nat × T)) (hn : st.len + 1 < 2^63) :
    ∃ t, run st ops = some t ∧ (plain st ops).length = st.len ∧
      ∀ i, i < st.len → sum t i = some (prefixSum (plain st ops) (i+1)) := by
  obtain ⟨t, e, hl, h⟩ := run_inv st ops hn
  refine ⟨t, e, hl, fun i hi => ?_⟩
  rw [sum_spec hn h hi, sum_range_getD _ _ (by omega)]

/-- C02 (`range_sum(l,r)`, also `sum(l,r)`): the sum of the values at `l..r-1`. -/
theorem C02_range_sum [AddCommGroup T] (st : Start T) (ops : List (Nat × T)) (hn : st.len + 1 < 2^63) :
    ∃ t, run st ops = some t ∧
      ∀ l r, l ≤ r → r ≤ st.len → rangeSum t l r = some (segSum (plain st ops) l r) := by
  obtain ⟨t, e, hl, h⟩ := run_inv st ops hn
  refine ⟨t, e, fun l r hlr hr => ?_⟩
  have key : ∀ k, k ≤ st.len → sumBefore t k = some (prefixSum (plain st ops) k) := by
    intro k hk
    unfold sumBefore
    by_cases h0 : k > 0
    · rw [if_pos h0, sum_spec hn h (by omega), sum_range_getD _ _ (by omega), Nat.sub_add_cancel h0]
    · have : k = 0 := by omega
      subst this; simp [prefixSum]
  unfold rangeSum
  simp only [key l (by omega), key r hr, Option.bind_eq_bind, Option.bind_some]
  congr 1
  unfold prefixSum segSum
  have : (plain st ops).take r = ((plain st ops).take r).take l ++ ((plain st ops).take r).drop l := by
    rw [List.take_append_drop]
  conv_lhs => rw [this, List.sum_append, List.take_take, Nat.min_eq_left hlr]
  rw [add_sub_cancel_left]

/-- C03: with non-negative values, `lower_bound(x)` is the least index whose inclusive prefix sum reaches
`x`, or `size()` when none does. -/
theorem C03_lower_bound [AddCommMonoid T] [LinearOrder T] [IsOrderedAddMonoid T]
    (st : Start T) (ops : List (Nat × T)) (hn : st.len + 1 < 2^63)
    (hnn : ∀ v ∈ plain st ops, 0 ≤ v) (x : T) :
    ∃ t r, run st ops = some t ∧ lowerBound t x = some r ∧ r ≤ st.len ∧
      (∀ i, i < r → prefixSum (plain st ops) (i+1) < x) ∧
      (r < st.len → x ≤ prefixSum (plain st ops) (r+1)) := by
  obtain ⟨t, e, hl, h⟩ := run_inv st ops hn
  obtain ⟨r, e1, h1, h2, h3⟩ := lowerBound_spec h (by
    intro p hp
    apply hnn
    rw [List.getD_eq_getElem?_getD, List.getElem?_eq_getElem (by omega)]
    simp) x
  refine ⟨t, r, e, e1, h1, fun i hi => ?_, fun hr => ?_⟩
  · have := h2 i hi
    rwa [pre, sum_range_getD _ _ (by omega)] at this
  · have := h3 hr
    rwa [pre, sum_range_getD _ _ (by omega)] at this

/-- Non-trivial instances. -/
example : (Start.range [3, 1, 4, 1, 5, (9 : Int)]).len + 1 < 2^63 := by decide
example : (run (.range [3, 1, 4, 1, 5, (9 : Int)]) [(2, 10), (5, 1)]).bind (fun t => rangeSum t 1 4) = some 16 := by
  decide
example : ∀ v ∈ plain (.range [3, 1, 4, 1, 5, (9 : Int)]) [(2, 10)], 0 ≤ v := by decide
example : (run (.range [3, 1, 4, 1, 5, (9 : Int)]) []).bind (fun t => lowerBound t 9) = some 3 := by decide

end Verif.Fenwick
