import Mathlib.Algebra.BigOperators.Group.List.Basic
/-! Ordered products of slices of a list: the specification shared by the range-query structures. -/
namespace Verif
variable {M : Type} [Monoid M]

/-- Left-to-right product of the elements at positions `l, ..., r-1`. -/
def segProd (vs : List M) (l r : Nat) : M := ((vs.take r).drop l).prod

theorem segProd_self (vs : List M) (l : Nat) : segProd vs l l = 1 := by
  unfold segProd
  rw [List.drop_eq_nil_of_le (by rw [List.length_take]; exact Nat.min_le_left _ _)]
  rfl

theorem segProd_append (vs : List M) {l m r : Nat} (h1 : l ≤ m) (h2 : m ≤ r) :
    segProd vs l m * segProd vs m r = segProd vs l r := by
  unfold segProd
  rw [← List.prod_append]
  congr 1
  have e : vs.take m = (vs.take r).take m := by rw [List.take_take, Nat.min_eq_left h2]
  rw [e]
  generalize vs.take r = w
  conv_rhs => rw [← List.take_append_drop m w]
  rw [List.drop_append, List.length_take]
  by_cases hm : m ≤ w.length
  · rw [Nat.min_eq_left hm, Nat.sub_eq_zero_of_le h1]; rfl
  · rw [List.drop_eq_nil_of_le (show w.length ≤ m by omega)]; simp

theorem segProd_one (vs : List M) {i : Nat} {x : M} (h : vs[i]? = some x) : segProd vs i (i+1) = x := by
  unfold segProd
  obtain ⟨hi, rfl⟩ := List.getElem?_eq_some_iff.1 h
  rw [List.take_succ_eq_append_getElem hi, List.drop_append, List.length_take, Nat.min_eq_left (by omega),
    List.drop_eq_nil_of_le (by simp; omega)]
  simp

theorem segProd_zero_length (vs : List M) : segProd vs 0 vs.length = vs.prod := by
  simp [segProd]

end Verif
