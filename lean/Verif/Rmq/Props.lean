import Verif.Rmq.Query
/-! C99: range minimum queries. -/
namespace Verif.Rmq
open Verif

/-- `i` is the position of the first least value of `xs[l..r)`. -/
def FirstLeast (xs : List Int) (l r i : Nat) : Prop :=
  l ≤ i ∧ i < r ∧ ∃ v, xs[i]? = some v ∧ ∀ j w, l ≤ j → j < r → xs[j]? = some w → v ≤ w ∧ (j < i → v < w)

/-- C99.  `Rmq` over a nonempty range (recursion height 3, and in fact any height) is built without undefined behaviour, and each `rmq(l, r)` with
`l < r ≤ n` returns the position of the first least value of `[l, r)`; `rmq(l, r)` with `r ≤ l` throws. -/
theorem C99_rmq (height : Nat) (xs : List Int) (hx : xs ≠ []) :
    ∃ o, build height xs = some o ∧ (∀ l r, l < r → r ≤ xs.length → ∃ i, rmq o l r = some i ∧ FirstLeast xs l r i) ∧
      ∀ l r, r ≤ l → rmq o l r = none := by
  obtain ⟨o, e, h⟩ := build_good height xs hx
  refine ⟨o, e, ?_, ?_⟩
  · intro l r hlr hr
    obtain ⟨i, h1, h2, h3, h4, h5⟩ := h l r hlr hr
    have hg : ∀ j w, xs[j]? = some w → xs.getD j 0 = w := by
      intro j w hj; rw [List.getD_eq_getElem?_getD, hj]; rfl
    refine ⟨i, h1, h2, h3, xs.getD i 0, ?_, ?_⟩
    · rw [List.getD_eq_getElem?_getD, List.getElem?_eq_getElem (by omega)]; rfl
    · intro j w hj hj' hw
      have := h4 j hj hj'
      simp only [hg j w hw] at this
      refine ⟨this, fun hji => ?_⟩
      have := h5 j hj hji
      simp only [hg j w hw] at this
      exact this
  · intro l r hlr
    cases o with
    | none => rw [rmq]
    | sparse t => rw [rmq, if_pos hlr]
    | lca b bv inner => rw [rmq, if_pos hlr]

/-- The range must not be empty: the sparse table of an empty range accesses `table_[0]` of an empty vector. -/
theorem C99_empty_undefined : build 3 [] = none := by decide

/-- 9 values: parentheses of the tree (the case of the header's own test), ties to the left. -/
example : ((build 3 [2, 4, 3, 5, 1, 8, 6, 7, 1]).bind fun o => (rmq o 1 4).bind fun i => (rmq o 0 9).bind fun j => (rmq o 5 9).map fun k => (i, j, k)) = some (2, 4, 8) := by
  decide +kernel

/-- 200 values: several blocks, so the recursive structure is used. -/
example : ((build 3 ((List.range 200).map fun i => (((i * 37) % 101 : Nat) : Int))).bind fun o => (rmq o 3 190).bind fun i => (rmq o 102 199).map fun j => (i, j)) = some (101, 172) := by
  decide +kernel

example : FirstLeast [2, 4, 3, 3] 1 4 2 := ⟨by decide, by decide, 3, rfl, by
  intro j w h1 h2 h
  have : j = 1 ∨ j = 2 ∨ j = 3 := by omega
  rcases this with rfl | rfl | rfl <;> simp at h <;> omega⟩

end Verif.Rmq
