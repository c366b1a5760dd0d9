import Verif.Euler.Proof
/-!
`Graph::euler_tour`: the properties.

Specification: `Tree n r P`, `EdgesOf n r P E`, `Anc`, `IsLca` as for the heavy-light decomposition (`Verif/Hld/Tree.lean`, `Build.lean`, `Lca.lean`).
-/
namespace Verif.Euler
open Verif.Hld

variable {n r : Nat} {P : Nat → Option Nat} {E : List (Nat × Nat)}

/-- **C75.** On a tree built with `add_edge` (any order and direction), `euler_tour(r)` ends; `tour` has `2n-1` entries, neighbours in it are neighbours in the tree; `L[w]` and `R[w]` are the first and the last position of `w`; and the entries at positions `L[w] .. R[w]` are exactly those of the subtree of `w`.  Whatever an earlier call left in `L` and `R` does not matter. -/
theorem C75 (H : Tree n r P) (hE : EdgesOf n r P E) (L0 R0 : List Nat) : ∃ x, build n E L0 R0 r = some x ∧ x.tour.length = 2 * n - 1 ∧ (∀ v ∈ x.tour, v < n) ∧
    (∀ i u v : Nat, x.tour[i]? = some u → x.tour[i+1]? = some v → P u = some v ∨ P v = some u) ∧
    ∀ w, w < n → ∃ l r : Nat, x.L[w]? = some l ∧ x.R[w]? = some r ∧ x.tour[l]? = some w ∧ x.tour[r]? = some w ∧ (∀ i : Nat, x.tour[i]? = some w → l ≤ i ∧ i ≤ r) ∧
      ∀ i v : Nat, x.tour[i]? = some v → ((l ≤ i ∧ i ≤ r) ↔ Anc P w v) := by
  obtain ⟨x, e, t⟩ := build_ok H hE L0 R0
  refine ⟨x, e, by have := t.len; omega, t.lt, t.nb, fun w hw => ?_⟩
  obtain ⟨l, r', h1, h2, s⟩ := t.span w hw
  exact ⟨l, r', h1, h2, s.left, s.right, fun i hi => (s.sub i w hi).2 Anc.refl, s.sub⟩

/-- **C75, lowest common ancestors.** Between `L[u]` and `L[v]` the tour contains the lowest common ancestor of `u` and `v`, and nothing that is not below it: so a range minimum by depth over `tour[L[u] .. L[v]]` finds it. -/
theorem C75_lca (H : Tree n r P) (hE : EdgesOf n r P E) (L0 R0 : List Nat) : ∃ x, build n E L0 R0 r = some x ∧
    ∀ u v, u < n → v < n → ∃ l l' : Nat, x.L[u]? = some l ∧ x.L[v]? = some l' ∧ ∀ c, IsLca P u v c →
      (∃ i, min l l' ≤ i ∧ i ≤ max l l' ∧ x.tour[i]? = some c) ∧ ∀ i w : Nat, min l l' ≤ i → i ≤ max l l' → x.tour[i]? = some w → Anc P c w := by
  obtain ⟨x, e, t⟩ := build_ok H hE L0 R0
  refine ⟨x, e, fun u v hu hv => ?_⟩
  obtain ⟨l, _, h1, _, _⟩ := t.span u hu
  obtain ⟨l', _, h2, _, _⟩ := t.span v hv
  refine ⟨l, l', h1, h2, fun c hc => ?_⟩
  rcases Nat.le_total l l' with h | h
  · rw [Nat.min_eq_left h, Nat.max_eq_right h]
    exact t.lca H hu hv h1 h2 h hc
  · rw [Nat.min_eq_right h, Nat.max_eq_left h]
    exact t.lca H hv hu h2 h1 h ⟨hc.2.1, hc.1, fun y a b => hc.2.2 y b a⟩

/-! Examples: the tree with the edges 0-1, 2-0, 1-3. -/

def exP : Nat → Option Nat := fun v => [none, some 0, some 0, some 1].getD v none

theorem exTree : Tree 4 0 exP := ⟨by decide, rfl, by decide, ⟨fun v => [0, 1, 1, 2].getD v 0, by
  intro v p hv h
  have : ∀ v < 4, ∀ p < 4, exP v = some p → [0, 1, 1, 2].getD p 0 < [0, 1, 1, 2].getD v 0 := by decide
  refine this v hv p ?_ h
  have hb : ∀ v < 4, (exP v).getD 0 < 4 := by decide
  have := hb v hv
  rw [h] at this
  exact this⟩⟩

theorem exEdges : EdgesOf 4 0 exP [(2, 0), (0, 1), (1, 3)] := ⟨fun v => [false, false, true, false].getD v false, by decide⟩

example := C75 exTree exEdges [9, 9, 9, 9, 9] [7]
example := C75_lca exTree exEdges [] []
example : build 4 [(2, 0), (0, 1), (1, 3)] [9, 9, 9, 9, 9] [7] 0 = some ⟨[0, 2, 0, 1, 3, 1, 0], [0, 3, 1, 4], [6, 5, 1, 4], 7⟩ := by decide +kernel
example : IsLca exP 2 3 0 := ⟨Anc.step rfl Anc.refl, Anc.step (y := 3) (z := 1) rfl (Anc.step rfl Anc.refl), fun x a b => by
  cases a with
  | refl => cases b with | step h b => cases h; cases b with | step h b => cases h; cases b with | step h b => cases h
  | step h a => cases h; exact a⟩

end Verif.Euler
