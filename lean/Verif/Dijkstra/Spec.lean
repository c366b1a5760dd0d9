import Mathlib.Data.Nat.Notation
/-!
Shortest distances in a weighted directed graph given by its edge list.
-/
namespace Verif.Dijkstra

/-- `x` is the weight of a walk from `s` to `v`. -/
inductive Walk (E : List (Nat × Nat × Int)) (s : Nat) : Nat → Int → Prop where
  | nil : Walk E s s 0
  | snoc {u v : Nat} {x w : Int} (h : Walk E s u x) (he : (u, v, w) ∈ E) : Walk E s v (x + w)

/-- `x` is the least weight of a walk from `s` to `v` if there is one below `inf`, and `inf` otherwise. -/
def IsDist (E : List (Nat × Nat × Int)) (s : Nat) (inf : Int) (v : Nat) (x : Int) : Prop :=
  (x < inf ∧ Walk E s v x ∧ ∀ y, Walk E s v y → x ≤ y) ∨ (x = inf ∧ ∀ y, Walk E s v y → inf ≤ y)

end Verif.Dijkstra
