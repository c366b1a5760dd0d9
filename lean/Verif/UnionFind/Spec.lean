import Verif.UnionFind.Model
/-! Specification of union-find, independent of the parent forest. -/
namespace Verif.UnionFind

/-- Smallest equivalence relation containing the pairs. -/
inductive Connected (ps : List (Nat × Nat)) : Nat → Nat → Prop where
  | pair {u v} : (u, v) ∈ ps → Connected ps u v
  | refl (u) : Connected ps u u
  | symm {u v} : Connected ps u v → Connected ps v u
  | trans {u v w} : Connected ps u v → Connected ps v w → Connected ps u w

/-- `l` enumerates, without repetition, the indices below `n` connected to `u`. -/
def Enumerates (n : Nat) (ps : List (Nat × Nat)) (u : Nat) (l : List Nat) : Prop :=
  l.Nodup ∧ ∀ w, w ∈ l ↔ w < n ∧ Connected ps u w

/-- Arguments of a call are valid indices. -/
def Op.Valid (n : Nat) : Op → Prop
  | .unite u v => u < n ∧ v < n
  | .areUnion u v => u < n ∧ v < n
  | .sizeOf u => u < n
  | .root u => u < n

/-- The pairs that were passed to `unite` in a history. -/
def united : List Op → List (Nat × Nat)
  | [] => []
  | .unite u v :: ops => (u, v) :: united ops
  | _ :: ops => united ops

end Verif.UnionFind
