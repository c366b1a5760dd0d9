import Mathlib.Algebra.BigOperators.Group.List.Basic
/-! Specification of the Fenwick tree: a plain list of values. -/
namespace Verif.Fenwick
variable {T : Type} [AddCommMonoid T]

/-- Add `x` at index `i` of a plain list (indices past the end change nothing). -/
def specAdd : List T → Nat → T → List T
  | [], _, _ => []
  | v :: vs, 0, x => (v + x) :: vs
  | v :: vs, i+1, x => v :: specAdd vs i x

/-- A history of additions on a plain list. -/
def specAddAll (vs : List T) (ops : List (Nat × T)) : List T :=
  ops.foldl (fun vs op => specAdd vs op.1 op.2) vs

/-- Sum of the first `k` values. -/
def prefixSum (vs : List T) (k : Nat) : T := (vs.take k).sum

/-- Sum of the values at `l, ..., r-1`. -/
def segSum (vs : List T) (l r : Nat) : T := ((vs.take r).drop l).sum

end Verif.Fenwick
