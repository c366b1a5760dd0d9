import Verif.SegTree.Model
import Verif.Common.Vec
/-!
Model of `/repo/include/mtl/segment_tree_2d.hpp` (class `SegmentTree2D<M>`) on the segment tree of `Verif/SegTree`.

`int` arguments and indices are naturals (negative arguments fail the assertions; sizes are assumed to stay below `2^30`, so that `n*2` fits an `int`). `M lhs, rhs` is the default value, taken to be the identity.
`none` = failed assertion, out-of-range access, or a loop not stopping within its round budget.
-/
namespace Verif.Seg2D
open Verif.SegTree

variable {M : Type} [One M] [Mul M]

/-- Lines 13-14. -/
structure T2 (M : Type) where
  n : Nat
  m : Nat
  tb : List (Tree M)

/-- Line 16. -/
def ofSize (n m : Nat) : T2 M := ⟨n, m, List.replicate (n*2) (SegTree.ofSize m)⟩

/-- `tb_[x].set(j, val)`. -/
def setAt (tb : List (Tree M)) (x j : Nat) (val : M) : Option (List (Tree M)) :=
  (tb[x]?).bind (fun t => (SegTree.set t j val).bind (fun t => wr tb x t))

/-- `tb_[x][j]`. -/
def getAt (tb : List (Tree M)) (x j : Nat) : Option M := (tb[x]?).bind (fun t => SegTree.get t j)

/-- Lines 22-25. -/
def setLoop (j : Nat) : Nat → List (Tree M) → Nat → Option (List (Tree M))
  | 0, _, _ => none
  | k+1, tb, x => if x > 0 then (getAt tb (x*2) j).bind (fun a => (getAt tb (x*2+1) j).bind (fun b => (setAt tb x j (a * b)).bind (fun tb => setLoop j k tb (x / 2)))) else some tb

/-- Lines 17-26 (`set`). -/
def set (t : T2 M) (i j : Nat) (val : M) : Option (T2 M) :=
  if i < t.n ∧ j < t.m then (setAt t.tb (t.n + i) j val).bind (fun tb => (setLoop j (t.n + i + 1) tb ((t.n + i) / 2)).map (fun tb => ⟨t.n, t.m, tb⟩)) else none

/-- `tb_[x].query(cl,cr)`. -/
def rowAt (tb : List (Tree M)) (cl cr x : Nat) : Option M := (tb[x]?).bind (fun t => SegTree.query t cl cr)

/-- Line 32. -/
def takeL (tb : List (Tree M)) (cl cr : Nat) (lhs : M) (l : Nat) : Option (M × Nat) :=
  if l % 2 = 1 then (rowAt tb cl cr l).bind (fun x => some (lhs * x, l + 1)) else some (lhs, l)

/-- Line 33. -/
def takeR (tb : List (Tree M)) (cl cr : Nat) (rhs : M) (r : Nat) : Option (M × Nat) :=
  if r % 2 = 1 then (rowAt tb cl cr (r-1)).bind (fun x => some (x * rhs, r - 1)) else some (rhs, r)

/-- Lines 31-34. -/
def queryLoop (tb : List (Tree M)) (cl cr : Nat) : Nat → M → M → Nat → Nat → Option M
  | 0, _, _, _, _ => none
  | k+1, lhs, rhs, l, r =>
    if l < r then (takeL tb cl cr lhs l).bind (fun a => (takeR tb cl cr rhs r).bind (fun b => queryLoop tb cl cr k a.1 b.1 (a.2 / 2) (b.2 / 2)))
    else some (lhs * rhs)

/-- Lines 27-36 (`query`). -/
def query (t : T2 M) (rl cl rr cr : Nat) : Option M :=
  if rl ≤ t.n ∧ rr ≤ t.n ∧ cl ≤ t.m ∧ cr ≤ t.m then queryLoop t.tb cl cr (rr + t.n + 1) 1 1 (rl + t.n) (rr + t.n) else none

/-- A history of `set`. -/
def setAll : T2 M → List (Nat × Nat × M) → Option (T2 M)
  | t, [] => some t
  | t, op :: ops => (set t op.1 op.2.1 op.2.2).bind (fun t => setAll t ops)

end Verif.Seg2D
