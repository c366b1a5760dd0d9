import Verif.Common.SegLoop
import Verif.Common.Vec
import Mathlib.Algebra.Group.Defs
/-!
Model of `/repo/include/mtl/dual_segment_tree.hpp` (class `DualSegmentTree<M>`).

`M` is any type with a default value (`1`, the default constructor) and `*` (`a *= b` is `a = a * b`).
`ids_` is a scratch buffer rebuilt by every call of `_set_ids`, so it is not part of the state.
`none` = out-of-range access or failing `assert`.
The iterators are in `Iter.lean`.  Not modelled: `max_right`/`min_left` (112-207), which do not compile when instantiated
(they use `tree_[i].first` although `tree_` holds plain `M`).
-/
namespace Verif.DualSegTree
open Verif.SegLoop

variable {M : Type} [One M] [Mul M]

structure Tree (M : Type) where
  size : Nat
  tree : List M
deriving DecidableEq

/-- dual_segment_tree.hpp:37-41. -/
def ofSize (n : Nat) : Tree M := ⟨n, List.replicate (n*2) 1⟩

/-- dual_segment_tree.hpp:43-48 (the copy fills the second half of the array). -/
def ofRange (xs : List M) : Tree M := ⟨xs.length, List.replicate xs.length 1 ++ xs⟩

/-- `tree_[i] *= e`. -/
def mulAt (tree : List M) (i : Nat) (e : M) : Option (List M) :=
  (tree[i]?).bind (fun x => wr tree i (x * e))

/-- dual_segment_tree.hpp:97-103 (`_propagate`). -/
def propagate (n : Nat) (id : Nat) (tree : List M) : Option (List M) :=
  if n ≤ id then some tree else
    (tree[id]?).bind (fun e =>
      (wr tree id 1).bind (fun t1 =>
        (mulAt t1 (id*2) e).bind (fun t2 => mulAt t2 (id*2+1) e)))

/-- dual_segment_tree.hpp:105-110 (`_lazy_propagation`; `ids_` is walked backwards). -/
def lazyProp (t : Tree M) (l r : Nat) : Option (List M) :=
  if l = r then some t.tree else each (propagate t.size) (setIds (l + t.size) (r + t.size)).reverse t.tree

/-- dual_segment_tree.hpp:50-65. -/
def update (t : Tree M) (l r : Nat) (e : M) : Option (Tree M) :=
  if l ≤ r ∧ r ≤ t.size then
    if l = r then some t else
      (lazyProp t l r).bind (fun t1 =>
        (canonLoop (fun i tr => mulAt tr i e) (fun i tr => mulAt tr i e) (r + t.size + 1) (l + t.size) (r + t.size) t1).map
          (fun t2 => ⟨t.size, t2⟩))
  else none

/-- dual_segment_tree.hpp:70-74. -/
def set (t : Tree M) (index : Nat) (e : M) : Option (Tree M) :=
  if index < t.size then
    (lazyProp t index (index+1)).bind (fun t1 => (wr t1 (t.size + index) e).map (fun t2 => ⟨t.size, t2⟩))
  else none

/-- dual_segment_tree.hpp:76-80; the call rearranges the tree, so the new tree is returned as well. -/
def get (t : Tree M) (index : Nat) : Option (Tree M × M) :=
  if index < t.size then
    (lazyProp t index (index+1)).bind (fun t1 => (t1[t.size + index]?).map (fun x => (⟨t.size, t1⟩, x)))
  else none

end Verif.DualSegTree
