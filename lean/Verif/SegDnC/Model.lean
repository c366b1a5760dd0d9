import Verif.LazySegTree.Model
/-!
Model of `/repo/include/mtl/segment_tree_divide_and_conquer.hpp`.

A node container is a list of items of an arbitrary type `X`; `set(l, r, f)` is called with an `f` that appends one item to the
container (the documented use).  The callbacks `fn`, `upd`, `undo` of `dfs` belong to the client, so a run of `dfs` is modelled by the
sequence of callbacks it makes.  `none` = out-of-range access, or recursion deeper than the budget.
-/
namespace Verif.SegDnC
open Verif.SegLoop

variable {X : Type}

structure Tree (X : Type) where
  time : Nat
  size : Nat
  tree : List (List X)

/-- segment_tree_divide_and_conquer.hpp:14 (`bit_ceil(time)` is the least power of two `≥ time`, and 1 for 0: bit_manip.hpp:158-165). -/
def mk (time : Nat) : Tree X := ⟨time, LazySegTree.pow2 time, List.replicate (LazySegTree.pow2 time + time) []⟩

/-- The client's `set` functor on `tree_[i]`: append `x`. -/
def app (x : X) (i : Nat) (tree : List (List X)) : Option (List (List X)) :=
  (tree[i]?).bind (fun c => wr tree i (c ++ [x]))

/-- segment_tree_divide_and_conquer.hpp:16-22. -/
def set (t : Tree X) (l r : Nat) (x : X) : Option (Tree X) :=
  (canonLoop (app x) (app x) (r + t.size + 1) (l + t.size) (r + t.size) t.tree).map (fun tr => { t with tree := tr })

/-- A callback made by `dfs`. -/
inductive Ev (X : Type) where
  | upd (c : List X)
  | fn (t : Nat)
  | undo
deriving DecidableEq

/-- segment_tree_divide_and_conquer.hpp:30-41 (first argument: recursion budget). -/
def dfsAt (t : Tree X) : Nat → Nat → Option (List (Ev X))
  | 0, _ => none
  | k+1, u =>
    if t.size + t.time ≤ u then some []
    else (t.tree[u]?).bind (fun c =>
      if u < t.size then
        (dfsAt t k (u*2)).bind (fun a => (dfsAt t k (u*2+1)).map (fun b => [.upd c] ++ a ++ b ++ [.undo]))
      else some [.upd c, .fn (u - t.size), .undo])

/-- segment_tree_divide_and_conquer.hpp:24-27. -/
def dfs (t : Tree X) : Option (List (Ev X)) := dfsAt t (t.size + t.time + 1) 1

end Verif.SegDnC
