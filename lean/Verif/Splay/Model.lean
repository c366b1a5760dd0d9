import Verif.LazySegTree.Model
/-!
Model of `/repo/include/mtl/splay_tree.hpp` together with the `propagate` and `aggregate` of its two users,
`LinkCutTree` (`link_cut_tree.hpp`) and `SplayTreeList` (`splay_tree_list.hpp`).

Nodes live in a list and are named by their index; `shared_ptr` and `weak_ptr` are `Option Nat` (`none` = null or expired).
Neither user reaches a node through a weak pointer after its last shared pointer has gone, so expiry by deletion does not occur.
`none` as a result = null dereference, thrown exception, or the loop budget is used up (`fuel`; the theorems hold for every large enough fuel).
The operator type is given by `Acts` (`a *= b` is `comp b a`, the right operand acts later; see `Verif/LazySegTree/Model.lean`).
-/
namespace Verif.Splay
open Verif Verif.LazySegTree

variable {M A : Type} [Mul M]

/-- The fields of a node besides the pointers (splay_tree.hpp:12; link_cut_tree.hpp:55-56; splay_tree_list.hpp:7-9).  Only the list has `sum`. -/
structure Dat (M A : Type) where
  rev : Bool
  m : M
  prod : M
  rprod : M
  f : A
  sum : Nat
deriving DecidableEq

structure Node (M A : Type) where
  l : Option Nat
  r : Option Nat
  p : Option Nat
  d : Dat M A
deriving DecidableEq

abbrev Heap (M A : Type) := List (Node M A)

/-- Change the node `i`. -/
def modN (h : Heap M A) (i : Nat) (F : Node M A → Node M A) : Option (Heap M A) := (h[i]?).bind (fun x => wr h i (F x))

/-- `if (c) change *c`. -/
def modO (h : Heap M A) (c : Option Nat) (F : Node M A → Node M A) : Option (Heap M A) :=
  match c with
  | none => some h
  | some i => modN h i F

/-- The left (`true`) or right child. -/
def Node.c (b : Bool) (x : Node M A) : Option Nat := if b then x.l else x.r

def Node.setC (b : Bool) (c : Option Nat) (x : Node M A) : Node M A := if b then { x with l := c } else { x with r := c }

/-- splay_tree.hpp:13-15 (`is_root`). -/
def isRoot (h : Heap M A) (u : Nat) : Option Bool :=
  (h[u]?).bind (fun x => match x.p with
    | none => some true
    | some q => (h[q]?).map (fun y => decide (y.l ≠ some u) && decide (y.r ≠ some u)))

/-- splay_tree.hpp:40-45 (and 55-60): `if (q) { if (q->l == p) q->l = u; else if (q->r == p) q->r = u; }`. -/
def relink (q : Option Nat) (p u : Nat) (h : Heap M A) : Option (Heap M A) :=
  modO h q (fun x => if x.l = some p then { x with l := some u } else if x.r = some p then { x with r := some u } else x)

/-- splay_tree.hpp:32-46 (`rotate_left`, `b = false`) and 47-61 (`rotate_right`, `b = true`), which are mirror images. -/
def rotate (b : Bool) (u : Nat) (h : Heap M A) : Option (Heap M A) :=
  (h[u]?).bind (fun x => x.p.bind (fun p => (h[p]?).bind (fun y =>
    (modN h p (Node.setC b (x.c (!b)))).bind (fun h =>
      (modO h (x.c (!b)) (fun z => { z with p := some p })).bind (fun h =>
        (modN h u (Node.setC (!b) (some p))).bind (fun h =>
          (modN h p (fun z => { z with p := some u })).bind (fun h =>
            (modN h u (fun z => { z with p := y.p })).bind (fun h => relink y.p p u h))))))))

/-- The child pointer `c` of `u` if it counts as a child: `u->l and u->l->p.lock() == u` in the link-cut tree
(link_cut_tree.hpp:89-90, 120, 124), `u->l` in the list (splay_tree_list.hpp:64, 70, 78, 82, 94, 99). -/
def kid (lct : Bool) (h : Heap M A) (u : Nat) (c : Option Nat) : Option (Option Nat) :=
  match c with
  | none => some none
  | some i => if lct then (h[i]?).map (fun x => if x.p = some u then some i else none) else some (some i)

/-- link_cut_tree.hpp:92-95, 98-101; splay_tree_list.hpp:65-68, 71-74. -/
def actD (S : Acts M A) (f : A) (d : Dat M A) : Dat M A :=
  { d with m := S.act f d.m, prod := S.act f d.prod, rprod := S.act f d.rprod, f := S.comp f d.f }

/-- `rev ^= true; reverse_prod` (link_cut_tree.hpp:85-87, 106-107; splay_tree_list.hpp:60-62, 79-80). -/
def flipD (d : Dat M A) : Dat M A := { d with rev := !d.rev, prod := d.rprod, rprod := d.prod }

/-- link_cut_tree.hpp:103-114; splay_tree_list.hpp:76-87: the reversal, for the children `cl`, `cr` counted before the swap. -/
def pushRev (u : Nat) (rev : Bool) (cl cr : Option Nat) (h : Heap M A) : Option (Heap M A) :=
  if rev then
    (modN h u (fun x => { x with l := x.r, r := x.l })).bind (fun h =>
      (modO h cr (fun x => { x with d := flipD x.d })).bind (fun h =>
        (modO h cl (fun x => { x with d := flipD x.d })).bind (fun h =>
          modN h u (fun x => { x with d := { x.d with rev := false } }))))
  else some h

/-- link_cut_tree.hpp:88-116 and splay_tree_list.hpp:63-89 (`propagate`).  The fields of `u` are read once at the start. -/
def propagate (S : Acts M A) (lct : Bool) (u : Nat) (h : Heap M A) : Option (Heap M A) :=
  (h[u]?).bind (fun x => (kid lct h u x.l).bind (fun cl => (kid lct h u x.r).bind (fun cr =>
    (modO h cl (fun y => { y with d := actD S x.d.f y.d })).bind (fun h =>
      (modO h cr (fun y => { y with d := actD S x.d.f y.d })).bind (fun h =>
        (pushRev u x.d.rev cl cr h).bind (fun h =>
          modN h u (fun x => { x with d := { x.d with f := S.ida } })))))))

/-- The effect of the left child on the aggregates (link_cut_tree.hpp:120-123; splay_tree_list.hpp:94-98). -/
def addL (lct : Bool) (d : Dat M A) (c : Option (Node M A)) : Dat M A :=
  match c with
  | none => d
  | some y => { d with prod := y.d.prod * d.prod, rprod := d.rprod * y.d.rprod, sum := if lct then d.sum else d.sum + y.d.sum }

/-- The effect of the right child (link_cut_tree.hpp:124-127; splay_tree_list.hpp:99-103). -/
def addR (lct : Bool) (d : Dat M A) (c : Option (Node M A)) : Dat M A :=
  match c with
  | none => d
  | some y => { d with prod := d.prod * y.d.prod, rprod := y.d.rprod * d.rprod, sum := if lct then d.sum else d.sum + y.d.sum }

/-- Read `*c` if `c` is not null. -/
def getO (h : Heap M A) (c : Option Nat) : Option (Option (Node M A)) :=
  match c with
  | none => some none
  | some i => (h[i]?).map some

/-- link_cut_tree.hpp:117-128; splay_tree_list.hpp:90-104 (`aggregate`). -/
def aggregate (lct : Bool) (u : Nat) (h : Heap M A) : Option (Heap M A) :=
  (h[u]?).bind (fun x => (kid lct h u x.l).bind (fun cl => (kid lct h u x.r).bind (fun cr => (getO h cl).bind (fun yl => (getO h cr).bind (fun yr =>
    modN h u (fun x => { x with d := addR lct (addL lct { x.d with prod := x.d.m, rprod := x.d.m, sum := if lct then x.d.sum else 1 } yl) yr }))))))

/-- On which side of `p` is `u`: `p->l == u`, `p->r == u`, neither. -/
def side (h : Heap M A) (p u : Nat) : Option (Option Bool) :=
  (h[p]?).map (fun x => if x.l = some u then some true else if x.r = some u then some false else none)

/-- splay_tree.hpp:75-84. -/
def zig (S : Acts M A) (lct : Bool) (u p : Nat) (h : Heap M A) : Option (Heap M A) :=
  (propagate S lct p h).bind (fun h => (propagate S lct u h).bind (fun h => (side h p u).bind (fun b => b.bind (fun b =>
    (rotate b u h).bind (fun h => (aggregate lct p h).bind (fun h => aggregate lct u h))))))

/-- splay_tree.hpp:90-114 below the tests: `bq` is the side of `p` at `q`, `bp` that of `u` at `p`. -/
def turn (lct : Bool) (u p q : Nat) (bq bp : Bool) (h : Heap M A) : Option (Heap M A) :=
  if bp = bq then (rotate bq p h).bind (fun h => (rotate bq u h).bind (fun h => (aggregate lct q h).bind (fun h => aggregate lct p h)))
  else (rotate bp u h).bind (fun h => (rotate bq u h).bind (fun h => (aggregate lct p h).bind (fun h => aggregate lct q h)))

/-- splay_tree.hpp:85-115.  If `p` is on neither side of `q` no rotation happens (there is no `else` at line 114). -/
def zigzig (S : Acts M A) (lct : Bool) (u p q : Nat) (h : Heap M A) : Option (Heap M A) :=
  (propagate S lct q h).bind (fun h => (propagate S lct p h).bind (fun h => (propagate S lct u h).bind (fun h =>
    (side h q p).bind (fun bq => (match bq with
      | none => some h
      | some bq => (side h p u).bind (fun bp => bp.bind (fun bp => turn lct u p q bq bp h))).bind (fun h => aggregate lct u h)))))

/-- splay_tree.hpp:72-116: one round of the loop. -/
def round (S : Acts M A) (lct : Bool) (u : Nat) (h : Heap M A) : Option (Heap M A) :=
  (h[u]?).bind (fun x => x.p.bind (fun p => (isRoot h p).bind (fun b =>
    if b then zig S lct u p h
    else (h[p]?).bind (fun y => y.p.bind (fun q => zigzig S lct u p q h)))))

/-- splay_tree.hpp:71-117. -/
def loop (S : Acts M A) (lct : Bool) (u : Nat) : Nat → Heap M A → Option (Heap M A)
  | 0, _ => none
  | f+1, h => (round S lct u h).bind (fun h => (isRoot h u).bind (fun b => if b then some h else loop S lct u f h))

/-- splay_tree.hpp:65-118 (`splay`). -/
def splay (S : Acts M A) (lct : Bool) (fuel : Nat) (u : Nat) (h : Heap M A) : Option (Heap M A) :=
  (isRoot h u).bind (fun b => if b then (propagate S lct u h).bind (fun h => aggregate lct u h) else loop S lct u fuel h)

end Verif.Splay
