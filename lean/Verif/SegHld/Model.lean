import Verif.Common.Vec
import Mathlib.Algebra.Group.Defs
/-!
Model of `/repo/include/mtl/segment_hld.hpp` (`SegmentHldBase`, `SegmentHld`, `LazySegmentHld`).

The node weights (lines 18-25: `size[u]` minus the size of the heavy child) are given as a list of natural numbers; overflow of `long long`/`int` is ignored.
An index `-1` is `none`.  `M` is any type with a default value (`1`) and `*`; the operator type is given by its default value, composition
(`a *= b` is `comp b a`), action and the test `a()` (line 182).  The plain class has no operator field: it is the case `A = Unit`.
`none` = out-of-range access, failing `assert` or a loop not stopping within its fuel.
-/
namespace Verif.SegHld

/-- The shape part of a node: `l, r, p, lc, rc` (line 76). -/
structure Shp where
  l : Nat
  r : Nat
  p : Option Nat
  lc : Option Nat
  rc : Option Nat
deriving DecidableEq

/-- A node (lines 73-88, 155-159). -/
structure Node (M A : Type) where
  s : Shp
  m : M
  rm : M
  a : A
deriving DecidableEq

/-- The operator type. -/
structure Acts (M A : Type) where
  ida : A
  comp : A → A → A
  act : A → M → M
  nontriv : A → Bool

/-- The object: `n_`, `tree_`, `target_` (lines 12-14). -/
structure Obj (M A : Type) where
  n : Nat
  tree : List (Node M A)
  target : List Nat
deriving DecidableEq

variable {M A : Type} [One M] [Mul M]

/-- Lines 17-24: `cw`. -/
def prefixSums : Nat → List Nat → List Nat
  | s, [] => [s]
  | s, w :: ws => s :: prefixSums (s + w) ws

/-- `std::upper_bound` on the nondecreasing range `cw[l..r)`: the first entry greater than `x`. -/
def upper (cw : List Nat) (x : Nat) : Nat → Nat → Option Nat
  | l, 0 => some l
  | l, n+1 => (cw[l]?).bind (fun c => if x < c then some l else upper cw x (l+1) n)

/-- Lines 36-40: the index `m`. -/
def splitPt (cw : List Nat) (l r : Nat) : Option Nat :=
  (cw[l]?).bind (fun a => (cw[r]?).bind (fun b => (upper cw ((b + a + 1)/2) l (r - l)).bind (fun mid =>
    if mid = l then none else
      (cw[mid-1]?).bind (fun x => (cw[mid]?).map (fun y => if x - a > b - y then mid - 1 else mid)))))

/-- A fresh node (default values) with range and parent. -/
def mk (S : Acts M A) (l r p : Nat) : Node M A := ⟨⟨l, r, some p, none, none⟩, 1, 1, S.ida⟩

/-- Lines 41-47 -/
def addLeft (S : Acts M A) (i l m : Nat) (tree : List (Node M A)) : Option (List (Node M A)) :=
  if l < m then (tree[i]?).bind (fun nd => (wr tree i { nd with s := { nd.s with lc := some tree.length } }).map (fun t => t ++ [mk S l m i])) else some tree

/-- Lines 48-54 -/
def addRight (S : Acts M A) (i m r : Nat) (tree : List (Node M A)) : Option (List (Node M A)) :=
  if m < r then (tree[i]?).bind (fun nd => (wr tree i { nd with s := { nd.s with rc := some tree.length } }).map (fun t => t ++ [mk S m r i])) else some tree

/-- Lines 29-55: one round of the construction loop. -/
def buildStep (S : Acts M A) (cw : List Nat) (i : Nat) (st : List (Node M A) × List Nat) : Option (List (Node M A) × List Nat) :=
  (st.1[i]?).bind (fun nd =>
    if nd.s.r - nd.s.l = 1 then (wr st.2 nd.s.l i).map (fun tg => (st.1, tg))
    else (splitPt cw nd.s.l nd.s.r).bind (fun m => (addLeft S i nd.s.l m st.1).bind (fun t1 => (addRight S i m nd.s.r t1).map (fun t2 => (t2, st.2)))))

/-- Lines 29-55: the loop runs while `i < tree_.size()`. -/
def buildLoop (S : Acts M A) (cw : List Nat) : Nat → Nat → List (Node M A) × List Nat → Option (List (Node M A) × List Nat)
  | 0, i, st => if i < st.1.length then none else some st
  | n+1, i, st => if i < st.1.length then (buildStep S cw i st).bind (buildLoop S cw n (i+1)) else some st

/-- Lines 16-56: the constructor from the tree. -/
def build (S : Acts M A) (ws : List Nat) : Option (Obj M A) :=
  (buildLoop S (prefixSums 0 ws) (2 * ws.length) 0 ([⟨⟨0, ws.length, none, none, none⟩, 1, 1, S.ida⟩], List.replicate ws.length 0)).map (fun st => ⟨ws.length, st.1, st.2⟩)

/-- Lines 81-83 (`set`) -/
def Node.set (nd : Node M A) (x : M) : Node M A := { nd with m := x, rm := x }

/-- Lines 84-87 (`take`) -/
def Node.take (nd lhs rhs : Node M A) : Node M A := { nd with m := lhs.m * rhs.m, rm := rhs.rm * lhs.rm }

/-- `tree_[u].take(tree_[lc], tree_[rc])` -/
def takeAt (u : Nat) (tree : List (Node M A)) : Option (List (Node M A)) :=
  (tree[u]?).bind (fun nd => nd.s.lc.bind (fun lc => nd.s.rc.bind (fun rc => (tree[lc]?).bind (fun x => (tree[rc]?).bind (fun y => wr tree u (nd.take x y))))))

/-- `tree_[i].set(x)` -/
def setAt (i : Nat) (x : M) (tree : List (Node M A)) : Option (List (Node M A)) := (tree[i]?).bind (fun nd => wr tree i (nd.set x))

/-- Lines 63-65: one round. -/
def fillStep (tg : List Nat) (xs : List M) (i : Nat) (tree : List (Node M A)) : Option (List (Node M A)) :=
  (xs[i]?).bind (fun x => (tg[i]?).bind (fun u => setAt u x tree))

/-- Lines 66-69: one round. -/
def pullStep (i : Nat) (tree : List (Node M A)) : Option (List (Node M A)) :=
  (tree[i]?).bind (fun nd => if nd.s.r - nd.s.l = 1 then some tree else takeAt i tree)

/-- Lines 57-70: the constructor with values. -/
def ofRange (S : Acts M A) (ws : List Nat) (xs : List M) : Option (Obj M A) :=
  (build S ws).bind (fun o => (forRange 0 xs.length (fillStep o.target xs) o.tree).bind (fun t1 =>
    (forRangeDown 0 t1.length pullStep t1).map (fun t2 => ⟨o.n, t2, o.target⟩)))

/-! ### `SegmentHld` -/

/-- Lines 109-114 (`get`, `get_reversed`) -/
def get (o : Obj M A) (i : Nat) : Option M := (o.target[i]?).bind (fun u => (o.tree[u]?).map Node.m)
def getRev (o : Obj M A) (i : Nat) : Option M := (o.target[i]?).bind (fun u => (o.tree[u]?).map Node.rm)

/-- Lines 119-124: the climb. -/
def climb : Nat → Option Nat → List (Node M A) → Option (List (Node M A))
  | _, none, tree => some tree
  | 0, some _, _ => none
  | n+1, some i, tree => (takeAt i tree).bind (fun t => (t[i]?).bind (fun nd => climb n nd.s.p t))

/-- Lines 115-125 (`set`) -/
def set (o : Obj M A) (i : Nat) (x : M) : Option (Obj M A) :=
  (o.target[i]?).bind (fun u => (setAt u x o.tree).bind (fun t => (t[u]?).bind (fun nd => (climb o.tree.length nd.s.p t).map (fun t' => { o with tree := t' }))))

/-- Lines 133-151 (`_query<0>`, `_query<1>`) -/
def queryRec (rev : Bool) (l r : Nat) (tree : List (Node M A)) : Nat → Option Nat → Option M
  | _, none => some 1
  | 0, some _ => none
  | n+1, some u => (tree[u]?).bind (fun nd =>
      if nd.s.r ≤ l ∨ r ≤ nd.s.l then some 1
      else if l ≤ nd.s.l ∧ nd.s.r ≤ r then some (if rev then nd.rm else nd.m)
      else if rev then (queryRec rev l r tree n nd.s.rc).bind (fun x => (queryRec rev l r tree n nd.s.lc).map (fun y => x * y))
      else (queryRec rev l r tree n nd.s.lc).bind (fun x => (queryRec rev l r tree n nd.s.rc).map (fun y => x * y)))

/-- Lines 126-131 (`query`, `reverse_query`) -/
def query (o : Obj M A) (rev : Bool) (l r : Nat) : Option M := queryRec rev l r o.tree o.tree.length (some 0)

/-! ### `LazySegmentHld` -/

/-- `tree_[c].a *= a` -/
def compAt (S : Acts M A) (c : Option Nat) (a : A) (tree : List (Node M A)) : Option (List (Node M A)) :=
  c.bind (fun c => (tree[c]?).bind (fun nd => wr tree c { nd with a := S.comp a nd.a }))

/-- Lines 185-188 -/
def pushKids (S : Acts M A) (s : Shp) (a : A) (tree : List (Node M A)) : Option (List (Node M A)) :=
  if s.r - s.l > 1 then (compAt S s.lc a tree).bind (compAt S s.rc a) else some tree

/-- Line 189: `n.a = A()` -/
def resetAt (S : Acts M A) (u : Nat) (tree : List (Node M A)) : Option (List (Node M A)) :=
  (tree[u]?).bind (fun nd => wr tree u { nd with a := S.ida })

/-- Lines 179-190 (`_propagate`); the children are different nodes, so the reference `a` keeps its value. -/
def propagate (S : Acts M A) (u : Nat) (tree : List (Node M A)) : Option (List (Node M A)) :=
  (tree[u]?).bind (fun nd => if S.nontriv nd.a then
      (wr tree u { nd with m := S.act nd.a nd.m, rm := S.act nd.a nd.rm }).bind (fun t1 => (pushKids S nd.s nd.a t1).bind (resetAt S u))
    else some tree)

/-- Lines 194-201: the node and its ancestors. -/
def idsFrom (tree : List (Node M A)) : Nat → Nat → Option (List Nat)
  | 0, _ => none
  | n+1, u => (tree[u]?).bind (fun nd => match nd.s.p with
      | none => some [u]
      | some q => (idsFrom tree n q).map (fun l => u :: l))

/-- Lines 202-204: in the order of `l`. -/
def propAll (S : Acts M A) : List Nat → List (Node M A) → Option (List (Node M A))
  | [], tree => some tree
  | u :: l, tree => (propagate S u tree).bind (propAll S l)

/-- Lines 206-212: `prev` is `ids[i-1]`. -/
def fixUp (S : Acts M A) : Nat → List Nat → List (Node M A) → Option (List (Node M A))
  | _, [], tree => some tree
  | prev, u :: l, tree => (tree[u]?).bind (fun nd => nd.s.lc.bind (fun lc => nd.s.rc.bind (fun rc =>
      (propagate S (lc ^^^ rc ^^^ prev) tree).bind (fun t1 => (takeAt u t1).bind (fixUp S u l)))))

/-- Lines 192-213 (`set`) -/
def lset (S : Acts M A) (o : Obj M A) (i : Nat) (x : M) : Option (Obj M A) :=
  (o.target[i]?).bind (fun u => (idsFrom o.tree o.tree.length u).bind (fun ids => (propAll S ids.reverse o.tree).bind (fun t1 =>
    (setAt u x t1).bind (fun t2 => (fixUp S u ids.tail t2).map (fun t3 => { o with tree := t3 })))))

/-- Lines 221-240 (`_query<0>`, `_query<1>`); the factors are evaluated from left to right. -/
def lqueryRec (S : Acts M A) (rev : Bool) (l r : Nat) : Nat → Option Nat → List (Node M A) → Option (List (Node M A) × M)
  | _, none, tree => some (tree, 1)
  | 0, some _, _ => none
  | n+1, some u, tree => (tree[u]?).bind (fun nd =>
      if nd.s.r ≤ l ∨ r ≤ nd.s.l then some (tree, 1)
      else (propagate S u tree).bind (fun t => (t[u]?).bind (fun nd' =>
        if l ≤ nd.s.l ∧ nd.s.r ≤ r then some (t, if rev then nd'.rm else nd'.m)
        else if rev then (lqueryRec S rev l r n nd'.s.rc t).bind (fun x => (lqueryRec S rev l r n nd'.s.lc x.1).map (fun y => (y.1, x.2 * y.2)))
        else (lqueryRec S rev l r n nd'.s.lc t).bind (fun x => (lqueryRec S rev l r n nd'.s.rc x.1).map (fun y => (y.1, x.2 * y.2))))))

/-- Lines 214-219 (`query`, `reverse_query`) -/
def lquery (S : Acts M A) (o : Obj M A) (rev : Bool) (l r : Nat) : Option (Obj M A × M) :=
  (lqueryRec S rev l r o.tree.length (some 0) o.tree).map (fun q => ({ o with tree := q.1 }, q.2))

/-- Lines 247-266 (`_update`) -/
def updateRec (S : Acts M A) (l r : Nat) (v : A) : Nat → Option Nat → List (Node M A) → Option (List (Node M A))
  | _, none, tree => some tree
  | 0, some _, _ => none
  | n+1, some u, tree => (tree[u]?).bind (fun nd =>
      if nd.s.r ≤ l ∨ r ≤ nd.s.l then propagate S u tree
      else if l ≤ nd.s.l ∧ nd.s.r ≤ r then (compAt S (some u) v tree).bind (propagate S u)
      else (propagate S u tree).bind (fun t =>
        if nd.s.r - nd.s.l > 1 then (updateRec S l r v n nd.s.lc t).bind (fun t1 => (updateRec S l r v n nd.s.rc t1).bind (takeAt u)) else some t))

/-- Lines 242-245 (`update`) -/
def lupdate (S : Acts M A) (o : Obj M A) (l r : Nat) (v : A) : Option (Obj M A) :=
  (updateRec S l r v o.tree.length (some 0) o.tree).map (fun t => { o with tree := t })

end Verif.SegHld
