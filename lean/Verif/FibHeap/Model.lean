import Verif.Common.Vec
/-!
Model of `FibonacciHeap` (`/repo/include/mtl/fibonacci_heap.hpp`).

A node is named by its key (`map_`, line 45); `none` in `nd` is a null pointer in `map_`.  The vector `container_` never reallocates (it is reserved for `size` nodes,
line 51, and there is at most one per key), so node addresses are stable.  A circular list (`next`, `prev` with a head pointer) is the list of its nodes from the head
on: `_PushLink` (lines 178-190) inserts before the head, that is at the end, and `_PopLink` (lines 192-208) removes a node, moving the head on if it was the head; removing a
node that is not on the list is undefined.  `none` as a result = out-of-range access, failed assertion or null pointer.  `lt` is `cond_`; `int` degrees do not overflow.
-/
namespace Verif.FibHeap

/-- Lines 17-40. -/
structure Nd (α : Type) where
  child : List Nat
  par : Option Nat
  deg : Nat
  marked : Bool
  en : Bool
  val : α
deriving DecidableEq

/-- Lines 43-47. -/
structure Hp (α : Type) where
  root : Option Nat
  sz : Nat
  nd : List (Option (Nd α))
  tab : List (List Nat)
deriving DecidableEq

variable {α : Type} (lt : α → α → Bool)

/-- Lines 52-59: the loop; the first argument bounds the number of rounds. -/
def tabLoop (size : Nat) : Nat → Nat → Nat → Nat → Option Nat
  | 0, _, _, _ => none
  | f+1, a, b, k => if b < size then tabLoop size f b (a+b) (k+1) else some k

/-- Lines 50-61: the constructor. -/
def mk (size : Nat) : Option (Hp α) :=
  (tabLoop size (size+2) 1 1 2).map (fun k => ⟨none, 0, List.replicate size none, List.replicate k []⟩)

/-- Dereferencing `map_[x]`. -/
def getN (H : Hp α) (x : Nat) : Option (Nd α) := (H.nd[x]?).bind id

/-- Writing to the node `x`. -/
def setN (H : Hp α) (x : Nat) (n : Nd α) : Option (Hp α) := (wr H.nd x (some n)).map (fun nd => { H with nd := nd })

/-- Lines 63-66 (`top`). -/
def top (H : Hp α) : Option (Nat × α) :=
  H.root.bind (fun r => (getN H r).bind (fun n => if n.en then some (r, n.val) else none))

/-- Lines 68-71 (`get`). -/
def get (H : Hp α) (k : Nat) : Option (Nat × α) := (getN H k).bind (fun n => if n.en then some (k, n.val) else none)

/-- Lines 192-208 (`_PopLink`). -/
def popLink (x : Nat) (ring : List Nat) : Option (List Nat) := if x ∈ ring then some (ring.erase x) else none

/-- `_PushLink(x, &deg_table_[d])`. -/
def tabPush (H : Hp α) (d x : Nat) : Option (Hp α) :=
  (H.tab[d]?).bind (fun ring => (wr H.tab d (ring ++ [x])).map (fun tab => { H with tab := tab }))

/-- `_PopLink(x, &deg_table_[d])`. -/
def tabPop (H : Hp α) (d x : Nat) : Option (Hp α) :=
  (H.tab[d]?).bind (fun ring => (popLink x ring).bind (fun ring => (wr H.tab d ring).map (fun tab => { H with tab := tab })))

/-- Whether the root is null or less than the value `v` (lines 86, 252). -/
def beats (H : Hp α) (v : α) : Option Bool :=
  match H.root with
  | none => some true
  | some r => (getN H r).map (fun n => lt n.val v)

/-- Lines 83-88. -/
def pushNew (H : Hp α) (k : Nat) (v : α) : Option (Hp α) :=
  (setN H k ⟨[], none, 0, false, true, v⟩).bind (fun H => (tabPush H 0 k).bind (fun H => (beats lt H v).map (fun b =>
    { H with root := if b then some k else H.root, sz := H.sz + 1 })))

/-- Lines 266-272: the parent is marked, or moves to the next smaller degree if it is a root. -/
def cutPrep (H : Hp α) (p : Nat) : Option (Hp α) :=
  (getN H p).bind (fun pn => if pn.marked then none else
    match pn.par with
    | some _ => setN H p { pn with marked := true }
    | none => (tabPop H pn.deg p).bind (fun H => if pn.deg = 0 then none else tabPush H (pn.deg - 1) p))

/-- Lines 273-277. -/
def cutLink (H : Hp α) (x p : Nat) : Option (Hp α) :=
  (getN H p).bind (fun pn => (popLink x pn.child).bind (fun ch => if pn.deg = 0 then none else
    (setN H p { pn with child := ch, deg := pn.deg - 1 }).bind (fun H =>
      (getN H x).bind (fun n => (setN H x { n with par := none, marked := false }).bind (fun H => tabPush H n.deg x)))))

/-- Lines 259-278 (`_Consolidate`); the first argument bounds the depth of the recursion. -/
def consolidate : Nat → Hp α → Nat → Option (Hp α)
  | 0, _, _ => none
  | f+1, H, x => (getN H x).bind (fun n => n.par.bind (fun p => (getN H p).bind (fun pn =>
      (if pn.marked then pn.par.bind (fun _ => consolidate f H p) else some H).bind (fun H =>
        (cutPrep H p).bind (fun H => cutLink H x p)))))

/-- Line 102: the condition for `_Consolidate` in `update`. -/
def needsCut (H : Hp α) (n : Nd α) (v : α) : Option Bool :=
  match n.par with
  | none => some false
  | some p => (getN H p).map (fun pn => lt pn.val v)

/-- Lines 97-108. -/
def updateOld (H : Hp α) (k : Nat) (n : Nd α) (v : α) : Option (Hp α) :=
  if lt n.val v = false then some H else
    (setN H k { n with val := v }).bind (fun H => (needsCut lt H n v).bind (fun b =>
      (if b then consolidate H.nd.length H k else some H).bind (fun H =>
        H.root.bind (fun r => (getN H r).map (fun rn => if lt rn.val v then { H with root := some k } else H)))))

/-- Lines 74-89 and 92-109 (`push`, `update`): either calls the other one if the key is present respectively absent. -/
def push (H : Hp α) (k : Nat) (v : α) : Option (Hp α) :=
  (H.nd[k]?).bind (fun o => match o with
    | some n => if n.en then updateOld lt H k n v else pushNew lt H k v
    | none => pushNew lt H k v)

/-- Lines 221-231 (`_ExpandChildren`); the first argument bounds the number of rounds. -/
def expand : Nat → Hp α → Nat → Option (Hp α)
  | 0, _, _ => none
  | f+1, H, x => (getN H x).bind (fun n =>
      match n.child with
      | [] => if n.deg = 0 then some H else none
      | c :: cs => if n.deg = 0 then none else
          (setN H x { n with child := cs, deg := n.deg - 1 }).bind (fun H => (getN H c).bind (fun m =>
            (setN H c { m with par := none, marked := false }).bind (fun H => (tabPush H m.deg c).bind (fun H => expand f H x)))))

/-- Lines 215-218 (`_Meld`): `r` becomes a child of `l`. -/
def link (H : Hp α) (l r : Nat) : Option (Hp α) :=
  (getN H l).bind (fun ln => (setN H l { ln with child := ln.child ++ [r], deg := ln.deg + 1 }).bind (fun H =>
    (getN H r).bind (fun rn => setN H r { rn with par := some l })))

/-- Lines 210-219 (`_Meld`). -/
def meld (H : Hp α) (l r : Nat) : Option (Nat × Hp α) :=
  (getN H l).bind (fun ln => (getN H r).bind (fun rn => if ln.deg ≠ rn.deg then none else
    if lt ln.val rn.val then (link H r l).map (fun H => (r, H)) else (link H l r).map (fun H => (l, H))))

/-- Lines 243-249; the first argument bounds the number of rounds. -/
def meldLoop : Nat → Hp α → Nat → Option (Nat × Hp α)
  | 0, _, _ => none
  | f+1, H, x => (getN H x).bind (fun n => (H.tab[n.deg]?).bind (fun ring =>
      match ring with
      | [] => some (x, H)
      | u :: _ => (tabPop H n.deg u).bind (fun H => (meld lt H x u).bind (fun r =>
          (getN r.2 r.1).bind (fun m => if m.deg ≠ n.deg + 1 then none else meldLoop f r.2 r.1)))))

/-- Lines 240-250: the trees of degree `k` are melded. -/
def meldAt (H : Hp α) (k x : Nat) : Option (Hp α) :=
  (tabPop H k x).bind (fun H => (getN H x).bind (fun n => if n.deg ≠ k then none else
    (meldLoop lt (H.tab.length + 1) H x).bind (fun r => (getN r.2 r.1).bind (fun m => tabPush r.2 m.deg r.1))))

/-- Lines 233-257 (`_ExtractTop`); the first argument bounds the number of rounds; the inner loop of line 236 is merged with the outer one. -/
def extract : Nat → Hp α → Nat → Option (Hp α)
  | 0, _, _ => none
  | f+1, H, k => if H.tab.length ≤ k then some H else
      (H.tab[k]?).bind (fun ring =>
        match ring with
        | [] => extract f H (k+1)
        | [x] => (getN H x).bind (fun n => (beats lt H n.val).bind (fun b => extract f { H with root := if b then some x else H.root } (k+1)))
        | x :: _ :: _ => (meldAt lt H k x).bind (fun H => extract f H k))

/-- `free` (lines 37-39) and `--sz_`. -/
def free (H : Hp α) (x : Nat) : Option (Hp α) :=
  (getN H x).bind (fun n => (setN H x { n with en := false }).map (fun H => { H with sz := H.sz - 1 }))

/-- Lines 112-121 (`pop`). -/
def pop (H : Hp α) : Option (Hp α) :=
  H.root.bind (fun r => (getN H r).bind (fun n => (tabPop { H with root := none } n.deg r).bind (fun H =>
    (expand (n.deg + 1) H r).bind (fun H => (extract lt (H.nd.length + H.tab.length + 1) H 0).bind (fun H => free H r)))))

/-- Lines 124-138 (`erase`). -/
def erase (H : Hp α) (k : Nat) : Option (Hp α) :=
  (getN H k).bind (fun n => if n.en = false then none else
    (if n.par.isSome then consolidate H.nd.length H k else some H).bind (fun H' => (getN H' k).bind (fun n => if n.par.isSome then none else
      (tabPop H' n.deg k).bind (fun H' => (expand (n.deg + 1) H' k).bind (fun H' =>
        (if H.root = some k then extract lt (H'.nd.length + H'.tab.length + 1) H' 0 else some H').bind (fun H' => free H' k))))))

end Verif.FibHeap
