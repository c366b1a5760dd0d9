import Verif.Splay.Model
/-!
Model of `/repo/include/mtl/splay_tree_list.hpp` on top of `Verif/Splay/Model.lean`.

A list is a heap of nodes and the root pointer.  Freshly made nodes are appended to the heap; a node dropped by `erase` stays there unused
(nothing points to it any more).  Failed assertions are `none`.  Every operation takes a budget `fuel` for its loops.
-/
namespace Verif.SplayList
open Verif Verif.LazySegTree Verif.Splay

variable {M A : Type} [Mul M]

abbrev Lst (M A : Type) := Heap M A × Option Nat

/-- Lines 12-13. -/
def fresh (S : Acts M A) (x : M) : Node M A := ⟨none, none, none, ⟨false, x, x, x, S.ida, 1⟩⟩

/-- Lines 28-40 (`_dfs_init`), with the range as a list (multi-pass iterators). -/
def dfsInit (S : Acts M A) : Nat → List M → Heap M A → Option (Heap M A × Option Nat)
  | 0, _, _ => none
  | f+1, xs, h =>
    match xs[xs.length / 2]? with
    | none => some (h, none)
    | some x =>
      (dfsInit S f (xs.take (xs.length / 2)) (h ++ [fresh S x])).bind (fun a =>
        (modN a.1 h.length (fun y => { y with l := a.2 })).bind (fun h1 => (modO h1 a.2 (fun y => { y with p := some h.length })).bind (fun h1 =>
          (dfsInit S f (xs.drop (xs.length / 2 + 1)) h1).bind (fun b =>
            (modN b.1 h.length (fun y => { y with r := b.2 })).bind (fun h2 => (modO h2 b.2 (fun y => { y with p := some h.length })).bind (fun h2 =>
              (aggregate false h.length h2).map (fun h3 => (h3, some h.length))))))))

/-- Lines 41-46 for multi-pass iterators.  (`is_base_of` at line 45 has its arguments swapped, so that the branch at 47-58 is never taken by the standard iterator categories.) -/
def create (S : Acts M A) (fuel : Nat) (xs : List M) : Option (Lst M A) := dfsInit S fuel xs []

/-- `c ? c->sum : 0`. -/
def sumO (h : Heap M A) (c : Option Nat) : Option Nat := (getO h c).map (fun y => match y with
  | none => 0
  | some y => y.d.sum)

/-- Lines 115-127, after `propagate(u)`: stay at `u` (`none`) or go to a child with a new index. -/
def choose (h : Heap M A) (u k : Nat) : Option (Option (Option Nat × Nat)) :=
  (h[u]?).bind (fun x => match x.l with
    | none => if k = 0 then some none else some (some (x.r, k - 1))
    | some l => (h[l]?).map (fun y => if y.d.sum = k then none else if y.d.sum > k then some (some l, k) else some (x.r, k - (y.d.sum + 1))))

/-- Lines 108-128. -/
def kthLoop (S : Acts M A) : Nat → Nat → Nat → Heap M A → Option (Heap M A × Nat)
  | 0, _, _, _ => none
  | f+1, u, k, h =>
    (h[u]?).bind (fun x => (sumO h x.l).bind (fun lp => (sumO h x.r).bind (fun rp =>
      if x.d.sum ≠ lp + rp + 1 then none else
        (propagate S false u h).bind (fun h => (choose h u k).bind (fun c => match c with
          | none => some (h, u)
          | some (v, k) => v.bind (fun v => kthLoop S f v k h))))))

/-- Lines 105-133 (`kth_element`); the result is also the new root. -/
def kth (S : Acts M A) (fuel k : Nat) (s : Lst M A) : Option (Heap M A × Nat) :=
  s.2.bind (fun r => (s.1[r]?).bind (fun x => if k < x.d.sum then (kthLoop S fuel r k s.1).bind (fun a => (splay S false fuel a.2 a.1).map (fun h => (h, a.2))) else none))

/-- Lines 134-161 (`insert`). -/
def insert (S : Acts M A) (fuel i : Nat) (x : M) (s : Lst M A) : Option (Lst M A) :=
  let u := s.1.length
  let h := s.1 ++ [fresh S x]
  if i = 0 then
    (modN h u (fun y => { y with r := s.2 })).bind (fun h => (modO h s.2 (fun y => { y with p := some u })).bind (fun h => (aggregate false u h).map (fun h => (h, some u))))
  else
    s.2.bind (fun r => (s.1[r]?).bind (fun y =>
      if i = y.d.sum then
        (modN h u (fun y => { y with l := s.2 })).bind (fun h => (modO h s.2 (fun y => { y with p := some u })).bind (fun h => (aggregate false u h).map (fun h => (h, some u))))
      else
        (kth S fuel i (h, s.2)).bind (fun a => (a.1[a.2]?).bind (fun z =>
          (modN a.1 u (fun y => { y with l := z.l, r := some a.2 })).bind (fun h => (modO h z.l (fun y => { y with p := some u })).bind (fun h =>
            (modN h a.2 (fun y => { y with p := some u, l := none })).bind (fun h =>
              (aggregate false a.2 h).bind (fun h => (aggregate false u h).map (fun h => (h, some u))))))))))

/-- Lines 162-186 (`erase`). -/
def erase (S : Acts M A) (fuel i : Nat) (s : Lst M A) : Option (Lst M A) :=
  (kth S fuel i s).bind (fun a => (a.1[a.2]?).bind (fun z =>
    if i = 0 then (modO a.1 z.r (fun y => { y with p := none })).map (fun h => (h, z.r))
    else if i = z.d.sum - 1 then (modO a.1 z.l (fun y => { y with p := none })).map (fun h => (h, z.l))
    else z.r.bind (fun r => z.l.bind (fun l =>
      (modN a.1 r (fun y => { y with p := none })).bind (fun h => (kth S fuel 0 (h, some r)).bind (fun b =>
        (modN b.1 b.2 (fun y => { y with l := some l })).bind (fun h => (modN h l (fun y => { y with p := some b.2 })).bind (fun h =>
          (aggregate false b.2 h).map (fun h => (h, some b.2)))))))))) 

/-- Lines 187-207 (`between`): the list and the returned pointer. -/
def between (S : Acts M A) (fuel l r : Nat) (s : Lst M A) : Option (Lst M A × Option Nat) :=
  s.2.bind (fun q => (s.1[q]?).bind (fun x =>
    if x.d.sum < r then none
    else if l = 0 then
      if r = x.d.sum then some (s, s.2)
      else (kth S fuel r s).bind (fun a => (a.1[a.2]?).map (fun z => ((a.1, some a.2), z.l)))
    else if r = x.d.sum then (kth S fuel (l-1) s).bind (fun a => (a.1[a.2]?).map (fun z => ((a.1, some a.2), z.r)))
    else (kth S fuel r s).bind (fun a => (a.1[a.2]?).bind (fun z => z.l.bind (fun c =>
      (modN a.1 c (fun y => { y with p := none })).bind (fun h => (kth S fuel (l-1) (h, some c)).bind (fun b =>
        (modN b.1 a.2 (fun y => { y with l := some b.2 })).bind (fun h => (modN h b.2 (fun y => { y with p := some a.2 })).bind (fun h =>
          (aggregate false a.2 h).bind (fun h => (h[b.2]?).map (fun w => ((h, some a.2), w.r))))))))))))

/-- Lines 208-210 (`prod`). -/
def prod (S : Acts M A) (fuel l r : Nat) (s : Lst M A) : Option (Lst M A × M) :=
  (between S fuel l r s).bind (fun a => a.2.bind (fun u => (a.1.1[u]?).map (fun x => (a.1, x.d.prod))))

/-- Lines 211-218 (`reverse`). -/
def reverse (S : Acts M A) (fuel l r : Nat) (s : Lst M A) : Option (Lst M A) :=
  if l = r then some s
  else (between S fuel l r s).bind (fun a => a.2.bind (fun u => (modN a.1.1 u (fun x => { x with d := flipD x.d })).bind (fun h => (splay S false fuel u h).map (fun h => (h, some u)))))

/-- Lines 219-224 (`set`). -/
def set (S : Acts M A) (fuel i : Nat) (x : M) (s : Lst M A) : Option (Lst M A) :=
  (kth S fuel i s).bind (fun a => (modN a.1 a.2 (fun y => { y with d := { y.d with m := x } })).bind (fun h => (aggregate false a.2 h).map (fun h => (h, some a.2))))

/-- Lines 225-229 (`update(i, f)`). -/
def update (S : Acts M A) (fuel i : Nat) (f : A) (s : Lst M A) : Option (Lst M A) :=
  (kth S fuel i s).bind (fun a => (modN a.1 a.2 (fun y => { y with d := { y.d with m := S.act f y.d.m } })).bind (fun h => (aggregate false a.2 h).map (fun h => (h, some a.2))))

/-- Lines 230-239 (`update(l, r, f)`). -/
def updateRange (S : Acts M A) (fuel l r : Nat) (f : A) (s : Lst M A) : Option (Lst M A) :=
  if l < r then (between S fuel l r s).bind (fun a => a.2.bind (fun u => (modN a.1.1 u (fun x => { x with d := actD S f x.d })).bind (fun h => (splay S false fuel u h).map (fun h => (h, some u)))))
  else none

/-- `kth_element(i)->m`. -/
def get (S : Acts M A) (fuel i : Nat) (s : Lst M A) : Option (Lst M A × M) :=
  (kth S fuel i s).bind (fun a => (a.1[a.2]?).map (fun x => ((a.1, some a.2), x.d.m)))

inductive Op (M A : Type) where
  | insert (i : Nat) (x : M)
  | erase (i : Nat)
  | reverse (l r : Nat)
  | set (i : Nat) (x : M)
  | update (i : Nat) (f : A)
  | updateRange (l r : Nat) (f : A)
  | get (i : Nat)
  | prod (l r : Nat)

/-- One call; the second component is the value read. -/
def step (S : Acts M A) (fuel : Nat) (s : Lst M A) : Op M A → Option (Lst M A × Option M)
  | .insert i x => (insert S fuel i x s).map (fun s => (s, none))
  | .erase i => (erase S fuel i s).map (fun s => (s, none))
  | .reverse l r => (reverse S fuel l r s).map (fun s => (s, none))
  | .set i x => (set S fuel i x s).map (fun s => (s, none))
  | .update i f => (update S fuel i f s).map (fun s => (s, none))
  | .updateRange l r f => (updateRange S fuel l r f s).map (fun s => (s, none))
  | .get i => (get S fuel i s).map (fun a => (a.1, some a.2))
  | .prod l r => (prod S fuel l r s).map (fun a => (a.1, some a.2))

def run (S : Acts M A) (fuel : Nat) : Lst M A → List (Op M A) → Option (List (Option M))
  | _, [] => some []
  | s, o :: os => (step S fuel s o).bind (fun a => (run S fuel a.1 os).map (fun l => a.2 :: l))

end Verif.SplayList
