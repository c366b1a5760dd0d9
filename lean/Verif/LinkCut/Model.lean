import Verif.Splay.Model
/-!
Model of `/repo/include/mtl/link_cut_tree.hpp` on top of `Verif/Splay/Model.lean`.

`nodes[i]` is the heap cell `i`; the vector keeps every node alive.  Every operation takes a budget `fuel` for its loops.
-/
namespace Verif.LinkCut
open Verif Verif.LazySegTree Verif.Splay

variable {M A : Type} [Mul M]

/-- Lines 80-84 with 60-61: single nodes. -/
def create (S : Acts M A) (xs : List M) : Heap M A := xs.map (fun x => ⟨none, none, none, ⟨false, x, x, x, S.ida, 0⟩⟩)

/-- Lines 13-18: the loop of `expose`; `k` bounds the number of rounds. -/
def exposeLoop (S : Acts M A) (fuel : Nat) : Nat → Option Nat → Option Nat → Heap M A → Option (Heap M A)
  | _, none, _, h => some h
  | 0, some _, _, _ => none
  | k+1, some p, r, h =>
    (splay S true fuel p h).bind (fun h => (modN h p (fun x => { x with r := r })).bind (fun h => (aggregate true p h).bind (fun h =>
      (h[p]?).bind (fun x => exposeLoop S fuel k x.p (some p) h))))

/-- Lines 11-20 (`expose`). -/
def expose (S : Acts M A) (fuel : Nat) (x : Nat) (h : Heap M A) : Option (Heap M A) :=
  (exposeLoop S fuel fuel (some x) none h).bind (splay S true fuel x)

/-- Lines 21-26 (`evert`). -/
def evert (S : Acts M A) (fuel : Nat) (v : Nat) (h : Heap M A) : Option (Heap M A) :=
  (expose S fuel v h).bind (fun h => (modN h v (fun x => { x with d := flipD x.d })).bind (propagate S true v))

/-- Lines 34-40 and 137-139 (`link(u, v)`: `c = nodes[v]`, `p = nodes[u]`). -/
def link (S : Acts M A) (fuel : Nat) (u v : Nat) (h : Heap M A) : Option (Heap M A) :=
  (evert S fuel v h).bind (fun h => (expose S fuel u h).bind (fun h =>
    (modN h u (fun x => { x with r := some v })).bind (fun h => (modN h v (fun x => { x with p := some u })).bind (aggregate true u))))

/-- Lines 129-136 (`cut(u, v)`). -/
def cut (S : Acts M A) (fuel : Nat) (u v : Nat) (h : Heap M A) : Option (Heap M A) :=
  (evert S fuel u h).bind (fun h => (expose S fuel v h).bind (fun h => (h[v]?).bind (fun x =>
    (modN h v (fun x => { x with l := none })).bind (fun h => x.l.bind (fun l =>
      (modN h l (fun x => { x with p := none })).bind (aggregate true v))))))

/-- Lines 140-144 (`prod`). -/
def prod (S : Acts M A) (fuel : Nat) (u v : Nat) (h : Heap M A) : Option (Heap M A × M) :=
  (evert S fuel u h).bind (fun h => (expose S fuel v h).bind (fun h => (h[v]?).map (fun x => (h, x.d.prod))))

/-- Lines 145-151 (`set`). -/
def set (S : Acts M A) (fuel : Nat) (i : Nat) (x : M) (h : Heap M A) : Option (Heap M A) :=
  (splay S true fuel i h).bind (fun h => (modN h i (fun y => { y with d := { y.d with m := x } })).bind (aggregate true i))

/-- Lines 152-157 (`update(i, f)`). -/
def update (S : Acts M A) (fuel : Nat) (i : Nat) (f : A) (h : Heap M A) : Option (Heap M A) :=
  (splay S true fuel i h).bind (fun h => (modN h i (fun y => { y with d := { y.d with m := S.act f y.d.m } })).bind (aggregate true i))

/-- Lines 158-167 (`update(u, v, f)`). -/
def updatePath (S : Acts M A) (fuel : Nat) (u v : Nat) (f : A) (h : Heap M A) : Option (Heap M A) :=
  (evert S fuel u h).bind (fun h => (expose S fuel v h).bind (fun h =>
    (modN h v (fun x => { x with d := actD S f x.d })).bind (splay S true fuel v)))

inductive Op (M A : Type) where
  | link (u v : Nat)
  | cut (u v : Nat)
  | set (i : Nat) (x : M)
  | update (i : Nat) (f : A)
  | updatePath (u v : Nat) (f : A)
  | prod (u v : Nat)

/-- One call; the second component is what `prod` returns. -/
def step (S : Acts M A) (fuel : Nat) (h : Heap M A) : Op M A → Option (Heap M A × Option M)
  | .link u v => (link S fuel u v h).map (fun h => (h, none))
  | .cut u v => (cut S fuel u v h).map (fun h => (h, none))
  | .set i x => (set S fuel i x h).map (fun h => (h, none))
  | .update i f => (update S fuel i f h).map (fun h => (h, none))
  | .updatePath u v f => (updatePath S fuel u v f h).map (fun h => (h, none))
  | .prod u v => (prod S fuel u v h).map (fun r => (r.1, some r.2))

def run (S : Acts M A) (fuel : Nat) : Heap M A → List (Op M A) → Option (List (Option M))
  | _, [] => some []
  | h, o :: os => (step S fuel h o).bind (fun r => (run S fuel r.1 os).map (fun l => r.2 :: l))

end Verif.LinkCut
