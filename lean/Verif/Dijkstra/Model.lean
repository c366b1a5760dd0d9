import Verif.FibHeap.Model
/-!
Model of `Network<W>::dijkstra_search` (`/repo/include/mtl/dijkstra.hpp` lines 5-23) on the Fibonacci heap of `Verif/FibHeap`.

`T` is a signed integer type with greatest value `B`; a sum above `B` (or below `-B-1`) is undefined.  `none` as a result = undefined behaviour, failed assertion, or more rounds than the fuel.
-/
namespace Verif.Dijkstra
open Verif.FibHeap

/-- `graph.hpp` lines 98-101: `add_edge_dir`; the counters `in` are left out but for the bounds of `in[b]`.  `cv` is the conversion of the weight by the constructor of `Path` (line 91).
`add_edge` (lines 102-105) is two calls of it. -/
def addDir {W : Type} (cv : W → Int) (g : List (List (Nat × Int))) (e : Nat × Nat × W) : Option (List (List (Nat × Int))) :=
  (g[e.1]?).bind (fun r => if e.2.1 < g.length then wr g e.1 (r ++ [(e.2.1, cv e.2.2)]) else none)

/-- Calls of `add_edge_dir`. -/
def addDirs {W : Type} (cv : W → Int) : List (Nat × Nat × W) → List (List (Nat × Int)) → Option (List (List (Nat × Int)))
  | [], g => some g
  | e :: E, g => (addDir cv g e).bind (addDirs cv E)

/-- `graph.hpp` line 90: the weight is kept in an `int`. -/
def toInt (c : Int) : Int := Int.bmod c (2 ^ 32)

/-- `std::greater<>` (line 9). -/
def gt (a b : Int) : Bool := decide (a > b)

/-- `d+e.w`. -/
def add (B d w : Int) : Option Int := if -B - 1 ≤ d + w ∧ d + w ≤ B then some (d + w) else none

/-- Lines 17-21: the loop over `g[v]`. -/
def relax (B d : Int) : List (Nat × Int) → List Int → Hp Int → Option (List Int × Hp Int)
  | [], dist, H => some (dist, H)
  | e :: es, dist, H => (dist[e.1]?).bind (fun x => (add B d e.2).bind (fun y =>
      if x ≤ y then relax B d es dist H
      else (wr dist e.1 y).bind (fun dist => (push gt H e.1 y).bind (fun H => relax B d es dist H))))

/-- Lines 12-22: the loop; the first argument bounds the number of rounds. -/
def search (B : Int) (g : List (List (Nat × Int))) : Nat → List Int → Hp Int → Option (List Int)
  | 0, _, _ => none
  | f+1, dist, H => if H.sz = 0 then some dist else (top H).bind (fun q => (pop gt H).bind (fun H => (dist[q.1]?).bind (fun x =>
      if x = q.2 then (g[q.1]?).bind (fun es => (relax B q.2 es dist H).bind (fun r => search B g f r.1 r.2)) else none)))

/-- Lines 7-23. -/
def dijkstra (B : Int) (g : List (List (Nat × Int))) (s : Nat) (inf : Int) : Option (List Int) :=
  (mk g.length).bind (fun H => (wr (List.replicate g.length inf) s 0).bind (fun dist => (push gt H s 0).bind (fun H => search B g (g.length + 1) dist H)))

/-- Constructor, `add_edge_dir` for every edge, `dijkstra_search(s, dist, inf)`. -/
def solve {W : Type} (cv : W → Int) (B : Int) (n : Nat) (E : List (Nat × Nat × W)) (s : Nat) (inf : Int) : Option (List Int) :=
  (addDirs cv E (List.replicate n [])).bind (fun g => dijkstra B g s inf)

end Verif.Dijkstra
