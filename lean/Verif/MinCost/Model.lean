import Verif.FibHeap.Model
/-!
Model of `/repo/include/mtl/min_cost_flow.hpp` (`MinCostFlowGraph<C>`) on the Fibonacci heap of `Verif/FibHeap`.

Capacities are naturals, costs are exact integers (the theorems bound all labels by `INF`, the greatest value of `C`; sums of costs times flow are not reduced).  A negative limit behaves as 0.
`none` = access out of range, failed assertion, a capacity below 0, or more rounds than the fuel.
-/
namespace Verif.MinCost
open Verif.FibHeap

/-- Lines 6-12. -/
structure Path where
  t : Nat
  rev : Nat
  cap : Nat
  cost : Int
  deriving DecidableEq

abbrev G := List (List Path)

/-- Lines 24-27 (`add_edge`). -/
def addEdge (g : G) (a b cap : Nat) (cost : Int) : Option G :=
  (g[b]?).bind (fun rb => (g[a]?).bind (fun ra => (wr g a (ra ++ [⟨b, rb.length, cap, cost⟩])).bind (fun g =>
    (g[a]?).bind (fun ra => (g[b]?).bind (fun rb => wr g b (rb ++ [⟨a, ra.length - 1, 0, -cost⟩]))))))

/-- `std::greater<C>` (line 33). -/
def gt (a b : Int) : Bool := decide (a > b)

/-- What a search changes: `dist`, `prevv`, `preve`, `qs`. -/
structure SP where
  dist : List Int
  pv : List Nat
  pe : List Nat
  H : Hp Int

/-- Lines 47-50. -/
def improve (u i t : Nat) (c : Int) (s : SP) : Option SP :=
  (wr s.dist t c).bind (fun dist => (push gt s.H t c).bind (fun H => (wr s.pv t u).bind (fun pv => (wr s.pe t i).map (fun pe => ⟨dist, pv, pe, H⟩))))

/-- Lines 44-50: one edge `e` at `g[u][i]`. -/
def relax1 (h : List Int) (u : Nat) (d : Int) (i : Nat) (e : Path) (s : SP) : Option SP :=
  if e.cap = 0 then some s
  else (h[u]?).bind (fun hu => (h[e.t]?).bind (fun ht => (s.dist[e.t]?).bind (fun x =>
    if d + e.cost + hu - ht ≥ x then some s else improve u i e.t (d + e.cost + hu - ht) s)))

/-- Lines 42-51: the loop over `g[u]` from index `i`. -/
def relax (h : List Int) (u : Nat) (d : Int) : Nat → List Path → SP → Option SP
  | _, [], s => some s
  | i, e :: es, s => (relax1 h u d i e s).bind (fun s => relax h u d (i+1) es s)

/-- Lines 38-52; the first argument bounds the number of rounds. -/
def search (g : G) (h : List Int) : Nat → SP → Option SP
  | 0, _ => none
  | f+1, s => if s.H.sz = 0 then some s else (top s.H).bind (fun q => (pop gt s.H).bind (fun H =>
      (g[q.1]?).bind (fun es => (relax h q.1 q.2 0 es ⟨s.dist, s.pv, s.pe, H⟩).bind (fun s => search g h f s))))

/-- Lines 59-63: the loop from `i` back to `s`; the first argument bounds the number of rounds. -/
def bottle (g : G) (pv pe : List Nat) (s : Nat) : Nat → Nat → Nat → Int → Option (Nat × Int)
  | 0, _, _, _ => none
  | f+1, i, d, c => if i = s then some (d, c) else (pv[i]?).bind (fun p => (pe[i]?).bind (fun k => (rd2 g p k).bind (fun e => bottle g pv pe s f p (min d e.cap) (c + e.cost))))

/-- Lines 67-69. -/
def push1 (g : G) (i p k d : Nat) : Option G :=
  (rd2 g p k).bind (fun e => if d ≤ e.cap then (wr2 g p k { e with cap := e.cap - d }).bind (fun g =>
    (rd2 g i e.rev).bind (fun x => wr2 g i e.rev { x with cap := x.cap + d })) else none)

/-- Lines 66-70. -/
def augment (pv pe : List Nat) (s d : Nat) : Nat → Nat → G → Option G
  | 0, _, _ => none
  | f+1, i, g => if i = s then some g else (pv[i]?).bind (fun p => (pe[i]?).bind (fun k => (push1 g i p k d).bind (fun g => augment pv pe s d f p g)))

/-- Lines 55-56. -/
def addPot (inf : Int) (h dist : List Int) : List Int := List.zipWith (fun a b => if b ≠ inf then a + b else a) h dist

/-- What a round changes. -/
structure St where
  g : G
  h : List Int
  pv : List Nat
  pe : List Nat
  H : Hp Int

/-- Lines 35-52: one search from `s`; `K` bounds the number of its rounds. -/
def sssp (inf : Int) (K s : Nat) (x : St) : Option SP :=
  (wr (List.replicate x.g.length inf) s 0).bind (fun dist => (push gt x.H s 0).bind (fun H => search x.g x.h K ⟨dist, x.pv, x.pe, H⟩))

/-- Lines 34-71; `rounds` bounds the number of rounds; returns the graph, `prevv`, `preve`, the flow and the cost. -/
def loop (inf : Int) (K s t lim : Nat) : Nat → St → Nat → Int → Option (St × Nat × Int)
  | 0, _, _, _ => none
  | r+1, x, f, res =>
    if f < lim then
      (sssp inf K s x).bind (fun sp => (sp.dist[t]?).bind (fun dt =>
        if dt = inf then some (⟨x.g, x.h, sp.pv, sp.pe, sp.H⟩, f, res)
        else (bottle x.g sp.pv sp.pe s (x.g.length + 1) t (lim - f) 0).bind (fun b =>
          (augment sp.pv sp.pe s b.1 (x.g.length + 1) t x.g).bind (fun g =>
            loop inf K s t lim r ⟨g, addPot inf x.h sp.dist, sp.pv, sp.pe, sp.H⟩ (f + b.1) (res + b.1 * b.2)))))
    else some (x, f, res)

/-- The members of the object that matter between calls (`dist` and `h` are reset). -/
structure Obj where
  g : G
  pv : List Nat
  pe : List Nat

/-- Lines 21-22. -/
def new (n : Nat) : Obj := ⟨List.replicate n [], List.replicate n 0, List.replicate n 0⟩

/-- Lines 29-73 (`flow`). -/
def flow (inf : Int) (K : Nat) (o : Obj) (s t lim : Nat) : Option (Obj × Nat × Int) :=
  (mk o.g.length).bind (fun H => (loop inf K s t lim (lim + 1) ⟨o.g, List.replicate o.g.length 0, o.pv, o.pe, H⟩ 0 0).map (fun r => (⟨r.1.g, r.1.pv, r.1.pe⟩, r.2.1, r.2.2)))

/-- Several edges. -/
def addEdges : List (Nat × Nat × Nat × Int) → G → Option G
  | [], g => some g
  | e :: es, g => (addEdge g e.1 e.2.1 e.2.2.1 e.2.2.2).bind (addEdges es)

/-- Several calls of `flow` with the same ends. -/
def flows (inf : Int) (K s t : Nat) : List Nat → Obj → Option (Obj × List (Nat × Int))
  | [], o => some (o, [])
  | lim :: ls, o => (flow inf K o s t lim).bind (fun r => (flows inf K s t ls r.1).map (fun q => (q.1, (r.2.1, r.2.2) :: q.2)))

/-- Constructor, `add_edge` for every edge, then the calls of `flow`. -/
def solve (inf : Int) (K n : Nat) (es : List (Nat × Nat × Nat × Int)) (s t : Nat) (lims : List Nat) : Option (List (Nat × Int)) :=
  (addEdges es (new n).g).bind (fun g => (flows inf K s t lims ⟨g, (new n).pv, (new n).pe⟩).map (fun r => r.2))

end Verif.MinCost
