import Verif.Common.Vec
/-!
Model of `/repo/include/mtl/max_flow.hpp` (`FordFulkerson` and `Dinic`).  `none` is undefined behaviour (out-of-range access), a negative capacity or exhausted
fuel (non-termination).  Capacities are naturals and are not reduced modulo `2^64`; the theorems bound the sum of all capacities by `2^63 - 1`, and no capacity
or flow exceeds that sum.
-/
namespace Verif.MaxFlow

/-- max_flow.hpp:14-20 -/
structure FlowPath where
  t : Nat
  cap : Nat
  rev : Nat
deriving DecidableEq

abbrev G := List (List FlowPath)

/-- `numeric_limits<long long>::max()` -/
def INF : Nat := 2^63 - 1

/-- `g[u][i]` -/
def getE (g : G) (u i : Nat) : Option FlowPath := rd2 g u i

/-- :27-30, 73-76 (`add_edge`) -/
def addEdge (g : G) (a b c : Nat) : Option G :=
  (g[b]?).bind (fun rb => (g[a]?).bind (fun ra => (wr g a (ra ++ [⟨b, c, rb.length⟩])).bind (fun g =>
    (g[a]?).bind (fun ra => (g[b]?).bind (fun rb => wr g b (rb ++ [⟨a, 0, ra.length - 1⟩]))))))

/-- :41-42, 87-88: `e.cap -= flow; g[e.t][e.rev].cap += flow;` for the edge `e` at `g[u][i]`. -/
def push (g : G) (u i d : Nat) : Option G :=
  (getE g u i).bind (fun e => if d ≤ e.cap then (wr2 g u i ⟨e.t, e.cap - d, e.rev⟩).bind (fun g =>
    (getE g e.t e.rev).bind (fun x => wr2 g e.t e.rev ⟨x.t, x.cap + d, x.rev⟩)) else none)

/-! ### Ford-Fulkerson -/

structure FSt where
  g : G
  vis : List Bool

/-- :39-44: the recursive call and its aftermath; the last argument is the rest of the loop. -/
def ffTry (rec : Nat → Nat → FSt → Option (FSt × Nat)) (u f i : Nat) (e : FlowPath) (st : FSt) (next : FSt → Option (FSt × Nat)) : Option (FSt × Nat) :=
  (rec e.t (min f e.cap) st).bind (fun p => if p.2 ≠ 0 then (push p.1.g u i p.2).map (fun g => (⟨g, p.1.vis⟩, p.2)) else next p.1)

/-- :37-46: the loop over `g[u]`; the first numeric argument is the number of edges left. -/
def ffLoop (rec : Nat → Nat → FSt → Option (FSt × Nat)) (u f : Nat) : Nat → Nat → FSt → Option (FSt × Nat)
  | 0, _, st => some (st, 0)
  | n+1, i, st => (getE st.g u i).bind (fun e =>
      if e.cap = 0 then ffLoop rec u f n (i+1) st else ffTry rec u f i e st (fun st => ffLoop rec u f n (i+1) st))

/-- :31-47 (`dfs`), with fuel for the depth of the recursion. -/
def ffDfs (t : Nat) : Nat → Nat → Nat → FSt → Option (FSt × Nat)
  | 0, _, _, _ => none
  | fuel+1, u, f, st => (st.vis[u]?).bind (fun b =>
      if b then some (st, 0)
      else (wr st.vis u true).bind (fun vis =>
        if u = t then some (⟨st.g, vis⟩, f)
        else (st.g[u]?).bind (fun row => ffLoop (ffDfs t fuel) u f row.length 0 ⟨st.g, vis⟩)))

/-- :49-60: the loop, with fuel for the number of iterations. -/
def ffFlowLoop (s t : Nat) : Nat → G → Int → Nat → Option (G × Nat)
  | 0, _, _, _ => none
  | fuel+1, g, fup, flow =>
      if 0 < fup then
        (ffDfs t (g.length + 1) s INF ⟨g, List.replicate g.length false⟩).bind (fun p =>
          if 0 < p.2 then ffFlowLoop s t fuel p.1.g (fup - p.2) (flow + p.2) else some (p.1.g, flow))
      else some (g, flow)

/-- :48-61 (`FordFulkerson::flow`) -/
def ffFlow (fuel : Nat) (g : G) (s t : Nat) (fup : Int) : Option (G × Nat) := ffFlowLoop s t fuel g fup 0

/-! ### Dinic -/

/-- `numeric_limits<int>::max()` -/
def IINF : Nat := 2^31 - 1

/-- :107-113 for one edge; the state is `dist` and the queue. -/
def bfsEdge (t u : Nat) (e : FlowPath) (p : List Nat × List Nat) : Option (List Nat × List Nat) :=
  if e.cap = 0 then some p
  else (p.1[e.t]?).bind (fun dv => (p.1[u]?).bind (fun du =>
    if dv ≤ du + 1 then some p else (wr p.1 e.t (du + 1)).map (fun dist => (dist, if e.t ≠ t then p.2 ++ [e.t] else p.2))))

/-- :107-113: the loop over `g[u]`. -/
def bfsRow (t u : Nat) : List FlowPath → List Nat × List Nat → Option (List Nat × List Nat)
  | [], p => some p
  | e :: l, p => (bfsEdge t u e p).bind (fun p => bfsRow t u l p)

/-- :105-114, with fuel for the number of iterations. -/
def bfsLoop (g : G) (t : Nat) : Nat → List Nat × List Nat → Option (List Nat)
  | _, (dist, []) => some dist
  | 0, (_, _ :: _) => none
  | fuel+1, (dist, u :: q) => (g[u]?).bind (fun row => (bfsRow t u row (dist, q)).bind (fun p => bfsLoop g t fuel p))

/-- :102-114; `qs` is empty at the start of every round, as each round runs until it is. -/
def bfs (g : G) (s t : Nat) : Option (List Nat) := (wr (List.replicate g.length IINF) s 0).bind (fun dist => bfsLoop g t (g.length + 1) (dist, [s]))

structure DSt where
  g : G
  nxt : List Nat

/-- :86-90 and the `++it` of line 82; `it` is a reference to `nxt[u]`. -/
def dAfter (u : Nat) (st : DSt) (fsum d : Nat) (next : DSt → Nat → Option (DSt × Nat)) : Option (DSt × Nat) :=
  (st.nxt[u]?).bind (fun i =>
    (if d ≠ 0 then push st.g u i d else some st.g).bind (fun g => (wr st.nxt u (i+1)).bind (fun nxt => next ⟨g, nxt⟩ (fsum + d))))

/-- :83-90 and the `++it` of line 82. -/
def dEdge (rec : Nat → Nat → DSt → Option (DSt × Nat)) (dist : List Nat) (u f i : Nat) (st : DSt) (fsum : Nat)
    (next : DSt → Nat → Option (DSt × Nat)) : Option (DSt × Nat) :=
  (getE st.g u i).bind (fun e => (dist[e.t]?).bind (fun dv => (dist[u]?).bind (fun du =>
    if e.cap = 0 ∨ dv ≠ du + 1 then (wr st.nxt u (i+1)).bind (fun nxt => next ⟨st.g, nxt⟩ fsum)
    else (rec e.t (min (f - fsum) e.cap) st).bind (fun p => dAfter u p.1 fsum p.2 next))))

/-- :82-92: the loop, with fuel for the number of iterations; `len` is the length of `g[u]`. -/
def dLoop (rec : Nat → Nat → DSt → Option (DSt × Nat)) (dist : List Nat) (u f len : Nat) : Nat → DSt → Nat → Option (DSt × Nat)
  | fuel, st, fsum => (st.nxt[u]?).bind (fun i =>
      if i ≠ len ∧ fsum < f then
        match fuel with
        | 0 => none
        | fuel+1 => dEdge rec dist u f i st fsum (fun st fsum => dLoop rec dist u f len fuel st fsum)
      else some (st, fsum))

/-- :77-93 (`dfs`), with fuel for the depth of the recursion. -/
def dDfs (dist : List Nat) (t : Nat) : Nat → Nat → Nat → DSt → Option (DSt × Nat)
  | 0, _, _, _ => none
  | fuel+1, u, f, st =>
      if u = t then some (st, f)
      else (st.g[u]?).bind (fun row => dLoop (dDfs dist t fuel) dist u f row.length row.length st 0)

/-- :98-116: one round; the result is the graph and `f`. -/
def dRound (g : G) (s t : Nat) : Option (G × Nat) :=
  (bfs g s t).bind (fun dist => (dDfs dist t (g.length + 1) s INF ⟨g, List.replicate g.length 0⟩).map (fun p => (p.1.g, p.2)))

/-- :95-124: the loop, with fuel for the number of iterations. -/
def dFlowLoop (s t : Nat) : Nat → G → Int → Nat → Option (G × Nat)
  | 0, _, _, _ => none
  | fuel+1, g, fup, flow =>
      if fup ≠ 0 then (dRound g s t).bind (fun p => if 0 < p.2 then dFlowLoop s t fuel p.1 (fup - p.2) (flow + p.2) else some (p.1, flow))
      else some (g, flow)

/-- :94-125 (`Dinic::flow`) -/
def dFlow (fuel : Nat) (g : G) (s t : Nat) (fup : Int) : Option (G × Nat) := dFlowLoop s t fuel g fup 0

end Verif.MaxFlow
