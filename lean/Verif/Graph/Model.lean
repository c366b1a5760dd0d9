import Verif.Common.Vec
/-!
Model of `/repo/include/mtl/graph.hpp` (`Graph`) and `/repo/include/mtl/scc.hpp`.

`none` is undefined behaviour (access out of range) or exhausted fuel.  Loops without a fixed number of rounds and recursive lambdas take a fuel
argument; the theorems show that the given fuel is enough.  Counters are exact naturals.
-/
namespace Verif.Graph

/-- graph.hpp:5-11. -/
structure Graph where
  n : Nat
  g : List (List Nat)
  inn : List Nat

/-- graph.hpp:11: `Graph(int n)`. -/
def Graph.new (n : Nat) : Graph := ⟨n, List.replicate n [], List.replicate n 0⟩

/-- graph.hpp:13-16 (`add_edge_dir`). -/
def Graph.addEdgeDir (G : Graph) (a b : Nat) : Option Graph :=
  (G.g[a]?).bind (fun row => (wr G.g a (row ++ [b])).bind (fun g =>
    (G.inn[b]?).bind (fun c => (wr G.inn b (c+1)).map (fun inn => ⟨G.n, g, inn⟩))))

/-- graph.hpp:17-20 (`add_edge`). -/
def Graph.addEdge (G : Graph) (a b : Nat) : Option Graph := (G.addEdgeDir a b).bind (fun G => G.addEdgeDir b a)

/-- A graph built by `add_edge_dir` calls. -/
def build (n : Nat) (E : List (Nat × Nat)) : Option Graph := E.foldlM (fun G e => G.addEdgeDir e.1 e.2) (Graph.new n)

/-! ### bfs -/

/-- graph.hpp:38-41: one neighbour; state: `dist` and the queue (front first). -/
def relax (d : Int) (t : Nat) (s : List Int × List Nat) : Option (List Int × List Nat) :=
  (s.1[t]?).bind (fun x => if x ≤ d + 1 then some s else (wr s.1 t (d+1)).map (fun D => (D, s.2 ++ [t])))

/-- graph.hpp:37-42. -/
def relaxAll (d : Int) : List Nat → List Int × List Nat → Option (List Int × List Nat)
  | [], s => some s
  | t :: ts, s => (relax d t s).bind (relaxAll d ts)

/-- graph.hpp:33-43: `while (!qs.empty())`. -/
def bfsLoop (g : List (List Nat)) : Nat → List Int × List Nat → Option (List Int)
  | _, (D, []) => some D
  | 0, (_, _ :: _) => none
  | f+1, (D, c :: q) => (D[c]?).bind (fun d => (g[c]?).bind (fun row => (relaxAll d row (D, q)).bind (bfsLoop g f)))

/-- graph.hpp:27-44 (`bfs`). -/
def Graph.bfs (G : Graph) (s : Nat) (inf : Int) : Option (List Int) :=
  (wr (List.replicate G.n inf) s 0).bind (fun D => bfsLoop G.g (G.n + 1) (D, [s]))

/-! ### topological sort -/

/-- State of `topological_sort`: `order` and `incnt`. -/
abbrev TS := List Nat × List Nat

/-- graph.hpp:54: `++incnt[t] == in[t]`. -/
def bump (G : Graph) (t : Nat) (st : TS) : Option (TS × Bool) :=
  (st.2[t]?).bind (fun c => (wr st.2 t (c+1)).bind (fun inc => (G.inn[t]?).map (fun i => ((st.1, inc), c + 1 == i))))

/-- graph.hpp:53-57: the loop over the neighbours; `rec` is the recursive call. -/
def tsLoop (G : Graph) (rec : Nat → TS → Option TS) : List Nat → TS → Option TS
  | [], st => some st
  | t :: ts, st => (bump G t st).bind (fun r => (if r.2 then rec t r.1 else some r.1).bind (tsLoop G rec ts))

/-- graph.hpp:51-58: the lambda `dfs`. -/
def tsDfs (G : Graph) : Nat → Nat → TS → Option TS
  | 0, _, _ => none
  | f+1, s, st => (G.g[s]?).bind (fun row => tsLoop G (tsDfs G f) row (st.1 ++ [s], st.2))

/-- graph.hpp:60-61. -/
def tsRoot (G : Graph) (i : Nat) (st : TS) : Option TS := (G.inn[i]?).bind (fun c => if c = 0 then tsDfs G G.n i st else some st)

/-- graph.hpp:46-64 (`topological_sort`): the order and the returned value. -/
def Graph.topologicalSort (G : Graph) : Option (List Nat × Bool) :=
  (forRange 0 G.n (tsRoot G) ([], List.replicate G.n 0)).map (fun st => (st.1, st.1.length == G.n))

/-! ### Strongly connected components (scc.hpp) -/

/-- scc.hpp:5-13. -/
structure SccGraph where
  n : Nat
  g : Graph
  ig : Graph

def SccGraph.new (n : Nat) : SccGraph := ⟨n, Graph.new n, Graph.new n⟩

/-- scc.hpp:10-13 (`add_edge`). -/
def SccGraph.addEdge (S : SccGraph) (a b : Nat) : Option SccGraph :=
  (S.g.addEdgeDir a b).bind (fun g => (S.ig.addEdgeDir b a).map (fun ig => ⟨S.n, g, ig⟩))

def buildScc (n : Nat) (E : List (Nat × Nat)) : Option SccGraph := E.foldlM (fun S e => S.addEdge e.1 e.2) (SccGraph.new n)

/-- `for (int t : row) f(f, t)`. -/
def forEach {σ : Type} (rec : Nat → σ → Option σ) : List Nat → σ → Option σ
  | [], st => some st
  | t :: ts, st => (rec t st).bind (forEach rec ts)

/-- scc.hpp:19-25 and 30-36: the lambdas `dfs` and `rdfs`; state: `vis` and the output (pushed at the end). -/
def postDfs (g : List (List Nat)) : Nat → Nat → List Bool × List Nat → Option (List Bool × List Nat)
  | 0, _, _ => none
  | f+1, s, st => (st.1[s]?).bind (fun v => if v then some st else
      (wr st.1 s true).bind (fun vis => (g[s]?).bind (fun row =>
        (forEach (postDfs g f) row (vis, st.2)).map (fun st => (st.1, st.2 ++ [s])))))

/-- scc.hpp:38-43: pops the stack; the argument lists it from the top. -/
def sccLoop (ig : List (List Nat)) (n : Nat) : List Nat → List Bool → List (List Nat) → Option (List (List Nat))
  | [], _, ret => some ret
  | u :: st, vis, ret => (vis[u]?).bind (fun v => if v then sccLoop ig n st vis ret else
      (postDfs ig (n+1) u (vis, [])).bind (fun r => sccLoop ig n st r.1 (ret ++ [r.2])))

/-- scc.hpp:15-45 (`scc`). -/
def SccGraph.scc (S : SccGraph) : Option (List (List Nat)) :=
  (forRange 0 S.n (fun i st => postDfs S.g.g (S.n+1) i st) (List.replicate S.n false, [])).bind (fun r =>
    sccLoop S.ig.g S.n r.2.reverse (List.replicate S.n false) [])

end Verif.Graph
