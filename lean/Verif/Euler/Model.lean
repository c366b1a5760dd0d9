import Verif.Common.Vec
import Verif.Hld.Model
/-!
Model of `Graph::euler_tour` (`/repo/include/mtl/graph.hpp` lines 66-84).

The parent `-1` is `none`.  `none` as a result = out-of-range access or recursion deeper than its fuel.
-/
namespace Verif.Euler

/-- Line 9 and the counter `k` of the lambda, which is passed in and returned. -/
structure St where
  tour : List Nat
  L : List Nat
  R : List Nat
  k : Nat
deriving DecidableEq

/-- Lines 71-73. -/
def enter (s : Nat) (x : St) : Option St :=
  (wr x.L s x.k).bind (fun l => (wr x.R s x.k).map (fun r => ⟨x.tour ++ [s], l, r, x.k + 1⟩))

/-- Lines 78-79. -/
def back (s : Nat) (x : St) : Option St :=
  (wr x.R s x.k).map (fun r => ⟨x.tour ++ [s], x.L, r, x.k + 1⟩)

/-- Lines 74-80: the loop over `g[s]`. -/
def loop (rec : Nat → St → Option St) (s : Nat) (p : Option Nat) : List Nat → St → Option St
  | [], x => some x
  | t :: ts, x => if some t = p then loop rec s p ts x else ((rec t x).bind (back s)).bind (loop rec s p ts)

/-- Lines 70-82: the lambda `dfs`. -/
def dfs (g : List (List Nat)) : Nat → Nat → Option Nat → St → Option St
  | 0, _, _, _ => none
  | f+1, s, p, x => (enter s x).bind (fun x => (g[s]?).bind (fun gs => loop (fun t x => dfs g f t (some s) x) s p gs x))

/-- `v.resize(n)`. -/
def resize (l : List Nat) (n : Nat) : List Nat := l.take n ++ List.replicate (n - l.length) 0

/-- Lines 66-84: `euler_tour(root)`; `L0`, `R0` are what an earlier call left. -/
def eulerTour (g : List (List Nat)) (L0 R0 : List Nat) (root : Nat) : Option St :=
  dfs g (g.length + 1) root none ⟨[], resize L0 g.length, resize R0 g.length, 0⟩

/-- Constructor (line 11), `add_edge` for every edge (lines 17-20; the same code as in `hld.hpp`, the counters `in` left out), `euler_tour(root)`. -/
def build (n : Nat) (E : List (Nat × Nat)) (L0 R0 : List Nat) (root : Nat) : Option St :=
  (Verif.Hld.addEdges E (List.replicate n [])).bind (fun g => eulerTour g L0 R0 root)

end Verif.Euler
