import Verif.Common.Vec
import Mathlib.Algebra.Group.Defs
/-!
Model of `ReRootingGraph` and `ReRootingNetwork` (`/repo/include/mtl/rerooting.hpp`).

`merge` is written `*`, `e()` is `1`.  An entry of `g[s]` is a neighbour with the weight of the edge; the graph without weights (lines 5-52) is the case of a weight type with one value.  The parent `-1` is
`none`.  `none` as a result = out-of-range access or recursion deeper than its fuel.
-/
namespace Verif.Reroot

variable {T W : Type} [One T] [Mul T] (F : T → Nat → W → T) (G : T → Nat → T)

/-- Lines 65-71 (15-21): one round of the loop of `dfs`. -/
def dfsStep (rec : Nat → List (List T) → Option (T × List (List T))) (gs : List (Nat × W)) (s : Nat) (p : Option Nat) (i : Nat) (md : T × List (List T)) : Option (T × List (List T)) :=
  (gs[i]?).bind (fun tw => if some tw.1 = p then some md else (rec tw.1 md.2).bind (fun xd => (wr2 xd.2 s i xd.1).map (fun dp => (md.1 * F xd.1 tw.1 tw.2, dp))))

/-- Lines 63-73 (13-23): `dfs`. -/
def dfs (g : List (List (Nat × W))) : Nat → Nat → Option Nat → List (List T) → Option (T × List (List T))
  | 0, _, _, _ => none
  | f+1, s, p, dp => (g[s]?).bind (fun gs => (forRange 0 gs.length (dfsStep F (fun t dp => dfs g f t (some s) dp) gs s p) (1, dp)).map (fun md => (G md.1 s, md.2)))

/-- Lines 75-80 (25-30). -/
def setProp (gs : List (Nat × W)) (s : Nat) (p : Option Nat) (prop : T) (dp : List (List T)) : Option (List (List T)) :=
  match gs.findIdx? (fun tw => decide (some tw.1 = p)) with
  | none => some dp
  | some i => wr2 dp s i prop

/-- Lines 82-85 (32-33): one round. -/
def cRStep (gs : List (Nat × W)) (s : Nat) (dp : List (List T)) (i : Nat) (cR : List T) : Option (List T) :=
  (cR[i+1]?).bind (fun c => (gs[i+1]?).bind (fun tw => (rd2 dp s (i+1)).bind (fun x => wr cR i (c * F x tw.1 tw.2))))

/-- Lines 81-85 (31-33). -/
def mkCR (gs : List (Nat × W)) (s : Nat) (dp : List (List T)) : Option (List T) :=
  forRangeDown 0 (gs.length - 1) (cRStep F gs s dp) (List.replicate gs.length 1)

/-- Lines 89-91 (36-38). -/
def down (rec : Nat → T → List (List T) → Option (List (List T))) (s : Nat) (p : Option Nat) (t : Nat) (c cL : T) (dp : List (List T)) : Option (List (List T)) :=
  if some t = p then some dp else rec t (G (cL * c) s) dp

/-- Lines 87-93 (35-40): one round. -/
def dfs2Step (rec : Nat → T → List (List T) → Option (List (List T))) (gs : List (Nat × W)) (cR : List T) (s : Nat) (p : Option Nat) (i : Nat) (cd : T × List (List T)) : Option (T × List (List T)) :=
  (gs[i]?).bind (fun tw => (cR[i]?).bind (fun c => (down G rec s p tw.1 c cd.1 cd.2).bind (fun dp => (rd2 dp s i).map (fun x => (cd.1 * F x tw.1 tw.2, dp)))))

/-- Lines 74-94 (24-41): `dfs2`. -/
def dfs2 (g : List (List (Nat × W))) : Nat → Nat → Option Nat → T → List (List T) → Option (List (List T))
  | 0, _, _, _, _ => none
  | f+1, s, p, prop, dp => (g[s]?).bind (fun gs => (setProp gs s p prop dp).bind (fun dp => (mkCR F gs s dp).bind (fun cR =>
      (forRange 0 gs.length (dfs2Step F G (fun t x dp => dfs2 g f t (some s) x dp) gs cR s p) (1, dp)).map (fun cd => cd.2))))

/-- Lines 99-104 (46-51): `calc`. -/
def calcDp (g : List (List (Nat × W))) (root : Nat) : Option (List (List T)) :=
  (dfs F G g (g.length + 1) root none (g.map (fun gs => List.replicate gs.length 1))).bind (fun xd => dfs2 F G g (g.length + 1) root none 1 xd.2)

/-- `graph.hpp` 98-105 (13-20 for the graph without weights): `add_edge`.  The counters `in` are left out.  `cv` is the conversion of the weight by the constructor of `Path` (line 91). -/
def addEdge {W W' : Type} (cv : W → W') (g : List (List (Nat × W'))) (e : Nat × Nat × W) : Option (List (List (Nat × W'))) :=
  (g[e.1]?).bind (fun r1 => (wr g e.1 (r1 ++ [(e.2.1, cv e.2.2)])).bind (fun g => (g[e.2.1]?).bind (fun r2 => wr g e.2.1 (r2 ++ [(e.1, cv e.2.2)]))))

/-- Calls of `add_edge`. -/
def addEdges {W W' : Type} (cv : W → W') : List (Nat × Nat × W) → List (List (Nat × W')) → Option (List (List (Nat × W')))
  | [], g => some g
  | e :: E, g => (addEdge cv g e).bind (addEdges cv E)

/-- `graph.hpp` line 90: the weight is kept in an `int`, whatever `W` is; here the conversion from an integer type. -/
def toInt (c : Int) : Int := Int.bmod c (2 ^ 32)

/-- A whole run: constructor (lines 44 and 97), `add_edge` for every edge, `calc(root)`. -/
def solve {W W' T : Type} [One T] [Mul T] (cv : W → W') (F : T → Nat → W' → T) (G : T → Nat → T) (n : Nat) (E : List (Nat × Nat × W)) (root : Nat) : Option (List (List (Nat × W')) × List (List T)) :=
  (addEdges cv E (List.replicate n [])).bind (fun g => (calcDp F G g root).map (fun dp => (g, dp)))

end Verif.Reroot
