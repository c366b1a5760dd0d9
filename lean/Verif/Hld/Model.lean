import Verif.Common.Vec
import Mathlib.Algebra.Group.Defs
/-!
Model of `Hld` (`/repo/include/mtl/hld.hpp`).

Vertices are natural numbers; a vertex `-1` is `none`.  The vectors `in, out, head, rev, depth` start with `-1` (line 45); using such an entry is counted as undefined.  `none` as a result =
out-of-range access, use of an entry `-1`, or a loop or recursion not stopping within its fuel.  `int` does not overflow.  The parameter `d` of `dfs_sz` is never used.
-/
namespace Verif.Hld

/-- Lines 7-8: `edge`, `size`, `par`. -/
structure Sz where
  edge : List (List Nat)
  size : List Nat
  par : List (Option Nat)
deriving DecidableEq

/-- `std::swap(l[i], l[j])`. -/
def swap (l : List Nat) (i j : Nat) : Option (List Nat) :=
  (l[i]?).bind (fun a => (l[j]?).bind (fun b => (wr l i b).bind (fun l => wr l j a)))

/-- Lines 13-14. -/
def swapBack (p : Option Nat) (ev : List Nat) : Option (List Nat) :=
  match ev with
  | [] => some ev
  | a :: _ => if some a = p then swap ev 0 (ev.length - 1) else some ev

/-- Lines 19-20; `b` is `size[t]`. -/
def szSwap (v i b : Nat) (s : Sz) : Option Sz :=
  (rd2 s.edge v 0).bind (fun h => (s.size[h]?).bind (fun c => if c < b then
    (s.edge[v]?).bind (fun ev => (swap ev 0 i).bind (fun ev => (wr s.edge v ev).map (fun edge => { s with edge := edge }))) else some s))

/-- Lines 18-20. -/
def szAdd (v i : Nat) (s : Sz) : Option Sz :=
  (rd2 s.edge v i).bind (fun t => (s.size[v]?).bind (fun a => (s.size[t]?).bind (fun b => (wr s.size v (a + b)).bind (fun size => szSwap v i b { s with size := size }))))

/-- Lines 16-20: one round of the loop. -/
def szStep (rec : Nat → Sz → Option Sz) (v : Nat) (p : Option Nat) (i : Nat) (s : Sz) : Option Sz :=
  (rd2 s.edge v i).bind (fun t => if some t = p then some s else (rec t s).bind (fun s => szAdd v i s))

/-- Lines 10-22 (`dfs_sz`); the first argument bounds the depth of the recursion. -/
def dfsSz : Nat → Nat → Option Nat → Sz → Option Sz
  | 0, _, _, _ => none
  | f+1, v, p, s => (wr s.par v p).bind (fun par => (wr s.size v 1).bind (fun size => (s.edge[v]?).bind (fun ev => (swapBack p ev).bind (fun ev => (wr s.edge v ev).bind (fun edge =>
      forRange 0 ev.length (szStep (fun t s => dfsSz f t (some v) s) v p) ⟨edge, size, par⟩)))))

/-- Reading an entry which is not `-1`. -/
def rdI (l : List (Option Nat)) (i : Nat) : Option Nat := (l[i]?).bind id

/-- Line 8: `in, out, head, rev, depth, clen`, and the counter `times`. -/
structure Hs where
  inn : List (Option Nat)
  out : List (Option Nat)
  head : List (Option Nat)
  rev : List (Option Nat)
  depth : List (Option Nat)
  clen : List Nat
  times : Nat
deriving DecidableEq

/-- Lines 24-26. -/
def enter (v : Nat) (s : Hs) : Option Hs :=
  (wr s.inn v (some s.times)).bind (fun inn => (wr s.rev s.times (some v)).bind (fun rev => (wr s.clen v 1).map (fun clen =>
    { s with inn := inn, rev := rev, clen := clen, times := s.times + 1 })))

/-- Lines 29-30 and 37-38. -/
def setHead (t h d : Nat) (s : Hs) : Option Hs :=
  (wr s.head t (some h)).bind (fun head => (wr s.depth t (some d)).map (fun depth => { s with head := head, depth := depth }))

/-- Line 32. -/
def addLen (v t : Nat) (s : Hs) : Option Hs :=
  (s.clen[v]?).bind (fun a => (s.clen[t]?).bind (fun b => (wr s.clen v (a + b)).map (fun clen => { s with clen := clen })))

/-- Lines 28-32. -/
def heavyStep (rec : Nat → Hs → Option Hs) (v t : Nat) (s : Hs) : Option Hs :=
  (rdI s.head v).bind (fun h => (rdI s.depth v).bind (fun d => (setHead t h d s).bind (fun s => (rec t s).bind (addLen v t))))

/-- Lines 27-33. -/
def heavyPart (rec : Nat → Hs → Option Hs) (v : Nat) (p : Option Nat) (ev : List Nat) (s : Hs) : Option Hs :=
  match ev with
  | [] => some s
  | t :: _ => if some t = p then some s else heavyStep rec v t s

/-- Lines 35-39. -/
def lightStep (rec : Nat → Hs → Option Hs) (v : Nat) (p : Option Nat) (ev : List Nat) (i : Nat) (s : Hs) : Option Hs :=
  (ev[i]?).bind (fun t => if some t = p then some s else (rdI s.depth v).bind (fun d => (setHead t t (d+1) s).bind (rec t)))

/-- Line 41. -/
def leave (v : Nat) (s : Hs) : Option Hs := (wr s.out v (some s.times)).map (fun out => { s with out := out })

/-- Lines 23-42 (`dfs_hld`); the first argument bounds the depth of the recursion. -/
def dfsHld (edge : List (List Nat)) : Nat → Nat → Option Nat → Hs → Option Hs
  | 0, _, _, _ => none
  | f+1, v, p, s => (edge[v]?).bind (fun ev => (enter v s).bind (fun s =>
      (heavyPart (fun t s => dfsHld edge f t (some v) s) v p ev s).bind (fun s =>
        (forRange 1 ev.length (lightStep (fun t s => dfsHld edge f t (some v) s) v p ev) s).bind (leave v))))

/-- Lines 6-8: the object after `build`. -/
structure Obj where
  r : Nat
  n : Nat
  sz : Sz
  hs : Hs
deriving DecidableEq

/-- Lines 47-50 (`add_edge`). -/
def addEdge (edge : List (List Nat)) (e : Nat × Nat) : Option (List (List Nat)) :=
  (edge[e.1]?).bind (fun r1 => (wr edge e.1 (r1 ++ [e.2])).bind (fun edge => (edge[e.2]?).bind (fun r2 => wr edge e.2 (r2 ++ [e.1]))))

/-- Line 45 and calls of `add_edge`. -/
def addEdges : List (Nat × Nat) → List (List Nat) → Option (List (List Nat))
  | [], edge => some edge
  | e :: E, edge => (addEdge edge e).bind (addEdges E)

/-- Lines 55-58. -/
def buildHld (n root : Nat) (s : Sz) : Option Obj :=
  (wr (List.replicate n none) root (some root)).bind (fun head => (wr (List.replicate n none) root (some 0)).bind (fun depth =>
    (dfsHld s.edge (n+1) root none ⟨List.replicate n none, List.replicate n none, head, List.replicate n none, depth, List.replicate n 0, 0⟩).map (fun h => ⟨root, n, s, h⟩)))

/-- Lines 45-59: the constructor, `add_edge` for the edges of the list, and `build`. -/
def build (n : Nat) (E : List (Nat × Nat)) (root : Nat) : Option Obj :=
  (addEdges E (List.replicate n [])).bind (fun edge =>
    (dfsSz (n+1) root none ⟨edge, List.replicate n 0, List.replicate n none⟩).bind (buildHld n root))

/-- `par[head[v]]`, used as a vertex. -/
def up (o : Obj) (v : Nat) : Option Nat := (rdI o.hs.head v).bind (rdI o.sz.par)

/-- Lines 63-65; the first argument bounds the number of rounds. -/
def lift (o : Obj) : Nat → Nat → Nat → Option Nat
  | 0, _, _ => none
  | f+1, a, b => (rdI o.hs.depth a).bind (fun da => (rdI o.hs.depth b).bind (fun db => if da < db then (up o b).bind (lift o f a) else some b))

/-- Lines 66-69. -/
def lift2 (o : Obj) : Nat → Nat → Nat → Option (Nat × Nat)
  | 0, _, _ => none
  | f+1, a, b => (rdI o.hs.head a).bind (fun ha => (rdI o.hs.head b).bind (fun hb => if ha ≠ hb then (up o a).bind (fun a => (up o b).bind (lift2 o f a)) else some (a, b)))

/-- Lines 63-70. -/
def lca2 (o : Obj) (a b : Nat) : Option Nat :=
  (lift o (o.n + 1) a b).bind (fun b => (lift2 o (o.n + 1) a b).bind (fun ab => (rdI o.hs.inn ab.1).bind (fun ia => (rdI o.hs.inn ab.2).map (fun ib => if ia < ib then ab.1 else ab.2))))

/-- Lines 61-71 (`lca`). -/
def lca (o : Obj) (a b : Nat) : Option Nat :=
  (rdI o.hs.depth a).bind (fun da => (rdI o.hs.depth b).bind (fun db => if da > db then lca2 o b a else lca2 o a b))

section
variable {M : Type} [Mul M]

/-- The captured variables of `_query` (lines 75-85). -/
structure QS (M : Type) where
  u : Nat
  v : Nat
  um : M
  vm : M

/-- `F(in[head[v]], in[v]+1)`. -/
def seg {β : Type} (o : Obj) (F : Nat → Nat → Option β) (v : Nat) : Option β :=
  (rdI o.hs.head v).bind (fun h => (rdI o.hs.inn h).bind (fun l => (rdI o.hs.inn v).bind (fun r => F l (r+1))))

/-- Lines 78-81. -/
def uUp (o : Obj) (RQ : Nat → Nat → Option M) (s : QS M) : Option (QS M) :=
  (seg o RQ s.u).bind (fun x => (up o s.u).map (fun u => { s with u := u, um := s.um * x }))

/-- Lines 82-85. -/
def vUp (o : Obj) (Q : Nat → Nat → Option M) (s : QS M) : Option (QS M) :=
  (seg o Q s.v).bind (fun x => (up o s.v).map (fun v => { s with v := v, vm := x * s.vm }))

/-- Lines 86-87. -/
def loopU (o : Obj) (RQ : Nat → Nat → Option M) : Nat → QS M → Option (QS M)
  | 0, _ => none
  | f+1, s => (rdI o.hs.depth s.u).bind (fun du => (rdI o.hs.depth s.v).bind (fun dv => if du > dv then (uUp o RQ s).bind (loopU o RQ f) else some s))

/-- Lines 88-89. -/
def loopV (o : Obj) (Q : Nat → Nat → Option M) : Nat → QS M → Option (QS M)
  | 0, _ => none
  | f+1, s => (rdI o.hs.depth s.u).bind (fun du => (rdI o.hs.depth s.v).bind (fun dv => if du < dv then (vUp o Q s).bind (loopV o Q f) else some s))

/-- Lines 90-93. -/
def loopB (o : Obj) (Q RQ : Nat → Nat → Option M) : Nat → QS M → Option (QS M)
  | 0, _ => none
  | f+1, s => (rdI o.hs.head s.u).bind (fun hu => (rdI o.hs.head s.v).bind (fun hv => if hu ≠ hv then (uUp o RQ s).bind (fun s => (vUp o Q s).bind (loopB o Q RQ f)) else some s))

/-- Lines 94-100. -/
def finish (o : Obj) (Q RQ : Nat → Nat → Option M) (incl : Bool) (s : QS M) : Option M :=
  (rdI o.hs.inn s.u).bind (fun iu => (rdI o.hs.inn s.v).bind (fun iv =>
    if iu < iv then (Q (if incl then iu else iu + 1) (iv + 1)).map (fun x => s.um * x * s.vm)
    else (RQ (if incl then iv else iv + 1) (iu + 1)).map (fun x => s.um * x * s.vm)))

/-- Lines 74-107 (`query`); the calls of `Q` and `RQ` may fail.  `e` is the value of a default-initialised `T` (line 77). -/
def query (o : Obj) (e : M) (Q RQ : Nat → Nat → Option M) (incl : Bool) (u v : Nat) : Option M :=
  (loopU o RQ (o.n + 1) ⟨u, v, e, e⟩).bind (fun s => (loopV o Q (o.n + 1) s).bind (fun s => (loopB o Q RQ (o.n + 1) s).bind (finish o Q RQ incl)))

end

/-! `update`; `U` acts on a state of type `σ`. -/

variable {σ : Type}

/-- Lines 123-126. -/
def updUp (o : Obj) (U : Nat → Nat → σ → Option σ) (v : Nat) (x : σ) : Option (Nat × σ) :=
  (seg o (fun l r => some (l, r)) v).bind (fun lr => (U lr.1 lr.2 x).bind (fun x => (up o v).map (fun v => (v, x))))

/-- Lines 127-129. -/
def updLift (o : Obj) (U : Nat → Nat → σ → Option σ) : Nat → Nat → Nat → σ → Option (Nat × σ)
  | 0, _, _, _ => none
  | f+1, u, v, x => (rdI o.hs.depth u).bind (fun du => (rdI o.hs.depth v).bind (fun dv => if du < dv then (updUp o U v x).bind (fun r => updLift o U f u r.1 r.2) else some (v, x)))

/-- Lines 130-133. -/
def updLift2 (o : Obj) (U : Nat → Nat → σ → Option σ) : Nat → Nat → Nat → σ → Option (Nat × Nat × σ)
  | 0, _, _, _ => none
  | f+1, u, v, x => (rdI o.hs.head u).bind (fun hu => (rdI o.hs.head v).bind (fun hv => if hu ≠ hv then
      (updUp o U u x).bind (fun r => (updUp o U v r.2).bind (fun r' => updLift2 o U f r.1 r'.1 r'.2)) else some (u, v, x)))

/-- Lines 135-136. -/
def updLast (U : Nat → Nat → σ → Option σ) (incl : Bool) (iu iv : Nat) (x : σ) : Option σ := U (if incl then iu else iu + 1) (iv + 1) x

/-- Lines 127-136. -/
def update2 (o : Obj) (U : Nat → Nat → σ → Option σ) (incl : Bool) (u v : Nat) (x : σ) : Option σ :=
  (updLift o U (o.n + 1) u v x).bind (fun r => (updLift2 o U (o.n + 1) u r.1 r.2).bind (fun r => (rdI o.hs.inn r.1).bind (fun iu => (rdI o.hs.inn r.2.1).bind (fun iv =>
    if iu > iv then updLast U incl iv iu r.2.2 else updLast U incl iu iv r.2.2))))

/-- Lines 120-137 (`update`). -/
def update (o : Obj) (U : Nat → Nat → σ → Option σ) (incl : Bool) (u v : Nat) (x : σ) : Option σ :=
  (rdI o.hs.depth u).bind (fun du => (rdI o.hs.depth v).bind (fun dv => if du > dv then update2 o U incl v u x else update2 o U incl u v x))

/-! Subtree sums; `A` acts on a state, `S` reads it. -/

variable {M : Type}

/-- Lines 151-152. -/
def subAdd (o : Obj) (A : Nat → M → σ → Option σ) (S : Nat → Nat → σ → Option M) (u i v : Nat) (x : σ) : Option σ :=
  if i > 0 then (rdI o.hs.inn u).bind (fun iu => (rdI o.hs.inn v).bind (fun iv => (o.hs.clen[v]?).bind (fun c => (S iv (iv + c) x).bind (fun y => A iu y x)))) else some x

/-- Lines 148-152. -/
def subStep (o : Obj) (A : Nat → M → σ → Option σ) (S : Nat → Nat → σ → Option M) (rec : Nat → σ → Option σ) (u i : Nat) (x : σ) : Option σ :=
  (rd2 o.sz.edge u i).bind (fun v => (o.sz.par[u]?).bind (fun p => if some v = p then some x else (rec v x).bind (subAdd o A S u i v)))

/-- Lines 145-154 (`dfs_subtree_build`). -/
def dfsSub (o : Obj) (A : Nat → M → σ → Option σ) (S : Nat → Nat → σ → Option M) : Nat → Nat → σ → Option σ
  | 0, _, _ => none
  | f+1, u, x => (o.sz.edge[u]?).bind (fun eu => forRange 0 eu.length (subStep o A S (dfsSub o A S f) u) x)

/-- Lines 140-143 (`subtree_build`). -/
def subtreeBuild (o : Obj) (A : Nat → M → σ → Option σ) (S : Nat → Nat → σ → Option M) (x : σ) : Option σ := dfsSub o A S (o.n + 1) o.r x

/-- Lines 156-159 (`subtree_sum`). -/
def subtreeSum (o : Obj) (S : Nat → Nat → σ → Option M) (v : Nat) (x : σ) : Option M :=
  (rdI o.hs.inn v).bind (fun iv => (o.hs.clen[v]?).bind (fun c => S iv (iv + c) x))

/-- Lines 160-166 (`subtree_point_add`); the first argument bounds the number of rounds. -/
def pointAdd (o : Obj) (A : Nat → M → σ → Option σ) (val : M) : Nat → Option Nat → σ → Option σ
  | 0, _, _ => none
  | _+1, none, x => some x
  | f+1, some u, x => (rdI o.hs.inn u).bind (fun iu => (A iu val x).bind (fun x => (rdI o.hs.head u).bind (fun h => (o.sz.par[h]?).bind (fun p => pointAdd o A val f p x))))

end Verif.Hld
