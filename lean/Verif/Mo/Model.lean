import Verif.Common.Vec
/-!
Model of `/repo/include/mtl/mo.hpp` (`MoSolver`).

A run is the list of callback calls it makes.  `none` is undefined behaviour (division by zero, failed assertion) or exhausted fuel.

The block size `b = ceil(n / sqrt(q))` is computed in floating point and is not modelled: any `b` with `BlockSize n b` is allowed.  The result of
`std::sort` is any permutation (for `solve_rollback`: any that is sorted with respect to the comparison); the choice between the two candidate orders (by moved distance) is left open.
`int` values are exact integers.
-/
namespace Verif.Mo

/-- mo.hpp:21: `(l, r)`; the id is the index. -/
abbrev Seg := Int × Int

/-- Calls of the callbacks (`INIT`, `SNAPSHOT`, `ROLLBACK` only in `solve_rollback`). -/
inductive Ev
  | pushl (i : Int)
  | pushr (i : Int)
  | popl (i : Int)
  | popr (i : Int)
  | rem (t : Nat)
  | init
  | snapshot
  | rollback
deriving DecidableEq

/-- mo.hpp:31-33, 128-130: `n`, the largest right end (at least 0). -/
def maxR (segs : List Seg) : Int := segs.foldl (fun n s => max n s.2) 0

/-- mo.hpp:34-35, 137: `ceil(n / sqrt(q))` is positive if `n` is, and 0 if `n` is 0. -/
def BlockSize (n b : Int) : Prop := (n = 0 ∧ b = 0) ∨ (0 < n ∧ 0 < b)

/-- C++ division of `int`. -/
def cdiv (a b : Int) : Option Int := if b = 0 then none else some (a.tdiv b)

/-- mo.hpp:37-40 (`get_bo`), 165-167 (`block_odd`). -/
def blockOdd (b x : Int) : Option Int := if x < b - b.tdiv 2 then some 0 else (cdiv (x - (b - b.tdiv 2)) b).map (fun k => k + 1)

/-- mo.hpp:44, 154-156. -/
def blockEven (b x : Int) : Option Int := cdiv x b

def block (odd : Bool) (b x : Int) : Option Int := if odd then blockOdd b x else blockEven b x

/-- mo.hpp:41-46 and 47-52 (`EvenComp`, `OddComp`). -/
def comp (odd : Bool) (b : Int) (s t : Seg) : Option Bool :=
  (block odd b s.1).bind (fun bs => (block odd b t.1).map (fun bt =>
    if bs ≠ bt then decide (s.1 < t.1) else if bs.tmod 2 = 0 then decide (s.2 < t.2) else decide (t.2 < s.2)))

/-- mo.hpp:97-102: comparison in `calc_mos_rollback_move`. -/
def compRb (odd : Bool) (b : Int) (s t : Seg) : Option Bool :=
  (block odd b s.1).bind (fun bs => (block odd b t.1).map (fun bt => if bs ≠ bt then decide (s.1 < t.1) else decide (s.2 < t.2)))

/-- `while (l < c) ev(--c)`. -/
def down (ev : Int → Ev) (l : Int) : Nat → Int → Option (List Ev × Int)
  | 0, c => if l < c then none else some ([], c)
  | f+1, c => if l < c then (down ev l f (c - 1)).map (fun p => (ev (c - 1) :: p.1, p.2)) else some ([], c)

/-- `while (c < r) ev(c++)`. -/
def upw (ev : Int → Ev) (r : Int) : Nat → Int → Option (List Ev × Int)
  | 0, c => if c < r then none else some ([], c)
  | f+1, c => if c < r then (upw ev r f (c + 1)).map (fun p => (ev c :: p.1, p.2)) else some ([], c)

/-- mo.hpp:83-91: one round. -/
def round (t : Nat) (l r : Int) (cl cr : Int) : Option (List Ev × Int × Int) :=
  (down Ev.pushl l (cl - l).toNat cl).bind (fun a =>
    (upw Ev.pushr r (r - cr).toNat cr).bind (fun b =>
      (upw Ev.popl l (l - a.2).toNat a.2).bind (fun c =>
        (down Ev.popr r (b.2 - r).toNat b.2).map (fun d => (a.1 ++ b.1 ++ c.1 ++ d.1 ++ [Ev.rem t], c.2, d.2)))))

/-- mo.hpp:79-92. -/
def solveLoop (segs : List Seg) : List Nat → Int → Int → Option (List Ev)
  | [], _, _ => some []
  | i :: I, cl, cr => (segs[i]?).bind (fun s => (round i s.1 s.2 cl cr).bind (fun p => (solveLoop segs I p.2.1 p.2.2).map (fun es => p.1 ++ es)))

/-- mo.hpp:56-60: with two or more elements the sorts evaluate the comparisons. -/
def compDefined (b : Int) (segs : List Seg) : Bool := segs.all (fun s => segs.all (fun t => (comp false b s t).isSome && (comp true b s t).isSome))

/-- mo.hpp:74-93 (`solve`): the run for block size `b` and the order `I`. -/
def solve (segs : List Seg) (b : Int) (I : List Nat) : Option (List Ev) :=
  if segs.length = 0 then some []
  else if 2 ≤ segs.length ∧ compDefined b segs = false then none
  else solveLoop segs I 0 0

/-! ### solve_rollback -/

/-- mo.hpp:157-159, 168-170: `bend`. -/
def bend (odd : Bool) (b bi : Int) : Int := if odd then (b - b.tdiv 2) + bi * b else (bi + 1) * b

/-- mo.hpp:142-145: a short query on its own. -/
def direct (t : Nat) (l r : Int) : Option (List Ev) := (upw Ev.pushr r (r - l).toNat l).map (fun p => Ev.init :: p.1 ++ [Ev.rem t])

/-- mo.hpp:138-149: the events of the short queries, and the ids of the long ones. -/
def shorts (b : Int) : List Seg → Nat → Option (List Ev × List Nat)
  | [], _ => some ([], [])
  | s :: ss, t =>
    if s.2 - s.1 < b then (direct t s.1 s.2).bind (fun e => (shorts b ss (t+1)).map (fun p => (e ++ p.1, p.2)))
    else (shorts b ss (t+1)).map (fun p => (p.1, t :: p.2))

/-- mo.hpp:184-188: `if (bi != cb) { init(); _r = be; cb = bi; }`: events and `_r`. -/
def enterBlock (bi cb be cr : Int) : List Ev × Int := if bi ≠ cb then ([Ev.init], be) else ([], cr)

/-- mo.hpp:182-201: one long query: events and `_r`. -/
def longOne (b : Int) (t : Nat) (l r be cr : Int) : Option (List Ev × Int) :=
  if cr ≤ r then (upw Ev.pushr r (r - cr).toNat cr).bind (fun p =>
    if l ≤ be ∧ be - l ≤ b then (down Ev.pushl l (be - l).toNat be).map (fun q =>
      (p.1 ++ [Ev.snapshot] ++ q.1 ++ [Ev.rem t, Ev.rollback], p.2)) else none)
  else none

/-- mo.hpp:179-202. -/
def longs (odd : Bool) (b : Int) (segs : List Seg) : List Nat → Int → Int → Option (List Ev)
  | [], _, _ => some []
  | t :: J, cb, cr => (segs[t]?).bind (fun s => (block odd b s.1).bind (fun bi =>
      (longOne b t s.1 s.2 (bend odd b bi) (enterBlock bi cb (bend odd b bi) cr).2).bind (fun p =>
        (longs odd b segs J bi p.2).map (fun es => (enterBlock bi cb (bend odd b bi) cr).1 ++ p.1 ++ es))))

/-- mo.hpp:108-109: `calc_mos_rollback_move` evaluates the block of every long query, for both kinds of blocks. -/
def blocksDefined (b : Int) (segs : List Seg) (J : List Nat) : Bool :=
  J.all (fun t => match segs[t]? with
    | none => false
    | some s => (block false b s.1).isSome && (block true b s.1).isSome)

/-- mo.hpp:123-203 (`solve_rollback`); `J'` is the order of the long queries. -/
def solveRollback (segs : List Seg) (b : Int) (odd : Bool) (J' : List Nat) : Option (List Ev) :=
  if segs.length = 0 then some [] else
    (shorts b segs 0).bind (fun p => if blocksDefined b segs p.2 then (longs odd b segs J' (-1) 0).map (fun es => p.1 ++ es) else none)

end Verif.Mo
