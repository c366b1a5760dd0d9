import Verif.Wavelet.Query
/-!
Model of `/repo/include/mtl/succinct/wavelet_tree.hpp` (`WaveletTree<T>` over `BitVector`).  Stored values are naturals below `2^64` (the constructor asserts that
they are not negative); values given as arguments are integers, as `T` may be signed.  `none` is undefined behaviour (out-of-range access, dereferencing the end),
a failed assertion, an overflow of `int`, or `size_t` wrap-around.  `range_freq` (lines 228-256) does not compile and is not modelled.
-/
namespace Verif.WTree
open Verif.BitManip Verif.Succinct Verif.Wavelet

/-- wavelet_tree.hpp:14-15; `bv` is the rank/select support of the `BitVector`. -/
structure WT where
  n : Nat
  h : Nat
  B : Bm
  bv : Bv

/-- :19: `64 - clz(*max_element(begin, end))`. -/
def height (S : List Nat) : Option Nat := if S.length = 0 then none else (clz (S.foldl max 0)).map (fun c => 64 - c)

/-- :32-33 and 63-64: `*bit = (S[i] & (1ull<<k)) != 0`. -/
def writeBody (S : List Nat) (k i : Nat) (t : Bm × It) : Option (Bm × It) :=
  (S[i]?).bind (fun x => (putIt t.1 t.2 (x.testBit k)).map (fun B => (B, t.2.inc)))

/-- :38-42: the state is the two queues. -/
def partBody (S : List Nat) (k i : Nat) (t : List Nat × List Nat) : Option (List Nat × List Nat) :=
  (S[i]?).map (fun x => if x.testBit k then (t.1, t.2 ++ [x]) else (t.1 ++ [x], t.2))

/-- :46-49 and 50-53: `while (!q.empty()) { S[i++] = q.front(); q.pop(); }`. -/
def fill : List Nat → Nat → List Nat → Option (List Nat × Nat)
  | S, i, [] => some (S, i)
  | S, i, x :: q => (wr S i x).bind (fun S => fill S (i + 1) q)

/-- :37-59 for one node; the state is `S`, `nd`. -/
def nodeBody (D : List Nat) (k d : Nat) (t : List Nat × List Nat) : Option (List Nat × List Nat) :=
  (D[d]?).bind (fun l => (D[d + 1]?).bind (fun r =>
  (forRange l r (partBody t.1 k) ([], [])).bind (fun q =>
  (fill t.1 l q.1).bind (fun a => (fill a.1 a.2 q.2).bind (fun a =>
    if a.2 = r then
      let nd := if q.1.length ≠ 0 then t.2 ++ [l + q.1.length] else t.2
      some (a.1, if l + q.1.length < r then nd ++ [r] else nd)
    else none)))))

/-- State of the loop in lines 31-62. -/
structure CSt where
  S : List Nat
  B : Bm
  it : It
  D : List Nat

/-- :32-61 for one `k`. -/
def levelBody (n k : Nat) (t : CSt) : Option CSt :=
  (forRange 0 n (writeBody t.S k) (t.B, t.it)).bind (fun q =>
  (forRange 0 (t.D.length - 1) (nodeBody t.D k) (t.S, [0])).map (fun p => ⟨p.1, q.1, q.2, p.2⟩))

/-- :18-66: the constructor. -/
def mk (S : List Nat) : Option WT :=
  (height S).bind (fun h =>
  (forRangeDown 1 h (levelBody S.length) ⟨S, Bm.assign (Bm.mk' 0 false) (h * S.length) false, Bm.begin, [0, S.length]⟩).bind (fun t =>
  (forRange 0 S.length (writeBody t.S 0) (t.B, t.it)).bind (fun q =>
  (Succinct.build 64 q.1.src).map (fun bv => ⟨S.length, h, q.1, bv⟩))))

/-- `B.rank(i)` -/
def WT.rk (w : WT) (i : Nat) : Option Nat := rank1 64 w.B.src w.bv i

/-- `rl`, `rj`, `zs` of lines 80-83, 104-105, 124-125, 144-145. -/
structure Rks where
  rl : Nat
  rj : Nat
  zs : Nat

/-- :80-83, 104-105, 124-125, 144-145 -/
def WT.ranks (w : WT) (l r j : Nat) : Option Rks :=
  (w.rk l).bind (fun rl => (w.rk (l + j)).bind (fun rj => (w.rk r).bind (fun rr =>
  (usub r l).bind (fun d => (usub rr rl).bind (fun o => (usub d o).map (fun zs => ⟨rl, rj, zs⟩))))))

/-- `rj - rl` -/
def Rks.ones (q : Rks) : Option Nat := usub q.rj q.rl
/-- `(l+j - rj) - (l - rl)` -/
def Rks.zeros (q : Rks) (l j : Nat) : Option Nat := (usub (l + j) q.rj).bind (fun a => (usub l q.rl).bind (fun b => usub a b))

/-- :79-94; the first argument is the number of iterations left, so `k` runs down to 1; the state is `l`, `r`, `j`, `ret`. -/
def WT.getLoop (w : WT) : Nat → Nat → Nat → Nat → Nat → Option (Nat × Nat × Nat)
  | 0, l, _, j, ret => some (l, j, ret)
  | k+1, l, r, j, ret => (w.ranks l r j).bind (fun q => (w.B.get (l + j)).bind (fun b =>
      if b then q.ones.bind (fun j' => w.getLoop k (l + w.n + q.zs) (r + w.n) j' (ret ||| 2^(k+1)))
      else (q.zeros l j).bind (fun j' => w.getLoop k (l + w.n) (l + w.n + q.zs) j' ret)))

/-- :75-98 (`get`) -/
def WT.get (w : WT) (i : Nat) : Option Nat :=
  (w.getLoop (w.h - 1) 0 w.n i 0).bind (fun t => (w.B.get (t.1 + t.2.1)).map (fun b => if b then t.2.2 ||| 1 else t.2.2))

/-- :103-115 -/
def WT.rankLoop (w : WT) (c : Int) : Nat → Nat → Nat → Nat → Option Nat
  | 0, _, _, j => some j
  | k+1, l, r, j => (w.ranks l r j).bind (fun q =>
      if cbit c k then q.ones.bind (fun j' => w.rankLoop c k (l + w.n + q.zs) (r + w.n) j')
      else (q.zeros l j).bind (fun j' => w.rankLoop c k (l + w.n) (l + w.n + q.zs) j'))

/-- :100-117 (`rank`) -/
def WT.rank (w : WT) (c : Int) (i : Nat) : Option Nat := w.rankLoop c w.h 0 w.n i

/-- :123-136 -/
def WT.lowLoop (w : WT) (c : Int) : Nat → Nat → Nat → Nat → Nat → Option Nat
  | 0, _, _, _, ret => some ret
  | k+1, l, r, j, ret => (w.ranks l r j).bind (fun q =>
      if cbit c k then (q.zeros l j).bind (fun z => q.ones.bind (fun j' => w.lowLoop c k (l + w.n + q.zs) (r + w.n) j' (ret + z)))
      else (q.zeros l j).bind (fun j' => w.lowLoop c k (l + w.n) (l + w.n + q.zs) j' ret))

/-- :119-138 (`rank_lower`) -/
def WT.rankLower (w : WT) (c : Int) (i : Nat) : Option Nat := w.lowLoop c w.h 0 w.n i 0

/-- :143-157 -/
def WT.r3Loop (w : WT) (c : Int) : Nat → Nat → Nat → Nat → Nat → Nat → Option (Nat × Nat × Nat)
  | 0, _, _, j, lt, gt => some (lt, j, gt)
  | k+1, l, r, j, lt, gt => (w.ranks l r j).bind (fun q =>
      if cbit c k then (q.zeros l j).bind (fun z => q.ones.bind (fun j' => w.r3Loop c k (l + w.n + q.zs) (r + w.n) j' (lt + z) gt))
      else q.ones.bind (fun o => (q.zeros l j).bind (fun j' => w.r3Loop c k (l + w.n) (l + w.n + q.zs) j' lt (gt + o))))

/-- :140-159 (`rank_3way`) -/
def WT.rank3 (w : WT) (c : Int) (i : Nat) : Option (Nat × Nat × Nat) := w.r3Loop c w.h 0 w.n i 0 0

/-- :164-175; the result is `ls[0], ..., ls[h-1]` and `l`, `r`; `ls` is an array of `int`. -/
def WT.selDown (w : WT) (c : Int) : Nat → Nat → Nat → List Nat → Option (List Nat × Nat × Nat)
  | 0, l, r, ls => some (ls, l, r)
  | k+1, l, r, ls => if l < 2^31 then (w.rk l).bind (fun rl => (w.rk r).bind (fun rr =>
      (usub r l).bind (fun d => (usub rr rl).bind (fun o => (usub d o).bind (fun zs =>
        if cbit c k then w.selDown c k (l + w.n + zs) (r + w.n) (l :: ls) else w.selDown c k (l + w.n) (l + w.n + zs) (l :: ls))))))
    else none

/-- :180-187 -/
def WT.selUp (w : WT) (c : Int) (ls : List Nat) (k j : Nat) : Option Nat :=
  (ls[k]?).bind (fun l => (w.rk l).bind (fun rl =>
    if cbit c k then (selectB 64 w.B.src w.bv true (j + rl)).bind (fun p => usub p l)
    else (usub l rl).bind (fun r => (selectB 64 w.B.src w.bv false (j + r)).bind (fun p => usub p l))))

/-- :162-190 (`select`) -/
def WT.select (w : WT) (c : Int) (i : Nat) : Option Nat :=
  (w.selDown c w.h 0 w.n []).bind (fun t => (usub t.2.2 t.2.1).bind (fun d => if d ≤ i then some w.n else forRange 0 w.h (w.selUp c t.1) i))

/-- :193-209 (`_enumerate`); the first argument bounds the depth; the result is what is appended to `enm`. -/
def WT.enum (w : WT) : Nat → Nat → Nat → Nat → Nat → Nat → Option (List (Nat × Nat))
  | 0, _, _, _, _, _ => none
  | f+1, l, r, a, b, c => (usub b a).bind (fun d =>
      if d = 0 then some []
      else if w.n * w.h ≤ l then some [(c, d)]
      else (w.rk l).bind (fun rl => (w.rk r).bind (fun rr => (w.rk (l + a)).bind (fun pa => (w.rk (l + b)).bind (fun pb =>
        (usub pa rl).bind (fun ra => (usub pb rl).bind (fun rb =>
        (usub r rr).bind (fun zr => (usub l rl).bind (fun zl => (usub zr zl).bind (fun zs =>
        (usub a ra).bind (fun a0 => (usub b rb).bind (fun b0 =>
        (w.enum f (l + w.n) (l + w.n + zs) a0 b0 c).bind (fun e0 =>
        if w.n = 0 then none else (usub (w.h - 1) (l / w.n)).bind (fun k =>
        (w.enum f (l + w.n + zs) (r + w.n) ra rb (c ||| 2^k)).map (fun e1 => e0 ++ e1)))))))))))))))

/-- :211-215 (`enumerate`) -/
def WT.enumerate (w : WT) (l r : Nat) : Option (List (Nat × Nat)) := w.enum (w.h + 1) 0 w.n l r 0

end Verif.WTree
