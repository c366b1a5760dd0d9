import Verif.SubsetConv.Model
import Mathlib.Algebra.Ring.Defs
import Mathlib.Data.Nat.Cast.Defs
/-!
Model of `/repo/include/mtl/sps.hpp` (set power series).

`none` is undefined behaviour or a failed assertion.  Set functions on `{0, ..., n-1}` are lists of length `2^n` indexed by bit masks,
`LIM` is the parameter `L`, and `T` is a commutative ring with decidable equality (a modular integer type, say).  The loops over `d` that
shift, add or subtract whole arrays (lines 19-24, 38-42) are operations on functions `Fin (L+1) → T`.  A call with iterators into the middle
of a vector (`zA.begin()+(1<<i)`) works on a copy of the block, which is written back; source and target blocks of
`SubsetPointwiseConvolution` may coincide because row `i` is read before it is written.  `SubsetRankedMobius` also leaves the transformed
rows in its input block; no caller below reads that block again, so this is not modelled.
-/
namespace Verif.Sps
open Verif.SubsetConv

variable {T : Type} {L : Nat} {α : Type}

/-- The range `[z+o, z+o+len)`. -/
def blk (z : List α) (o len : Nat) : Option (List α) := if o + len ≤ z.length then some ((z.drop o).take len) else none

/-- Write `c` to `[z+o, z+o+c.length)`. -/
def put (z : List α) (o : Nat) (c : List α) : Option (List α) :=
  if o + c.length ≤ z.length then some (z.take o ++ c ++ z.drop (o + c.length)) else none

/-- sps.hpp:19-21: `zB[t][d] = zB[t][d-1]` for `d = LIM, ..., 1`, and `zB[t][0] = 0`. -/
def shiftUp [Zero T] (a : Arr T L) : Arr T L := fun d => if d.val = 0 then 0 else a ⟨d.val - 1, by omega⟩

/-- sps.hpp:41-42: `zB[t][d] = zB[t][d+1]` for `d = 0, ..., LIM-1`. -/
def shiftDown (a : Arr T L) : Arr T L := fun d => if h : d.val < L then a ⟨d.val + 1, by omega⟩ else a d

/-- sps.hpp:17-24. -/
def mergeStep [Zero T] [Add T] (w s : Nat) (z : List (Arr T L)) : Option (List (Arr T L)) :=
  (z[s+w]?).bind (fun zt => (z[s]?).bind (fun zs => wr z (s+w) (shiftUp zt + zs)))

/-- sps.hpp:9-26 (`SpsEgfZetaMerge`). -/
def merge [Zero T] [Add T] (n : Nat) (z : List (Arr T L)) : Option (List (Arr T L)) :=
  if n ≤ L then (if n = 0 then some z else forRange 0 (2^(n-1)) (mergeStep (2^(n-1))) z) else none

/-- sps.hpp:36-43. -/
def splitStep [Zero T] [Sub T] (n w s : Nat) (z : List (Arr T L)) : Option (List (Arr T L)) :=
  (z[s+w]?).bind (fun zt => (z[s]?).bind (fun zs => (aset (shiftDown (zt - zs)) n 0).bind (fun a => wr z (s+w) a)))

/-- sps.hpp:28-45 (`SpsEgfMobiusSplit`). -/
def split [Zero T] [Sub T] (n : Nat) (z : List (Arr T L)) : Option (List (Arr T L)) :=
  if n ≤ L then (if n = 0 then some z else forRange 0 (2^(n-1)) (splitStep n (2^(n-1))) z) else none

/-- subset_convolution.hpp:122-133: one row, written to a separate vector. -/
def rowTo [Zero T] [Add T] [Mul T] (n : Nat) (zA zB : List (Arr T L)) (i : Nat) (s : List (Arr T L) × Arr T L) :
    Option (List (Arr T L) × Arr T L) :=
  (zA[i]?).bind (fun za => (zB[i]?).bind (fun zb => (s.1[i]?).bind (fun zt =>
    (forRange 0 (n+1) clearStep s.2).bind (fun tmp => (forRange 0 (n+1) (outerStep n za zb) tmp).bind (fun tmp =>
      (forRange 0 (n+1) (copyStep tmp) zt).bind (fun z => (wr s.1 i z).map (fun out => (out, tmp))))))))

/-- subset_convolution.hpp:104-135 (`SubsetPointwiseConvolution`) with a separate target. -/
def pointwiseTo [Zero T] [Add T] [Mul T] (n : Nat) (zA zB out : List (Arr T L)) : Option (List (Arr T L)) :=
  if n ≤ L ∧ zA.length = 2^n ∧ zB.length = 2^n then (forRange 0 (2^n) (rowTo n zA zB) (out, fun _ => 0)).map Prod.fst else none

/-- `SubsetRankedZeta(i, A+(1<<i), A+(2<<i), zA.begin()+(1<<i))` (sps.hpp:82-83, 161, 262). -/
def zetaBlock [Zero T] [Add T] (A : List T) (i : Nat) (zA : List (Arr T L)) : Option (List (Arr T L)) :=
  (blk A (2^i) (2^i)).bind (fun a => (rankedZeta i a).bind (fun z => put zA (2^i) z))

/-- `SubsetPointwiseConvolution(i, zA+(1<<i), zA+(2<<i), zB, zB+(1<<i), zC+(1<<i))` (sps.hpp:91-94, 166-169). -/
def pointBlock [Zero T] [Add T] [Mul T] (i : Nat) (zA zB zC : List (Arr T L)) : Option (List (Arr T L)) :=
  (blk zA (2^i) (2^i)).bind (fun a => (blk zB 0 (2^i)).bind (fun b => (blk zC (2^i) (2^i)).bind (fun c =>
    (pointwiseTo i a b c).bind (fun p => put zC (2^i) p))))

/-- `SubsetRankedMobius(i, zB+(1<<i), zB+(2<<i), out+(1<<i))` (sps.hpp:100-101, 172). -/
def mobiusBlock [Sub T] (i : Nat) (zB : List (Arr T L)) (out : List T) : Option (List T) :=
  (blk zB (2^i) (2^i)).bind (fun b => (rankedMobius i b).bind (fun o => put out (2^i) o))

/-- A vector of `1<<n` zero arrays. -/
def zeros [Zero T] (n : Nat) : List (Arr T L) := List.replicate (2^n) (fun _ => 0)

/-- `z[0][0] = x`. -/
def set00 (z : List (Arr T L)) (x : T) : Option (List (Arr T L)) := (z[0]?).bind (fun a => (aset a 0 x).bind (fun a => wr z 0 a))

/-- `z[0][0]`. -/
def get00 (z : List (Arr T L)) : Option T := (z[0]?).bind (fun a => aget a 0)

/-! ### `SpsExp` -/

/-- sps.hpp:160-170: one round of the first loop. -/
def expUp [CommRing T] (A : List T) (i : Nat) (s : List (Arr T L) × List (Arr T L)) : Option (List (Arr T L) × List (Arr T L)) :=
  (zetaBlock A i s.1).bind (fun zA => (if 0 < i then merge i s.2 else some s.2).bind (fun zB =>
    (pointBlock i zA zB zB).map (fun zB => (zA, zB))))

/-- sps.hpp:171-177: one round of the second loop. -/
def expDown [CommRing T] (i : Nat) (s : List (Arr T L) × List T) : Option (List (Arr T L) × List T) :=
  (mobiusBlock i s.1 s.2).bind (fun out => (if 0 < i then split i s.1 else some s.1).map (fun zB => (zB, out)))

/-- sps.hpp:144-189 (`SpsExp`, both forms). -/
def spsExp [CommRing T] [DecidableEq T] (L n : Nat) (A : List T) : Option (List T) :=
  if n ≤ L ∧ n < 31 ∧ A.length = 2^n ∧ A[0]? = some 0 then
    (set00 (zeros (L := L) n) 1).bind (fun zB => (forRange 0 n (expUp A) (zeros n, zB)).bind (fun s =>
      (forRangeDown 0 n expDown (s.2, List.replicate (2^n) 0)).bind (fun t => wr t.2 0 1)))
  else none

/-! ### `SpsCompositionEgf` -/

/-- sps.hpp:87-95: one round of the inner loop, on `(zB, zC)`. -/
def compInner [CommRing T] (zA : List (Arr T L)) (k d i : Nat) (s : List (Arr T L) × List (Arr T L)) :
    Option (List (Arr T L) × List (Arr T L)) :=
  (if k + 1 < d then merge i s.1 else some s.1).bind (fun zB => (pointBlock i zA zB s.2).map (fun zC => (zB, zC)))

/-- sps.hpp:85-97: one round of the loop over `k`, with the final `swap`. -/
def compStep [CommRing T] (n d : Nat) (F : List T) (zA : List (Arr T L)) (k : Nat) (s : List (Arr T L) × List (Arr T L)) :
    Option (List (Arr T L) × List (Arr T L)) :=
  (F[k]?).bind (fun f => (set00 s.2 f).bind (fun zC => (forRange 0 (n-k) (compInner zA k d) (s.1, zC)).map (fun s => (s.2, s.1))))

/-- sps.hpp:48-106 (`SpsCompositionEgf`); `n` below 31 for `1<<n`. -/
def compEgf [CommRing T] [DecidableEq T] (L n : Nat) (F A : List T) : Option (List T) :=
  if n < 31 ∧ 2^n ≤ A.length ∧ A[0]? = some 0 then
    if F.isEmpty then some (List.replicate (2^n) 0) else
    let d := min n (F.length - 1)
    (forRange 0 n (zetaBlock A) (zeros (L := L) n)).bind (fun zA => (F[d]?).bind (fun f => (set00 (zeros n) f).bind (fun zB =>
      (forRangeDown 0 d (compStep n d F zA) (zB, zeros n)).bind (fun s =>
        (forRangeDown 0 n (fun i out => mobiusBlock i s.1 out) (List.replicate (2^n) 0)).bind (fun out =>
          (get00 s.1).bind (fun x => if F[0]? = some x then wr out 0 x else none))))))
  else none

/-! ### `SpsCompositionPoly` -/

/-- sps.hpp:123-125. -/
def addPow [CommRing T] (f : T) (pw : List T) (j : Nat) (g : List T) : Option (List T) :=
  (g[j]?).bind (fun x => (pw[j]?).bind (fun p => wr g j (x + f * p)))

/-- sps.hpp:126-128. -/
def mulPow [CommRing T] (c : T) (j : Nat) (pw : List T) : Option (List T) :=
  (pw[j]?).bind (fun p => if j = 0 then wr pw 0 (p * c + 0) else (pw[j-1]?).bind (fun q => wr pw j (p * c + q)))

/-- sps.hpp:122-129. -/
def shiftRound [CommRing T] (F : List T) (c : T) (d i : Nat) (s : List T × List T) : Option (List T × List T) :=
  (F[i]?).bind (fun f => (forRange 0 (d+1) (addPow f s.2) s.1).bind (fun g =>
    (forRangeDown 0 (d+1) (mulPow c) s.2).map (fun pw => (g, pw))))

/-- sps.hpp:132-135, on `(g, factorial)`. -/
def factRound [CommRing T] (j : Nat) (s : List T × T) : Option (List T × T) :=
  (s.1[j]?).bind (fun x => (wr s.1 j (x * s.2)).map (fun g => (g, s.2 * (j+1 : Nat))))

/-- `A.resize(m, 0)`. -/
def resize [Zero T] (A : List T) (m : Nat) : List T := A.take m ++ List.replicate (m - A.length) 0

/-- sps.hpp:109-137 (`SpsCompositionPoly`). -/
def compPoly [CommRing T] [DecidableEq T] (L n : Nat) (F A : List T) : Option (List T) :=
  if n < 31 then
    if F.isEmpty then some (List.replicate (2^n) 0) else
    let d := min (F.length - 1) n
    (A[0]?).bind (fun c => (wr A 0 0).bind (fun A =>
      let A := resize A (2^n)
      if c = 0 then compEgf L n F A else
      (wr (List.replicate (d+1) 0) 0 1).bind (fun pw =>
        (forRange 0 F.length (shiftRound F c d) (List.replicate (d+1) 0, pw)).bind (fun s =>
          (forRange 0 (d+1) factRound (s.1, 1)).bind (fun t => compEgf L n t.1 A)))))
  else none

/-! ### `SpsLog` -/

/-- sps.hpp:200-203, on `(f, fact)`. -/
def logRound [CommRing T] (i : Nat) (s : List T × T) : Option (List T × T) :=
  (wr s.1 i (-s.2)).map (fun f => (f, s.2 * (i : Nat)))

/-- sps.hpp:207-208. -/
def negStep [CommRing T] (i : Nat) (s : List T) : Option (List T) := (s[i]?).bind (fun x => wr s i (-x))

/-- sps.hpp:191-210 (`SpsLog`). -/
def spsLog [CommRing T] [DecidableEq T] (L n : Nat) (s : List T) : Option (List T) :=
  if n ≤ L ∧ n < 31 ∧ s[0]? = some 1 then
    (forRange 1 (n+1) logRound (List.replicate (n+1) 0, 1)).bind (fun f => (wr s 0 0).bind (fun s =>
      (forRange 1 (2^n) negStep (if s.length ≠ 2^n then resize s (2^n) else s)).bind (fun s => compEgf L n f.1 s)))
  else none

/-! ### `SpsInv` -/

/-- sps.hpp:345-347. -/
def invInner (z : Arr T L) [CommRing T] (j k : Nat) (g : Arr T L) : Option (Arr T L) :=
  (aget g j).bind (fun x => (aget g k).bind (fun y => (aget z (j-k)).bind (fun w => aset g j (x - y * w))))

/-- sps.hpp:343-348. -/
def invOuter [CommRing T] (z : Arr T L) (j : Nat) (g : Arr T L) : Option (Arr T L) :=
  (aset g j 0).bind (fun g => forRange 0 j (invInner z j) g)

/-- sps.hpp:341-350: one row, on `(zs, g)`. -/
def invRow [CommRing T] (n i : Nat) (s : List (Arr T L) × Arr T L) : Option (List (Arr T L) × Arr T L) :=
  (s.1[i]?).bind (fun z => (aset s.2 0 1).bind (fun g => (forRange 1 (n+1) (invOuter z) g).bind (fun g =>
    (wr s.1 i g).map (fun zs => (zs, g)))))

/-- sps.hpp:336-352 (`SpsInv`). -/
def spsInv [CommRing T] (L n : Nat) (s : List T) : Option (List T) :=
  (rankedZeta (L := L) n s).bind (fun zs => (forRange 0 (2^n) (invRow n) (zs, fun _ => 0)).bind (fun t => rankedMobius n t.1))

/-! ### Transposed maps -/

/-- sps.hpp:232-244 (`TransposedSubsetConvolution`, the form with vectors). -/
def transConv [CommRing T] (L : Nat) (s x : List T) : Option (List T) :=
  (subsetConvolution L x.reverse s).map List.reverse

/-- sps.hpp:266-281: one round of the loop over `i`, on `(f, zf)`.  The reverse iterators read and write the block `f[2^i, 2^(i+1))` backwards. -/
def transBlock [CommRing T] (zs : List (Arr T L)) (i : Nat) (s : List T × List (Arr T L)) : Option (List T × List (Arr T L)) :=
  (blk s.1 (2^i) (2^i)).bind (fun a => (rankedZeta i a.reverse).bind (fun z => (put s.2 (2^i) z).bind (fun zf =>
    (blk zs (2^i) (2^i)).bind (fun b => (blk zf (2^i) (2^i)).bind (fun c => (pointwiseTo i b c c).bind (fun p =>
      (put zf (2^i) p).bind (fun zf => (blk zf (2^i) (2^i)).bind (fun q => (rankedMobius i q).bind (fun o =>
        (put s.1 (2^i) o.reverse).map (fun f => (f, zf)))))))))))

/-- sps.hpp:284-287. -/
def foldStep [CommRing T] (w j : Nat) (g : List T) : Option (List T) :=
  (g[j]?).bind (fun x => (g[j+w]?).bind (fun y => (wr g j (x + y)).bind (fun g => wr g (j+w) 0)))

/-- sps.hpp:263-290: one round of the loop over `k`, on `(f, zf, y)`. -/
def transRound [CommRing T] (n : Nat) (zs : List (Arr T L)) (k : Nat) (s : List T × List (Arr T L) × List T) :
    Option (List T × List (Arr T L) × List T) :=
  (wr s.1 0 0).bind (fun f => (forRange 0 (n-k) (transBlock zs) (f, s.2.1)).bind (fun t =>
    (forRange 0 (n-k) (fun i g => forRange 0 (2^i) (foldStep (2^i)) g) t.1).bind (fun g =>
      (g[0]?).bind (fun x => (wr s.2.2 (k+1) x).map (fun y => (g, t.2, y))))))

/-- sps.hpp:250-292 (`TransposedSpsCompositionEgf` with iterators); `s` and `x` are the ranges from `sf` and `xf` to the ends of their vectors. -/
def transEgf [CommRing T] [DecidableEq T] (L n : Nat) (s x : List T) : Option (List T) :=
  if s[0]? = some 0 ∧ n ≤ L ∧ n < 31 then
    (x[0]?).bind (fun x0 => (wr (List.replicate (n+1) 0) 0 x0).bind (fun y =>
      if n = 0 then some y else
      (blk x 0 (2^n)).bind (fun f => (forRange 0 n (zetaBlock s) (zeros (L := L) n)).bind (fun zs =>
        (forRange 0 n (transRound n zs) (f, zeros n, y)).map (fun t => t.2.2)))))
  else none

/-- sps.hpp:298-303 (`TransposedSpsCompositionEgf` with vectors). -/
def transEgfVec [CommRing T] [DecidableEq T] (L : Nat) (s x : List T) : Option (List T) :=
  if s.isEmpty then none else transEgf L (Bitwise.lg s.length) s x

end Verif.Sps
