import Verif.Succinct.Select
/-!
Model of `/repo/include/mtl/succinct/bv.hpp` (`BV<BitVec, WordSize>`): rank and select support.  `S` is `WordSize`; the bit vector behind the pointer is
given by its `size()` and the list of its words (`get_word(i)`, `word_size()`).  `none` is an out-of-range access, a failed assertion or a shift by 64 or more.
Cumulative counts are at most the number of bits and are not reduced modulo `2^64`.
-/
namespace Verif.Succinct
open Verif.BitManip

/-- What BV asks of a bit vector (bv.hpp:12-16). -/
structure Src where
  n : Nat
  ws : List Nat

/-- bv.hpp:33: `_r`, `_s`, `_zs`. -/
structure Bv where
  r : List Nat
  s : List Nat
  zs : List Nat

/-- :54-59, one iteration; the state is `_r[l*2+1]` and `sum_l`. -/
def bvInner (src : Src) (l s : Nat) (t : Nat × Nat) : Option (Nat × Nat) :=
  (if l * 8 + s < src.ws.length then (src.ws[l * 8 + s]?).map (fun w => t.2 + popcnt w) else some t.2).map (fun suml =>
    (if s < 7 then t.1 ||| u64 (suml <<< ((7 - (s + 1)) * 9)) else t.1, suml))

/-- :51-68, one iteration; the last component is `sum`. -/
def bvOuter (S : Nat) (src : Src) (l : Nat) (t : Bv × Nat) : Option (Bv × Nat) :=
  (t.1.r[l * 2 + 1]?).bind (fun row0 =>
  (forRange 0 8 (bvInner src l) (row0, 0)).bind (fun q =>
  (wr t.1.r (l * 2 + 1) q.1).bind (fun r =>
  (wr r ((l + 1) * 2) (t.2 + q.2)).map (fun r =>
    (⟨r, if t.2 / (8 * S) ≠ (t.2 + q.2) / (8 * S) then t.1.s ++ [l] else t.1.s,
      if (8 * S * l - t.2) / (8 * S) ≠ (8 * S * (l + 1) - (t.2 + q.2)) / (8 * S) then t.1.zs ++ [l] else t.1.zs⟩, t.2 + q.2)))))

/-- :44 -/
def numL (S : Nat) (src : Src) : Nat := (src.n + (8 * S - 1)) / (8 * S)

/-- :42-71 (`build`) -/
def build (S : Nat) (src : Src) : Option Bv :=
  (forRange 0 (numL S src) (bvOuter S src) (⟨List.replicate ((numL S src + 1) * 2) 0, [0], [0]⟩, 0)).map (fun t =>
    ⟨t.1.r, t.1.s ++ [numL S src], t.1.zs ++ [numL S src]⟩)

/-- :73-77 -/
def getL (S : Nat) (bv : Bv) (B : Bool) (l : Nat) : Option Nat := (bv.r[l * 2]?).map (fun b => if B then b else l * (8 * S) - b)

/-- :81-85 -/
def getS (S : Nat) (bv : Bv) (B : Bool) (l s : Nat) : Option Nat :=
  (bv.r[l * 2 + 1]?).map (fun b => if B then (b >>> ((7 - s) * 9)) % 2^9 else s * S - (b >>> ((7 - s) * 9)) % 2^9)

/-- :86-88 -/
def maskW (width : Nat) : Option Nat := if width = 64 then some (2^64 - 1) else if width < 64 then some (2^width - 1) else none

/-- :89-99 -/
def rank1 (S : Nat) (src : Src) (bv : Bv) (i : Nat) : Option Nat :=
  if src.n ≤ i then bv.r[bv.r.length - 2]?
  else (src.ws[i / S]?).bind (fun w => (maskW (i % S)).bind (fun m =>
    (getL S bv true (i / (8 * S))).bind (fun a => (getS S bv true (i / (8 * S)) (i % (8 * S) / S)).map (fun b => a + b + popcnt (w &&& m)))))

/-- :100-102 (`none` when the `size_t` subtraction would wrap) -/
def rank0 (S : Nat) (src : Src) (bv : Bv) (i : Nat) : Option Nat := (rank1 S src bv i).bind (fun r => if r ≤ i then some (i - r) else none)

/-- :103-109 -/
def rankB (S : Nat) (src : Src) (bv : Bv) (B : Bool) (i : Nat) : Option Nat := if B then rank1 S src bv i else rank0 S src bv i

/-- :113-118 (the `i = 0` term is `0 << 63`) -/
def capMask (S : Nat) : Nat :=
  (List.range 8).foldl (fun m i => m ||| u64 ((i * S) <<< ((7 - i) * 9))) 0

/-- :131-137: the binary search, with fuel for the number of iterations. -/
def searchL (S : Nat) (bv : Bv) (B : Bool) (n : Nat) : Nat → Nat → Nat → Option Nat
  | 0, l, r => if l + 1 < r then none else some l
  | fuel+1, l, r => if l + 1 < r then
      (getL S bv B (l + (r - l) / 2)).bind (fun v => if v < n then searchL S bv B n fuel (l + (r - l) / 2) r else searchL S bv B n fuel l (l + (r - l) / 2))
    else some l

/-- :159-162: the flags of the small blocks whose count exceeds `m - 1`, gathered into a byte. -/
def flags (x a xda : Nat) : Nat :=
  let sm := 0x4020100804020100
  let ok := (BitManip.compl x ||| a) &&& sm
  let ng := (BitManip.compl x &&& a) &&& sm
  let y := ((x ^^^ a ^^^ xda) &&& ok) ||| ng
  u64 (y * 0x0001010101010101) >>> 56

/-- :163-165 -/
def pick (y xda : Nat) : Option Nat :=
  (clz8 y).bind (fun c => if c = 0 ∨ 8 < c then none else
    (clz (u64 ((u64 (BitManip.compl xda <<< 1) ||| 1) <<< (9 * (c - 1))))).map (fun clo => (c - 1) + (if clo ≠ 0 then (clo - 1) / 9 else 0)))

/-- :153-166: the small block, from `m` and the word `a` of small-block counts. -/
def findS (m a : Nat) : Option Nat :=
  let x := u64 ((m - 1) * 0x0040201008040201)
  let xda := u64 (x + 2^64 - a)
  pick (flags x a xda) xda

/-- :169-173 -/
def selTail (S : Nat) (src : Src) (bv : Bv) (B : Bool) (l m s : Nat) : Option Nat :=
  (getS S bv B l s).bind (fun g => if g < m then
    (src.ws[l * 8 + s]?).bind (fun w => (select64 B (m - g - 1) w).map (fun p => l * (8 * S) + s * S + p)) else none)

/-- :122-174 (`select`) -/
def selectB (S : Nat) (src : Src) (bv : Bv) (B : Bool) (ith : Nat) : Option Nat :=
  (rankB S src bv B src.n).bind (fun tot =>
    if tot < ith + 1 then some src.n
    else ((if B then bv.s else bv.zs)[(ith + 1) / (8 * S)]?).bind (fun l0 =>
      ((if B then bv.s else bv.zs)[(ith + 1) / (8 * S) + 1]?).bind (fun r0 =>
      (searchL S bv B (ith + 1) (r0 + 1) l0 (r0 + 1)).bind (fun l =>
      (getL S bv B l).bind (fun g => if g < ith + 1 then
        (bv.r[l * 2 + 1]?).bind (fun a =>
        (findS (ith + 1 - g) (if B then a else u64 (capMask S + 2^64 - a))).bind (selTail S src bv B l (ith + 1 - g)))
      else none)))))

end Verif.Succinct
