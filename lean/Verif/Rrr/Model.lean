import Verif.Succinct.BvProps
import Verif.TY.TY
/-!
Model of `/repo/include/mtl/succinct/rrr.hpp`: `RRR<SSize, uint64_t, std::map>`; `s` is `SSize` (63 by default, always below 64).

`none` is undefined behaviour or a failed assertion.  `std::map` is a list of pairs with increasing keys.
-/
namespace Verif.Rrr
open Verif Verif.BitManip Verif.Succinct

/-- A left shift of a 64-bit number. -/
def shl (x n : Nat) : Option Nat := if n < 64 then some (u64 (x <<< n)) else none

/-- A checked unsigned subtraction (in the code it would wrap around). -/
def sub (x y : Nat) : Option Nat := if y ≤ x then some (x - y) else none

/-! ### Binomials -/

/-- rrr.hpp:28-32. -/
def pascalRow (i : Nat) (tb : List (List Nat)) : Option (List (List Nat)) :=
  (rd2 tb (i-1) 0).bind fun x => (wr2 tb i 0 x).bind fun tb =>
  forRange 1 (i+1) (fun j tb => (rd2 tb (i-1) (j-1)).bind fun x => (rd2 tb (i-1) j).bind fun y => wr2 tb i j (u64 (x + y))) tb

/-- rrr.hpp:25-34. -/
def mkTable (s : Nat) : Option (List (List Nat)) :=
  (wr2 (List.replicate (s+1) (List.replicate (s+1) 0)) 0 0 1).bind fun tb => forRange 1 (s+1) pascalRow tb

/-- rrr.hpp:36-39. -/
def binom (tb : List (List Nat)) (n k : Nat) : Option Nat := rd2 tb n k

/-! ### Decoding -/

/-- State of the loops of `get_int`: `res`, `k`, `nn`, `i`; `done r` is a `return`. -/
inductive St
  | done (r : Nat)
  | run (res k nn i : Nat)

/-- rrr.hpp:67-75, 85-93: the two early returns (`res & mask` at the end of each); `none` inside means that neither applies. -/
def early (s res k nn i : Nat) : Option (Option Nat) :=
  (sub s i).bind fun w =>
  if nn = w then (shl 1 nn).bind fun a => (shl (a - 1) i).map fun b => some ((res ||| b) &&& (2^s - 1))
  else if nn + 1 = w then (shl 1 w).bind fun a => (shl 1 k).bind fun c => (shl ((a - 1) ^^^ c) i).map fun b => some ((res ||| b) &&& (2^s - 1))
  else some none

/-- rrr.hpp:66-83, with fuel for the turns. -/
def giLin (tb : List (List Nat)) (s : Nat) : Nat → Nat → Nat → Nat → Nat → Option St
  | 0, res, k, nn, i => if i < s ∧ 20 < nn then none else some (.run res k nn i)
  | fuel+1, res, k, nn, i =>
    if i < s ∧ 20 < nn then
      (early s res k nn i).bind fun r =>
      match r with
      | some r => some (.done r)
      | none => (sub s i).bind fun w => (sub w 1).bind fun w1 => (binom tb w1 nn).bind fun b =>
        if b ≤ k then (shl 1 i).bind fun c => giLin tb s fuel (res ||| c) (k - b) (nn - 1) (i+1) else giLin tb s fuel res k nn (i+1)
    else some (.run res k nn i)

/-- rrr.hpp:95-102, 155-162: the binary search, with fuel. -/
def bsearch (tb : List (List Nat)) (s k nn : Nat) : Nat → Nat → Nat → Option Nat
  | 0, l, r => if l + 1 < r then none else some l
  | fuel+1, l, r => if l + 1 < r then
      (sub s (l + (r - l) / 2)).bind fun d => (binom tb d nn).bind fun b =>
        if k < b then bsearch tb s k nn fuel (l + (r - l) / 2) r else bsearch tb s k nn fuel l (l + (r - l) / 2)
    else some l

/-- rrr.hpp:84-109, with fuel; `offset = s`. -/
def giBin (tb : List (List Nat)) (s : Nat) : Nat → Nat → Nat → Nat → Nat → Option St
  | 0, res, k, nn, i => if i < s ∧ 1 < nn then none else some (.run res k nn i)
  | fuel+1, res, k, nn, i =>
    if i < s ∧ 1 < nn then
      (early s res k nn i).bind fun r =>
      match r with
      | some r => some (.done r)
      | none => (bsearch tb s k nn (s+1) i (s+1)).bind fun l =>
        if l < s then
          (shl 1 l).bind fun c => (sub s l).bind fun w => (sub w 1).bind fun w1 => (binom tb w1 nn).bind fun b => (sub k b).bind fun k =>
            giBin tb s fuel (res ||| c) k (nn - 1) (l+1)
        else giBin tb s fuel res k nn (l+1)
    else some (.run res k nn i)

/-- rrr.hpp:110-118; the last access (`s_size - offset - 1` wraps around when `offset = s_size`) is undefined. -/
def giEnd (s : Nat) : St → Option Nat
  | .done r => some r
  | .run res k nn _ =>
    if nn = 1 then (sub s 1).bind fun a => (sub a k).bind fun a => (shl 1 a).map fun c => (res ||| c) &&& (2^s - 1)
    else if nn = 0 then some res
    else none

/-- rrr.hpp:52-119: `get_int(n, k)` (with the default `bits = s_size`, the only use). -/
def getInt (tb : List (List Nat)) (s n k : Nat) : Option Nat :=
  (giLin tb s (s+1) 0 k n 0).bind fun st =>
  match st with
  | .done r => some r
  | .run res k nn i => (giBin tb s (s+1) res k nn i).bind (giEnd s)

/-- State of the loops of `get_bit`. -/
inductive Sb
  | done (r : Bool)
  | run (k nn i : Nat)

/-- rrr.hpp:133-138, 148-153. -/
def earlyB (s k nn i off : Nat) : Option (Option Bool) :=
  (sub s i).bind fun w => if nn = w then some (some true) else if nn + 1 = w then some (some (decide (off ≠ i + k))) else some none

/-- rrr.hpp:131-145. -/
def gbLin (tb : List (List Nat)) (s off : Nat) : Nat → Nat → Nat → Nat → Option Sb
  | 0, k, nn, i => if i < off ∧ 20 < nn then none else some (.run k nn i)
  | fuel+1, k, nn, i =>
    if i < off ∧ 20 < nn then
      (earlyB s k nn i off).bind fun r =>
      match r with
      | some r => some (.done r)
      | none => (sub s i).bind fun w => (sub w 1).bind fun w1 => (binom tb w1 nn).bind fun b =>
        if b ≤ k then gbLin tb s off fuel (k - b) (nn - 1) (i+1) else gbLin tb s off fuel k nn (i+1)
    else some (.run k nn i)

/-- rrr.hpp:146-168. -/
def gbBin (tb : List (List Nat)) (s off : Nat) : Nat → Nat → Nat → Nat → Option Sb
  | 0, k, nn, i => if i < off ∧ 1 < nn then none else some (.run k nn i)
  | fuel+1, k, nn, i =>
    if i < off ∧ 1 < nn then
      (earlyB s k nn i off).bind fun r =>
      match r with
      | some r => some (.done r)
      | none => (bsearch tb s k nn (s+1) i (off+1)).bind fun l =>
        if l < off then
          (sub s l).bind fun w => (sub w 1).bind fun w1 => (binom tb w1 nn).bind fun b => (sub k b).bind fun k => gbBin tb s off fuel k (nn - 1) (l+1)
        else gbBin tb s off fuel k nn (l+1)
    else some (.run k nn i)

/-- rrr.hpp:169-173. -/
def gbEnd (tb : List (List Nat)) (s off : Nat) : Sb → Option Bool
  | .done r => some r
  | .run k nn _ =>
    if nn = 1 then (sub s 1).bind fun a => (sub a k).map fun a => decide (off = a)
    else if nn = 0 then some false
    else (sub s off).bind fun w => (sub w 1).bind fun w1 => (binom tb w1 nn).map fun b => decide (b ≤ k)

/-- rrr.hpp:120-174: `get_bit(n, k, offset)`. -/
def getBit (tb : List (List Nat)) (s n k off : Nat) : Option Bool :=
  (gbLin tb s off (s+1) k n 0).bind fun st =>
  match st with
  | .done r => some r
  | .run k nn i => (gbBin tb s off (s+1) k nn i).bind (gbEnd tb s off)

/-! ### Encoding -/

/-- rrr.hpp:179-184, with fuel. -/
def numLoop (tb : List (List Nat)) (s : Nat) : Nat → Nat → Nat → Nat → Option Nat
  | 0, m, _, number => if m = 0 then some number else none
  | fuel+1, m, n, number =>
    if m = 0 then some number else
    (sub s (ctz m + 1)).bind fun w => (binom tb w n).bind fun b => (sub n 1).bind fun n => (shl 1 (ctz m)).bind fun c => numLoop tb s fuel (m ^^^ c) n (u64 (number + b))

/-- rrr.hpp:190-196: `get_pc_and_number`. -/
def encode (tb : List (List Nat)) (s mask : Nat) : Option (Nat × Nat) :=
  let pc := popcnt mask
  (sub s pc).bind fun q =>
  if pc ≤ q then (numLoop tb s 64 mask pc 0).map fun n => (pc, n)
  else (binom tb s pc).bind fun t => (sub t 1).bind fun t => (numLoop tb s 64 (BitManip.compl mask &&& (2^s - 1)) q 0).bind fun n => (sub t n).map fun n => (pc, n)

/-- rrr.hpp:187-189, 198-209: `number_bits(n)`. -/
def numberBits (tb : List (List Nat)) (s n : Nat) : Option Nat := (binom tb s n).bind fun b => (sub b 1).bind bitWidth

/-! ### The bit vector -/

structure Rrr where
  map : List (Nat × Nat)
  heads : TY.State
  bm : Bm

/-- `s_map[q] = f(s_map[q])`. -/
def upsert (f : Nat → Nat) (q : Nat) : List (Nat × Nat) → List (Nat × Nat)
  | [] => [(q, f 0)]
  | (p, v) :: m => if q < p then (q, f 0) :: (p, v) :: m else if q = p then (p, f v) :: m else (p, v) :: upsert f q m

/-- rrr.hpp:241. -/
def empty : Rrr := ⟨[], TY.empty, ⟨[], 0⟩⟩

/-- rrr.hpp:242-247. -/
def set (s : Nat) (r : Rrr) (i : Nat) (b : Bool) : Rrr :=
  { r with map := upsert (fun v => if b then v ||| 2^(i % s) else v &&& BitManip.compl (2^(i % s))) (i / s) r.map }

structure Bst where
  h : Nat
  pq : Nat
  heads : TY.State
  bm : Bm

/-- rrr.hpp:256-263, with fuel: the empty blocks before `q`; `nb` is `n_bits`. -/
def skip (nb q : Nat) : Nat → Bst → Option Bst
  | 0, t => if t.pq < q then none else some t
  | fuel+1, t => if t.pq < q then
      (TY.pushBack 64 32767 t.heads t.h).bind fun hd => (t.bm.resize (t.h + nb) false).bind fun bm => (bm.rangeSet t.h (t.h + nb) 0#64).bind fun bm =>
        skip nb q fuel ⟨t.h + nb, t.pq + 1, hd, bm⟩
    else some t

/-- rrr.hpp:253-277: one entry of the map. -/
def block (tb : List (List Nat)) (s nb : Nat) (e : Nat × Nat) (t : Bst) : Option Bst :=
  (skip nb e.1 (e.1 - t.pq) t).bind fun t => (TY.pushBack 64 32767 t.heads t.h).bind fun hd => (encode tb s e.2).bind fun np =>
  (getInt tb s np.1 np.2).bind fun chk => if chk ≠ e.2 then none else
  (numberBits tb s np.1).bind fun x =>
  (t.bm.resize (t.h + (nb + x)) false).bind fun bm => (bm.rangeSet t.h (t.h + nb) (BitVec.ofNat 64 np.1)).bind fun bm =>
  (bm.rangeSet (t.h + nb) (t.h + (nb + x)) (BitVec.ofNat 64 np.2)).bind fun bm =>
  (bm.rangeGet t.h (t.h + nb)).bind fun a => (bm.rangeGet (t.h + nb) (t.h + (nb + x))).bind fun b =>
  if a.toNat ≠ np.1 ∨ b.toNat ≠ np.2 then none else some ⟨t.h + (nb + x), t.pq + 1, hd, bm⟩

/-- rrr.hpp:218, 248-279. -/
def build (tb : List (List Nat)) (s : Nat) (r : Rrr) : Option Rrr :=
  (bitWidth s).bind fun nb => (r.map.foldlM (fun t e => block tb s nb e t) ⟨0, 0, r.heads, r.bm⟩).map fun t => ⟨[], t.heads, t.bm⟩

/-- rrr.hpp:293-296, 302-305: the stored pair of block `si`. -/
def stored (tb : List (List Nat)) (s : Nat) (r : Rrr) (si : Nat) : Option (Nat × Nat) :=
  (bitWidth s).bind fun nb => (TY.get 64 r.heads si).bind fun a =>
  (r.bm.rangeGet a.toNat (a.toNat + nb)).bind fun n => (numberBits tb s n.toNat).bind fun x =>
  (r.bm.rangeGet (a.toNat + nb) (a.toNat + nb + x)).map fun p => (n.toNat, p.toNat)

/-- rrr.hpp:290-298, 321-323: `get(i)`. -/
def get (tb : List (List Nat)) (s : Nat) (r : Rrr) (i : Nat) : Option Bool :=
  if TY.size r.heads ≤ i / s then some false else (stored tb s r (i / s)).bind fun np => getBit tb s np.1 np.2 (i % s)

/-- rrr.hpp:299-310: `get_word(si)`. -/
def getWord (tb : List (List Nat)) (s : Nat) (r : Rrr) (si : Nat) : Option Nat :=
  if TY.size r.heads ≤ si then some 0 else (stored tb s r si).bind fun np => getInt tb s np.1 np.2

/-- rrr.hpp:311-316: the words, as `BV` sees them. -/
def src (tb : List (List Nat)) (s : Nat) (r : Rrr) : Option Src :=
  ((List.range (TY.size r.heads)).mapM (getWord tb s r)).map fun ws => ⟨TY.size r.heads * s, ws⟩

/-- rrr.hpp:284-287: the loop over a bitmap of `src.size()` bits; one turn. -/
def ofStep (s : Nat) (b : Bm) (k : Nat) (r : Rrr) : Option Rrr :=
  (b.rangeGet (k * s) (min (k * s + s) b.sz)).map fun w =>
    if w ≠ 0#64 ∨ b.sz ≤ k * s + s then { r with map := r.map ++ [(k, w.toNat)] } else r

/-- rrr.hpp:283-289: `move_or_build(const Bitmap&)` on an object without pending bits (keys are emplaced in increasing order). -/
def ofBitmap (tb : List (List Nat)) (s : Nat) (b : Bm) : Option Rrr :=
  (forRange 0 ((b.sz + s - 1) / s) (ofStep s b) empty).bind (build tb s)

end Verif.Rrr
