import Verif.Succinct.BvProps
import Verif.Fenwick.Props
/-!
Model of `/repo/include/mtl/bitmap.hpp` (class `Bitmap`, a bit sequence with updates, rank and select), over the model of `FenwickTree<int>`.

`none` is an access outside an array or of an uninitialised entry.  Numbers of type `int` are integers (sizes below `2^31`); a little-endian machine is assumed for the byte views (lines 77, 89).
-/
namespace Verif.DynBitmap
open Verif Verif.BitManip Verif.Succinct

/-- bitmap.hpp:15-16 -/
structure St where
  rsq : List Int
  bv : List Nat

/-- :18-20 -/
def words (sz : Nat) : Nat := (sz + 63) / 64

/-- :27-31: one step of filling a row of `sel_tb`; `none` is an uninitialised entry; the state is the row, `c` and `x`. -/
def tbStep (j : Nat) (t : List (Option Nat) × Nat × Nat) : Option (List (Option Nat) × Nat × Nat) :=
  if t.2.2 % 2 = 1 then (wr t.1 (t.2.1 + 1) (some j)).map (fun r => (r, t.2.1 + 1, t.2.2 / 2)) else some (t.1, t.2.1, t.2.2 / 2)

/-- :22-33: row `i` of `sel_tb`. -/
def tbRow (i : Nat) : Option (List (Option Nat)) := (forRange 0 8 tbStep (List.replicate 9 none, 0, i)).map (·.1)

/-- :36-40: `Bitmap(size, init_b)`. -/
def mk (size : Nat) (b : Bool) : St := ⟨Fenwick.ofSize (words size), List.replicate (words size) (if b then 2^64 - 1 else 0)⟩

/-- :53-55 -/
def get (t : St) (i : Nat) : Option Bool := (t.bv[i / 64]?).map (·.testBit (i % 64))

/-- :56-61 -/
def set (t : St) (i : Nat) (b : Bool) : Option St :=
  (get t i).bind fun g => (Fenwick.add t.rsq (i / 64) ((b.toNat : Int) - (g.toNat : Int))).bind fun rsq =>
  (t.bv[i / 64]?).bind fun w => (wr t.bv (i / 64) (if b then w ||| 2^(i % 64) else w &&& BitManip.compl (2^(i % 64)))).map fun bv => ⟨rsq, bv⟩

/-- :48-50: the loop of the range constructor. -/
def setFrom (t : St) : Nat → List Bool → Option St
  | _, [] => some t
  | i, b :: l => (set t i b).bind fun t => setFrom t (i + 1) l

/-- :41-51: `Bitmap(begin, end)`. -/
def ofBits (l : List Bool) : Option St := setFrom (mk l.length false) 0 l

/-- :64-69 -/
def rank (t : St) (i : Nat) : Option Int :=
  if i = 0 then some 0
  else (if i / 64 > 0 then Fenwick.sum t.rsq (i / 64 - 1) else some 0).bind fun s => (t.bv[i / 64]?).map fun w => s + (popcnt (w &&& (2^(i % 64) - 1)) : Nat)

/-- :78-87: the search for the byte; the first argument bounds the number of iterations. -/
def byteLoop (x : Nat) (m : Int) : Nat → Nat → Nat → Option Nat
  | 0, _, _ => none
  | f+1, d, b => if d > 1 then byteLoop x m f (d / 2) (if (byteAt x (b + d / 2) : Int) < m then b + d / 2 else b) else some b

/-- :88-90: the position inside the word. -/
def inWord (w x : Nat) (m : Int) (b : Nat) : Option Nat :=
  if 0 ≤ m - byteAt x b then (tbRow (byteAt w b)).bind fun row => (row[(m - byteAt x b).toNat]?).bind fun e => e.map fun e => 8 * b + e else none

/-- :71-91 (`select`) -/
def select (t : St) (n : Nat) : Option Int :=
  (Fenwick.lowerBound t.rsq ((n : Int) + 1)).bind fun s => (if s > 0 then Fenwick.sum t.rsq (s - 1) else some 0).bind fun p =>
  (t.bv[s]?).bind fun w => (byteLoop (selBs w) ((n : Int) + 1 - p) 4 8 0).bind fun b =>
  (inWord w (selBs w) ((n : Int) + 1 - p) b).map fun q => (64 * s + q : Nat)

/-- Updates. -/
def setAll (t : St) : List (Nat × Bool) → Option St
  | [] => some t
  | (i, b) :: ops => (set t i b).bind fun t => setAll t ops

end Verif.DynBitmap
