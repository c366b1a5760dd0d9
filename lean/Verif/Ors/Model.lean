import Verif.Wavelet.Query
import Verif.BinSet.Props
/-!
Model of `/repo/include/mtl/ordinal_range_search.hpp`: `ORS<int, W>` over `RRR<s>` (block size `s`), built on the models of `BinaryMultiset`, `BinarySet` and
`WaveletMatrix<int>`.

Coordinates of points are naturals (negative ones convert to `uint32_t` in `insert`).  Coordinates of queries are integers; they are converted to `uint32_t`.
The weights live in a structure of the caller, which sees them through `resize`, `add` and `range_sum`; here it is an array, as the tests use `FenwickTree`.
`none` is undefined behaviour, a failed assertion or an out-of-range access.
-/
namespace Verif.Ors
open Verif

variable {W : Type}

/-- A point: `x`, `y` and the weight. -/
abbrev Pt (W : Type) := Nat × Nat × W

/-- Conversion of an `int` to the `uint32_t` parameter of `rank`. -/
def conv (x : Int) : Nat := (x % 2^32).toNat

/-- Conversion of a 64-bit word to `int`. -/
def i32 (x : Nat) : Int := if x % 2^32 < 2^31 then (x % 2^32 : Nat) else (x % 2^32 : Nat) - 2^32

/-- ordinal_range_search.hpp:33-35 -/
structure Ors where
  X : BinSet.St
  Y : BinSet.St
  wm : Wavelet.WM

/-- :70-73: the order of the sort. -/
def ptLt (p q : Pt W) : Bool := if p.1 ≠ q.1 then decide (p.1 < q.1) else decide (p.2.1 < q.2.1)

/-- :69-73: `std::sort` is `List.mergeSort`. -/
def sortPts (ps : List (Pt W)) : List (Pt W) := ps.mergeSort (fun p q => !ptLt q p)

/-- :75-92, 94-104: `X`, `Y`, the array `S` and `wm`. -/
def index (s : Nat) (ps : List (Pt W)) : Option (Ors × List Nat) :=
  (BinSet.multiBuild s (ps.map (·.1))).bind fun X => (BinSet.setBuild s (ps.map (·.2.1))).bind fun Y =>
  (ps.mapM fun p => BinSet.rank Y p.2.1).bind fun S => (Wavelet.mk none S).map fun wm => (⟨X, Y, wm⟩, S)

/-- :67-92: `build()` without weights. -/
def build0 (s : Nat) (ps : List (Pt W)) : Option Ors := (index s (sortPts ps)).map (·.1)

section Weights
variable [Add W] [Zero W]

/-- `add(i, w)` on the caller's array. -/
def addAt (F : List W) (i : Nat) (w : W) : Option (List W) := (F[i]?).bind fun x => wr F i (x + w)

/-- `swz`, `swo` and the caller's array. -/
structure SplitSt (W : Type) where
  z : List (Nat × W)
  o : List (Nat × W)
  F : List W

/-- :109-113 -/
def splitBody (n h : Nat) (SW : List (Nat × W)) (k i : Nat) (t : SplitSt W) : Option (SplitSt W) :=
  (SW[i]?).bind fun p => (addAt t.F (n * (h-1-k) + i) p.2).map fun F => if p.1.testBit k then ⟨t.z, t.o ++ [p], F⟩ else ⟨t.z ++ [p], t.o, F⟩

/-- :115-123: `while (!v.empty()) { SW[j--] = v.back(); v.pop_back(); }`; the list is `v` from the back, and `j` here is `j + 1` of the code (which ends at `size_t(-1)`). -/
def backFill : List (Nat × W) → Nat → List (Nat × W) → Option (List (Nat × W) × Nat)
  | S, j, [] => some (S, j)
  | S, j, x :: l => if j = 0 then none else (wr S (j - 1) x).bind (fun S => backFill S (j - 1) l)

/-- :108-123 for one `k`; the state is `SW` and the caller's array. -/
def levelBody (n h k : Nat) (t : List (Nat × W) × List W) : Option (List (Nat × W) × List W) :=
  (forRange 0 n (splitBody n h t.1 k) ⟨[], [], t.2⟩).bind fun q =>
  (backFill t.1 n q.o.reverse).bind fun p => (backFill p.1 p.2 q.z.reverse).map fun p => (p.1, q.F)

/-- :125-127 -/
def lastBody (n h : Nat) (SW : List (Nat × W)) (i : Nat) (F : List W) : Option (List W) := (SW[i]?).bind fun p => addAt F (n * h + i) p.2

/-- :93-129: `build(resize, add)` with weights. -/
def build (s : Nat) (ps : List (Pt W)) : Option (Ors × List W) :=
  (index s (sortPts ps)).bind fun o =>
  (forRangeDown 0 o.1.wm.h (levelBody o.1.wm.n o.1.wm.h) (o.2.zip ((sortPts ps).map (·.2.2)), List.replicate (o.1.wm.n * (o.1.wm.h + 1)) 0)).bind fun t =>
  (forRange 0 o.1.wm.n (lastBody o.1.wm.n o.1.wm.h t.1) t.2).map fun F => (o.1, F)

/-- `range_sum(l, r)` on the caller's array. -/
def rangeSum (F : List W) (l r : Nat) : Option W := if l ≤ r ∧ r ≤ F.length then some ((F.drop l).take (r - l)).sum else none

end Weights

/-- :131-143 (`compress_idx`); there are fewer than `2^31` points, so the conversions to `int` keep the numbers. -/
def compress (o : Ors) (xl xh yl yh : Int) : Option (Nat × Nat × Nat × Nat) :=
  (BinSet.mrank o.X (conv xl)).bind fun i => (BinSet.mrank o.X (conv xh)).bind fun j =>
  (BinSet.rank o.Y (conv yl)).bind fun a => (BinSet.rank o.Y (conv yh)).map fun b => (i, j, a, b)

/-- :163: `(1ull << (shift + 1)) - 1` with `shift = h - 1 - level`; `sh` is the result of `1ull << -1`, which is undefined: `none`, or what a processor makes of it. -/
def mask (sh : Option Nat) (h level : Nat) : Option Nat :=
  if level ≤ h then if h - level < 64 then some (2^(h - level) - 1) else none
  else if level = h + 1 then sh.map (· - 1) else none

/-- :157-179: the loop of `_traverse`, with fuel for the number of iterations. -/
def trav {σ : Type} (sh : Option Nat) (w : Wavelet.WM) (a b : Int) (inner leaf : σ → Nat → Nat → Nat → Option σ) : Nat → List (Nat × Nat × Nat) → σ → Option σ
  | _, [], t => some t
  | 0, _ :: _, _ => none
  | fuel+1, (l, r, c) :: q, t =>
    if w.n ≠ 0 then (mask sh w.h (l / w.n)).bind fun m =>
      if i32 (c ||| m) < a ∨ b ≤ (c : Int) then trav sh w a b inner leaf fuel q t
      else if a ≤ (c : Int) ∧ i32 (c ||| m) < b then (inner t l r c).bind fun t => trav sh w a b inner leaf fuel q t
      else if l / w.n = w.h then (leaf t l r c).bind fun t => trav sh w a b inner leaf fuel q t
      else if l / w.n < w.h then
        (w.tie (l / w.n) l r false).bind fun p0 => (w.tie (l / w.n) l r true).bind fun p1 =>
          trav sh w a b inner leaf fuel (q ++ [(p0.1, p0.2, c), (p1.1, p1.2, c ||| 2^(w.h - 1 - l / w.n))]) t
      else none
    else none

/-- :145-180 (`_traverse`) -/
def traverse {σ : Type} (sh : Option Nat) (o : Ors) (xl xh yl yh : Int) (inner leaf : σ → Nat → Nat → Nat → Option σ) (t : σ) : Option σ :=
  (compress o xl xh yl yh).bind fun (i, j, a, b) => trav sh o.wm a b inner leaf (2^(o.wm.h + 2)) [(i, j, 0)] t

/-- :183-191 (`freq`) -/
def freq (o : Ors) (xl xh yl yh : Int) : Option Nat := (compress o xl xh yl yh).bind fun (i, j, a, b) => o.wm.rangeFreq i j a b

/-- :226-242 (`sum`) with `plus_op` and `plus_identity`. -/
def sum [Add W] [Zero W] (sh : Option Nat) (o : Ors) (F : List W) (xl xh yl yh : Int) : Option W :=
  traverse sh o xl xh yl yh (fun t l r _ => (rangeSum F l r).map (t + ·)) (fun t _ _ _ => some t) 0

/-- :255-256: `parent` for `k = 0 .. h-1`. -/
def climb (w : Wavelet.WM) (c k j : Nat) : Option Nat := w.parent (w.h - 1 - k) j (c.testBit k)

/-- :244-261 (`enumerate`) -/
def enumerate (sh : Option Nat) (o : Ors) (xl xh yl yh : Int) : Option (List (Nat × Nat)) :=
  traverse sh o xl xh yl yh (fun t _ _ _ => some t)
    (fun t l r c => forRange l r (fun idx t => (forRange 0 o.wm.h (climb o.wm c) idx).bind fun j => (BinSet.mget o.X j).bind fun x => (BinSet.get o.Y c).map fun y => t ++ [(x, y)]) t) []

/-- :202-204: the levels `k-1 .. 0`. -/
def descend (w : Wavelet.WM) (c : Nat) : Nat → Nat → Nat → Option (Nat × Nat)
  | 0, l, r => some (l, r)
  | k+1, l, r => (w.tie (w.h - 1 - k) l r (c.testBit k)).bind fun p => descend w c k p.1 p.2

/-- :207-210 for one `k`; the state is the caller's array and `j`. -/
def waUp [Add W] (w : Wavelet.WM) (c : Nat) (dw : W) (k : Nat) (t : List W × Nat) : Option (List W × Nat) :=
  (addAt t.1 t.2 dw).bind fun F => (w.parent (w.h - 1 - k) t.2 (c.testBit k)).map fun j => (F, j)

/-- :197-212 (`weight_add`); :44-49 (`range_on_wm_lower_bound_x`). -/
def weightAdd [Add W] (o : Ors) (F : List W) (x y : Int) (dw : W) : Option (List W) :=
  (BinSet.mrank o.X (conv x)).bind fun l => (BinSet.mget o.X l).bind fun lb => (BinSet.mcount o.X lb).bind fun c =>
  (BinSet.rank o.Y (conv y)).bind fun yc => (descend o.wm yc o.wm.h l (l + c)).bind fun p =>
  if p.1 = p.2 then none else (forRange 0 o.wm.h (waUp o.wm yc dw) (F, p.1)).bind fun t => addAt t.1 t.2 dw

end Verif.Ors
