import Verif.Bitwise.Model
import Verif.BitManip.Model
import Mathlib.Algebra.Group.Pi.Basic
/-!
Model of `/repo/include/mtl/subset_convolution.hpp`.

A `std::array<T, LIM+1>` is a function on `Fin (LIM+1)`; element access out of range is `none`.  `RankedVector` is a list of such arrays.
The loops over `d` that add or subtract whole arrays (lines 42-43, 82-83) are the pointwise operations of functions.
-/
namespace Verif.SubsetConv

variable {T : Type} {L : Nat}

/-- `std::array<T, L+1>`. -/
abbrev Arr (T : Type) (L : Nat) := Fin (L+1) → T

/-- `a[d]`. -/
def aget (a : Arr T L) (d : Nat) : Option T := if h : d < L+1 then some (a ⟨d, h⟩) else none

/-- `a[d] = x`. -/
def aset (a : Arr T L) (d : Nat) (x : T) : Option (Arr T L) := if d < L+1 then some (fun e => if e.val = d then x else a e) else none

/-- subset_convolution.hpp:20-21: one entry of the ranked array. -/
def rankEntry [Zero T] (i : Nat) (x : T) (out : List (Arr T L)) : Option (List (Arr T L)) :=
  (aset (fun _ => 0) (BitManip.popcnt i) x).bind (fun a => wr out i a)

/-- subset_convolution.hpp:17-22: the loop over the source. -/
def rankAll [Zero T] : Nat → List T → List (Arr T L) → Option (List (Arr T L))
  | _, [], out => some out
  | i, x :: xs, out => (rankEntry i x out).bind (rankAll (i+1) xs)

/-- subset_convolution.hpp:13-56 (`SubsetRankedZeta`): into a fresh vector of `1<<n` zero arrays; `assert(n <= LIM)`. -/
def rankedZeta [Zero T] [Add T] (n : Nat) (A : List T) : Option (List (Arr T L)) :=
  if n ≤ L ∧ n < 31 then (rankAll 0 A (List.replicate (2^n) (fun _ => 0))).bind (Bitwise.transform Bitwise.zetaStep n) else none

/-- subset_convolution.hpp:89-92: `*out = zA[i][popcnt(i)]`. -/
def outEntry (zA : List (Arr T L)) (i : Nat) (out : List T) : Option (List T) :=
  (zA[i]?).bind (fun a => (aget a (BitManip.popcnt i)).map (fun x => out ++ [x]))

/-- subset_convolution.hpp:58-100 (`SubsetRankedMobius`); the output iterator appends. -/
def rankedMobius [Sub T] (n : Nat) (zA : List (Arr T L)) : Option (List T) :=
  if n ≤ L ∧ zA.length = 2^n then
    (Bitwise.transform Bitwise.mobiusStep n zA).bind (fun zA => forRange 0 (2^n) (outEntry zA) [])
  else none

/-- subset_convolution.hpp:124-125. -/
def clearStep [Zero T] (d : Nat) (tmp : Arr T L) : Option (Arr T L) := aset tmp d 0

/-- subset_convolution.hpp:128-129. -/
def innerStep [Add T] [Mul T] (a : T) (zb : Arr T L) (j k : Nat) (tmp : Arr T L) : Option (Arr T L) :=
  (aget tmp (j+k)).bind (fun t => (aget zb k).bind (fun b => aset tmp (j+k) (t + a * b)))

/-- subset_convolution.hpp:126-130. -/
def outerStep [Add T] [Mul T] (n : Nat) (za zb : Arr T L) (j : Nat) (tmp : Arr T L) : Option (Arr T L) :=
  (aget za j).bind (fun a => forRange 0 (n - j + 1) (innerStep a zb j) tmp)

/-- subset_convolution.hpp:131-132. -/
def copyStep (tmp : Arr T L) (d : Nat) (z : Arr T L) : Option (Arr T L) := (aget tmp d).bind (fun x => aset z d x)

/-- subset_convolution.hpp:122-133: one row; the temporary array is carried along. -/
def rowStep [Zero T] [Add T] [Mul T] (n : Nat) (zB : List (Arr T L)) (i : Nat) (s : List (Arr T L) × Arr T L) : Option (List (Arr T L) × Arr T L) :=
  (s.1[i]?).bind (fun za => (zB[i]?).bind (fun zb =>
    (forRange 0 (n+1) clearStep s.2).bind (fun tmp => (forRange 0 (n+1) (outerStep n za zb) tmp).bind (fun tmp =>
      (forRange 0 (n+1) (copyStep tmp) za).bind (fun z => (wr s.1 i z).map (fun zA => (zA, tmp)))))))

/-- subset_convolution.hpp:104-135 (`SubsetPointwiseConvolution`), with the result written over `zA` as at line 145. -/
def pointwise [Zero T] [Add T] [Mul T] (n : Nat) (zA zB : List (Arr T L)) : Option (List (Arr T L)) :=
  if n ≤ L ∧ zA.length = 2^n ∧ zB.length = 2^n then (forRange 0 (2^n) (rowStep n zB) (zA, fun _ => 0)).map Prod.fst else none

/-- subset_convolution.hpp:137-147 (`SubsetConvolutionMobius`). -/
def convolutionMobius [Zero T] [Add T] [Sub T] [Mul T] (n : Nat) (zA zB : List (Arr T L)) : Option (List T) :=
  (pointwise n zA zB).bind (rankedMobius n)

/-- subset_convolution.hpp:149-162 (`SubsetConvolution`). -/
def subsetConvolution [Zero T] [Add T] [Sub T] [Mul T] (L : Nat) (A B : List T) : Option (List T) :=
  let n := Bitwise.lg (max A.length B.length)
  (rankedZeta (L := L) n A).bind (fun zA => (rankedZeta n B).bind (fun zB => convolutionMobius n zA zB))

/-- subset_convolution.hpp:164-176 (`SubsetConvolutionSquare`): `zA` is passed twice; row `i` is read completely before it is written. -/
def subsetConvolutionSquare [Zero T] [Add T] [Sub T] [Mul T] (L : Nat) (A : List T) : Option (List T) :=
  let n := Bitwise.lg A.length
  (rankedZeta (L := L) n A).bind (fun zA => convolutionMobius n zA zA)

end Verif.SubsetConv
