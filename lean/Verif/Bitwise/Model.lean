import Verif.Common.Vec
import Mathlib.Algebra.Ring.Defs
/-!
Model of `/repo/include/mtl/bitwise_convolution.hpp`.

`none` is undefined behaviour.  `SubsetZeta` and `BitwiseOrConvolution` (the copying versions) do not compile when instantiated
(bitwise_convolution.hpp:47 passes the element type where an iterator type is expected), so only the in-place versions are modelled.
-/
namespace Verif.Bitwise

variable {α : Type}

/-- bitwise_convolution.hpp:32: `A[t] += A[t-w]`. -/
def zetaStep [Add α] (w t : Nat) (A : List α) : Option (List α) :=
  (A[t]?).bind (fun b => (A[t-w]?).bind (fun a => wr A t (b + a)))

/-- bitwise_convolution.hpp:93: `zA[t] -= zA[t-w]`. -/
def mobiusStep [Sub α] (w t : Nat) (A : List α) : Option (List α) :=
  (A[t]?).bind (fun b => (A[t-w]?).bind (fun a => wr A t (b - a)))

/-- bitwise_convolution.hpp:190-193. -/
def hadamardStep [Add α] [Sub α] (w t : Nat) (A : List α) : Option (List α) :=
  (A[t-w]?).bind (fun a => (A[t]?).bind (fun b => (wr A (t-w) (a + b)).bind (fun A => wr A t (a - b))))

/-- bitwise_convolution.hpp:31-33 (92-94, 189-194): one pass over `t`. -/
def sweep (step : Nat → Nat → List α → Option (List α)) (mask w : Nat) (A : List α) : Option (List α) :=
  forRange (mask + 1 - w) (mask + 1) (step w) A

/-- bitwise_convolution.hpp:29-36 (90-97, 187-197): `while (m & 1)`; the first argument bounds the number of rounds. -/
def whileOdd (step : Nat → Nat → List α → Option (List α)) (mask : Nat) : Nat → Nat → Nat → List α → Option (List α)
  | 0, _, _, _ => none
  | f+1, m, w, A => if m % 2 = 1 then (sweep step mask w A).bind (whileOdd step mask f (m / 2) (2 * w)) else some A

/-- bitwise_convolution.hpp:26-37 (87-98, 184-198): `for (mask = 1; mask < 1<<n; mask += 2)`, with `mask = 2i+1`.
`n+1` rounds of the inner loop are enough since `mask < 2^n`. -/
def transform (step : Nat → Nat → List α → Option (List α)) (n : Nat) (A : List α) : Option (List α) :=
  forRange 0 (2^n / 2) (fun i A => whileOdd step (2*i+1) (n+1) (2*i+1) 1 A) A

/-- bitwise_convolution.hpp:13-38 (`SubsetZetaImpl`); `1u << n` is undefined for `n ≥ 32`. -/
def zetaImpl [Add α] (n : Nat) (A : List α) : Option (List α) := if n < 32 then transform zetaStep n A else none

/-- bitwise_convolution.hpp:74-99 (`SubsetMobiusImpl`). -/
def mobiusImpl [Sub α] (n : Nat) (A : List α) : Option (List α) := if n < 32 then transform mobiusStep n A else none

/-- bitwise_convolution.hpp:167-199 (`HadamardTransformImpl`); `1ull << n` is undefined for `n ≥ 64`. -/
def hadamardImpl [Add α] [Sub α] (n : Nat) (A : List α) : Option (List α) := if n < 64 then transform hadamardStep n A else none

/-- `64 - bm::clz(s-1)` for `s ≥ 1`: the least `n` with `s ≤ 2^n` (see C27; for `s = 0` it is 64). -/
def lg (s : Nat) : Nat := if s = 0 then 64 else if s = 1 then 0 else (s - 1).log2 + 1

/-- bitwise_convolution.hpp:54-59 (`SubsetZetaInline`). -/
def zetaInline [Add α] (A : List α) : Option (List α) := if A.isEmpty then some A else zetaImpl (lg A.length) A

/-- bitwise_convolution.hpp:123-127 (`SubsetMobiusInline`). -/
def mobiusInline [Sub α] (A : List α) : Option (List α) := if A.isEmpty then some A else mobiusImpl (lg A.length) A

/-- bitwise_convolution.hpp:146-148 (and 225-227): `zA[i] *= zB[i]`. -/
def mulStep [Mul α] (B : List α) (i : Nat) (A : List α) : Option (List α) :=
  (A[i]?).bind (fun a => (B[i]?).bind (fun b => wr A i (a * b)))

def pointwise [Mul α] (A B : List α) : Option (List α) := forRange 0 A.length (mulStep B) A

/-- bitwise_convolution.hpp:141-150 (`BitwiseOrConvolutionInline`): the new contents of the first argument. -/
def orConvolution [Add α] [Sub α] [Mul α] (A B : List α) : Option (List α) :=
  (zetaInline A).bind (fun zA => (zetaInline B).bind (fun zB => (pointwise zA zB).bind mobiusInline))

/-- `std::vector<T> r(1<<n)` and `std::copy` into it; a longer source would write past the end. -/
def copyInto [Zero α] (n : Nat) (A : List α) : Option (List α) :=
  if n < 31 ∧ A.length ≤ 2^n then some (A ++ List.replicate (2^n - A.length) 0) else none

/-- bitwise_convolution.hpp:153-163 (`BitwiseAndConvolution`). -/
def andConvolution [Zero α] [Add α] [Sub α] [Mul α] (A B : List α) : Option (List α) :=
  let n := lg (max A.length B.length)
  (copyInto n A).bind (fun rA => (copyInto n B).bind (fun rB => (orConvolution rA.reverse rB.reverse).map List.reverse))

/-- bitwise_convolution.hpp:203-218 (`HadamardTransform`): copies exactly `1<<n` elements, so reading past the end is undefined. -/
def hadamard [Add α] [Sub α] (A : List α) : Option (List α) :=
  if A.isEmpty then some [] else if lg A.length < 31 ∧ A.length = 2^(lg A.length) then hadamardImpl (lg A.length) A else none

/-- bitwise_convolution.hpp:220-228 (`BitwiseXorConvolution` before scaling). -/
def xorRaw [Add α] [Sub α] [Mul α] (A B : List α) : Option (List α) :=
  (hadamard A).bind (fun hA => (hadamard B).bind (fun hB => (pointwise hA hB).bind (hadamardImpl (lg A.length))))

/-- bitwise_convolution.hpp:231-232: scaling for modular types (`T{2}.pow(n).inv()`; `inv` is the inverse of the field). -/
def xorModular [Ring α] (inv : α → α) (A B : List α) : Option (List α) := (xorRaw A B).map (List.map (fun a => a * inv (2 ^ lg A.length)))

/-- bitwise_convolution.hpp:233-234: scaling for integral types, without overflow (`>>` on a negative value rounds down). -/
def xorIntegral (A B : List Int) : Option (List Int) := (xorRaw A B).map (List.map (fun a : Int => a >>> lg A.length))

/-- bitwise_convolution.hpp:236-237: `T p{2}; for (i < n) p *= 2;`. -/
def scale [Mul α] (two : α) : Nat → α
  | 0 => two
  | n+1 => scale two n * two

/-- bitwise_convolution.hpp:235-239: scaling for other types. -/
def xorOther [Add α] [Sub α] [Mul α] [Div α] (two : α) (A B : List α) : Option (List α) :=
  (xorRaw A B).map (List.map (fun a => a / scale two (lg A.length)))

end Verif.Bitwise
