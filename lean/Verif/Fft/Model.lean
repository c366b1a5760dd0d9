import Verif.Common.Vec
import Mathlib.Algebra.Field.Defs
/-!
Model of `/repo/include/mtl/fft.hpp` (`Fft`).

Complex numbers are elements of a field `T` with exact arithmetic: rounding of `double` is not modelled.  The number `{cos(theta0*i), -sin(theta0*i)}` of line 56 is
`tw m i` for the forward transform and another such function for the inverse one.  `none` is undefined behaviour: an access out of range.  `size_t` does not overflow.
-/
namespace Verif.Fft

variable {T : Type}

/-- fft.hpp:14-16: `while (n_ < size) n_ *= 2;` the first argument bounds the number of rounds. -/
def sizeLoop (size : Nat) : Nat → Nat → Option Nat
  | 0, _ => none
  | f+1, n => if n < size then sizeLoop size f (n * 2) else some n

/-- fft.hpp:13-17: the constructor. -/
def ctor (size : Nat) : Option Nat := sizeLoop size (size + 1) 1

/-- fft.hpp:48: `for (size_t k = n_ >> 1; k > (i ^= k); k >>= 1);` returns the new `i`; the first argument bounds the number of rounds. -/
def flip : Nat → Nat → Nat → Option Nat
  | 0, _, _ => none
  | f+1, k, i => if k > i ^^^ k then flip f (k / 2) (i ^^^ k) else some (i ^^^ k)

/-- `std::swap(f[i], f[j])`. -/
def swap (f : List T) (i j : Nat) : Option (List T) :=
  (f[i]?).bind (fun x => (f[j]?).bind (fun y => (wr f i y).bind (fun f => wr f j x)))

/-- fft.hpp:48-49: one round; the state is `i` and the vector. -/
def revStep (n j : Nat) (s : Nat × List T) : Option (Nat × List T) :=
  (flip (n + 1) (n / 2) s.1).bind (fun i => if i < j then (swap s.2 i j).map (fun f => (i, f)) else some (i, s.2))

/-- fft.hpp:47-50: bit reversal, `for (i = 0, j = 1; j < n_-1; j++)`. -/
def reverse (n : Nat) (f : List T) : Option (List T) := (forRange 1 (n - 1) (revStep n) (0, f)).map Prod.snd

/-- fft.hpp:55-62: one butterfly. -/
def butterfly [Add T] [Sub T] [Mul T] (tw : Nat → T) (m chunk i : Nat) (f : List T) : Option (List T) :=
  (f[chunk + i + 0]?).bind (fun a => (f[chunk + i + m]?).bind (fun b =>
    (wr f (chunk + i + 0) (a + b * tw i)).bind (fun f => wr f (chunk + i + m) (a - b * tw i))))

/-- fft.hpp:54-63: `for (chunk = 0; chunk < n_; chunk += 2*m)`; the first argument bounds the number of rounds. -/
def chunks [Add T] [Sub T] [Mul T] (tw : Nat → T) (n m : Nat) : Nat → Nat → List T → Option (List T)
  | 0, _, _ => none
  | r+1, chunk, f => if chunk < n then (forRange 0 m (butterfly tw m chunk) f).bind (chunks tw n m r (chunk + 2 * m)) else some f

/-- fft.hpp:52-64: `for (m = 1; m < n_; m *= 2)`; the first argument bounds the number of rounds. -/
def stages [Add T] [Sub T] [Mul T] (tw : Nat → Nat → T) (n : Nat) : Nat → Nat → List T → Option (List T)
  | 0, _, _ => none
  | r+1, m, f => if m < n then (chunks (tw m) n m (n + 1) 0 f).bind (stages tw n r (m * 2)) else some f

/-- fft.hpp:44-65 (`_fft_impl`), and 21-23, 67-69 (`fft_inline`). -/
def impl [Add T] [Sub T] [Mul T] (tw : Nat → Nat → T) (n : Nat) (f : List T) : Option (List T) := (reverse n f).bind (stages tw n (n + 1) 1)

/-- `ff.resize(n_, 0)`. -/
def resize [Zero T] (n : Nat) (f : List T) : List T := f.take n ++ List.replicate (n - f.length) 0

/-- fft.hpp:25-30 (`fft`). -/
def fft [Field T] (tw : Nat → Nat → T) (n : Nat) (f : List T) : Option (List T) := impl tw n (resize n f)

/-- fft.hpp:32-34, 70-75 (`ifft_inline`); `tw'` belongs to `theta0 = -M_PI/m`. -/
def ifftInline [Field T] (tw' : Nat → Nat → T) (n : Nat) (f : List T) : Option (List T) := (impl tw' n f).map (fun f => f.map (· / (n : T)))

/-- fft.hpp:36-41 (`ifft`). -/
def ifft [Field T] (tw' : Nat → Nat → T) (n : Nat) (f : List T) : Option (List T) := ifftInline tw' n (resize n f)

end Verif.Fft
