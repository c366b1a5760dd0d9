import Verif.Common.Vec
import Mathlib.Algebra.Ring.Defs
/-!
Model of `/repo/include/mtl/matrix.hpp`.

A `Matrix<T, R, C>` is a list of `R` rows of length `C`; `none` is an out-of-range access.  `T` is a commutative
ring (`Field` for the elimination functions): overflow of machine integers and rounding are outside the model.
-/
namespace Verif.MatrixM
open Verif

variable {T : Type}

/-- A matrix object. -/
abbrev Mat (T : Type) := List (List T)

/-- matrix.hpp:25. -/
def zero [Zero T] (R C : Nat) : Mat T := List.replicate R (List.replicate C 0)

/-- The doubly nested loop `for i < R, for j < C: ret[i][j] = f i j`. -/
def fill (R C : Nat) (f : Nat → Nat → Mat T → Option (Mat T)) (ret : Mat T) : Option (Mat T) :=
  forRange 0 R (fun i ret => forRange 0 C (fun j ret => f i j ret) ret) ret

/-- matrix.hpp:34-41. -/
def ident [Zero T] [One T] (R C : Nat) : Option (Mat T) :=
  forRange 0 (min R C) (fun i ret => wr2 ret i i 1) (zero R C)

/-- matrix.hpp:43-51. -/
def transpose [Zero T] (R C : Nat) (a : Mat T) : Option (Mat T) :=
  fill R C (fun i j ret => (rd2 a i j).bind (fun x => wr2 ret j i x)) (zero C R)

/-- matrix.hpp:66-73. -/
def add [Add T] (R C : Nat) (a b : Mat T) : Option (Mat T) :=
  fill R C (fun i j ret => (rd2 ret i j).bind (fun x => (rd2 b i j).bind (fun y => wr2 ret i j (x + y)))) a

/-- matrix.hpp:77-85. -/
def neg [Zero T] [Neg T] (R C : Nat) (a : Mat T) : Option (Mat T) :=
  fill R C (fun i j ret => (rd2 a i j).bind (fun x => wr2 ret i j (-x))) (zero R C)

/-- matrix.hpp:86-96.  Line 89 assigns `-r[i][j]`; the left operand is overwritten. -/
def sub [Neg T] (R C : Nat) (a b : Mat T) : Option (Mat T) :=
  fill R C (fun i j ret => (rd2 b i j).bind (fun y => wr2 ret i j (-y))) a

/-- matrix.hpp:97-105. -/
def smul [Zero T] [Mul T] (R C : Nat) (l : T) (a : Mat T) : Option (Mat T) :=
  fill R C (fun i j ret => (rd2 a i j).bind (fun x => wr2 ret i j (l * x))) (zero R C)

/-- matrix.hpp:106-119. -/
def mul [Zero T] [Add T] [Mul T] (R C D : Nat) (a b : Mat T) : Option (Mat T) :=
  forRange 0 R (fun i ret => forRange 0 C (fun k ret => (rd2 a i k).bind (fun mik =>
    forRange 0 D (fun j ret => (rd2 ret i j).bind (fun x => (rd2 b k j).bind (fun y => wr2 ret i j (x + mik * y)))) ret)) ret)
    (zero R D)

/-- matrix.hpp:125-131, the loop of `pow`; the fuel is the bit length of the 64-bit exponent. -/
def powLoop [Zero T] [Add T] [Mul T] (R : Nat) : Nat → Nat → Mat T → Mat T → Option (Mat T)
  | 0, k, _, t => if k = 0 then some t else none
  | fuel+1, k, u, t =>
    if k = 0 then some t else
      (if k % 2 = 1 then mul R R R t u else some t).bind (fun t =>
        (mul R R R u u).bind (fun u => powLoop R fuel (k / 2) u t))

/-- matrix.hpp:121-133 for a square matrix. -/
def pow [Zero T] [One T] [Add T] [Mul T] (R : Nat) (a : Mat T) (k : Nat) : Option (Mat T) :=
  (ident R R).bind (fun t => powLoop R 64 k a t)

/-- matrix.hpp:56-64: early exit at the first difference. -/
def eqv [DecidableEq T] (R C : Nat) (a b : Mat T) : Option Bool :=
  forRange 0 R (fun i acc => forRange 0 C (fun j acc => if acc = false then some acc else
    (rd2 a i j).bind (fun x => (rd2 b i j).bind (fun y => some (decide (x = y))))) acc) true

end Verif.MatrixM
