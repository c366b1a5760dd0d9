import Verif.Fps.Model2
import Verif.Modular.SqrtModel
/-!
Model of `Fps::sqrt` and `Fps::is_square` (fps.hpp:282-347).

The outer `none` is undefined behaviour or a failed assertion, the inner `none` an exception.
-/
namespace Verif.Fps
open Verif.Modular

/-- fps.hpp:286-289 (`_sqrt_1`). -/
def sqrt1 (p r : Nat) (tb g : List Nat) : Option (List Nat) :=
  if g[0]? ≠ some 1 then none else (inv p (ofInt p 2)).bind (fun h => pow1 p r tb g (h : Int))

/-- fps.hpp:295-298 (`_sqrt_1_dense`). -/
def sqrt1Dense (p r : Nat) (tb g : List Nat) : Option (List Nat) :=
  if g[0]? ≠ some 1 then none else (inv p (ofInt p 2)).bind (fun h => pow1Dense p r tb g (h : Int))

/-- fps.hpp:304-307 (`_sqrt_1_sparse`). -/
def sqrt1Sparse (p : Nat) (tb g : List Nat) : Option (List Nat) :=
  if g[0]? ≠ some 1 then none else (inv p (ofInt p 2)).bind (fun h => pow1SparseImpl p tb (terms g g.length) (h : Int) g.length)

/-- fps.hpp:199-206 (`operator<<=`). -/
def shl (m : Nat) (g : List Nat) : List Nat := List.replicate m 0 ++ g

/-- fps.hpp:321-326: root of the normalised series times the root of the leading coefficient. -/
def sqrtTail (p : Nat) (fn : List Nat → Option (List Nat)) (f : List Nat) (k c : Nat) : Option (Option (List Nat)) :=
  (inv p c).bind (fun ic => (scale p ic (f.drop k)).bind (fun g => (fn g).bind (fun g => (Modular.sqrt p c).bind (fun o =>
    match o with
    | none => some none
    | some s => (scale p s g).map (fun g => some (shl (k/2) g))))))

/-- fps.hpp:308-327 (`_sqrt`). -/
def sqrtWith (p : Nat) (fn : List Nat → Option (List Nat)) (f : List Nat) : Option (Option (List Nat)) :=
  match f[(f.takeWhile (· == 0)).length]? with
  | none => some (some [])
  | some c => if (f.takeWhile (· == 0)).length % 2 = 1 then some none else
      (isSquare p c).bind (fun b => if b then sqrtTail p fn f (f.takeWhile (· == 0)).length c else some none)

/-- fps.hpp:329-331 (`sqrt`). -/
def sqrtF (p r : Nat) (tb f : List Nat) := sqrtWith p (sqrt1 p r tb) f
/-- fps.hpp:332-334 (`sqrt_dense`). -/
def sqrtDense (p r : Nat) (tb f : List Nat) := sqrtWith p (sqrt1Dense p r tb) f
/-- fps.hpp:335-337 (`sqrt_sparse`). -/
def sqrtSparse (p : Nat) (tb f : List Nat) := sqrtWith p (sqrt1Sparse p tb) f

/-- fps.hpp:338-347 (`is_square`). -/
def isSquareF (p : Nat) (f : List Nat) : Option Bool :=
  match f[(f.takeWhile (· == 0)).length]? with
  | none => some true
  | some c => if (f.takeWhile (· == 0)).length % 2 = 1 then some false else isSquare p c

end Verif.Fps
