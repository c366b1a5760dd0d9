import Mathlib.Algebra.Order.Field.Basic
import Mathlib.Algebra.Order.Ring.Rat
import Mathlib.Algebra.Field.Rat
/-!
Model of `bisect_float` and `golden_ratio_search` (`/repo/include/mtl/search.hpp:24-35, 99-124`).

Numbers are elements of an ordered field `K`; the result of every arithmetic operation on `double` goes through `rnd`.  With `rnd = id` this is exact arithmetic; `rd64` is the rounding of
IEEE doubles (to nearest, ties to even) for numbers in the range of normal doubles.  The loops get a number of rounds; `none` means that it does not suffice.  The functions passed by the
caller are total and without side effects.
-/
namespace Verif.SearchFloat

variable {K V : Type} [Field K] [LinearOrder K]

/-- search.hpp:26-35 (`bisect_float`). -/
def bisectFloat (rnd : K → K) (fn : K → Bool) (eps : K) : Nat → K → K → Option K
  | 0, _, _ => none
  | n+1, ok, ng =>
    if rnd |ok - ng| > eps then
      if fn (rnd (ok + rnd (rnd (ng - ok) / 2))) then bisectFloat rnd fn eps n (rnd (ok + rnd (rnd (ng - ok) / 2))) ng
      else bisectFloat rnd fn eps n ok (rnd (ok + rnd (rnd (ng - ok) / 2)))
    else some ok

/-- search.hpp:106: `il`. -/
def leftPt (rnd : K → K) (G l r : K) : K := rnd (rnd (rnd (l * G) + r) / rnd (G + 1))

/-- search.hpp:107: `ir`. -/
def rightPt (rnd : K → K) (G l r : K) : K := rnd (rnd (l + rnd (r * G)) / rnd (G + 1))

/-- search.hpp:105-118: the loop of `golden_ratio_search`; `G` is `GOLDEN_RATIO`. -/
def goldenLoop (rnd : K → K) (G : K) (fn : K → V) (cmp : V → V → Bool) (eps : K) : Nat → K → K → K × V → Option (K × V)
  | 0, _, _, _ => none
  | n+1, l, r, ret =>
    if rnd |r - l| > eps then
      if cmp (fn (rightPt rnd G l r)) (fn (leftPt rnd G l r)) then goldenLoop rnd G fn cmp eps n l (rightPt rnd G l r) (leftPt rnd G l r, fn (leftPt rnd G l r))
      else goldenLoop rnd G fn cmp eps n (leftPt rnd G l r) r (rightPt rnd G l r, fn (rightPt rnd G l r))
    else some ret

/-- search.hpp:100-119 (`golden_ratio_search`) and 120-124 (`trisect_float`).  The pair `ret` of line 104 starts value-initialised: 0 and the zero `v0` of the value type. -/
def golden (rnd : K → K) (G : K) (fn : K → V) (v0 : V) (cmp : V → V → Bool) (eps : K) (n : Nat) (l r : K) : Option (K × V) := goldenLoop rnd G fn cmp eps n l r (0, v0)

/-- search.hpp:99 (`GOLDEN_RATIO`, as a decimal literal). -/
def GR : ℚ := 161803398875 / 100000000000

/-- search.hpp:9 (`EPS_DEFAULT`, as a decimal literal). -/
def EPS : ℚ := 1 / 1000000000

/-- `2^e`. -/
def pow2 (e : Int) : ℚ := if 0 ≤ e then ((2^e.toNat : Nat) : ℚ) else 1 / ((2^(-e).toNat : Nat) : ℚ)

/-- The `e` with `2^e ≤ |x| < 2^(e+1)`, for `x ≠ 0`. -/
def expo (x : ℚ) : Int :=
  let e : Int := (Nat.log2 x.num.natAbs : Int) - Nat.log2 x.den
  if |x| < pow2 e then e - 1 else e

/-- Nearest integer, ties to even. -/
def near (x : ℚ) : Int :=
  let f := x.floor
  if x - f < 1/2 then f else if x - f > 1/2 then f + 1 else if f % 2 = 0 then f else f + 1

/-- Rounding to the nearest double, with 53 significant bits.  Exponents are unbounded: overflow and subnormal numbers are not modelled. -/
def rd64 (x : ℚ) : ℚ := if x = 0 then 0 else near (x / pow2 (expo x - 52)) * pow2 (expo x - 52)

end Verif.SearchFloat
