/-!
C26: `boundint<T, ID>`, `/repo/include/mtl/boundint.hpp`.

`T` is a signed integer type with largest value `lim`; a value is a mathematical integer and every intermediate
result that leaves `[-lim-1, lim]`, as well as a division by zero, is `none` (undefined behaviour).
`sup` is the static bound `sup_`.
-/
namespace Verif.BoundInt

/-- The intermediate result fits the type. -/
def chk (lim : Nat) (x : Int) : Option Int := if -(lim : Int) - 1 ≤ x ∧ x ≤ lim then some x else none

/-- boundint.hpp:12-17. -/
def mk (sup v : Int) : Int :=
  let v := if v < 0 then 0 else v
  if v > sup then sup else v

/-- boundint.hpp:33-36. -/
def add (lim : Nat) (sup v r : Int) : Option Int := do
  let d ← chk lim (sup - r)
  if v ≤ d then chk lim (v + r) else some sup

/-- boundint.hpp:37-40. -/
def sub (lim : Nat) (v r : Int) : Option Int :=
  if v ≥ r then chk lim (v - r) else some 0

/-- boundint.hpp:41-44. -/
def mul (lim : Nat) (sup v r : Int) : Option Int := do
  let q ← if r = 0 then none else chk lim (sup.tdiv r)
  if v ≤ q then chk lim (v * r) else some sup

/-- boundint.hpp:45-48. -/
def div (lim : Nat) (v r : Int) : Option Int := if r = 0 then none else chk lim (v.tdiv r)

/-- Specification: clamp to `[0, sup]`. -/
def clamp (sup x : Int) : Int := max 0 (min x sup)

variable {lim : Nat} {sup : Int}

/-- C26, constructor. -/
theorem C26_ctor (hs : 0 ≤ sup) (v : Int) : mk sup v = clamp sup v := by
  unfold mk clamp; simp only; split <;> split <;> omega

/-- C26, addition. -/
theorem C26_add (hs : 0 ≤ sup) (hl : sup ≤ lim) {v r : Int} (hv : 0 ≤ v ∧ v ≤ sup) (hr : 0 ≤ r ∧ r ≤ sup) :
    add lim sup v r = some (clamp sup (v + r)) := by
  unfold add chk clamp
  rw [if_pos (by omega)]
  simp only [Option.bind_eq_bind, Option.bind_some]
  split
  · rw [if_pos (by omega)]; congr 1; omega
  · congr 1; omega

/-- C26, subtraction. -/
theorem C26_sub (hs : 0 ≤ sup) (hl : sup ≤ lim) {v r : Int} (hv : 0 ≤ v ∧ v ≤ sup) (hr : 0 ≤ r ∧ r ≤ sup) :
    sub lim v r = some (clamp sup (v - r)) := by
  unfold sub chk clamp
  split
  · rw [if_pos (by omega)]; congr 1; omega
  · congr 1; omega

/-- C26, multiplication.  The full claim (every `v`, `r` in `[0, sup]`) fails for `r = 0`, see
`C26_mul_zero_undefined`; what is proved is the claim for `r ≠ 0`. -/
theorem C26_mul_partial (hl : sup ≤ lim) {v r : Int} (hv : 0 ≤ v ∧ v ≤ sup) (hr : 0 < r ∧ r ≤ sup) :
    mul lim sup v r = some (clamp sup (v * r)) := by
  have hq : sup.tdiv r = sup / r := Int.tdiv_eq_ediv_of_nonneg (by omega)
  have hq0 : 0 ≤ sup / r := Int.ediv_nonneg (by omega) (by omega)
  have hq1 : sup / r ≤ sup := Int.ediv_le_self _ (by omega)
  have hvr : 0 ≤ v * r := Int.mul_nonneg hv.1 (by omega)
  have hiff : v ≤ sup / r ↔ v * r ≤ sup := Int.le_ediv_iff_mul_le hr.1
  unfold mul chk clamp
  rw [if_neg (by omega), hq, if_pos (by omega)]
  simp only [Option.bind_eq_bind, Option.bind_some]
  split
  · rename_i h
    have := hiff.1 h
    rw [if_pos (by omega)]; congr 1; omega
  · rename_i h
    have : ¬ v * r ≤ sup := fun h' => h (hiff.2 h')
    congr 1; omega

/-- C26 is violated: multiplying by the zero `boundint` divides by zero, whatever the bound and left operand. -/
theorem C26_mul_zero_undefined (sup v : Int) : mul lim sup v 0 = none := by rfl

/-- Hence the unrestricted claim is false, e.g. for `0 * 0` with bound 10 in a 32-bit type. -/
theorem C26_mul_claim_false : ¬ ∀ (lim : Nat) (sup v r : Int), sup ≤ lim → 0 ≤ v ∧ v ≤ sup → 0 ≤ r ∧ r ≤ sup →
    mul lim sup v r = some (clamp sup (v * r)) := by
  intro h
  have := h (2^31-1) 10 3 0 (by decide) (by decide) (by decide)
  exact absurd this (by decide)

/-- C26, division by a non-zero operand (division by zero is undefined mathematically too). -/
theorem C26_div (hl : sup ≤ lim) {v r : Int} (hv : 0 ≤ v ∧ v ≤ sup) (hr : 0 < r ∧ r ≤ sup) :
    div lim v r = some (clamp sup (v / r)) := by
  have hq : v.tdiv r = v / r := Int.tdiv_eq_ediv_of_nonneg (by omega)
  have hq0 : 0 ≤ v / r := Int.ediv_nonneg (by omega) (by omega)
  have hq1 : v / r ≤ v := Int.ediv_le_self _ (by omega)
  unfold div chk clamp
  rw [if_neg (by omega), hq, if_pos (by omega)]
  congr 1; omega

example : (0 : Int) ≤ 1000 ∧ (1000 : Int) ≤ ((2^31-1 : Nat) : Int) := by decide
example : mul (2^31-1) 1000 30 40 = some 1000 ∧ mul (2^31-1) 1000 30 33 = some 990 := by decide
example : add (2^31-1) (2^31-1) (2^31-1) 5 = some (2^31-1) := by decide
example : sub (2^31-1) 3 5 = some 0 ∧ div (2^31-1) 17 5 = some 3 := by decide

end Verif.BoundInt
