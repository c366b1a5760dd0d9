import Verif.Ntt.Conv
import Mathlib.RingTheory.PowerSeries.Derivative
import Mathlib.Algebra.BigOperators.NatAntidiagonal
/-!
Sequences of coefficients as formal power series.
-/
namespace Verif.Fps
open Verif.Ntt
variable {R : Type} [CommRing R]

/-- The series with the given coefficients. -/
noncomputable def ps (a : Nat → R) : PowerSeries R := PowerSeries.mk a

theorem coeff_ps (a : Nat → R) (k : Nat) : PowerSeries.coeff k (ps a) = a k := PowerSeries.coeff_mk _ _

theorem coeff_mul_ps (a b : Nat → R) (k : Nat) : PowerSeries.coeff k (ps a * ps b) = mulF a b k := by
  rw [PowerSeries.coeff_mul]
  unfold mulF
  rw [Finset.Nat.sum_antidiagonal_eq_sum_range_succ (fun i j => PowerSeries.coeff i (ps a) * PowerSeries.coeff j (ps b))]
  refine Finset.sum_congr rfl fun i _ => ?_
  rw [coeff_ps, coeff_ps]

theorem ps_mulF (a b : Nat → R) : ps (mulF a b) = ps a * ps b := by
  ext k
  rw [coeff_ps, coeff_mul_ps]

/-- One step of Newton's iteration for the reciprocal. -/
theorem newton_series {a g g' : Nat → R} {m n : Nat} (hn : n ≤ 2*m) (hg : ∀ i, m ≤ i → g i = 0)
    (h : ∀ k, k < m → mulF g a k = if k = 0 then 1 else 0)
    (h1 : ∀ k, k < m → g' k = g k) (h2 : ∀ k, m ≤ k → k < n → g' k = - mulF (mulF g g) a k) :
    ∀ k, k < n → mulF g' a k = if k = 0 then 1 else 0 := by
  have hX : PowerSeries.X ^ m ∣ ps g * ps a - 1 := by
    rw [PowerSeries.X_pow_dvd_iff]
    intro k hk
    rw [map_sub, coeff_mul_ps, h k hk, PowerSeries.coeff_one, sub_self]
  obtain ⟨Q, hQ⟩ := hX
  have hQ' : ps g * ps a = 1 + PowerSeries.X ^ m * Q := by rw [← hQ]; ring
  have hT : ∀ k, k < n → g' k = PowerSeries.coeff k (2 * ps g - ps g * (ps g * ps a)) := by
    intro k hk
    by_cases hm : k < m
    · rw [h1 k hm, hQ', mul_add, mul_one, ← mul_assoc, mul_comm (ps g) (PowerSeries.X ^ m), mul_assoc,
        show 2 * ps g - (ps g + PowerSeries.X ^ m * (ps g * Q)) = ps g - PowerSeries.X ^ m * (ps g * Q) by ring, map_sub, coeff_ps,
        PowerSeries.X_pow_dvd_iff.1 (Dvd.intro _ rfl) k hm, sub_zero]
    · rw [h2 k (by omega) hk, ← mul_assoc, map_sub, ← ps_mulF, coeff_mul_ps, two_mul, map_add, coeff_ps, hg k (by omega), add_zero, zero_sub]
  intro k hk
  have e1 : mulF g' a k = mulF (fun i => PowerSeries.coeff i (2 * ps g - ps g * (ps g * ps a))) a k :=
    mulF_congr (fun i hi => hT i (by omega)) (fun i _ => rfl)
  have e2 : ps (fun i => PowerSeries.coeff i (2 * ps g - ps g * (ps g * ps a))) = 2 * ps g - ps g * (ps g * ps a) := by
    ext i; rw [coeff_ps]
  have e3 : (2 * ps g - ps g * (ps g * ps a)) * ps a = 1 - PowerSeries.X ^ (2*m) * (Q * Q) := by
    have : (2 * ps g - ps g * (ps g * ps a)) * ps a = 2 * (ps g * ps a) - (ps g * ps a) * (ps g * ps a) := by ring
    rw [this, hQ', two_mul m, pow_add]
    ring
  rw [e1, ← coeff_mul_ps, e2, e3, map_sub, PowerSeries.X_pow_dvd_iff.1 (Dvd.intro _ rfl) k (by omega), sub_zero, PowerSeries.coeff_one]

end Verif.Fps
