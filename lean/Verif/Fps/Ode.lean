import Verif.Fps.Series
import Mathlib.Algebra.Field.ZMod
import Mathlib.Algebra.CharP.Basic
import Mathlib.Algebra.BigOperators.Ring.Finset
/-!
Truncated logarithms, exponentials and powers of formal power series over a prime field through their differential equations.
-/
namespace Verif.Fps
open PowerSeries
open scoped PowerSeries

section
variable {R : Type} [CommRing R]

/-- Equality of the coefficients below `x^n`. -/
def Agree (n : Nat) (A B : R⟦X⟧) : Prop := ∀ k, k < n → coeff k A = coeff k B

theorem agree_iff {n : Nat} {A B : R⟦X⟧} : Agree n A B ↔ X ^ n ∣ A - B := by
  rw [X_pow_dvd_iff]
  exact forall_congr' fun k => forall_congr' fun _ => by rw [map_sub, sub_eq_zero]

theorem Agree.symm {n : Nat} {A B : R⟦X⟧} (h : Agree n A B) : Agree n B A := fun k hk => (h k hk).symm
theorem Agree.trans {n : Nat} {A B C : R⟦X⟧} (h : Agree n A B) (h' : Agree n B C) : Agree n A C := fun k hk => (h k hk).trans (h' k hk)
theorem Agree.mono {n m : Nat} {A B : R⟦X⟧} (h : Agree n A B) (hm : m ≤ n) : Agree m A B := fun k hk => h k (by omega)
theorem Agree.mul {n : Nat} {A B C D : R⟦X⟧} (h : Agree n A B) (h' : Agree n C D) : Agree n (A * C) (B * D) := by
  rw [agree_iff] at *
  have : A * C - B * D = (A - B) * C + B * (C - D) := by ring
  rw [this]
  exact dvd_add (Dvd.dvd.mul_right h _) (Dvd.dvd.mul_left h' _)
theorem Agree.add {n : Nat} {A B C D : R⟦X⟧} (h : Agree n A B) (h' : Agree n C D) : Agree n (A + C) (B + D) := by
  intro k hk; rw [map_add, map_add, h k hk, h' k hk]
theorem Agree.sub {n : Nat} {A B C D : R⟦X⟧} (h : Agree n A B) (h' : Agree n C D) : Agree n (A - C) (B - D) := by
  intro k hk; rw [map_sub, map_sub, h k hk, h' k hk]
theorem Agree.refl (n : Nat) (A : R⟦X⟧) : Agree n A A := fun _ _ => rfl
theorem Agree.deriv {n : Nat} {A B : R⟦X⟧} (h : Agree n A B) : Agree (n-1) (d⁄dX R A) (d⁄dX R B) := by
  intro k hk
  rw [coeff_derivative, coeff_derivative, h (k+1) (by omega)]
theorem Agree.pow {n : Nat} {A B : R⟦X⟧} (h : Agree n A B) (m : Nat) : Agree n (A^m) (B^m) := by
  induction m with
  | zero => rw [pow_zero, pow_zero]; exact Agree.refl _ _
  | succ m ih => rw [pow_succ, pow_succ]; exact ih.mul h

theorem dvd_agree {n : Nat} {A : R⟦X⟧} (h : X ^ n ∣ A) : Agree n A 0 := by rw [agree_iff, sub_zero]; exact h

end

/-- `log f = -Σ (1-f)^j / j`, as far as it is determined below `x^n`. -/
noncomputable def logS {p : Nat} (n : Nat) (F : (ZMod p)⟦X⟧) : (ZMod p)⟦X⟧ := - ∑ j ∈ Finset.range (n-1), C (((j+1 : Nat) : ZMod p)⁻¹) * (1 - F) ^ (j+1)

/-- `exp h = Σ h^j / j!`, as far as it is determined below `x^n`. -/
noncomputable def expS {p : Nat} (n : Nat) (H : (ZMod p)⟦X⟧) : (ZMod p)⟦X⟧ := ∑ j ∈ Finset.range n, C (((j.factorial : Nat) : ZMod p)⁻¹) * H ^ j

variable {p : Nat} [hp : Fact p.Prime]

theorem cast_ne {k : Nat} (h0 : 0 < k) (hk : k < p) : ((k : Nat) : ZMod p) ≠ 0 := by
  intro h
  rw [ZMod.natCast_eq_zero_iff] at h
  exact absurd (Nat.le_of_dvd h0 h) (by omega)

/-- Uniqueness of the solution of `F A' = C A + G` with given constant term, below `x^n` with `n ≤ p`. -/
theorem ode_unique {F C G A B : (ZMod p)⟦X⟧} {n : Nat} (hn : n ≤ p) (hF : coeff 0 F ≠ 0) (h0 : coeff 0 A = coeff 0 B)
    (hA : Agree (n-1) (F * d⁄dX _ A) (C * A + G)) (hB : Agree (n-1) (F * d⁄dX _ B) (C * B + G)) : Agree n A B := by
  have hE : Agree (n-1) (F * d⁄dX _ (A - B)) (C * (A - B)) := by
    have := hA.sub hB
    rw [← mul_sub, ← map_sub, show C * A + G - (C * B + G) = C * (A - B) by ring] at this
    exact this
  have key : ∀ k, k < n → coeff k (A - B) = 0 := by
    intro k
    induction k using Nat.strong_induction_on with
    | _ k ih =>
      intro hk
      cases k with
      | zero => rw [map_sub, h0, sub_self]
      | succ k =>
        have h1 := hE k (by omega)
        rw [coeff_mul, coeff_mul] at h1
        rw [Finset.sum_eq_single (0, k), Finset.sum_eq_zero (s := Finset.antidiagonal k) (f := fun x => coeff x.1 C * coeff x.2 (A - B))] at h1
        · rw [coeff_derivative] at h1
          rcases mul_eq_zero.1 h1 with h | h
          · exact absurd h hF
          · rcases mul_eq_zero.1 h with h | h
            · exact h
            · exfalso
              refine cast_ne (p := p) (k := k+1) (by omega) (by omega) ?_
              push_cast
              exact h
        · intro x hx
          have := Finset.mem_antidiagonal.1 hx
          rw [ih x.2 (by omega) (by omega), mul_zero]
        · intro x hx hne
          have hx := Finset.mem_antidiagonal.1 hx
          rw [coeff_derivative]
          by_cases h2 : x.2 = k
          · exfalso
            exact hne (Prod.ext (by dsimp only; omega) h2)
          · rw [ih (x.2+1) (by omega) (by omega), zero_mul, mul_zero]
        · intro h
          exact absurd (Finset.mem_antidiagonal.2 (by simp)) h
  intro k hk
  have := key k hk
  rw [map_sub, sub_eq_zero] at this
  exact this

theorem X_dvd_of {A : (ZMod p)⟦X⟧} (h : coeff 0 A = 0) : X ∣ A := by
  rw [X_dvd_iff, ← coeff_zero_eq_constantCoeff_apply, h]

theorem logS_ode {n : Nat} (hn : n ≤ p) {F : (ZMod p)⟦X⟧} (h0 : coeff 0 F = 1) :
    coeff 0 (logS n F) = 0 ∧ Agree (n-1) (F * d⁄dX _ (logS n F)) (d⁄dX _ F) := by
  have hx : X ∣ 1 - F := X_dvd_of (by rw [map_sub, h0, coeff_one, if_pos rfl, sub_self])
  constructor
  · unfold logS
    rw [map_neg, map_sum, Finset.sum_eq_zero, neg_zero]
    intro j _
    rw [coeff_C_mul, X_pow_dvd_iff.1 (pow_dvd_pow_of_dvd hx (j+1)) 0 (by omega), mul_zero]
  · have hd : d⁄dX _ (logS n F) = d⁄dX _ F * ∑ j ∈ Finset.range (n-1), (1 - F)^j := by
      unfold logS
      rw [map_neg, map_sum, Finset.mul_sum, ← Finset.sum_neg_distrib]
      refine Finset.sum_congr rfl fun j hj => ?_
      have hj := Finset.mem_range.1 hj
      rw [Derivation.leibniz, derivative_pow, derivative_C, smul_zero, add_zero, smul_eq_mul, map_sub, derivative_one, zero_sub, Nat.add_sub_cancel]
      have hc : C (((j+1 : Nat) : ZMod p)⁻¹) * ((j+1 : Nat) : (ZMod p)⟦X⟧) = 1 := by
        rw [← map_natCast (C (R := ZMod p)), ← map_mul, inv_mul_cancel₀ (cast_ne (by omega) (by omega)), map_one]
      linear_combination ((1 - F)^j * d⁄dX _ F) * hc
    rw [hd, agree_iff]
    have hg : (∑ j ∈ Finset.range (n-1), (1 - F)^j) * F = 1 - (1-F)^(n-1) := by
      have := geom_sum_mul_neg (1 - F) (n-1)
      rw [sub_sub_cancel] at this
      exact this
    have : F * (d⁄dX _ F * ∑ j ∈ Finset.range (n-1), (1 - F)^j) - d⁄dX _ F = (1-F)^(n-1) * (- d⁄dX _ F) := by
      linear_combination (d⁄dX _ F) * hg
    rw [this]
    exact Dvd.dvd.mul_right (pow_dvd_pow_of_dvd hx _) _

theorem expS_ode {n : Nat} (hn0 : 0 < n) (hn : n ≤ p) {H : (ZMod p)⟦X⟧} (h0 : coeff 0 H = 0) :
    coeff 0 (expS n H) = 1 ∧ Agree (n-1) (d⁄dX _ (expS n H)) (d⁄dX _ H * expS n H) := by
  have hx : X ∣ H := X_dvd_of h0
  obtain ⟨m, rfl⟩ : ∃ m, n = m + 1 := ⟨n-1, by omega⟩
  rw [Nat.add_sub_cancel]
  constructor
  · unfold expS
    rw [map_sum, Finset.sum_range_succ', Finset.sum_eq_zero, zero_add]
    · simp
    · intro j _
      rw [coeff_C_mul, X_pow_dvd_iff.1 (pow_dvd_pow_of_dvd hx (j+1)) 0 (by omega), mul_zero]
  · have hd : d⁄dX _ (expS (m+1) H) = d⁄dX _ H * ∑ j ∈ Finset.range m, C (((j.factorial : Nat) : ZMod p)⁻¹) * H ^ j := by
      unfold expS
      rw [map_sum, Finset.sum_range_succ', Finset.mul_sum]
      have hz : d⁄dX (ZMod p) (C (((Nat.factorial 0 : Nat) : ZMod p)⁻¹) * H ^ 0) = 0 := by
        rw [pow_zero, mul_one, derivative_C]
      rw [hz, add_zero]
      refine Finset.sum_congr rfl fun j hj => ?_
      have hj := Finset.mem_range.1 hj
      rw [Derivation.leibniz, derivative_pow, derivative_C, smul_zero, add_zero, smul_eq_mul, Nat.add_sub_cancel]
      have hc : C ((((j+1).factorial : Nat) : ZMod p)⁻¹) * ((j+1 : Nat) : (ZMod p)⟦X⟧) = C (((j.factorial : Nat) : ZMod p)⁻¹) := by
        rw [← map_natCast (C (R := ZMod p)), ← map_mul, Nat.factorial_succ, Nat.cast_mul, mul_inv, mul_comm, ← mul_assoc,
          mul_inv_cancel₀ (cast_ne (by omega) (by omega)), one_mul]
      linear_combination (H^j * d⁄dX _ H) * hc
    rw [hd, agree_iff]
    unfold expS
    rw [Finset.sum_range_succ]
    have : ∀ S T D : (ZMod p)⟦X⟧, D * S - D * (S + T) = T * (-D) := fun S T D => by ring
    rw [this]
    exact Dvd.dvd.mul_right (Dvd.dvd.mul_left (pow_dvd_pow_of_dvd hx _) _) _

theorem pow_ode (F : (ZMod p)⟦X⟧) (m : Nat) : F * d⁄dX _ (F^m) = C ((m : Nat) : ZMod p) * d⁄dX _ F * F^m := by
  rw [derivative_pow, map_natCast]
  cases m with
  | zero => simp
  | succ m => rw [Nat.add_sub_cancel, pow_succ]; ring

/-- The round of the exponential: from the exponential below `x^i` to the one below `x^l`, `l ≤ 2i`. -/
theorem exp_round {A G U H Q T : (ZMod p)⟦X⟧} {i l : Nat} (hi : 0 < i) (hl : l ≤ 2*i)
    (hA : ∀ k, i ≤ k → coeff k A = 0) (hAode : Agree (i-1) (d⁄dX _ A) (d⁄dX _ H * A))
    (hG : Agree i (A * G) 1)
    (hQ : ∀ k, coeff k Q = if k < i - 1 then coeff k (d⁄dX _ H) else 0)
    (hT : ∀ k, coeff k T = coeff (i - 1 + k) (A * Q))
    (hU : ∀ j, i + j < l → ((i + j : Nat) : ZMod p) * coeff j U = coeff j (T * G) + ((i + j : Nat) : ZMod p) * coeff (i+j) H) :
    Agree (l-1) (d⁄dX _ (A + X^i * (A * U))) (d⁄dX _ H * (A + X^i * (A * U))) := by
  -- H' = Q + x^(i-1) S
  have hQd : X^(i-1) ∣ d⁄dX _ H - Q := by
    rw [X_pow_dvd_iff]
    intro k hk
    rw [map_sub, hQ, if_pos hk, sub_self]
  obtain ⟨S, hS⟩ := hQd
  have hSc : ∀ j, coeff j S = ((i + j : Nat) : ZMod p) * coeff (i+j) H := by
    intro j
    have := congrArg (coeff (j + (i-1))) hS
    rw [coeff_X_pow_mul, map_sub, hQ, if_neg (by omega), sub_zero, coeff_derivative, show j + (i-1) + 1 = i + j by omega] at this
    rw [← this]
    have : ((j + (i-1) : Nat) : ZMod p) + 1 = ((i + j : Nat) : ZMod p) := by
      rw [← Nat.cast_succ]
      exact congrArg _ (by omega)
    rw [this, mul_comm]
  -- A Q - A' = x^(i-1) T
  have hTd : A * Q - d⁄dX _ A = X^(i-1) * T := by
    ext k
    rw [coeff_X_pow_mul', map_sub]
    by_cases hk : k < i - 1
    · rw [if_neg (by omega), hAode k hk]
      have h1 : Agree (i-1) (A * Q) (d⁄dX _ H * A) := by
        rw [agree_iff, show A * Q - d⁄dX _ H * A = X^(i-1) * (- (S * A)) by linear_combination (-A) * hS]
        exact Dvd.intro _ rfl
      rw [h1 k hk, sub_self]
    · rw [if_pos (by omega), hT, coeff_derivative, hA (k+1) (by omega), zero_mul, sub_zero, show i - 1 + (k - (i-1)) = k by omega]
  obtain ⟨W, hW⟩ := agree_iff.1 hG
  -- (x^i U)' = x^(i-1) (S + T G) up to x^(l-1)
  have hUd : Agree (l-1) (d⁄dX _ (X^i * U)) (X^(i-1) * (S + T * G)) := by
    intro k hk
    rw [coeff_derivative, coeff_X_pow_mul', coeff_X_pow_mul']
    by_cases h : i - 1 ≤ k
    · rw [if_pos (by omega), if_pos h, map_add, hSc]
      have := hU (k - (i-1)) (by omega)
      rw [show i + (k - (i-1)) = k + 1 by omega] at this ⊢
      rw [show k + 1 - i = k - (i - 1) by omega]
      push_cast at this ⊢
      linear_combination this
    · rw [if_neg (by omega), if_neg h, zero_mul]
  obtain ⟨E, hE⟩ := agree_iff.1 hUd
  rw [agree_iff]
  obtain ⟨j, rfl⟩ : ∃ j, i = j + 1 := ⟨i-1, by omega⟩
  rw [Nat.add_sub_cancel] at *
  have hB : d⁄dX _ (A + X^(j+1) * (A * U)) = d⁄dX _ A + (A * d⁄dX _ (X^(j+1) * U) + (X^(j+1) * U) * d⁄dX _ A) := by
    rw [show A + X^(j+1) * (A * U) = A + A * (X^(j+1) * U) by ring, map_add, Derivation.leibniz]
    simp only [smul_eq_mul]
  have hfin : d⁄dX _ (A + X^(j+1) * (A * U)) - d⁄dX _ H * (A + X^(j+1) * (A * U)) =
      X^(l-1) * (E * A) + X^(2*j+1) * (T * W - U * (T + A * S)) := by
    rw [hB]
    have e1 : (X : (ZMod p)⟦X⟧)^(2*j+1) = X^j * X^(j+1) := by rw [← pow_add]; congr 1; omega
    rw [e1]
    linear_combination A * hE + (X^j * T) * hW - (1 + X^(j+1) * U) * hTd - (A * (1 + X^(j+1) * U)) * hS
  rw [hfin]
  exact dvd_add (Dvd.intro _ rfl) (Dvd.dvd.mul_right (pow_dvd_pow _ (by omega)) _)

end Verif.Fps
