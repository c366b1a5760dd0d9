import Mathlib.Algebra.BigOperators.Intervals
import Mathlib.Algebra.BigOperators.Ring.Finset
import Mathlib.Tactic.Ring
import Mathlib.Tactic.LinearCombination
/-!
The radix-2 stages of the transform as operations on sequences over a commutative ring, and what they compute.
-/
namespace Verif.Ntt
variable {R : Type} [CommRing R]

/-- One forward stage on blocks of length `2m`. -/
def S2 (m : Nat) (w : R) (φ : Nat → R) (q : Nat) : R :=
  if q % (2*m) < m then φ q + φ (q+m) else (φ (q-m) - φ q) * w ^ (q % (2*m) - m)

/-- One inverse stage on blocks of length `2m`. -/
def I2 (m : Nat) (w : R) (φ : Nat → R) (q : Nat) : R :=
  if q % (2*m) < m then φ q + φ (q+m) * w ^ (q % (2*m)) else φ (q-m) - φ q * w ^ (q % (2*m) - m)

theorem mod_block {c s j : Nat} (hj : j < s) : (c * s + j) % s = j := by
  rw [Nat.mul_comm, Nat.mul_add_mod, Nat.mod_eq_of_lt hj]

theorem S2_lo {m : Nat} (w : R) (φ : Nat → R) (c : Nat) {j : Nat} (hj : j < m) :
    S2 m w φ (c * (2*m) + j) = φ (c * (2*m) + j) + φ (c * (2*m) + j + m) := by
  unfold S2
  rw [mod_block (by omega), if_pos hj]

theorem S2_hi {m : Nat} (w : R) (φ : Nat → R) (c : Nat) {j : Nat} (hj : j < m) :
    S2 m w φ (c * (2*m) + j + m) = (φ (c * (2*m) + j) - φ (c * (2*m) + j + m)) * w ^ j := by
  unfold S2
  rw [show c * (2*m) + j + m = c * (2*m) + (j + m) by omega, mod_block (by omega), if_neg (by omega),
    show c * (2*m) + (j + m) - m = c * (2*m) + j by omega, show j + m - m = j by omega]

theorem I2_lo {m : Nat} (w : R) (φ : Nat → R) (c : Nat) {j : Nat} (hj : j < m) :
    I2 m w φ (c * (2*m) + j) = φ (c * (2*m) + j) + φ (c * (2*m) + j + m) * w ^ j := by
  unfold I2
  rw [mod_block (by omega), if_pos hj]

theorem I2_hi {m : Nat} (w : R) (φ : Nat → R) (c : Nat) {j : Nat} (hj : j < m) :
    I2 m w φ (c * (2*m) + j + m) = φ (c * (2*m) + j) - φ (c * (2*m) + j + m) * w ^ j := by
  unfold I2
  rw [show c * (2*m) + j + m = c * (2*m) + (j + m) by omega, mod_block (by omega), if_neg (by omega),
    show c * (2*m) + (j + m) - m = c * (2*m) + j by omega, show j + m - m = j by omega]

/-- Every position is in the lower or the upper half of its block. -/
theorem block_cases {m : Nat} (hm : 0 < m) (q : Nat) :
    ∃ c j, j < m ∧ (q = c * (2*m) + j ∨ q = c * (2*m) + j + m) := by
  have h := Nat.div_add_mod' q (2*m)
  have hl := Nat.mod_lt q (show 2*m > 0 by omega)
  by_cases hlt : q % (2*m) < m
  · exact ⟨q / (2*m), q % (2*m), hlt, Or.inl h.symm⟩
  · exact ⟨q / (2*m), q % (2*m) - m, by omega, Or.inr (by omega)⟩

/-- An inverse stage after a forward stage doubles every entry. -/
theorem I2_S2 {m : Nat} (hm : 0 < m) {w w' : R} (hw : w * w' = 1) (φ : Nat → R) : I2 m w' (S2 m w φ) = fun q => 2 * φ q := by
  funext q
  obtain ⟨c, j, hj, h⟩ := block_cases hm q
  have hp : w ^ j * w' ^ j = 1 := by rw [← mul_pow, hw, one_pow]
  rcases h with h | h <;> subst h
  · rw [I2_lo _ _ _ hj, S2_lo _ _ _ hj, S2_hi _ _ _ hj]
    linear_combination (φ (c * (2*m) + j) - φ (c * (2*m) + j + m)) * hp
  · rw [I2_hi _ _ _ hj, S2_lo _ _ _ hj, S2_hi _ _ _ hj]
    linear_combination -(φ (c * (2*m) + j) - φ (c * (2*m) + j + m)) * hp

theorem I2_smul {m : Nat} (w k : R) (φ : Nat → R) : I2 m w (fun q => k * φ q) = fun q => k * I2 m w φ q := by
  funext q
  unfold I2
  split <;> ring

/-- The forward stages for blocks of length `2^t`. -/
def stages (co : Nat → R) : Nat → (Nat → R) → Nat → R
  | 0, φ => φ
  | t+1, φ => stages co t (S2 (2^t) (co t) φ)

/-- The inverse stages for blocks of length `2^t`. -/
def istages (co : Nat → R) : Nat → (Nat → R) → Nat → R
  | 0, φ => φ
  | t+1, φ => I2 (2^t) (co t) (istages co t φ)

theorem istages_stages {co co' : Nat → R} : ∀ t, (∀ i, i < t → co i * co' i = 1) → ∀ φ,
    istages co' t (stages co t φ) = fun q => 2^t * φ q := by
  intro t
  induction t with
  | zero => intro _ φ; funext q; simp [stages, istages]
  | succ t ih =>
    intro h φ
    rw [istages, stages, ih (fun i hi => h i (by omega)), I2_smul, I2_S2 (Nat.two_pow_pos t) (h t (by omega))]
    funext q
    dsimp only
    ring

/-- Value at `z` of the polynomial whose coefficients are the `n` entries from `b` on. -/
def ev (φ : Nat → R) (b n : Nat) (z : R) : R := ∑ i ∈ Finset.range n, φ (b + i) * z ^ i

/-- The point at which position `j` of a block of length `2^t` ends up evaluated. -/
def pt (co : Nat → R) : Nat → Nat → R
  | 0, _ => 1
  | t+1, j => if j < 2^t then pt co t j else pt co t (j - 2^t) * co t

theorem pt_pow {co : Nat → R} : ∀ t, (∀ i, i < t → co i ^ 2^i = -1) → ∀ j, pt co t j ^ 2^t = 1 := by
  intro t
  induction t with
  | zero => intro _ j; simp [pt]
  | succ t ih =>
    intro h j
    have ih := ih (fun i hi => h i (by omega))
    rw [pt, pow_succ, pow_mul]
    split
    · rw [ih, one_pow]
    · rw [mul_pow, ih, h t (by omega)]
      ring

theorem ev_double (φ : Nat → R) (b m : Nat) (z : R) :
    ev φ b (2*m) z = ∑ i ∈ Finset.range m, (φ (b + i) + φ (b + i + m) * z ^ m) * z ^ i := by
  unfold ev
  rw [two_mul, Finset.sum_range_add, ← Finset.sum_add_distrib]
  refine Finset.sum_congr rfl fun i _ => ?_
  rw [show b + (m + i) = b + i + m by omega, pow_add]
  ring

theorem stages_ev {co : Nat → R} : ∀ t, (∀ i, i < t → co i ^ 2^i = -1) → ∀ φ c j, j < 2^t →
    stages co t φ (c * 2^t + j) = ev φ (c * 2^t) (2^t) (pt co t j) := by
  intro t
  induction t with
  | zero =>
    intro _ φ c j hj
    have : j = 0 := by simpa using hj
    subst this
    simp [stages, ev]
  | succ t ih =>
    intro h φ c j hj
    have h' : ∀ i, i < t → co i ^ 2^i = -1 := fun i hi => h i (by omega)
    have e2 : 2^(t+1) = 2 * 2^t := by ring
    rw [e2] at hj ⊢
    rw [stages, pt, ev_double]
    by_cases hlt : j < 2^t
    · rw [if_pos hlt, show c * (2 * 2^t) + j = (2*c) * 2^t + j by ring, ih h' _ _ _ hlt]
      unfold ev
      refine Finset.sum_congr rfl fun i hi => ?_
      have hi := Finset.mem_range.1 hi
      rw [show 2 * c * 2^t + i = c * (2 * 2^t) + i by ring, S2_lo _ _ _ hi, pt_pow t h']
      ring
    · rw [if_neg hlt]
      have : c * (2 * 2^t) + j = (2*c+1) * 2^t + (j - 2^t) := by
        have : (2*c+1) * 2^t = c * (2 * 2^t) + 2^t := by ring
        omega
      rw [this, ih h' _ _ _ (by omega)]
      unfold ev
      refine Finset.sum_congr rfl fun i hi => ?_
      have hi := Finset.mem_range.1 hi
      rw [show (2 * c + 1) * 2^t + i = c * (2 * 2^t) + i + 2^t by ring, S2_hi _ _ _ hi, mul_pow, mul_pow, pt_pow t h', h t (by omega)]
      ring

end Verif.Ntt
