import Mathlib.NumberTheory.Harmonic.Defs
import Mathlib.Order.Interval.Finset.Fin
import Mathlib.Data.Fintype.Perm
import Mathlib.Data.Nat.Log
import Mathlib.Algebra.Order.BigOperators.Group.Finset
import Mathlib.Algebra.BigOperators.Ring.Finset
import Mathlib.Algebra.BigOperators.Fin
import Mathlib.Algebra.Group.Action.Defs
import Mathlib.Algebra.BigOperators.Intervals
import Mathlib.Tactic.Positivity
import Mathlib.Tactic.Linarith
import Mathlib.Tactic.FieldSimp
import Mathlib.Tactic.Ring
import Mathlib.Algebra.Order.Field.Rat
/-!
Counting permutations whose minimum over a set is at a given place.
-/
namespace Verif.TreapShape

open Finset

variable {n : Nat}

/-- The permutations whose least value on `S` is at `b`. -/
def minAt (S : Finset (Fin n)) (b : Fin n) : Finset (Equiv.Perm (Fin n)) := univ.filter (fun σ => ∀ c ∈ S, σ b ≤ σ c)

theorem minAt_swap (S : Finset (Fin n)) {a b : Fin n} (ha : a ∈ S) (hb : b ∈ S) : (minAt S a).card ≤ (minAt S b).card := by
  refine Finset.card_le_card_of_injOn (fun σ => σ * Equiv.swap a b) ?_ (fun σ _ τ _ h => mul_right_cancel h)
  intro σ hσ
  have hσ' : ∀ c ∈ S, σ a ≤ σ c := (mem_filter.1 hσ).2
  refine mem_coe.2 (mem_filter.2 ⟨mem_univ _, ?_⟩)
  intro c hc
  simp only [Equiv.Perm.coe_mul, Function.comp_apply, Equiv.swap_apply_right]
  apply hσ'
  rw [Equiv.swap_apply_def]
  split_ifs
  · exact hb
  · exact ha
  · exact hc

theorem minAt_card (S : Finset (Fin n)) (b : Fin n) (hb : b ∈ S) : (minAt S b).card * S.card = n.factorial := by
  have h1 : ∀ a ∈ S, (minAt S a).card = (minAt S b).card := fun a ha => Nat.le_antisymm (minAt_swap S ha hb) (minAt_swap S hb ha)
  have h2 : ∑ a ∈ S, (minAt S a).card = (minAt S b).card * S.card := by
    rw [Finset.sum_congr rfl h1, Finset.sum_const, smul_eq_mul, Nat.mul_comm]
  rw [← h2]
  have h3 : ∀ a, (minAt S a).card = ∑ σ : Equiv.Perm (Fin n), if ∀ c ∈ S, σ a ≤ σ c then 1 else 0 := by
    intro a; unfold minAt; rw [Finset.card_filter]
  simp only [h3]
  rw [Finset.sum_comm]
  have h4 : ∀ σ : Equiv.Perm (Fin n), (∑ a ∈ S, if ∀ c ∈ S, σ a ≤ σ c then 1 else 0) = 1 := by
    intro σ
    obtain ⟨m, hm, hmin⟩ := Finset.exists_min_image S σ ⟨b, hb⟩
    rw [Finset.sum_eq_single m]
    · rw [if_pos hmin]
    · intro a ha hne
      rw [if_neg]
      intro h
      exact hne (σ.injective (le_antisymm (h m hm) (hmin a ha)))
    · intro h; exact absurd hm h
  rw [Finset.sum_congr rfl (fun σ _ => h4 σ), Finset.sum_const, Finset.card_univ, Fintype.card_perm, Fintype.card_fin, smul_eq_mul, Nat.mul_one]

/-- The reciprocals of the distances to a place. -/
theorem sum_dist (a : Fin n) : ∑ b : Fin n, (1 : ℚ) / ((Finset.uIcc a b).card : ℚ) = harmonic (a.val + 1) + harmonic (n - a.val) - 1 := by
  have hcard : ∀ b : Fin n, (Finset.uIcc a b).card = ((b.val : ℤ) - a.val).natAbs + 1 := fun b => Fin.card_uIcc a b
  simp only [hcard]
  rw [Fin.sum_univ_eq_sum_range (fun b => (1 : ℚ) / ((((b : ℤ) - a.val).natAbs + 1 : ℕ) : ℚ)) n]
  obtain ⟨a, ha⟩ := a
  dsimp only
  obtain ⟨m, rfl⟩ : ∃ m, n = a + (m + 1) := ⟨n - a - 1, by omega⟩
  rw [Finset.sum_range_add, show a + (m + 1) - a = m + 1 from by omega]
  have e1 : ∑ x ∈ range a, (1 : ℚ) / ((((x : ℤ) - a).natAbs + 1 : ℕ) : ℚ) = harmonic (a + 1) - 1 := by
    unfold harmonic
    rw [Finset.sum_range_succ']
    rw [← Finset.sum_range_reflect]
    have : ∀ x ∈ range a, (1 : ℚ) / (((((a - 1 - x : ℕ) : ℤ) - a).natAbs + 1 : ℕ) : ℚ) = ((x + 1 + 1 : ℕ) : ℚ)⁻¹ := by
      intro x hx
      have hx := Finset.mem_range.1 hx
      rw [show (((a - 1 - x : ℕ) : ℤ) - a).natAbs + 1 = x + 1 + 1 from by omega, one_div]
    rw [Finset.sum_congr rfl this]
    simp
  have e2 : ∑ x ∈ range (m + 1), (1 : ℚ) / ((((a + x : ℕ) : ℤ) - a).natAbs + 1 : ℕ) = harmonic (m + 1) := by
    unfold harmonic
    refine Finset.sum_congr rfl (fun x _ => ?_)
    rw [show (((a + x : ℕ) : ℤ) - a).natAbs + 1 = x + 1 from by omega, one_div]
  rw [e1, e2]
  ring

theorem harmonic_half (m : Nat) : harmonic (2 * m + 1) ≤ harmonic m + 1 := by
  have h : ∀ k, harmonic (m + k) ≤ harmonic m + k * ((m + 1 : ℕ) : ℚ)⁻¹ := by
    intro k
    induction k with
    | zero => simp
    | succ k ih =>
      rw [← Nat.add_assoc, harmonic_succ]
      have : ((m + k + 1 : ℕ) : ℚ)⁻¹ ≤ ((m + 1 : ℕ) : ℚ)⁻¹ := by
        apply inv_anti₀
        · exact_mod_cast Nat.succ_pos m
        · exact_mod_cast (by omega : m + 1 ≤ m + k + 1)
      push_cast at *
      linarith
  have := h (m + 1)
  rw [show m + (m + 1) = 2 * m + 1 from by omega, mul_inv_cancel₀ (by exact_mod_cast Nat.succ_ne_zero m)] at this
  exact this

theorem harmonic_mono {a b : Nat} (h : a ≤ b) : harmonic a ≤ harmonic b := by
  unfold harmonic
  exact Finset.sum_le_sum_of_subset_of_nonneg (Finset.range_mono h) (fun i _ _ => inv_nonneg.2 (Nat.cast_nonneg _))

theorem harmonic_log : ∀ n : Nat, 1 ≤ n → harmonic n ≤ Nat.log 2 n + 1 := by
  intro n
  induction n using Nat.strong_induction_on with
  | _ n ih =>
    intro hn
    rcases Nat.lt_or_ge n 2 with h | h
    · obtain rfl : n = 1 := by omega
      simp
    · have h1 := ih (n / 2) (by omega) (by omega)
      have h2 := harmonic_half (n / 2)
      have h3 := harmonic_mono (show n ≤ 2 * (n / 2) + 1 from by omega)
      have h4 : Nat.log 2 n = Nat.log 2 (n / 2) + 1 := Nat.log_of_one_lt_of_le (by decide) h
      rw [h4]
      push_cast
      linarith

end Verif.TreapShape
