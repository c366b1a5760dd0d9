import Verif.Fft.Model
import Mathlib.Tactic.Common
/-!
The bit reversal.
-/
namespace Verif.Fft

variable {T : Type}

/-- The low `L` bits of `x` in reverse. -/
def rev : Nat → Nat → Nat
  | 0, _ => 0
  | L+1, x => 2^L * (x % 2) + rev L (x / 2)

theorem rev_lt : ∀ L x, rev L x < 2^L
  | 0, _ => by rw [rev]; omega
  | L+1, x => by
      have := rev_lt L (x / 2)
      rw [rev, Nat.pow_succ]
      rcases Nat.mod_two_eq_zero_or_one x with h | h <;> rw [h] <;> omega

theorem rev_bit : ∀ L x b, (rev L x).testBit b = (decide (b < L) && x.testBit (L - 1 - b))
  | 0, x, b => by rw [rev]; simp
  | L+1, x, b => by
      rw [rev, Nat.testBit_two_pow_mul_add _ (rev_lt L (x / 2)), rev_bit L (x / 2) b]
      by_cases h : b < L
      · rw [if_pos h, Nat.testBit_div_two, decide_eq_true h, decide_eq_true (by omega : b < L + 1), show L - 1 - b + 1 = L + 1 - 1 - b from by omega]
      · rw [if_neg h]
        by_cases h2 : b = L
        · subst h2
          rw [Nat.sub_self, decide_eq_true (by omega : b < b + 1), Nat.add_sub_cancel, Nat.sub_self, Nat.testBit_zero, Nat.testBit_zero, Nat.mod_mod, Bool.true_and]
        · rw [decide_eq_false (by omega : ¬ b < L + 1), Bool.false_and]
          refine Nat.testBit_lt_two_pow ?_
          have h3 : 2^1 ≤ 2^(b - L) := Nat.pow_le_pow_right (by omega) (by omega)
          have := Nat.mod_lt x (by omega : 0 < 2)
          omega

theorem rev_rev {L x : Nat} (hx : x < 2^L) : rev L (rev L x) = x := by
  refine Nat.eq_of_testBit_eq (fun b => ?_)
  rw [rev_bit, rev_bit]
  by_cases h : b < L
  · rw [decide_eq_true h, decide_eq_true (by omega : L - 1 - b < L), Bool.true_and, Bool.true_and, show L - 1 - (L - 1 - b) = b from by omega]
  · rw [decide_eq_false h, Bool.false_and]
    exact (Nat.testBit_lt_two_pow (Nat.lt_of_lt_of_le hx (Nat.pow_le_pow_right (by omega) (by omega)))).symm

theorem rev_zero : ∀ L, rev L 0 = 0
  | 0 => rfl
  | L+1 => by rw [rev, Nat.zero_mod, Nat.zero_div, rev_zero L, Nat.mul_zero]

theorem xor_top {L x : Nat} (hx : x < 2^L) : x ^^^ 2^L = 2^L * 1 + x := by
  refine Nat.eq_of_testBit_eq (fun b => ?_)
  rw [Nat.testBit_xor, Nat.testBit_two_pow_mul_add _ hx, Nat.testBit_two_pow]
  by_cases h : b < L
  · rw [if_pos h, decide_eq_false (by omega : ¬ L = b), Bool.xor_false]
  · rw [if_neg h, Nat.testBit_lt_two_pow (Nat.lt_of_lt_of_le hx (Nat.pow_le_pow_right (by omega) (by omega))), Bool.false_xor]
    by_cases h2 : L = b
    · subst h2; rw [Nat.sub_self]; simp
    · rw [decide_eq_false h2]
      refine (Nat.testBit_lt_two_pow ?_).symm
      exact Nat.one_lt_two_pow (by omega)

/-- The loop of line 48 adds one in reverse. -/
theorem flip_ok : ∀ L j f, j + 1 < 2^L → L ≤ f → flip f (2^L / 2) (rev L j) = some (rev L (j+1))
  | 0, j, f, h, _ => by omega
  | L+1, j, 0, _, hf => by omega
  | L+1, j, f+1, h, hf => by
      have hk : 2^(L+1) / 2 = 2^L := by rw [Nat.pow_succ, Nat.mul_div_cancel _ (by omega)]
      have hr := rev_lt L (j / 2)
      have hx := xor_top hr
      rw [hk, flip, rev]
      rw [Nat.pow_succ] at h
      rcases Nat.mod_two_eq_zero_or_one j with hj | hj
      · rw [hj, Nat.mul_zero, Nat.zero_add, hx, if_neg (by omega), rev, show (j+1) % 2 = 1 from by omega, show (j+1) / 2 = j / 2 from by omega]
      · have hx' : (2^L * 1 + rev L (j / 2)) ^^^ 2^L = rev L (j / 2) := by rw [← hx, Nat.xor_assoc, Nat.xor_self, Nat.xor_zero]
        rw [hj, hx', if_pos hr, flip_ok L (j / 2) f (by omega) (by omega), rev, show (j+1) % 2 = 0 from by omega, show (j+1) / 2 = j / 2 + 1 from by omega, Nat.mul_zero, Nat.zero_add]

theorem swap_ok {n : Nat} {f : List T} {g : Nat → T} (R : Rep f n g) {i j : Nat} (hi : i < n) (hj : j < n) :
    ∃ f', swap f i j = some f' ∧ Rep f' n (upd (upd g i (g j)) j (g i)) := by
  unfold swap
  obtain ⟨f1, e1, R1⟩ := R.wr hi (g j)
  obtain ⟨f2, e2, R2⟩ := R1.wr hj (g i)
  exact ⟨f2, by rw [R.val i hi, Option.bind_some, R.val j hj, Option.bind_some, e1, Option.bind_some, e2], R2⟩

theorem lt_self_pow (L : Nat) : L < 2^L := Nat.lt_two_pow_self

/-- The entries moved before round `j`. -/
def moved (L : Nat) (g : Nat → T) (j x : Nat) : T := if x < j ∧ rev L x < j then g (rev L x) else g x

theorem rev_last {L x : Nat} (hx : x < 2^L) (h : rev L x = 2^L - 1) : x = 2^L - 1 := by
  have h1 : rev L (2^L - 1) = 2^L - 1 := by
    refine Nat.eq_of_testBit_eq (fun b => ?_)
    rw [rev_bit, Nat.testBit_two_pow_sub_one, Nat.testBit_two_pow_sub_one]
    by_cases h : b < L
    · rw [decide_eq_true h, Bool.true_and]
      exact decide_eq_true (by omega)
    · rw [decide_eq_false h, Bool.false_and]
  rw [← rev_rev hx, h, h1]

theorem reverse_ok {L : Nat} {f : List T} {g : Nat → T} (R : Rep f (2^L) g) : ∃ f', reverse (2^L) f = some f' ∧ Rep f' (2^L) (fun x => g (rev L x)) := by
  unfold reverse
  by_cases hL : L = 0
  · subst hL
    refine ⟨f, rfl, R.congr (fun i hi => ?_)⟩
    have : i = 0 := by omega
    subst this; rfl
  have h2 : 2^1 ≤ 2^L := Nat.pow_le_pow_right (by omega) (by omega)
  obtain ⟨s, e, h1, h3⟩ := forRange_inv (body := revStep (T := T) (2^L)) (s := (0, f))
    (fun j s => s.1 = rev L (j - 1) ∧ Rep s.2 (2^L) (moved L g j)) (by omega : 1 ≤ 2^L - 1)
    ⟨(rev_zero L).symm, R.congr (fun x hx => by
      unfold moved
      split
      · rename_i h
        have : x = 0 := by omega
        subst this; rw [rev_zero]
      · rfl)⟩
    (fun j s hj1 hj2 ⟨hs1, hs2⟩ => by
      have hfl := flip_ok L (j - 1) (2^L + 1) (by omega) (by have := lt_self_pow L; omega)
      rw [show j - 1 + 1 = j from by omega] at hfl
      have hjL : j < 2^L := by omega
      have hrl := rev_lt L j
      unfold revStep
      rw [hs1, hfl, Option.bind_some]
      by_cases hlt : rev L j < j
      · rw [if_pos hlt]
        obtain ⟨f', e', R'⟩ := swap_ok hs2 hrl hjL
        refine ⟨(rev L j, f'), by rw [e']; rfl, rfl, R'.congr (fun x hx => ?_)⟩
        have hrr := rev_rev hjL
        by_cases hxj : x = j
        · subst hxj
          rw [upd_same]
          unfold moved
          rw [if_neg (by omega), if_pos (by omega)]
        · rw [upd_ne _ _ hxj]
          by_cases hxr : x = rev L j
          · subst hxr
            rw [upd_same]
            unfold moved
            rw [if_neg (by omega), if_pos (by omega), hrr]
          · rw [upd_ne _ _ hxr]
            unfold moved
            have hne : rev L x ≠ j := fun h => hxr (by rw [← h, rev_rev hx])
            by_cases hc : x < j ∧ rev L x < j
            · rw [if_pos hc, if_pos (by omega)]
            · rw [if_neg hc, if_neg (by omega)]
      · rw [if_neg hlt]
        refine ⟨(rev L j, s.2), rfl, rfl, hs2.congr (fun x hx => ?_)⟩
        unfold moved
        by_cases hc : x < j ∧ rev L x < j
        · rw [if_pos hc, if_pos (by omega)]
        · rw [if_neg hc]
          by_cases hc2 : x < j + 1 ∧ rev L x < j + 1
          · rw [if_pos hc2]
            have hx2 : x = j ∨ rev L x = j := by omega
            rcases hx2 with rfl | hx2
            · have : rev L x = x := by omega
              rw [this]
            · have h5 : rev L j = x := by rw [← hx2, rev_rev hx]
              have : rev L x = x := by omega
              rw [this]
          · rw [if_neg hc2])
  rw [e]
  refine ⟨s.2, rfl, h3.congr (fun x hx => ?_)⟩
  unfold moved
  by_cases hc : x < 2^L - 1 ∧ rev L x < 2^L - 1
  · rw [if_pos hc]
  · rw [if_neg hc]
    have hr := rev_lt L x
    by_cases hx2 : x = 2^L - 1
    · have := rev_last (x := rev L x) hr (by rw [rev_rev hx]; exact hx2)
      rw [this, hx2]
    · have h4 : rev L x = 2^L - 1 := by omega
      exact absurd (rev_last hx h4) hx2

end Verif.Fft
