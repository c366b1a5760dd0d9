import Mathlib.Data.Nat.Choose.Basic
import Mathlib.Data.List.Basic
/-!
The rank of a bit string among the strings of the same length and number of ones, and its first bits.
-/
namespace Verif.Rrr

/-- The number of ones. -/
abbrev cn (l : List Bool) : Nat := l.count true

/-- The rank of a string. -/
def numOf : List Bool → Nat
  | [] => 0
  | b :: l => (if b then Nat.choose l.length (cn l + 1) else 0) + numOf l

theorem cn_le (l : List Bool) : cn l ≤ l.length := List.count_le_length

theorem cn_true (l : List Bool) : cn (true :: l) = cn l + 1 := by simp [cn]
theorem cn_false (l : List Bool) : cn (false :: l) = cn l := by simp [cn]

theorem num_true (l : List Bool) : numOf (true :: l) = Nat.choose l.length (cn l + 1) + numOf l := by simp [numOf]
theorem num_false (l : List Bool) : numOf (false :: l) = numOf l := by simp [numOf]

theorem numOf_lt : ∀ l : List Bool, numOf l < Nat.choose l.length (cn l)
  | [] => by decide
  | false :: l => by
    have := numOf_lt l
    rw [num_false, cn_false, List.length_cons]
    exact lt_of_lt_of_le this (Nat.choose_le_choose _ (Nat.le_succ _))
  | true :: l => by
    have := numOf_lt l
    rw [num_true, cn_true, List.length_cons, Nat.choose_succ_succ']
    omega

/-- The first bit. -/
theorem head_iff (b : Bool) (l : List Bool) : (Nat.choose l.length (cn (b :: l)) ≤ numOf (b :: l)) ↔ b = true := by
  cases b with
  | false => rw [num_false, cn_false]; have := numOf_lt l; simp; omega
  | true => rw [num_true, cn_true]; simp

theorem all_true : ∀ {l : List Bool}, cn l = l.length → numOf l = 0 ∧ ∀ j, j < l.length → l.getD j false = true
  | [], _ => ⟨rfl, by simp⟩
  | false :: l, h => by have := cn_le l; rw [cn_false, List.length_cons] at h; omega
  | true :: l, h => by
    rw [cn_true, List.length_cons] at h
    obtain ⟨h1, h2⟩ := all_true (l := l) (by omega)
    refine ⟨by rw [num_true, h1, Nat.choose_eq_zero_of_lt (by omega)], fun j hj => ?_⟩
    cases j with
    | zero => rfl
    | succ j => exact h2 j (by simpa using hj)

theorem one_false : ∀ {l : List Bool}, cn l + 1 = l.length → numOf l < l.length ∧ ∀ j, j < l.length → l.getD j false = decide (j ≠ numOf l)
  | [], h => by simp at h
  | false :: l, h => by
    rw [cn_false, List.length_cons] at h
    obtain ⟨h1, h2⟩ := all_true (l := l) (by omega)
    refine ⟨by rw [num_false, h1]; simp, fun j hj => ?_⟩
    rw [num_false, h1]
    cases j with
    | zero => rfl
    | succ j => simpa using h2 j (by simpa using hj)
  | true :: l, h => by
    rw [cn_true, List.length_cons] at h
    obtain ⟨h1, h2⟩ := one_false (l := l) (by omega)
    have e : numOf (true :: l) = numOf l + 1 := by
      rw [num_true, show cn l + 1 = l.length by omega, Nat.choose_self]; omega
    refine ⟨by rw [e]; simp; omega, fun j hj => ?_⟩
    rw [e]
    cases j with
    | zero => simp
    | succ j =>
      have := h2 j (by simpa using hj)
      simpa using this

theorem no_true : ∀ {l : List Bool}, cn l = 0 → numOf l = 0 ∧ ∀ j, l.getD j false = false
  | [], _ => ⟨rfl, by simp⟩
  | true :: l, h => by rw [cn_true] at h; omega
  | false :: l, h => by
    rw [cn_false] at h
    obtain ⟨h1, h2⟩ := no_true (l := l) h
    exact ⟨by rw [num_false, h1], fun j => by cases j with | zero => rfl | succ j => exact h2 j⟩

theorem one_true : ∀ {l : List Bool}, cn l = 1 → numOf l < l.length ∧ ∀ j, l.getD j false = decide (j = l.length - 1 - numOf l)
  | [], h => by simp at h
  | true :: l, h => by
    rw [cn_true] at h
    obtain ⟨h1, h2⟩ := no_true (l := l) (by omega)
    have e : numOf (true :: l) = l.length := by rw [num_true, h1, show cn l + 1 = 1 by omega, Nat.choose_one_right]; rfl
    refine ⟨by rw [e]; simp, fun j => ?_⟩
    rw [e]
    cases j with
    | zero => simp
    | succ j => simpa using h2 j
  | false :: l, h => by
    rw [cn_false] at h
    obtain ⟨h1, h2⟩ := one_true (l := l) h
    refine ⟨by rw [num_false]; simp; omega, fun j => ?_⟩
    rw [num_false]
    cases j with
    | zero =>
      have : ¬ 0 = l.length - numOf l := by omega
      simp [this]
    | succ j =>
      have := h2 j
      rw [List.getD_cons_succ, this]
      apply decide_eq_decide.2
      simp only [List.length_cons]
      omega

/-- The rank tells the number of leading zeros. -/
theorem zeros_iff : ∀ (l : List Bool) (j : Nat), j ≤ l.length →
    (numOf l < Nat.choose (l.length - j) (cn l) ↔ ∀ t, t < j → l.getD t false = false)
  | l, 0, _ => by have := numOf_lt l; simp; exact this
  | [], j+1, h => by simp at h
  | true :: l, j+1, h => by
    have h1 : ¬ numOf (true :: l) < Nat.choose ((true :: l).length - (j+1)) (cn (true :: l)) := by
      rw [num_true, cn_true, List.length_cons, Nat.add_sub_add_right]
      have := Nat.choose_le_choose (cn l + 1) (Nat.sub_le l.length j)
      omega
    constructor
    · intro h; exact absurd h h1
    · intro h; have := h 0 (by omega); simp at this
  | false :: l, j+1, h => by
    have := zeros_iff l j (by simpa using h)
    rw [num_false, cn_false, List.length_cons, Nat.add_sub_add_right, this]
    constructor
    · intro h t ht
      cases t with
      | zero => rfl
      | succ t => exact h t (by omega)
    · intro h t ht
      exact h (t+1) (by omega)

/-- Leading zeros do not count. -/
theorem drop_zeros : ∀ (l : List Bool) (j : Nat), j ≤ l.length → (∀ t, t < j → l.getD t false = false) → numOf (l.drop j) = numOf l ∧ cn (l.drop j) = cn l
  | l, 0, _, _ => by simp
  | [], j+1, h, _ => by simp at h
  | true :: l, j+1, _, h => by have := h 0 (by omega); simp at this
  | false :: l, j+1, hj, h => by
    obtain ⟨h1, h2⟩ := drop_zeros l j (by simpa using hj) (fun t ht => h (t+1) (by omega))
    rw [List.drop_succ_cons, h1, h2, num_false, cn_false]
    exact ⟨rfl, rfl⟩

theorem cn_not : ∀ l : List Bool, cn (l.map (!·)) + cn l = l.length
  | [] => rfl
  | b :: l => by have := cn_not l; cases b <;> simp only [List.map_cons, Bool.not_true, Bool.not_false, cn_true, cn_false, List.length_cons] <;> omega

/-- The rank of the complement. -/
theorem num_not : ∀ l : List Bool, numOf (l.map (!·)) + numOf l + 1 = Nat.choose l.length (cn l)
  | [] => rfl
  | true :: l => by
    have := num_not l
    rw [List.map_cons, Bool.not_true, num_false, num_true, cn_true, List.length_cons, Nat.choose_succ_succ']
    omega
  | false :: l => by
    have h := num_not l
    have hc := cn_not l
    rw [List.map_cons, Bool.not_false, num_false, num_true, cn_false, List.length_cons, List.length_map]
    rcases Nat.eq_zero_or_pos (cn l) with h0 | h0
    · rw [h0] at h hc ⊢
      rw [Nat.choose_eq_zero_of_lt (by omega), Nat.choose_zero_right]
      rw [Nat.choose_zero_right] at h
      omega
    · obtain ⟨c, ec⟩ := Nat.exists_eq_add_of_lt h0
      rw [show cn l = c + 1 by omega] at h hc ⊢
      rw [Nat.choose_succ_succ', ← Nat.choose_symm (show c ≤ l.length by omega)]
      rw [show l.length - c = cn (l.map (!·)) + 1 by omega]
      show _ = _ + Nat.choose l.length (c + 1)
      omega

/-- The suffix from `i`, one step. -/
theorem drop_step {l : List Bool} {i : Nat} (h : i < l.length) : l.drop i = l.getD i false :: l.drop (i+1) := by
  rw [List.drop_eq_getElem_cons h, List.getD_eq_getElem?_getD, List.getElem?_eq_getElem h]; rfl

theorem getD_drop (l : List Bool) (i j : Nat) : (l.drop i).getD j false = l.getD (i + j) false := by
  rw [List.getD_eq_getElem?_getD, List.getElem?_drop, List.getD_eq_getElem?_getD]

end Verif.Rrr
