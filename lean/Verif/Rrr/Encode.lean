import Verif.Rrr.Decode
import Verif.BitManip.Props
/-! `get_pc_and_number` and `number_bits`. -/
namespace Verif.Rrr
open Verif Verif.BitManip Verif.Succinct

theorem toNum_lt : ∀ l : List Bool, toNum l < 2^l.length
  | [] => by simp [toNum]
  | b :: l => by
    have := toNum_lt l
    rw [toNum, List.length_cons, Nat.pow_succ]
    cases b <;> simp <;> omega

theorem ones_zero : ∀ n, ones n 0 = 0
  | 0 => rfl
  | n+1 => by rw [ones, Nat.zero_div, ones_zero n]

theorem ones_toNum : ∀ (l : List Bool) (n : Nat), l.length ≤ n → ones n (toNum l) = cn l
  | [], n, _ => by rw [toNum, ones_zero]; rfl
  | b :: l, 0, h => by simp at h
  | b :: l, n+1, h => by
    have ih := ones_toNum l n (by simpa using h)
    rw [ones, toNum]
    cases b
    · rw [cn_false, show ((false.toNat + 2 * toNum l) / 2) = toNum l by simp, ih]; simp
    · rw [cn_true, show ((true.toNat + 2 * toNum l) / 2) = toNum l by simp; omega, ih]; simp; omega

/-- The bits of `L` from `j` on. -/
def Suf (L : List Bool) (j m : Nat) : Prop := ∀ p, m.testBit p = (decide (j ≤ p) && L.getD p false)

theorem ctz_bits {m : Nat} (hm : m < 2^64) (h0 : m ≠ 0) : m.testBit (ctz m) = true ∧ ∀ p, p < ctz m → m.testBit p = false := by
  obtain ⟨h1, h2⟩ := (C27_ctz m hm).1 h0
  generalize ctz m = c at h1 h2
  obtain ⟨y, rfl⟩ := h1
  constructor
  · rw [Nat.testBit_two_pow_mul, Nat.sub_self, Nat.testBit_zero]
    have : y % 2 = 1 := by
      rcases Nat.mod_two_eq_zero_or_one y with h | h
      · exfalso
        apply h2
        obtain ⟨z, rfl⟩ := Nat.dvd_of_mod_eq_zero h
        exact ⟨z, by rw [Nat.pow_succ, Nat.mul_assoc]⟩
      · exact h
    simp [this]
  · intro p hp
    rw [Nat.testBit_two_pow_mul]
    simp; omega

theorem suf_ctz {s : Nat} (hs : s ≤ 63) {L : List Bool} (hl : L.length = s) {j m : Nat} (h : Suf L j m) (h0 : m ≠ 0) :
    j ≤ ctz m ∧ ctz m < s ∧ L.getD (ctz m) false = true ∧ (∀ p, j ≤ p → p < ctz m → L.getD p false = false) ∧ Suf L (ctz m + 1) (m ^^^ 2^(ctz m)) := by
  have hm : m < 2^64 := by
    apply Nat.lt_pow_two_of_testBit
    intro p hp
    rw [h p, getD_ge (by omega)]; simp
  obtain ⟨h1, h2⟩ := ctz_bits hm h0
  generalize ctz m = c at h1 h2
  rw [h c] at h1
  simp only [Bool.and_eq_true, decide_eq_true_eq] at h1
  have hc : c < s := by
    rcases Nat.lt_or_ge c s with h | h
    · exact h
    · have := h1.2; rw [getD_ge (by omega)] at this; exact absurd this (by decide)
  refine ⟨h1.1, hc, h1.2, fun p hp1 hp2 => ?_, fun p => ?_⟩
  · have := h2 p hp2
    rw [h p] at this
    simpa [hp1] using this
  · rw [Nat.testBit_xor, h p, Nat.testBit_two_pow]
    by_cases c1 : c = p
    · subst c1; rw [h1.2]; simp [h1.1]
    · by_cases c2 : c + 1 ≤ p
      · simp [c1, c2, show j ≤ p by omega]
      · have := h2 p (by omega)
        rw [h p] at this
        rw [this]; simp [c1, c2]

theorem numLoop_ok {s : Nat} (hs : s ≤ 63) {tb : List (List Nat)} (ht : Tb s tb) {L : List Bool} (hl : L.length = s) :
    ∀ (fuel j m acc : Nat), Suf L j m → j ≤ s → cn (L.drop j) ≤ fuel → acc + numOf (L.drop j) < 2^64 →
      numLoop tb s fuel m (cn (L.drop j)) acc = some (acc + numOf (L.drop j))
  | fuel, j, m, acc, h, hj, hf, hb => by
    by_cases h0 : m = 0
    · have hz : cn (L.drop j) = 0 := by
        rcases Nat.eq_zero_or_pos (cn (L.drop j)) with h1 | h1
        · exact h1
        · exfalso
          obtain ⟨p, hp⟩ := List.mem_iff_getElem?.1 (List.count_pos_iff.1 h1)
          have hq := h (j + p)
          rw [h0, Nat.zero_testBit, ← getD_drop, List.getD_eq_getElem?_getD, hp] at hq
          simp at hq
      have := (no_true hz).1
      rw [this]
      cases fuel <;> rw [numLoop, if_pos h0] <;> rfl
    · obtain ⟨b1, b2, b3, b4, b5⟩ := suf_ctz hs hl h h0
      generalize ec : ctz m = c at b1 b2 b3 b4 b5
      have hlen : (L.drop j).length = s - j := by rw [List.length_drop, hl]
      obtain ⟨d1, d2⟩ := drop_zeros (L.drop j) (c - j) (by omega) (by
        intro t ht; rw [getD_drop]; exact b4 _ (by omega) (by omega))
      rw [List.drop_drop, show j + (c - j) = c by omega] at d1 d2
      have hd := drop_step (l := L) (i := c) (by omega)
      have hlen2 : (L.drop (c+1)).length = s - (c + 1) := by rw [List.length_drop, hl]
      rw [hd, b3, num_true, hlen2] at d1
      rw [hd, b3, cn_true] at d2
      have hcl := cn_le (L.drop j)
      cases fuel with
      | zero => omega
      | succ fuel =>
        rw [numLoop, if_neg h0, ec, sub_ok (by omega), Option.bind_some, ht _ _ (by omega) (by omega), Option.bind_some, sub_ok (by omega), Option.bind_some,
          shl_one (by omega), Option.bind_some]
        rw [show cn (L.drop j) - 1 = cn (L.drop (c+1)) by omega, ← d2, ← d1]
        rw [u64, Nat.mod_eq_of_lt (by omega)]
        rw [numLoop_ok hs ht hl fuel (c+1) _ _ b5 (by omega) (by omega) (by omega)]
        congr 1; omega

theorem suf_zero (L : List Bool) : Suf L 0 (toNum L) := by
  intro p; rw [toNum_testBit]; simp

theorem suf_not {s : Nat} (hs : s ≤ 63) {L : List Bool} (hl : L.length = s) : Suf (L.map (!·)) 0 (BitManip.compl (toNum L) &&& (2^s - 1)) := by
  have hlt := toNum_lt L
  have hp : 2^s < 2^64 := Nat.pow_lt_pow_right (by decide) (by omega)
  intro p
  rw [Nat.testBit_and, Nat.testBit_two_pow_sub_one, BitManip.compl, show 2^64 - 1 - toNum L = 2^64 - (toNum L + 1) by omega,
    Nat.testBit_two_pow_sub_succ (by rw [hl] at hlt; omega), toNum_testBit]
  rw [List.getD_eq_getElem?_getD, List.getD_eq_getElem?_getD, List.getElem?_map]
  by_cases c : p < s
  · rw [List.getElem?_eq_getElem (by omega)]
    simp [c, show p < 64 by omega]
  · rw [List.getElem?_eq_none (by omega)]
    simp [c]

theorem encode_ok {s : Nat} (hs : s ≤ 63) {tb : List (List Nat)} (ht : Tb s tb) {L : List Bool} (hl : L.length = s) :
    encode tb s (toNum L) = some (cn L, numOf L) := by
  have hpc : popcnt (toNum L) = cn L := by rw [popcnt_eq, ones_toNum L 64 (by omega)]
  have hc := cn_le L
  have hu := choose_u64 (k := cn L) hs (Nat.le_refl s)
  have hn := numOf_lt L
  rw [hl] at hc hn
  unfold encode
  rw [hpc]
  dsimp only
  rw [sub_ok hc, Option.bind_some]
  by_cases c : cn L ≤ s - cn L
  · rw [if_pos c]
    have := numLoop_ok hs ht hl 64 0 (toNum L) 0 (suf_zero L) (by omega) (by simpa using (by omega : cn L ≤ 64)) (by simp; omega)
    simp only [List.drop_zero, Nat.zero_add] at this
    rw [this]; rfl
  · rw [if_neg c, ht _ _ (Nat.le_refl _) hc, Option.bind_some, sub_ok (by omega), Option.bind_some]
    have h1 := num_not L
    have h2 := cn_not L
    rw [hl] at h1 h2
    have := numLoop_ok hs ht (L := L.map (!·)) (by simpa using hl) 64 0 _ 0 (suf_not hs hl) (by omega) (by rw [List.drop_zero]; omega) (by rw [List.drop_zero]; omega)
    simp only [List.drop_zero, Nat.zero_add] at this
    rw [show s - cn L = cn (L.map (!·)) by omega, this, Option.bind_some, sub_ok (by omega), Option.map_some]
    congr 2; omega

/-- The width of the rank field. -/
theorem numberBits_ok {s : Nat} (hs : s ≤ 63) {tb : List (List Nat)} (ht : Tb s tb) {c : Nat} (hc : c ≤ s) :
    ∃ x, numberBits tb s c = some x ∧ x ≤ 63 ∧ Nat.choose s c ≤ 2^x ∧ (c = 0 → x = 0) := by
  unfold numberBits
  have hpos := Nat.choose_pos hc
  have h1 := choose_le_pow s c
  have h2 : 2^s ≤ 2^63 := Nat.pow_le_pow_right (by decide) hs
  rw [ht _ _ (Nat.le_refl _) hc, Option.bind_some, sub_ok hpos, Option.bind_some]
  obtain ⟨w, e, w1, w2⟩ := C27_bit_width (Nat.choose s c - 1) (by omega)
  refine ⟨w, e, ?_, ?_, ?_⟩
  · rcases Nat.lt_or_ge 63 w with h | h
    · exfalso
      have h0 : Nat.choose s c - 1 ≠ 0 := by intro h'; have := w1 h'; omega
      have := (w2 h0).2.1
      have h3 : 2^63 ≤ 2^(w-1) := Nat.pow_le_pow_right (by decide) (by omega)
      omega
    · exact h
  · by_cases h0 : Nat.choose s c - 1 = 0
    · have := Nat.one_le_two_pow (n := w); omega
    · have := (w2 h0).2.2; omega
  · intro h; subst h; apply w1; rw [Nat.choose_zero_right]

theorem nbits_ok {s : Nat} (h1 : 1 ≤ s) (hs : s ≤ 63) : ∃ nb, bitWidth s = some nb ∧ nb ≤ 6 ∧ s < 2^nb := by
  obtain ⟨w, e, _, w2⟩ := C27_bit_width s (by omega)
  obtain ⟨q1, q2, q3⟩ := w2 (by omega)
  refine ⟨w, e, ?_, q3⟩
  rcases Nat.lt_or_ge 6 w with h | h
  · exfalso
    have : 2^6 ≤ 2^(w-1) := Nat.pow_le_pow_right (by decide) (by omega)
    omega
  · exact h

end Verif.Rrr
