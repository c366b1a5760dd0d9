import Verif.Rrr.Model
import Verif.Rrr.Enum
/-! The binomial table, `get_int` and `get_bit`. -/
namespace Verif.Rrr
open Verif Verif.BitManip Verif.Succinct

/-- The table. -/
def Tb (s : Nat) (tb : List (List Nat)) : Prop := ∀ n k, n ≤ s → k ≤ s → binom tb n k = some (Nat.choose n k)

theorem choose_le_pow : ∀ n k : Nat, Nat.choose n k ≤ 2^n
  | 0, 0 => by decide
  | 0, k+1 => by rw [Nat.choose_eq_zero_of_lt (by omega)]; omega
  | n+1, 0 => by rw [Nat.choose_zero_right]; exact Nat.one_le_two_pow
  | n+1, k+1 => by
    have h1 := choose_le_pow n k
    have h2 := choose_le_pow n (k+1)
    rw [Nat.choose_succ_succ', Nat.pow_succ]
    omega

theorem choose_u64 {s n k : Nat} (hs : s ≤ 63) (hn : n ≤ s) : Nat.choose n k < 2^64 := by
  have h1 : Nat.choose n k ≤ 2^n := choose_le_pow n k
  have h2 : 2^n < 2^64 := Nat.pow_lt_pow_right (by decide) (by omega)
  omega

theorem pascalRow_ok {s i : Nat} (hs : s ≤ 63) (hi : 1 ≤ i) (his : i ≤ s) {tb : List (List Nat)}
    (h : Rep2 tb (s+1) (s+1) (fun a b => if a < i then Nat.choose a b else 0)) :
    ∃ tb', pascalRow i tb = some tb' ∧ Rep2 tb' (s+1) (s+1) (fun a b => if a < i + 1 then Nat.choose a b else 0) := by
  unfold pascalRow
  rw [h.rd (by omega) (by omega), Option.bind_some]
  obtain ⟨t1, e1, r1⟩ := h.wr (i := i) (j := 0) (by omega) (by omega) (if i - 1 < i then Nat.choose (i-1) 0 else 0)
  rw [e1, Option.bind_some]
  obtain ⟨t2, e2, r2⟩ := forRange_inv (P := fun j (t : List (List Nat)) => Rep2 t (s+1) (s+1) (fun a b => if a < i ∨ (a = i ∧ b < j) then Nat.choose a b else 0))
    (body := fun j tb => (rd2 tb (i-1) (j-1)).bind fun x => (rd2 tb (i-1) j).bind fun y => wr2 tb i j (u64 (x + y)))
    (a := 1) (b := i+1) (s := t1) (by omega)
    (r1.congr (by
      intro a b ha hb
      rw [if_pos (by omega)]
      by_cases c : a = i ∧ b = 0
      · obtain ⟨rfl, rfl⟩ := c
        rw [upd2_same, if_pos (by omega)]; simp
      · rw [upd2_ne _ _ c]
        by_cases c2 : a < i
        · rw [if_pos c2, if_pos (by omega)]
        · rw [if_neg c2, if_neg (by omega)]))
    (by
      intro j t hj1 hj2 ht
      rw [ht.rd (i := i-1) (j := j-1) (by omega) (by omega), Option.bind_some, ht.rd (i := i-1) (j := j) (by omega) (by omega), Option.bind_some]
      obtain ⟨t', e', r'⟩ := ht.wr (i := i) (j := j) (by omega) (by omega)
        (u64 ((if i - 1 < i ∨ (i - 1 = i ∧ j - 1 < j) then Nat.choose (i-1) (j-1) else 0) + (if i - 1 < i ∨ (i - 1 = i ∧ j < j) then Nat.choose (i-1) j else 0)))
      refine ⟨t', e', r'.congr ?_⟩
      intro a b ha hb
      by_cases c : a = i ∧ b = j
      · obtain ⟨rfl, rfl⟩ := c
        rw [upd2_same, if_pos (by omega), if_pos (by omega), if_pos (by omega)]
        obtain ⟨a', rfl⟩ := Nat.exists_eq_add_of_le' hi
        obtain ⟨b', rfl⟩ := Nat.exists_eq_add_of_le' hj1
        rw [Nat.add_sub_cancel, Nat.add_sub_cancel, ← Nat.choose_succ_succ', u64, Nat.mod_eq_of_lt (choose_u64 hs his)]
      · rw [upd2_ne _ _ c]
        by_cases c2 : a < i ∨ (a = i ∧ b < j)
        · rw [if_pos c2, if_pos (by omega)]
        · rw [if_neg c2, if_neg (by omega)])
  refine ⟨t2, e2, r2.congr ?_⟩
  intro a b ha hb
  by_cases c : a < i
  · rw [if_pos (by omega), if_pos (by omega)]
  · by_cases c2 : a = i
    · subst c2
      by_cases c3 : b < a + 1
      · rw [if_pos (by omega), if_pos (by omega)]
      · rw [if_neg (by omega), if_pos (by omega), Nat.choose_eq_zero_of_lt (by omega)]
    · rw [if_neg (by omega), if_neg (by omega)]

theorem mkTable_ok {s : Nat} (hs : s ≤ 63) : ∃ tb, mkTable s = some tb ∧ Tb s tb := by
  unfold mkTable
  obtain ⟨t1, e1, r1⟩ := (Rep2.replicate (s+1) (s+1) 0).wr (i := 0) (j := 0) (by omega) (by omega) 1
  rw [e1, Option.bind_some]
  obtain ⟨t2, e2, r2⟩ := forRange_inv (P := fun i (t : List (List Nat)) => Rep2 t (s+1) (s+1) (fun a b => if a < i then Nat.choose a b else 0))
    (body := pascalRow) (a := 1) (b := s+1) (s := t1) (by omega)
    (r1.congr (by
      intro a b ha hb
      by_cases c : a = 0 ∧ b = 0
      · obtain ⟨rfl, rfl⟩ := c; rw [upd2_same]; simp
      · rw [upd2_ne _ _ c]
        by_cases c2 : a < 1
        · rw [if_pos c2, show a = 0 by omega, Nat.choose_eq_zero_of_lt (by omega)]
        · rw [if_neg c2]))
    (fun i t h1 h2 ht => pascalRow_ok hs h1 (by omega) ht)
  refine ⟨t2, e2, fun n k hn hk => ?_⟩
  unfold binom
  rw [r2.rd (by omega) (by omega), if_pos (by omega)]

/-! ### Bits of numbers -/

theorem shl_bit {x n : Nat} (hn : n < 64) : ∃ y, shl x n = some y ∧ ∀ p, y.testBit p = (decide (p < 64) && (decide (n ≤ p) && x.testBit (p - n))) := by
  refine ⟨_, if_pos hn, fun p => ?_⟩
  rw [u64, Nat.testBit_mod_two_pow, Nat.testBit_shiftLeft]

theorem shl_one {n : Nat} (hn : n < 64) : shl 1 n = some (2^n) := by
  rw [shl, if_pos hn, Nat.one_shiftLeft, u64, Nat.mod_eq_of_lt (Nat.pow_lt_pow_right (by decide) hn)]

theorem sub_ok {x y : Nat} (h : y ≤ x) : sub x y = some (x - y) := if_pos h

/-- `r` holds the first `i` bits of `L`. -/
def Pre (L : List Bool) (i r : Nat) : Prop := ∀ p, r.testBit p = (decide (p < i) && L.getD p false)

theorem pre_zero (L : List Bool) : Pre L 0 0 := by intro p; simp

theorem getD_ge {L : List Bool} {p : Nat} (h : L.length ≤ p) : L.getD p false = false := by
  rw [List.getD_eq_getElem?_getD, List.getElem?_eq_none h]; rfl

theorem pre_all {L : List Bool} {r : Nat} (h : ∀ p, p < L.length → r.testBit p = L.getD p false) (h' : ∀ p, L.length ≤ p → r.testBit p = false) : r = toNum L := by
  apply Nat.eq_of_testBit_eq
  intro p
  rw [toNum_testBit]
  by_cases c : p < L.length
  · exact h p c
  · rw [h' p (by omega), getD_ge (by omega)]

theorem mask_all {L : List Bool} {s r : Nat} (hl : L.length = s) (h : ∀ p, p < s → r.testBit p = L.getD p false) : r &&& (2^s - 1) = toNum L := by
  refine pre_all (fun p hp => ?_) (fun p hp => ?_)
  · rw [Nat.testBit_and, Nat.testBit_two_pow_sub_one, h p (by omega)]; simp; omega
  · rw [Nat.testBit_and, Nat.testBit_two_pow_sub_one]; simp; omega

theorem pre_step {L : List Bool} {i l r : Nat} (h : Pre L i r) (hil : i ≤ l) (hz : ∀ p, i ≤ p → p < l → L.getD p false = false) (ho : L.getD l false = true) :
    Pre L (l+1) (r ||| 2^l) := by
  intro p
  rw [Nat.testBit_or, h p, Nat.testBit_two_pow]
  by_cases c1 : p < i
  · simp [c1, show p < l + 1 by omega, show ¬ l = p by omega]
  · by_cases c2 : p < l
    · rw [hz p (by omega) c2]; simp [show ¬ l = p by omega]
    · by_cases c3 : l = p
      · subst c3; simp [c1, ho]
        by_cases c : l < i
        · omega
        · rw [List.getD_eq_getElem?_getD] at ho; exact ho
      · simp [c1, c3, show ¬ p < l + 1 by omega]

theorem pre_skip {L : List Bool} {i r : Nat} (h : Pre L i r) (ho : L.getD i false = false) : Pre L (i+1) r := by
  intro p
  rw [h p]
  by_cases c1 : p < i
  · simp [c1, show p < i + 1 by omega]
  · by_cases c3 : p = i
    · subst c3; rw [ho]; simp
    · simp [c1, show ¬ p < i + 1 by omega]

/-! ### get_int -/

/-- The loop state: what is left is the suffix from `i`. -/
structure Gi (s : Nat) (L : List Bool) (res k nn i : Nat) : Prop where
  le : i ≤ s
  pre : Pre L i res
  num : k = numOf (L.drop i)
  cnt : nn = cn (L.drop i)

theorem early_ok {s : Nat} (hs : s ≤ 63) {L : List Bool} (hl : L.length = s) {res k nn i : Nat} (h : Gi s L res k nn i) (hi : i < s) :
    early s res k nn i = some (some (toNum L)) ∨ (early s res k nn i = some none ∧ nn + 1 < s - i) := by
  have hlen : (L.drop i).length = s - i := by rw [List.length_drop, hl]
  have hle := cn_le (L.drop i)
  rw [← h.cnt, hlen] at hle
  unfold early
  rw [sub_ok (by omega), Option.bind_some]
  by_cases c1 : nn = s - i
  · left
    rw [if_pos c1, shl_one (by omega), Option.bind_some]
    obtain ⟨y, ey, hy⟩ := shl_bit (x := 2^nn - 1) (n := i) (by omega)
    rw [ey, Option.map_some, mask_all hl]
    intro p hp
    rw [Nat.testBit_or, h.pre, hy, Nat.testBit_two_pow_sub_one]
    by_cases c : p < i
    · simp [c, show ¬ i ≤ p by omega]
    · have := (all_true (l := L.drop i) (by rw [← h.cnt, hlen, c1])).2 (p - i) (by omega)
      rw [getD_drop, show i + (p - i) = p by omega] at this
      rw [this]
      simp [c]; omega
  · rw [if_neg c1]
    by_cases c2 : nn + 1 = s - i
    · left
      obtain ⟨q1, q2⟩ := one_false (l := L.drop i) (by rw [← h.cnt, hlen, c2])
      rw [← h.num, hlen] at q1
      rw [if_pos c2, shl_one (by omega), Option.bind_some, shl_one (by omega), Option.bind_some]
      obtain ⟨y, ey, hy⟩ := shl_bit (x := (2^(s-i) - 1) ^^^ 2^k) (n := i) (by omega)
      rw [ey, Option.map_some, mask_all hl]
      intro p hp
      rw [Nat.testBit_or, h.pre, hy, Nat.testBit_xor, Nat.testBit_two_pow_sub_one, Nat.testBit_two_pow]
      by_cases c : p < i
      · simp [c, show ¬ i ≤ p by omega]
      · have := q2 (p - i) (by omega)
        rw [getD_drop, show i + (p - i) = p by omega, ← h.num] at this
        rw [this]
        by_cases c4 : k = p - i
        · simp [c, ← c4]; omega
        · simp [c, c4, show ¬ p - i = k from fun h => c4 h.symm]; omega
    · right
      rw [if_neg c2]
      exact ⟨rfl, by omega⟩

theorem gi_next {s : Nat} {tb : List (List Nat)} (ht : Tb s tb) {L : List Bool} (hl : L.length = s) {res k nn i : Nat} (h : Gi s L res k nn i) (hi : i < s) (hnn : nn ≤ s) :
    binom tb (s - i - 1) nn = some (Nat.choose (s - i - 1) nn) ∧
    (Nat.choose (s - i - 1) nn ≤ k → L.getD i false = true ∧ Gi s L (res ||| 2^i) (k - Nat.choose (s - i - 1) nn) (nn - 1) (i+1)) ∧
    (¬ Nat.choose (s - i - 1) nn ≤ k → L.getD i false = false ∧ Gi s L res k nn (i+1)) := by
  have hd := drop_step (l := L) (i := i) (by omega)
  have hlen : (L.drop (i+1)).length = s - i - 1 := by rw [List.length_drop, hl]; omega
  have hh := head_iff (L.getD i false) (L.drop (i+1))
  rw [← hd, hlen, ← h.cnt, ← h.num] at hh
  refine ⟨ht _ _ (by omega) hnn, fun c => ?_, fun c => ?_⟩
  · have hb := hh.1 c
    have e1 := h.num
    have e2 := h.cnt
    rw [hd, hb, num_true, hlen] at e1
    rw [hd, hb, cn_true] at e2
    rw [← e2] at e1
    exact ⟨hb, by omega, pre_step h.pre (Nat.le_refl _) (by intro p h1 h2; omega) hb, by omega, by omega⟩
  · have hb : L.getD i false = false := by
      cases e : L.getD i false with
      | false => rfl
      | true => exact absurd (hh.2 e) c
    have e1 := h.num
    have e2 := h.cnt
    rw [hd, hb, num_false] at e1
    rw [hd, hb, cn_false] at e2
    exact ⟨hb, by omega, pre_skip h.pre hb, e1, e2⟩

theorem giLin_ok {s : Nat} (hs : s ≤ 63) {tb : List (List Nat)} (ht : Tb s tb) {L : List Bool} (hl : L.length = s) :
    ∀ (fuel : Nat) {res k nn i : Nat}, Gi s L res k nn i → s ≤ i + fuel →
      giLin tb s fuel res k nn i = some (.done (toNum L)) ∨ ∃ res' k' nn' i', giLin tb s fuel res k nn i = some (.run res' k' nn' i') ∧ Gi s L res' k' nn' i'
  | 0, res, k, nn, i, h, hf => by
    right
    exact ⟨_, _, _, _, by rw [giLin, if_neg (by omega)], h⟩
  | fuel+1, res, k, nn, i, h, hf => by
    rw [giLin]
    by_cases c : i < s ∧ 20 < nn
    · rw [if_pos c]
      rcases early_ok hs hl h c.1 with e | ⟨e, hlt⟩
      · left; rw [e, Option.bind_some]
      · rw [e, Option.bind_some]
        dsimp only
        obtain ⟨e1, e2, e3⟩ := gi_next ht hl h c.1 (by omega)
        rw [sub_ok (by omega), Option.bind_some, sub_ok (by omega), Option.bind_some, e1, Option.bind_some]
        by_cases c2 : Nat.choose (s - i - 1) nn ≤ k
        · rw [if_pos c2, shl_one (by omega), Option.bind_some]
          exact giLin_ok hs ht hl fuel (e2 c2).2 (by omega)
        · rw [if_neg c2]
          exact giLin_ok hs ht hl fuel (e3 c2).2 (by omega)
    · right
      rw [if_neg c]
      exact ⟨_, _, _, _, rfl, h⟩

/-- The binary search: the last position below `r₀` with the property. -/
theorem bsearch_ok {s : Nat} {tb : List (List Nat)} (ht : Tb s tb) {k nn r0 : Nat} (hr0 : r0 ≤ s + 1) (hnn : nn ≤ s) :
    ∀ (fuel l r : Nat), l < r → r ≤ r0 → k < Nat.choose (s - l) nn → (r = r0 ∨ ¬ k < Nat.choose (s - r) nn) → r ≤ l + fuel →
      ∃ x, bsearch tb s k nn fuel l r = some x ∧ l ≤ x ∧ x < r0 ∧ k < Nat.choose (s - x) nn ∧ (x + 1 = r0 ∨ ¬ k < Nat.choose (s - (x+1)) nn)
  | 0, l, r, h1, h2, h3, h4, h5 => by omega
  | fuel+1, l, r, h1, h2, h3, h4, h5 => by
    rw [bsearch]
    by_cases c : l + 1 < r
    · rw [if_pos c]
      generalize ec : l + (r - l) / 2 = m
      have hm1 : l < m := by omega
      have hm2 : m < r := by omega
      rw [sub_ok (by omega), Option.bind_some, ht _ _ (by omega) hnn, Option.bind_some]
      by_cases c2 : k < Nat.choose (s - m) nn
      · rw [if_pos c2]
        obtain ⟨x, ex, hx1, hx⟩ := bsearch_ok ht hr0 hnn fuel m r hm2 h2 c2 h4 (by omega)
        exact ⟨x, ex, by omega, hx⟩
      · rw [if_neg c2]
        obtain ⟨x, ex, hx1, hx⟩ := bsearch_ok ht hr0 hnn fuel l m hm1 (by omega) h3 (Or.inr c2) (by omega)
        exact ⟨x, ex, by omega, hx⟩
    · rw [if_neg c]
      have : r = l + 1 := by omega
      subst this
      exact ⟨l, rfl, Nat.le_refl _, by omega, h3, h4⟩

/-- What the search tells about the suffix. -/
theorem search_bits {s : Nat} {L : List Bool} (hl : L.length = s) {i x r0 : Nat} (hi : i ≤ x) (hx : x ≤ s) (hr0 : r0 ≤ s + 1)
    (h1 : numOf (L.drop i) < Nat.choose (s - x) (cn (L.drop i))) (h2 : x + 1 = r0 ∨ ¬ numOf (L.drop i) < Nat.choose (s - (x+1)) (cn (L.drop i))) :
    (∀ p, i ≤ p → p < x → L.getD p false = false) ∧ numOf (L.drop x) = numOf (L.drop i) ∧ cn (L.drop x) = cn (L.drop i) ∧
    (x + 1 ≠ r0 → x < s → L.getD x false = true) := by
  have hlen : (L.drop i).length = s - i := by rw [List.length_drop, hl]
  have hz := (zeros_iff (L.drop i) (x - i) (by omega)).1 (by rw [hlen, show s - i - (x - i) = s - x by omega]; exact h1)
  obtain ⟨d1, d2⟩ := drop_zeros (L.drop i) (x - i) (by omega) hz
  rw [List.drop_drop, show i + (x - i) = x by omega] at d1 d2
  have hz' : ∀ p, i ≤ p → p < x → L.getD p false = false := by
    intro p h1 h2
    have := hz (p - i) (by omega)
    rw [getD_drop, show i + (p - i) = p by omega] at this
    exact this
  refine ⟨hz', d1, d2, fun hne hxs => ?_⟩
  cases e : L.getD x false with
  | true => rfl
  | false =>
    exfalso
    have hn := h2.resolve_left hne
    apply hn
    have := (zeros_iff (L.drop i) (x + 1 - i) (by omega)).2 (by
      intro t ht
      rw [getD_drop]
      by_cases c : i + t < x
      · exact hz' _ (by omega) c
      · rw [show i + t = x by omega]; exact e)
    rw [hlen, show s - i - (x + 1 - i) = s - (x + 1) by omega] at this
    exact this

theorem giBin_ok {s : Nat} (hs : s ≤ 63) {tb : List (List Nat)} (ht : Tb s tb) {L : List Bool} (hl : L.length = s) :
    ∀ (fuel : Nat) {res k nn i : Nat}, Gi s L res k nn i → s ≤ i + fuel →
      giBin tb s fuel res k nn i = some (.done (toNum L)) ∨
      ∃ res' k' nn' i', giBin tb s fuel res k nn i = some (.run res' k' nn' i') ∧ Gi s L res' k' nn' i' ∧ (i' = s ∨ nn' ≤ 1)
  | 0, res, k, nn, i, h, hf => by
    right
    have := h.le
    exact ⟨_, _, _, _, by rw [giBin, if_neg (by omega)], h, by omega⟩
  | fuel+1, res, k, nn, i, h, hf => by
    have hle := h.le
    rw [giBin]
    by_cases c : i < s ∧ 1 < nn
    · rw [if_pos c]
      rcases early_ok hs hl h c.1 with e | ⟨e, hlt⟩
      · left; rw [e, Option.bind_some]
      · rw [e, Option.bind_some]
        dsimp only
        have hlen : (L.drop i).length = s - i := by rw [List.length_drop, hl]
        have hk := numOf_lt (L.drop i)
        rw [hlen, ← h.num, ← h.cnt] at hk
        obtain ⟨x, ex, hx1, hx2, hx3, hx4⟩ := bsearch_ok ht (k := k) (nn := nn) (r0 := s+1) (Nat.le_refl _) (by omega) (s+1) i (s+1) (by omega) (Nat.le_refl _) hk (Or.inl rfl) (by omega)
        rw [ex, Option.bind_some]
        have hxs : x < s := by
          rcases Nat.lt_or_ge x s with h | h
          · exact h
          · exfalso
            rw [show s - x = 0 by omega, Nat.choose_eq_zero_of_lt (by omega)] at hx3
            omega
        rw [if_pos hxs, shl_one (by omega), Option.bind_some, sub_ok (by omega), Option.bind_some, sub_ok (by omega), Option.bind_some]
        rw [h.num, h.cnt] at hx3 hx4
        obtain ⟨b1, b2, b3, b4⟩ := search_bits hl hx1 (by omega) (Nat.le_refl _) hx3 hx4
        have hx := b4 (by omega) hxs
        have hd := drop_step (l := L) (i := x) (by omega)
        have hlen2 : (L.drop (x+1)).length = s - x - 1 := by rw [List.length_drop, hl]; omega
        have e1 := h.num
        have e2 := h.cnt
        rw [← b2, hd, hx, num_true, hlen2] at e1
        rw [← b3, hd, hx, cn_true] at e2
        rw [← e2] at e1
        rw [ht _ _ (by omega) (by omega), Option.bind_some, sub_ok (by omega), Option.bind_some]
        exact giBin_ok hs ht hl fuel ⟨by omega, pre_step h.pre hx1 b1 hx, by omega, by omega⟩ (by omega)
    · right
      rw [if_neg c]
      exact ⟨_, _, _, _, rfl, h, by omega⟩

theorem giEnd_ok {s : Nat} (hs : s ≤ 63) {L : List Bool} (hl : L.length = s) {res k nn i : Nat} (h : Gi s L res k nn i) (hi : i = s ∨ nn ≤ 1) :
    giEnd s (.run res k nn i) = some (toNum L) := by
  have hle := h.le
  have hlen : (L.drop i).length = s - i := by rw [List.length_drop, hl]
  have hcl := cn_le (L.drop i)
  rw [← h.cnt, hlen] at hcl
  dsimp only [giEnd]
  by_cases c1 : nn = 1
  · rw [if_pos c1]
    obtain ⟨q1, q2⟩ := one_true (l := L.drop i) (by rw [← h.cnt, c1])
    rw [← h.num, hlen] at q1
    rw [sub_ok (by omega), Option.bind_some, sub_ok (by omega), Option.bind_some, shl_one (by omega), Option.map_some, mask_all hl]
    intro p hp
    rw [Nat.testBit_or, h.pre, Nat.testBit_two_pow]
    by_cases c : p < i
    · simp [c, show ¬ s - 1 - k = p by omega]
    · have := q2 (p - i)
      rw [getD_drop, show i + (p - i) = p by omega, ← h.num, hlen] at this
      rw [this]
      simp only [c, decide_false, Bool.false_and, Bool.false_or]
      apply decide_eq_decide.2
      omega
  · rw [if_neg c1]
    have c0 : nn = 0 := by omega
    rw [if_pos c0]
    congr 1
    obtain ⟨_, q2⟩ := no_true (l := L.drop i) (by rw [← h.cnt, c0])
    refine pre_all (fun p hp => ?_) (fun p hp => ?_)
    · rw [h.pre]
      by_cases c : p < i
      · simp [c]
      · have := q2 (p - i)
        rw [getD_drop, show i + (p - i) = p by omega] at this
        rw [this]; simp
    · rw [h.pre]; simp; omega

theorem getInt_ok {s : Nat} (hs : s ≤ 63) {tb : List (List Nat)} (ht : Tb s tb) {L : List Bool} (hl : L.length = s) :
    getInt tb s (cn L) (numOf L) = some (toNum L) := by
  unfold getInt
  rcases giLin_ok hs ht hl (s+1) (res := 0) (k := numOf L) (nn := cn L) (i := 0) ⟨by omega, pre_zero L, by simp, by simp⟩ (by omega) with e | ⟨r1, k1, n1, i1, e, h⟩
  · rw [e, Option.bind_some]
  · rw [e, Option.bind_some]
    dsimp only
    rcases giBin_ok hs ht hl (s+1) h (by omega) with e2 | ⟨r2, k2, n2, i2, e2, h2, h3⟩
    · rw [e2, Option.bind_some, giEnd]
    · rw [e2, Option.bind_some, giEnd_ok hs hl h2 h3]

/-! ### get_bit -/

structure Gb (s : Nat) (L : List Bool) (k nn i : Nat) : Prop where
  num : k = numOf (L.drop i)
  cnt : nn = cn (L.drop i)

theorem gi_of {s : Nat} {L : List Bool} {k nn i : Nat} (h : Gb s L k nn i) (hi : i ≤ s) : Gi s L (toNum (L.take i)) k nn i := by
  refine ⟨hi, fun p => ?_, h.num, h.cnt⟩
  rw [toNum_testBit, List.getD_eq_getElem?_getD, List.getElem?_take, List.getD_eq_getElem?_getD]
  by_cases c : p < i <;> simp [c]

theorem earlyB_ok {s : Nat} {L : List Bool} (hl : L.length = s) {k nn i off : Nat} (h : Gb s L k nn i) (hi : i < off) (ho : off < s) :
    earlyB s k nn i off = some (some (L.getD off false)) ∨ (earlyB s k nn i off = some none ∧ nn + 1 < s - i) := by
  have hlen : (L.drop i).length = s - i := by rw [List.length_drop, hl]
  have hle := cn_le (L.drop i)
  rw [← h.cnt, hlen] at hle
  unfold earlyB
  rw [sub_ok (by omega), Option.bind_some]
  by_cases c1 : nn = s - i
  · left
    have := (all_true (l := L.drop i) (by rw [← h.cnt, hlen, c1])).2 (off - i) (by omega)
    rw [getD_drop, show i + (off - i) = off by omega] at this
    rw [if_pos c1, this]
  · rw [if_neg c1]
    by_cases c2 : nn + 1 = s - i
    · left
      have := (one_false (l := L.drop i) (by rw [← h.cnt, hlen, c2])).2 (off - i) (by omega)
      rw [getD_drop, show i + (off - i) = off by omega, ← h.num] at this
      rw [if_pos c2, this]
      congr 2
      apply decide_eq_decide.2
      omega
    · right
      rw [if_neg c2]
      exact ⟨rfl, by omega⟩

theorem gbLin_ok {s : Nat} {tb : List (List Nat)} (ht : Tb s tb) {L : List Bool} (hl : L.length = s) {off : Nat} (ho : off < s) :
    ∀ (fuel : Nat) {k nn i : Nat}, Gb s L k nn i → i ≤ off → off ≤ i + fuel →
      gbLin tb s off fuel k nn i = some (.done (L.getD off false)) ∨ ∃ k' nn' i', gbLin tb s off fuel k nn i = some (.run k' nn' i') ∧ Gb s L k' nn' i' ∧ i' ≤ off
  | 0, k, nn, i, h, hi, hf => by
    right
    exact ⟨_, _, _, by rw [gbLin, if_neg (by omega)], h, hi⟩
  | fuel+1, k, nn, i, h, hi, hf => by
    rw [gbLin]
    by_cases c : i < off ∧ 20 < nn
    · rw [if_pos c]
      rcases earlyB_ok hl h c.1 ho with e | ⟨e, hlt⟩
      · left; rw [e, Option.bind_some]
      · rw [e, Option.bind_some]
        dsimp only
        obtain ⟨e1, e2, e3⟩ := gi_next ht hl (gi_of h (by omega)) (by omega) (by omega)
        rw [sub_ok (by omega), Option.bind_some, sub_ok (by omega), Option.bind_some, e1, Option.bind_some]
        by_cases c2 : Nat.choose (s - i - 1) nn ≤ k
        · rw [if_pos c2]
          have := (e2 c2).2
          exact gbLin_ok ht hl ho fuel ⟨this.num, this.cnt⟩ (by omega) (by omega)
        · rw [if_neg c2]
          have := (e3 c2).2
          exact gbLin_ok ht hl ho fuel ⟨this.num, this.cnt⟩ (by omega) (by omega)
    · right
      rw [if_neg c]
      exact ⟨_, _, _, rfl, h, hi⟩

theorem gbEnd_ok {s : Nat} {tb : List (List Nat)} (ht : Tb s tb) {L : List Bool} (hl : L.length = s) {off : Nat} (ho : off < s) {k nn i j : Nat} (h : Gb s L k nn j) (hj : j ≤ off)
    (he : j = off ∨ nn ≤ 1) : gbEnd tb s off (.run k nn i) = some (L.getD off false) := by
  have hlen : (L.drop j).length = s - j := by rw [List.length_drop, hl]
  have hcl := cn_le (L.drop j)
  rw [← h.cnt, hlen] at hcl
  dsimp only [gbEnd]
  by_cases c1 : nn = 1
  · rw [if_pos c1]
    obtain ⟨q1, q2⟩ := one_true (l := L.drop j) (by rw [← h.cnt, c1])
    rw [← h.num, hlen] at q1
    rw [sub_ok (by omega), Option.bind_some, sub_ok (by omega), Option.map_some]
    have := q2 (off - j)
    rw [getD_drop, show j + (off - j) = off by omega, ← h.num, hlen] at this
    rw [this]
    congr 1
    apply decide_eq_decide.2
    omega
  · rw [if_neg c1]
    by_cases c0 : nn = 0
    · rw [if_pos c0]
      have := (no_true (l := L.drop j) (by rw [← h.cnt, c0])).2 (off - j)
      rw [getD_drop, show j + (off - j) = off by omega] at this
      rw [this]
    · rw [if_neg c0]
      have : j = off := by omega
      subst this
      obtain ⟨e1, e2, e3⟩ := gi_next ht hl (gi_of h (by omega)) (by omega) (by omega)
      rw [sub_ok (by omega), Option.bind_some, sub_ok (by omega), Option.bind_some, e1, Option.map_some]
      by_cases c2 : Nat.choose (s - j - 1) nn ≤ k
      · rw [(e2 c2).1]; simp [c2]
      · rw [(e3 c2).1]; simp [c2]

theorem gbBin_ok {s : Nat} {tb : List (List Nat)} (ht : Tb s tb) {L : List Bool} (hl : L.length = s) {off : Nat} (ho : off < s) :
    ∀ (fuel : Nat) {k nn i : Nat}, Gb s L k nn i → i ≤ off → off ≤ i + fuel →
      (gbBin tb s off fuel k nn i).bind (gbEnd tb s off) = some (L.getD off false)
  | 0, k, nn, i, h, hi, hf => by
    rw [gbBin, if_neg (by omega), Option.bind_some]
    exact gbEnd_ok ht hl ho h hi (Or.inl (by omega))
  | fuel+1, k, nn, i, h, hi, hf => by
    rw [gbBin]
    by_cases c : i < off ∧ 1 < nn
    · rw [if_pos c]
      rcases earlyB_ok hl h c.1 ho with e | ⟨e, hlt⟩
      · rw [e, Option.bind_some]; rfl
      · rw [e, Option.bind_some]
        dsimp only
        have hlen : (L.drop i).length = s - i := by rw [List.length_drop, hl]
        have hk := numOf_lt (L.drop i)
        rw [hlen, ← h.num, ← h.cnt] at hk
        obtain ⟨x, ex, hx1, hx2, hx3, hx4⟩ := bsearch_ok ht (k := k) (nn := nn) (r0 := off+1) (by omega) (by omega) (s+1) i (off+1) (by omega) (Nat.le_refl _) hk (Or.inl rfl) (by omega)
        rw [ex, Option.bind_some]
        rw [h.num, h.cnt] at hx3 hx4
        obtain ⟨b1, b2, b3, b4⟩ := search_bits hl hx1 (by omega) (by omega) hx3 hx4
        by_cases hxo : x < off
        · rw [if_pos hxo, sub_ok (by omega), Option.bind_some, sub_ok (by omega), Option.bind_some]
          have hx := b4 (by omega) (by omega)
          have hd := drop_step (l := L) (i := x) (by omega)
          have hlen2 : (L.drop (x+1)).length = s - x - 1 := by rw [List.length_drop, hl]; omega
          have e1 := h.num
          have e2 := h.cnt
          rw [← b2, hd, hx, num_true, hlen2] at e1
          rw [← b3, hd, hx, cn_true] at e2
          rw [← e2] at e1
          rw [ht _ _ (by omega) (by omega), Option.bind_some, sub_ok (by omega), Option.bind_some]
          exact gbBin_ok ht hl ho fuel ⟨by omega, by omega⟩ (by omega) (by omega)
        · rw [if_neg hxo]
          have : x = off := by omega
          subst this
          have hg : Gb s L k nn x := ⟨by rw [b2]; exact h.num, by rw [b3]; exact h.cnt⟩
          cases fuel with
          | zero => rw [gbBin, if_neg (by omega), Option.bind_some]; exact gbEnd_ok ht hl ho hg (Nat.le_refl _) (Or.inl rfl)
          | succ f => rw [gbBin, if_neg (by omega), Option.bind_some]; exact gbEnd_ok ht hl ho hg (Nat.le_refl _) (Or.inl rfl)
    · rw [if_neg c, Option.bind_some]
      exact gbEnd_ok ht hl ho h hi (by omega)

theorem getBit_ok {s : Nat} {tb : List (List Nat)} (ht : Tb s tb) {L : List Bool} (hl : L.length = s) {off : Nat} (ho : off < s) :
    getBit tb s (cn L) (numOf L) off = some (L.getD off false) := by
  unfold getBit
  rcases gbLin_ok ht hl ho (s+1) (k := numOf L) (nn := cn L) (i := 0) ⟨by simp, by simp⟩ (by omega) (by omega) with e | ⟨k1, n1, i1, e, h, hi⟩
  · rw [e, Option.bind_some]
  · rw [e, Option.bind_some]
    dsimp only
    exact gbBin_ok ht hl ho (s+1) h hi (by omega)

end Verif.Rrr
