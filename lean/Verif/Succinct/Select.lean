import Verif.Common.Vec
import Verif.BitManip.Props
/-!
Model of `/repo/include/mtl/succinct/select.hpp` (`select64`) and its correctness.  `none` is a failed assertion or an access outside an array;
a little-endian machine is assumed for the byte views (lines 34, 57).
-/
namespace Verif.Succinct
open Verif.BitManip

/-! ### Model -/

/-- select.hpp:15-19: one step of filling a row; the state is the row, `c` and `x`. -/
def selStep (j : Nat) (t : List Nat × Nat × Nat) : Option (List Nat × Nat × Nat) :=
  if t.2.2 % 2 = 1 then (wr t.1 (t.2.1 + 1) j).map (fun r => (r, t.2.1 + 1, t.2.2 / 2)) else some (t.1, t.2.1, t.2.2 / 2)

/-- :11-20: row `i` of the table. -/
def selRow (i : Nat) : Option (List Nat) := (forRange 0 8 selStep (List.replicate 9 8, 0, i)).map (fun t => t.1)

/-- Byte `b` of a 64-bit word. -/
def byteAt (x b : Nat) : Nat := x / 256^b % 256

/-- :55-59: the position inside byte `b`. -/
def selFinish (w bs o b : Nat) : Option Nat :=
  if byteAt bs b < o ∧ o - byteAt bs b ≤ popcnt (byteAt w b) then
    (selRow (byteAt w b)).bind (fun row => (row[o - byteAt bs b]?).map (fun t => b * 8 + t))
  else none

/-- :33: byte `i` is the number of 1s in the bytes below `i`. -/
def selBs (w : Nat) : Nat := u64 (popcntE8 w * 0x0101010101010100)

/-- :48-51: the byte. -/
def selByte (bs o : Nat) : Option Nat :=
  let x := u64 (o * 0x0101010101010101)
  let bmx := u64 ((bs ||| 0x8080808080808080) + 2^64 - x)
  let y := u64 ((bmx &&& 0x8080808080808080) * 0x02040810204081) >>> 56
  if ctz8 (y % 256) = 0 then none else some (ctz8 (y % 256) - 1)

/-- :32-59 with `w` already complemented for `B = 0` and `o = ith + 1`. -/
def selMain (o w : Nat) : Option Nat := (selByte (selBs w) o).bind (selFinish w (selBs w) o)

/-- :26-60 -/
def select64 (B : Bool) (ith w : Nat) : Option Nat :=
  if ith < 64 then selMain (ith + 1) (if B then w else compl w) else none

/-! ### Correctness -/

theorem selRow_spec : ∀ i, i < 256 → ∀ r, r < 9 → 0 < r → r ≤ ones 8 i →
    ∃ row, selRow i = some row ∧ ∃ t, row[r]? = some t ∧ t < 8 ∧ i.testBit t = true ∧ ones t i = r - 1 := by
  have h : ∀ i, i < 256 → ∀ r, r < 9 → 0 < r → r ≤ ones 8 i →
    ((selRow i).bind (fun row => row[r]?)).any (fun t => decide (t < 8 ∧ i.testBit t = true ∧ ones t i = r - 1)) = true := by decide +kernel
  intro i hi r hr h0 hle
  have := h i hi r hr h0 hle
  cases e : selRow i with
  | none => rw [e] at this; cases this
  | some row =>
    rw [e, Option.bind_some] at this
    cases e2 : row[r]? with
    | none => rw [e2] at this; cases this
    | some t =>
      rw [e2, Option.any_some, decide_eq_true_eq] at this
      exact ⟨row, rfl, t, e2, this⟩

/-- Number of 1s in the bytes below `i`. -/
def pre (w i : Nat) : Nat := ones (8 * i) w

theorem pre_succ (w i : Nat) : pre w (i + 1) = pre w i + ones 8 (byteAt w i) := by
  unfold pre byteAt
  rw [show 8 * (i + 1) = 8 * i + 8 by omega, ones_add, show (256 : Nat)^i = 2^(8*i) by rw [Nat.pow_mul],
    show (256:Nat) = 2^8 by decide, ones_mod]

theorem byteAt_lt (x b : Nat) : byteAt x b < 256 := Nat.mod_lt _ (by omega)

theorem onesPerByte8 (w : Nat) : onesPerByte 8 w = ones 8 (byteAt w 0) + 256 * (ones 8 (byteAt w 1) + 256 * (ones 8 (byteAt w 2) +
    256 * (ones 8 (byteAt w 3) + 256 * (ones 8 (byteAt w 4) + 256 * (ones 8 (byteAt w 5) + 256 * (ones 8 (byteAt w 6) + 256 * ones 8 (byteAt w 7))))))) := by
  simp only [onesPerByte, byteAt, Nat.div_div_eq_div_mul]
  norm_num

theorem bs_eq (w : Nat) : selBs w = 256 * (pre w 1 + 256 * (pre w 2 + 256 * (pre w 3 + 256 * (pre w 4 + 256 * (pre w 5 + 256 * (pre w 6 + 256 * pre w 7)))))) ∧
    pre w 0 = 0 ∧ pre w 1 ≤ 8 ∧ pre w 7 ≤ 56 ∧ pre w 1 ≤ pre w 2 ∧ pre w 2 ≤ pre w 3 ∧ pre w 3 ≤ pre w 4 ∧ pre w 4 ≤ pre w 5 ∧ pre w 5 ≤ pre w 6 ∧
    pre w 6 ≤ pre w 7 := by
  have h0 : pre w 0 = 0 := rfl
  have h1 := pre_succ w 0
  have h2 := pre_succ w 1
  have h3 := pre_succ w 2
  have h4 := pre_succ w 3
  have h5 := pre_succ w 4
  have h6 := pre_succ w 5
  have h7 := pre_succ w 6
  have hl : ∀ i, ones 8 (byteAt w i) ≤ 8 := fun i => ones_le 8 _
  have l0 := hl 0
  have l1 := hl 1
  have l2 := hl 2
  have l3 := hl 3
  have l4 := hl 4
  have l5 := hl 5
  have l6 := hl 6
  have l7 := hl 7
  have e := onesPerByte8 w
  unfold selBs u64
  rw [popcntE8_eq, e]
  generalize ones 8 (byteAt w 0) = c0 at *
  generalize ones 8 (byteAt w 1) = c1 at *
  generalize ones 8 (byteAt w 2) = c2 at *
  generalize ones 8 (byteAt w 3) = c3 at *
  generalize ones 8 (byteAt w 4) = c4 at *
  generalize ones 8 (byteAt w 5) = c5 at *
  generalize ones 8 (byteAt w 6) = c6 at *
  generalize ones 8 (byteAt w 7) = c7 at *
  generalize pre w 0 = p0 at *
  generalize pre w (0+1) = p1 at *
  generalize pre w (1+1) = p2 at *
  generalize pre w (2+1) = p3 at *
  generalize pre w (3+1) = p4 at *
  generalize pre w (4+1) = p5 at *
  generalize pre w (5+1) = p6 at *
  generalize pre w (6+1) = p7 at *
  clear e hl
  refine ⟨?_, by omega, by omega, by omega, by omega, by omega, by omega, by omega, by omega, by omega⟩
  omega

theorem or80 : ∀ b, b < 128 → b ||| 128 = 128 + b := by decide +kernel

theorem and80 : ∀ b, b < 256 → b &&& 128 = if 128 ≤ b then 128 else 0 := by decide +kernel

theorem ctz8_tbl : ∀ k, k < 9 → ctz8 ((256 - 2^k) % 256) = k := by decide +kernel

/-- The number with the given bytes, lowest first. -/
def num : List Nat → Nat
  | [] => 0
  | b :: l => b + 256 * num l

theorem num_or : ∀ (l l' : List Nat), l.length = l'.length → (∀ b ∈ l, b < 256) → (∀ b ∈ l', b < 256) →
    num l ||| num l' = num (List.zipWith (· ||| ·) l l')
  | [], [], _, _, _ => by simp [num]
  | b :: l, b' :: l', h, h1, h2 => by
      rw [num, num, List.zipWith_cons_cons, num, Nat.add_comm b, Nat.add_comm b', or_split (h1 b (by simp)) (h2 b' (by simp)),
        num_or l l' (by simpa using h) (fun c hc => h1 c (by simp [hc])) (fun c hc => h2 c (by simp [hc])), Nat.add_comm]

theorem num_and : ∀ (l l' : List Nat), l.length = l'.length → (∀ b ∈ l, b < 256) → (∀ b ∈ l', b < 256) →
    num l &&& num l' = num (List.zipWith (· &&& ·) l l')
  | [], [], _, _, _ => by simp [num]
  | b :: l, b' :: l', h, h1, h2 => by
      rw [num, num, List.zipWith_cons_cons, num, Nat.add_comm b, Nat.add_comm b', and_split (h1 b (by simp)) (h2 b' (by simp)),
        num_and l l' (by simpa using h) (fun c hc => h1 c (by simp [hc])) (fun c hc => h2 c (by simp [hc])), Nat.add_comm]

theorem num_lt : ∀ (l : List Nat), (∀ b ∈ l, b < 256) → num l < 256 ^ l.length
  | [], _ => by simp [num]
  | b :: l, h => by
      have := num_lt l (fun c hc => h c (by simp [hc]))
      have hb := h b (by simp)
      rw [num, List.length_cons, Nat.pow_succ]
      omega

theorem byteAt_num : ∀ (l : List Nat) (k : Nat), (∀ b ∈ l, b < 256) → byteAt (num l) k = l.getD k 0
  | [], k, _ => by simp [num, byteAt]
  | b :: l, 0, h => by
      have hb := h b (by simp)
      simp only [num, byteAt, Nat.pow_zero, Nat.div_one, List.getD_cons_zero]
      omega
  | b :: l, k+1, h => by
      have hb := h b (by simp)
      have ih := byteAt_num l k (fun c hc => h c (by simp [hc]))
      rw [List.getD_cons_succ, ← ih]
      unfold byteAt
      rw [num, Nat.pow_succ, Nat.mul_comm (256 ^ k), ← Nat.div_div_eq_div_mul, show (b + 256 * num l) / 256 = num l by omega]

/-- The prefix counts as bytes. -/
def preList (w : Nat) : List Nat := [0, pre w 1, pre w 2, pre w 3, pre w 4, pre w 5, pre w 6, pre w 7]

theorem bs_num (w : Nat) : selBs w = num (preList w) := by
  rw [(bs_eq w).1]; simp only [preList, num]; omega

theorem preList_le (w : Nat) : ∀ b ∈ preList w, b ≤ 56 := by
  obtain ⟨-, q0, q1, q7, m1, m2, m3, m4, m5, m6⟩ := bs_eq w
  intro b hb
  simp only [preList, List.mem_cons, List.not_mem_nil, or_false] at hb
  omega

/-- Lines 48-50 on byte lists. -/
theorem cmp_list : ∀ (l : List Nat) (o : Nat), (∀ b ∈ l, b ≤ 56) → 1 ≤ o → o ≤ 64 →
    num l ||| num (List.replicate l.length 128) = num (l.map (fun b => 128 + b)) ∧
    num (l.map (fun b => 128 + b)) = num (l.map (fun b => 128 + b - o)) + o * num (List.replicate l.length 1) ∧
    num (l.map (fun b => 128 + b - o)) &&& num (List.replicate l.length 128) = num (l.map (fun b => 128 * (if o ≤ b then 1 else 0)))
  | [], o, _, _, _ => by simp [num]
  | b :: l, o, h, h1, h2 => by
      have hb := h b (by simp)
      obtain ⟨e1, e2, e3⟩ := cmp_list l o (fun c hc => h c (by simp [hc])) h1 h2
      simp only [List.length_cons, List.replicate_succ, List.map_cons, num]
      refine ⟨?_, ?_, ?_⟩
      · rw [Nat.add_comm b, Nat.add_comm 128 (256 * _), or_split (by omega) (by omega), e1, or80 b (by omega)]; omega
      · rw [e2, Nat.mul_add, Nat.mul_add, Nat.mul_left_comm o 256]; omega
      · rw [Nat.add_comm (128 + b - o), Nat.add_comm 128 (256 * _), and_split (by omega) (by omega), e3, and80 _ (by omega)]
        by_cases c : o ≤ b
        · rw [if_pos c, if_pos (by omega)]; omega
        · rw [if_neg c, if_neg (by omega)]; omega

/-- The byte found: the last one whose prefix count is below `o`. -/
theorem selByte_spec (w o : Nat) (ho : 1 ≤ o) (ho2 : o ≤ 64) (k : Nat) (hk : k < 8) (h1 : pre w k < o) (h2 : k < 7 → o ≤ pre w (k + 1)) :
    selByte (selBs w) o = some k := by
  obtain ⟨e1, e2, e3⟩ := cmp_list (preList w) o (preList_le w) ho ho2
  have hlen : (preList w).length = 8 := rfl
  have r128 : num (List.replicate (preList w).length 128) = 0x8080808080808080 := by rw [hlen]; decide
  have r1 : num (List.replicate (preList w).length 1) = 0x0101010101010101 := by rw [hlen]; decide
  rw [r128] at e1 e3
  rw [r1] at e2
  have hlt : num ((preList w).map (fun b => 128 + b - o)) < 2^64 := by
    have := num_lt ((preList w).map (fun b => 128 + b - o)) (by
      intro b hb
      obtain ⟨c, hc, rfl⟩ := List.mem_map.mp hb
      have := preList_le w c hc
      omega)
    rw [List.length_map, hlen] at this
    exact this
  unfold selByte
  dsimp only
  rw [bs_num, e1]
  have hx : u64 (o * 0x0101010101010101) = o * 0x0101010101010101 := by unfold u64; omega
  rw [hx]
  have hb : u64 (num ((preList w).map (fun b => 128 + b)) + 2^64 - o * 0x0101010101010101) = num ((preList w).map (fun b => 128 + b - o)) := by
    unfold u64; omega
  rw [hb, e3]
  have b01 : ∀ p, (if o ≤ p then 1 else 0) ≤ 1 := fun p => by split <;> omega
  have hg := gather_mul (b01 0) (b01 (pre w 1)) (b01 (pre w 2)) (b01 (pre w 3)) (b01 (pre w 4)) (b01 (pre w 5)) (b01 (pre w 6)) (b01 (pre w 7))
  have hn : num ((preList w).map (fun b => 128 * (if o ≤ b then 1 else 0))) * 0x02040810204081 % 2^64 / 2^56 % 256 = (256 - 2 ^ (k + 1)) % 256 := by
    rw [preList]
    simp only [List.map_cons, List.map_nil, num]
    rw [hg]
    clear hg e1 e2 e3 r128 r1 hlt hb hx hlen b01
    obtain ⟨-, q0, q1, q7, m1, m2, m3, m4, m5, m6⟩ := bs_eq w
    rw [if_neg (by omega)]
    have hk' : k = 0 ∨ k = 1 ∨ k = 2 ∨ k = 3 ∨ k = 4 ∨ k = 5 ∨ k = 6 ∨ k = 7 := by omega
    rcases hk' with rfl | rfl | rfl | rfl | rfl | rfl | rfl | rfl
    · have := h2 (by omega)
      simp only [Nat.zero_add, Nat.reduceAdd] at this
      rw [if_pos (by omega), if_pos (by omega), if_pos (by omega), if_pos (by omega), if_pos (by omega), if_pos (by omega), if_pos (by omega)]; decide
    · have := h2 (by omega)
      simp only [Nat.zero_add, Nat.reduceAdd] at this
      rw [if_neg (by omega), if_pos (by omega), if_pos (by omega), if_pos (by omega), if_pos (by omega), if_pos (by omega), if_pos (by omega)]; decide
    · have := h2 (by omega)
      simp only [Nat.zero_add, Nat.reduceAdd] at this
      rw [if_neg (by omega), if_neg (by omega), if_pos (by omega), if_pos (by omega), if_pos (by omega), if_pos (by omega), if_pos (by omega)]; decide
    · have := h2 (by omega)
      simp only [Nat.zero_add, Nat.reduceAdd] at this
      rw [if_neg (by omega), if_neg (by omega), if_neg (by omega), if_pos (by omega), if_pos (by omega), if_pos (by omega), if_pos (by omega)]; decide
    · have := h2 (by omega)
      simp only [Nat.zero_add, Nat.reduceAdd] at this
      rw [if_neg (by omega), if_neg (by omega), if_neg (by omega), if_neg (by omega), if_pos (by omega), if_pos (by omega), if_pos (by omega)]; decide
    · have := h2 (by omega)
      simp only [Nat.zero_add, Nat.reduceAdd] at this
      rw [if_neg (by omega), if_neg (by omega), if_neg (by omega), if_neg (by omega), if_neg (by omega), if_pos (by omega), if_pos (by omega)]; decide
    · have := h2 (by omega)
      simp only [Nat.zero_add, Nat.reduceAdd] at this
      rw [if_neg (by omega), if_neg (by omega), if_neg (by omega), if_neg (by omega), if_neg (by omega), if_neg (by omega), if_pos (by omega)]; decide
    · rw [if_neg (by omega), if_neg (by omega), if_neg (by omega), if_neg (by omega), if_neg (by omega), if_neg (by omega), if_neg (by omega)]; decide
  rw [Nat.shiftRight_eq_div_pow, u64, hn, ctz8_tbl _ (by omega), if_neg (by omega), Nat.add_sub_cancel]

theorem byteAt_bs (w k : Nat) (hk : k < 8) : byteAt (selBs w) k = pre w k := by
  rw [bs_num, byteAt_num _ _ (fun b hb => by have := preList_le w b hb; omega)]
  have hk' : k = 0 ∨ k = 1 ∨ k = 2 ∨ k = 3 ∨ k = 4 ∨ k = 5 ∨ k = 6 ∨ k = 7 := by omega
  rcases hk' with rfl | rfl | rfl | rfl | rfl | rfl | rfl | rfl <;> rfl

/-- A step function on `0..8` that starts below `o` and ends at or above it crosses `o` somewhere. -/
theorem cross (f : Nat → Nat) (o : Nat) (h0 : f 0 < o) : ∀ n, o ≤ f n → ∃ k, k < n ∧ f k < o ∧ o ≤ f (k + 1)
  | 0, h => by omega
  | n+1, h => by
      by_cases hn : o ≤ f n
      · obtain ⟨k, hk, h1, h2⟩ := cross f o h0 n hn
        exact ⟨k, by omega, h1, h2⟩
      · exact ⟨n, by omega, by omega, h⟩

theorem popcnt_byte {b : Nat} (hb : b < 256) : popcnt b = ones 8 b := by
  rw [popcnt_eq, show (64 : Nat) = 8 + 56 by omega, ones_add, show b / 2^8 = 0 by omega]
  have : ∀ n, ones n 0 = 0 := by
    intro n
    induction n with
    | zero => rfl
    | succ n ih => simp [ones, ih]
  rw [this]; omega

theorem ones_byte_pos {w k t : Nat} (ht : t ≤ 8) : ones (8 * k + t) w = pre w k + ones t (byteAt w k) := by
  rw [ones_add, pre, byteAt, show (256 : Nat)^k = 2^(8*k) by rw [Nat.pow_mul]]
  have : w / 2^(8*k) % 256 = w / 2^(8*k) % 2^8 := rfl
  rw [this]
  generalize w / 2^(8*k) = z
  rw [← ones_mod t (z % 2^8), Nat.mod_mod_of_dvd _ (Nat.pow_dvd_pow 2 ht), ones_mod]

theorem testBit_byteAt {w k t : Nat} (ht : t < 8) : (byteAt w k).testBit t = w.testBit (8 * k + t) := by
  unfold byteAt
  rw [show (256 : Nat)^k = 2^(8*k) by rw [Nat.pow_mul], show (256:Nat) = 2^8 by decide, Nat.testBit_mod_two_pow, decide_eq_true ht, Bool.true_and,
    Nat.testBit_div_two_pow, Nat.add_comm]

theorem selMain_spec (w o : Nat) (ho : 1 ≤ o) (hle : o ≤ ones 64 w) :
    ∃ p, selMain o w = some p ∧ p < 64 ∧ w.testBit p = true ∧ ones p w = o - 1 := by
  have h64 := ones_le 64 w
  obtain ⟨k, hk, h1, h2⟩ := cross (pre w) o (by show 0 < o; omega) 8 hle
  have hsb := selByte_spec w o ho (by omega) k hk h1 (fun _ => h2)
  have hps := pre_succ w k
  unfold selMain selFinish
  rw [hsb, Option.bind_some]
  rw [byteAt_bs w k hk, popcnt_byte (byteAt_lt _ _), if_pos ⟨h1, by omega⟩]
  have := ones_le 8 (byteAt w k)
  obtain ⟨row, er, t, et, ht, hb, hc⟩ := selRow_spec (byteAt w k) (byteAt_lt _ _) (o - pre w k) (by omega) (by omega) (by omega)
  refine ⟨k * 8 + t, ?_, by omega, ?_, ?_⟩
  · rw [er, Option.bind_some, et]; rfl
  · rw [Nat.mul_comm k 8, ← testBit_byteAt ht]; exact hb
  · rw [Nat.mul_comm k 8, ones_byte_pos (by omega), hc]; omega

theorem compl_testBit {w i : Nat} (hw : w < 2^64) (hi : i < 64) : (compl w).testBit i = !(w.testBit i) := by
  unfold BitManip.compl
  rw [show 2^64 - 1 - w = 2^64 - (w + 1) by omega, Nat.testBit_two_pow_sub_succ hw, decide_eq_true hi, Bool.true_and]

theorem ones_last (n x : Nat) : ones (n + 1) x = ones n x + (x.testBit n).toNat := by
  rw [ones_add]
  congr 1
  show x / 2^n % 2 + 0 = _
  rw [Nat.testBit_eq_decide_div_mod_eq]
  rcases Nat.mod_two_eq_zero_or_one (x / 2^n) with h | h <;> simp [h]

theorem ones_compl {w : Nat} (hw : w < 2^64) : ∀ n, n ≤ 64 → ones n (compl w) + ones n w = n
  | 0, _ => rfl
  | n+1, h => by
      have ih := ones_compl hw n (by omega)
      rw [ones_last, ones_last, compl_testBit hw (by omega)]
      cases w.testBit n <;> simp <;> omega

/-- C41, one word: for every 64-bit word, `select64::select<B>(i, w)` is the position of the `i`-th (from 0) bit equal to `B`, whenever there is one. -/
theorem C41_select64 (w : Nat) (hw : w < 2^64) (i : Nat) :
    (i < ones 64 w → ∃ p, select64 true i w = some p ∧ p < 64 ∧ w.testBit p = true ∧ ones p w = i) ∧
    (i < 64 - ones 64 w → ∃ p, select64 false i w = some p ∧ p < 64 ∧ w.testBit p = false ∧ p - ones p w = i) := by
  have h64 := ones_le 64 w
  constructor
  · intro hi
    obtain ⟨p, e, h1, h2, h3⟩ := selMain_spec w (i + 1) (by omega) (by omega)
    refine ⟨p, ?_, h1, h2, by omega⟩
    rw [select64, if_pos (by omega), if_pos rfl]; exact e
  · intro hi
    have hc := ones_compl hw 64 (by omega)
    obtain ⟨p, e, h1, h2, h3⟩ := selMain_spec (compl w) (i + 1) (by omega) (by omega)
    have hp := ones_compl hw p (by omega)
    refine ⟨p, ?_, h1, ?_, by omega⟩
    · rw [select64, if_pos (by omega), if_neg (by simp)]; exact e
    · rw [compl_testBit hw h1] at h2; simpa using h2

example : (41 : Nat) < ones 64 0xFEDCBA98FFFF0F0F ∧ select64 true 41 0xFEDCBA98FFFF0F0F = some 61 := by decide +kernel
example : (2 : Nat) < 64 - ones 64 0xFEDCBA98FFFF0F0F ∧ select64 false 2 0xFEDCBA98FFFF0F0F = some 6 := by decide +kernel

end Verif.Succinct
