import Verif.BitManip.Model
import Mathlib.Tactic.Ring
/-!
# C27: bit-manipulation functions for all 64-bit words

The 64-bit functions are proved from a decomposition into bytes; facts about single bytes are checked for all 256 values.
-/
namespace Verif.BitManip

/-! ### Specification -/

/-- Number of 1s among the low `n` bits. -/
def ones : Nat → Nat → Nat
  | 0, _ => 0
  | n+1, x => x % 2 + ones n (x / 2)

/-- For each byte, 0 or 1 according to whether it is zero; one bit per byte. -/
def nonzeroBytes : Nat → Nat → Nat
  | 0, _ => 0
  | k+1, x => (if x % 256 = 0 then 0 else 1) + 2 * nonzeroBytes k (x / 256)

/-- For each byte its number of 1s; one byte per byte. -/
def onesPerByte : Nat → Nat → Nat
  | 0, _ => 0
  | k+1, x => ones 8 (x % 256) + 256 * onesPerByte k (x / 256)

/-! ### Bytes -/

/-- The byte `c` repeated `k` times. -/
def rep (c : Nat) : Nat → Nat
  | 0 => 0
  | k+1 => 256 * rep c k + c

theorem and_split {h b M m : Nat} (hb : b < 256) (hm : m < 256) : (256*h + b) &&& (256*M + m) = 256 * (h &&& M) + (b &&& m) := by
  have h1 : ((256*h + b) &&& (256*M + m)) / 2^8 = h &&& M := by
    rw [Nat.and_div_two_pow]; congr 1 <;> omega
  have h2 : ((256*h + b) &&& (256*M + m)) % 2^8 = b &&& m := by
    rw [Nat.and_mod_two_pow]; congr 1 <;> omega
  omega

theorem or_split {h b M m : Nat} (hb : b < 256) (hm : m < 256) : (256*h + b) ||| (256*M + m) = 256 * (h ||| M) + (b ||| m) := by
  have h1 : ((256*h + b) ||| (256*M + m)) / 2^8 = h ||| M := by
    rw [Nat.or_div_two_pow]; congr 1 <;> omega
  have h2 : ((256*h + b) ||| (256*M + m)) % 2^8 = b ||| m := by
    rw [Nat.or_mod_two_pow]; congr 1 <;> omega
  omega

theorem shr_and_split {h b M m s : Nat} (hs : s ≤ 8) (hb : b < 256) (hm : m < 2^(8-s)) :
    ((256*h + b) >>> s) &&& (256*M + m) = 256 * ((h >>> s) &&& M) + ((b >>> s) &&& m) := by
  have hpow : 256 = 2^s * 2^(8-s) := by rw [← Nat.pow_add, show s + (8-s) = 8 by omega]
  have hm256 : m < 256 := Nat.lt_of_lt_of_le hm (by rw [hpow]; exact Nat.le_mul_of_pos_left _ (Nat.two_pow_pos s))
  have hsh : (256*h + b) >>> s = 2^(8-s) * h + b / 2^s := by
    rw [Nat.shiftRight_eq_div_pow]
    conv_lhs => rw [hpow, Nat.mul_assoc, Nat.mul_add_div (Nat.two_pow_pos s)]
  have hbs : b / 2^s < 2^(8-s) := by
    rw [Nat.div_lt_iff_lt_mul (Nat.two_pow_pos s), Nat.mul_comm, ← hpow]; exact hb
  have h1 : (((256*h + b) >>> s) &&& (256*M + m)) / 2^8 = (h >>> s) &&& M := by
    rw [Nat.and_div_two_pow]
    congr 1
    · rw [← Nat.shiftRight_eq_div_pow, ← Nat.shiftRight_add, Nat.add_comm s 8, Nat.shiftRight_add]
      congr 1
      rw [Nat.shiftRight_eq_div_pow, Nat.mul_add_div (by omega), Nat.div_eq_of_lt hb, Nat.add_zero]
    · omega
  have h2 : (((256*h + b) >>> s) &&& (256*M + m)) % 2^8 = (b >>> s) &&& m := by
    rw [Nat.and_mod_two_pow, show (256*M + m) % 2^8 = m by omega]
    have hlt1 : (((256*h + b) >>> s) % 2^8 &&& m) < 2^(8-s) := Nat.and_lt_two_pow _ hm
    have hlt2 : ((b >>> s) &&& m) < 2^(8-s) := Nat.and_lt_two_pow _ hm
    rw [← Nat.mod_eq_of_lt hlt1, ← Nat.mod_eq_of_lt hlt2, Nat.and_mod_two_pow, Nat.and_mod_two_pow]
    congr 1
    rw [hsh, Nat.mod_mod_of_dvd _ (Nat.pow_dvd_pow 2 (Nat.sub_le 8 s)), Nat.mul_add_mod, Nat.shiftRight_eq_div_pow]
  omega

/-- One line of `popcnt_e8` on `k` bytes. -/
def step (s c k x : Nat) : Nat := (x &&& rep c k) + ((x >>> s) &&& rep c k)

theorem step_split {s c k h b : Nat} (hs : s ≤ 8) (hb : b < 256) (hc : c < 2^(8-s)) :
    step s c (k+1) (256*h + b) = 256 * step s c k h + step s c 1 b := by
  have hpow : 256 = 2^s * 2^(8-s) := by rw [← Nat.pow_add, show s + (8-s) = 8 by omega]
  have hc256 : c < 256 := Nat.lt_of_lt_of_le hc (by rw [hpow]; exact Nat.le_mul_of_pos_left _ (Nat.two_pow_pos s))
  unfold step
  rw [rep, and_split hb hc256, shr_and_split hs hb hc, show rep c 1 = c by simp [rep]]
  ring

theorem byte1 : ∀ b, b < 256 → step 1 0x55 1 b < 256 := by decide +kernel
theorem byte2 : ∀ b, b < 256 → step 2 0x33 1 b < 256 := by decide +kernel
theorem byte3 : ∀ b, b < 256 → step 4 0x0F 1 (step 2 0x33 1 (step 1 0x55 1 b)) = ones 8 b := by decide +kernel

theorem step_zero (s c x : Nat) : step s c 0 x = 0 := by simp [step, rep]

theorem e8_rec (k : Nat) : ∀ x, step 4 0x0F k (step 2 0x33 k (step 1 0x55 k x)) = onesPerByte k x := by
  induction k with
  | zero => intro x; simp [step_zero, onesPerByte]
  | succ k ih =>
    intro x
    have hb : x % 256 < 256 := Nat.mod_lt _ (by omega)
    have hx : x = 256 * (x / 256) + x % 256 := by omega
    rw [hx, step_split (by omega) hb (by decide), step_split (by omega) (byte1 _ hb) (by decide),
      step_split (by omega) (byte2 _ (byte1 _ hb)) (by decide), ih, byte3 _ hb, onesPerByte]
    rw [show (256 * (x/256) + x%256) % 256 = x % 256 by omega, show (256 * (x/256) + x%256) / 256 = x / 256 by omega]
    omega

theorem step_lt {s c k x : Nat} (hc : c < 128) : step s c k x < 256^k ∨ k = 0 := by
  rcases Nat.eq_zero_or_pos k with h | h
  · exact Or.inr h
  · left
    have hrep : ∀ k, 0 < k → 2 * rep c k < 256^k := by
      intro k
      induction k with
      | zero => omega
      | succ k ih =>
        intro _
        rcases Nat.eq_zero_or_pos k with h | h
        · subst h; simp [rep]; omega
        · have := ih h
          rw [rep, Nat.pow_succ]; omega
    have := hrep k h
    have h1 : (x &&& rep c k) ≤ rep c k := Nat.and_le_right
    have h2 : ((x >>> s) &&& rep c k) ≤ rep c k := Nat.and_le_right
    unfold step; omega

theorem popcntE8_eq (x : Nat) : popcntE8 x = onesPerByte 8 x := by
  have e : ∀ s c x, c < 128 → u64 (step s c 8 x) = step s c 8 x := by
    intro s c x hc
    have := (step_lt (s := s) (k := 8) (x := x) hc).resolve_right (by omega)
    unfold u64
    exact Nat.mod_eq_of_lt (by omega)
  have h1 : ∀ x, u64 ((x &&& 0x5555555555555555) + ((x >>> 1) &&& 0x5555555555555555)) = step 1 0x55 8 x := fun x => e 1 0x55 x (by omega)
  have h2 : ∀ x, u64 ((x &&& 0x3333333333333333) + ((x >>> 2) &&& 0x3333333333333333)) = step 2 0x33 8 x := fun x => e 2 0x33 x (by omega)
  have h3 : ∀ x, u64 ((x &&& 0x0F0F0F0F0F0F0F0F) + ((x >>> 4) &&& 0x0F0F0F0F0F0F0F0F)) = step 4 0x0F 8 x := fun x => e 4 0x0F x (by omega)
  unfold popcntE8
  dsimp only
  rw [h1, h2, h3, e8_rec]

theorem ones_add : ∀ m n x, ones (m+n) x = ones m x + ones n (x / 2^m) := by
  intro m
  induction m with
  | zero => intro n x; simp [ones]
  | succ m ih =>
    intro n x
    rw [show m + 1 + n = (m + n) + 1 by omega, ones, ones, ih, Nat.pow_succ', Nat.div_div_eq_div_mul]
    omega

theorem ones_mod : ∀ m x, ones m (x % 2^m) = ones m x := by
  intro m
  induction m with
  | zero => intro x; simp [ones]
  | succ m ih =>
    intro x
    rw [ones, ones, ← ih (x / 2), Nat.pow_succ', Nat.mod_mul_right_mod]
    congr 2
    rw [Nat.mod_mul_right_div_self]

theorem ones_le : ∀ m x, ones m x ≤ m := by
  intro m
  induction m with
  | zero => intro x; simp [ones]
  | succ m ih => intro x; have := ih (x/2); rw [ones]; omega

theorem ones_byte (n x : Nat) : ones (8+n) x = ones 8 (x % 256) + ones n (x / 256) := by
  rw [ones_add, ← ones_mod 8 x]; rfl

/-- Byte 7 of a product whose other contributions are known. -/
theorem byte7 {P s r q : Nat} (h : P = s + 2^56 * (r + 256 * q)) (hs : s < 2^56) (hr : r < 256) : P % 2^64 / 2^56 = r := by
  have h1 : P / 2^56 = r + 256 * q := by omega
  rw [show 2^64 = 2^56 * 256 by norm_num, Nat.mod_mul_right_div_self, h1]
  omega

theorem popcnt_eq (x : Nat) : popcnt x = ones 64 x := by
  rw [popcnt, popcntE8_eq]
  rw [show 64 = 8+(8+(8+(8+(8+(8+(8+(8+0))))))) from rfl]
  simp only [ones_byte, onesPerByte]
  have hb := fun y => ones_le 8 (y % 256)
  have h0 := hb x
  have h1 := hb (x/256)
  have h2 := hb (x/256/256)
  have h3 := hb (x/256/256/256)
  have h4 := hb (x/256/256/256/256)
  have h5 := hb (x/256/256/256/256/256)
  have h6 := hb (x/256/256/256/256/256/256)
  have h7 := hb (x/256/256/256/256/256/256/256)
  generalize ones 8 (x % 256) = o0 at *
  generalize ones 8 (x/256 % 256) = o1 at *
  generalize ones 8 (x/256/256 % 256) = o2 at *
  generalize ones 8 (x/256/256/256 % 256) = o3 at *
  generalize ones 8 (x/256/256/256/256 % 256) = o4 at *
  generalize ones 8 (x/256/256/256/256/256 % 256) = o5 at *
  generalize ones 8 (x/256/256/256/256/256/256 % 256) = o6 at *
  generalize ones 8 (x/256/256/256/256/256/256/256 % 256) = o7 at *
  rw [Nat.shiftRight_eq_div_pow, u64]
  simp only [ones]
  exact byte7
    (s := o0 + 256*(o0+o1) + 256^2*(o0+o1+o2) + 256^3*(o0+o1+o2+o3) + 256^4*(o0+o1+o2+o3+o4) + 256^5*(o0+o1+o2+o3+o4+o5) +
      256^6*(o0+o1+o2+o3+o4+o5+o6))
    (q := (o1+o2+o3+o4+o5+o6+o7) + 256*(o2+o3+o4+o5+o6+o7) + 256^2*(o3+o4+o5+o6+o7) + 256^3*(o4+o5+o6+o7) + 256^4*(o5+o6+o7) +
      256^5*(o6+o7) + 256^6*o7)
    (by omega) (by omega) (by omega)

/-- **C27, popcnt.** -/
theorem C27_popcnt (x : Nat) : popcnt x = ones 64 x := popcnt_eq x

/-- **C27, popcnt_e8.** -/
theorem C27_popcnt_e8 (x : Nat) : popcntE8 x = onesPerByte 8 x := popcntE8_eq x

/-! ### Trailing zeros -/

theorem and_compl_zero {j n : Nat} (h : j < 2^n) : j &&& (2^n - (j+1)) = 0 := by
  apply Nat.eq_of_testBit_eq
  intro i
  rw [Nat.testBit_and, Nat.testBit_two_pow_sub_succ h]
  cases j.testBit i <;> simp

/-- `x & -x` is the lowest set bit. -/
theorem lowbit_eq {k j : Nat} (h : 2^k * (2*j+1) < 2^64) : (2^k * (2*j+1)) &&& neg (2^k * (2*j+1)) = 2^k := by
  have hp := Nat.two_pow_pos k
  have hpos : 0 < 2^k * (2*j+1) := Nat.mul_pos hp (by omega)
  have hk : k < 64 := by
    by_contra hge
    have h1 : 2^64 ≤ 2^k := Nat.pow_le_pow_right (by omega) (by omega)
    have h2 : 2^k ≤ 2^k * (2*j+1) := Nat.le_mul_of_pos_right _ (by omega)
    omega
  have hpow : 2^64 = 2^k * (2 * 2^(63-k)) := by
    rw [← Nat.pow_succ', ← Nat.pow_add]; congr 1; omega
  have hj : j < 2^(63-k) := by
    rw [hpow] at h
    have := Nat.lt_of_mul_lt_mul_left h
    omega
  have hneg : neg (2^k * (2*j+1)) = 2^k * (2 * (2^(63-k) - (j+1)) + 1) := by
    unfold neg u64
    rw [Nat.mod_eq_of_lt (by omega)]
    conv_lhs => rw [hpow]
    rw [← Nat.mul_sub]
    congr 1; omega
  rw [hneg]
  have hsh : ∀ a b : Nat, (2^k * a) &&& (2^k * b) = 2^k * (a &&& b) := by
    intro a b
    have := (Nat.shiftLeft_and_distrib (i := k) (a := a) (b := b)).symm
    simpa [Nat.shiftLeft_eq, Nat.mul_comm] using this
  have hodd : ∀ a b : Nat, (2*a+1) &&& (2*b+1) = 2*(a &&& b) + 1 := by
    intro a b
    have h1 : ((2*a+1) &&& (2*b+1)) / 2 = a &&& b := by
      rw [Nat.and_div_two]; congr 1 <;> omega
    have h2 : ((2*a+1) &&& (2*b+1)) % 2 = 1 := by
      rw [Nat.and_mod_two_eq_one]; omega
    omega
  rw [hsh, hodd, and_compl_zero hj]
  simp

theorem ones_mask : ∀ n k, k ≤ n → ones n (2^k - 1) = k := by
  intro n
  induction n with
  | zero => intro k h; simp [ones]; omega
  | succ n ih =>
    intro k h
    rw [ones]
    cases k with
    | zero =>
      have := ih 0 (by omega)
      simpa using this
    | succ k =>
      have hp := Nat.two_pow_pos k
      have h1 : (2^(k+1) - 1) % 2 = 1 := by rw [Nat.pow_succ]; omega
      have h2 : (2^(k+1) - 1) / 2 = 2^k - 1 := by rw [Nat.pow_succ]; omega
      rw [h1, h2, ih k (by omega)]; omega

theorem exists_odd : ∀ n x, 0 < x → x < 2^n → ∃ k j, x = 2^k * (2*j+1) := by
  intro n
  induction n with
  | zero => intro x h1 h2; simp at h2; omega
  | succ n ih =>
    intro x h1 h2
    rcases Nat.mod_two_eq_zero_or_one x with h | h
    · obtain ⟨k, j, e⟩ := ih (x/2) (by omega) (by rw [Nat.pow_succ] at h2; omega)
      refine ⟨k+1, j, ?_⟩
      rw [Nat.pow_succ, Nat.mul_right_comm, ← e]; omega
    · exact ⟨0, x/2, by omega⟩

theorem ctz_eq {k j : Nat} (h : 2^k * (2*j+1) < 2^64) : ctz (2^k * (2*j+1)) = k := by
  have hp := Nat.two_pow_pos k
  have hle : 2^k ≤ 2^k * (2*j+1) := Nat.le_mul_of_pos_right _ (by omega)
  have hk : k ≤ 64 := by
    by_contra hge
    have h1 : 2^64 ≤ 2^k := Nat.pow_le_pow_right (by omega) (by omega)
    omega
  rw [ctz, lowbit_eq h, popcnt_eq, u64, show 2^k + 2^64 - 1 = 2^k - 1 + 2^64 by omega, Nat.add_mod_right,
    Nat.mod_eq_of_lt (by omega), ones_mask 64 k hk]

/-- `k` is the number of trailing zeros of `x`. -/
def IsCtz (x k : Nat) : Prop := 2^k ∣ x ∧ ¬ 2^(k+1) ∣ x

/-- **C27, ctz.** -/
theorem C27_ctz (x : Nat) (hx : x < 2^64) : (x ≠ 0 → IsCtz x (ctz x)) ∧ (x = 0 → ctz x = 64) := by
  constructor
  · intro h0
    obtain ⟨k, j, rfl⟩ := exists_odd 64 x (by omega) hx
    rw [ctz_eq hx]
    refine ⟨Nat.dvd_mul_right .., ?_⟩
    rintro ⟨c, hc⟩
    rw [Nat.pow_succ, Nat.mul_assoc] at hc
    have := Nat.eq_of_mul_eq_mul_left (Nat.two_pow_pos k) hc
    omega
  · rintro rfl
    decide +kernel

/-- **C27, cto.** The trailing ones of `x` are the trailing zeros of the complement. -/
theorem C27_cto (x : Nat) (hx : x < 2^64) : (x ≠ 2^64 - 1 → (∀ i, i < cto x → x.testBit i = true) ∧ x.testBit (cto x) = false) ∧
    (x = 2^64 - 1 → cto x = 64) := by
  constructor
  · intro h0
    have hc : compl x < 2^64 := by unfold compl; omega
    have hc0 : compl x ≠ 0 := by unfold compl; omega
    have hbit : ∀ i, i < 64 → (compl x).testBit i = !(x.testBit i) := by
      intro i hi
      have := Nat.testBit_two_pow_sub_succ hx i
      rw [show 2^64 - (x+1) = compl x by unfold compl; omega] at this
      simpa [hi] using this
    obtain ⟨k, j, e⟩ := exists_odd 64 (compl x) (by omega) hc
    have hk : k < 64 := by
      by_contra hge
      have h1 : 2^64 ≤ 2^k := Nat.pow_le_pow_right (by omega) (by omega)
      have hle : 2^k ≤ 2^k * (2*j+1) := Nat.le_mul_of_pos_right _ (by omega)
      omega
    have hcto : cto x = k := by unfold cto; rw [e]; exact ctz_eq (by omega)
    rw [hcto]
    constructor
    · intro i hi
      have := hbit i (by omega)
      rw [e, Nat.testBit_two_pow_mul] at this
      have hd : decide (i ≥ k) = false := by simp; omega
      rw [hd, Bool.false_and] at this
      cases hb : x.testBit i
      · rw [hb] at this; cases this
      · rfl
    · have := hbit k hk
      rw [e, Nat.testBit_two_pow_mul] at this
      simp at this
      simpa using this
  · rintro rfl
    decide +kernel

/-! ### Leading zeros -/

theorem log2p1_byte : ∀ x, x < 256 → x ≠ 0 → log2p1 x ≠ 0 ∧ 2^(log2p1 x - 1) ≤ x ∧ x < 2^(log2p1 x) := by decide +kernel
theorem low_byte : ∀ x, x < 256 → x ≠ 0 → 2^(popcntE8 ((x &&& neg x) - 1)) ∣ x ∧ ¬ 2^(popcntE8 ((x &&& neg x) - 1) + 1) ∣ x := by
  decide +kernel

/-- **C27, violated.** `log2p1` should count the ones after filling downwards (0 for 0), but answers 1 for 0. -/
theorem C27_violated_log2p1_zero : log2p1 0 = 1 := by decide +kernel

/-- **C27, byte variants.** All 256 inputs: `log2p1` is the bit length (missing: 0, see `C27_violated_log2p1_zero`), `mssb8` and `lssb8` the positions of the highest and lowest set
bit, `ctz8` and `clz8` the numbers of trailing and leading zeros (8 for zero). -/
theorem C27_bytes_partial (x : Nat) (hx : x < 256) :
    (x = 0 → ctz8 x = 8 ∧ clz8 x = some 8) ∧
    (x ≠ 0 → (2^(log2p1 x - 1) ≤ x ∧ x < 2^(log2p1 x)) ∧
      (∃ j, mssb8 x = some j ∧ 2^j ≤ x ∧ x < 2^(j+1)) ∧
      (∃ j, lssb8 x = some j ∧ IsCtz x j) ∧ IsCtz x (ctz8 x) ∧
      (∃ k, clz8 x = some k ∧ k < 8 ∧ 2^(7-k) ≤ x ∧ x < 2^(8-k))) := by
  constructor
  · rintro rfl
    exact ⟨rfl, rfl⟩
  · intro h0
    obtain ⟨h1, h2, h3⟩ := log2p1_byte x hx h0
    have hl := low_byte x hx h0
    have h8 : log2p1 x ≤ 8 := by
      by_contra hge
      have : 2^8 ≤ 2^(log2p1 x - 1) := Nat.pow_le_pow_right (by omega) (by omega)
      omega
    refine ⟨⟨h2, h3⟩, ⟨log2p1 x - 1, ?_, h2, ?_⟩, ⟨_, ?_, hl⟩, ?_, ⟨8 - log2p1 x, ?_, by omega, ?_, ?_⟩⟩
    · rw [mssb8, if_neg h0]
    · rw [Nat.sub_add_cancel (by omega)]; exact h3
    · rw [lssb8, if_neg h0]
    · rw [ctz8, if_neg h0]; exact hl
    · rw [clz8, if_neg h0, mssb8, if_neg h0, Option.map_some]
      refine congrArg some ?_; omega
    · rw [show 7 - (8 - log2p1 x) = log2p1 x - 1 by omega]; exact h2
    · rw [show 8 - (8 - log2p1 x) = log2p1 x by omega]; exact h3

/-- The gathering part of `summary` on `k` bytes. -/
def gather (k x : Nat) : Nat :=
  ((x &&& rep 0x80 k) ||| (rep 0xFF k - (rep 0x80 k - (x &&& rep 0x7F k)))) &&& rep 0x80 k

/-- Per byte 0x80 or 0. -/
def marks : Nat → Nat → Nat
  | 0, _ => 0
  | k+1, x => (if x % 256 = 0 then 0 else 0x80) + 256 * marks k (x / 256)

theorem gather_byte : ∀ b, b < 256 → ((b &&& 0x80) ||| (0xFF - (0x80 - (b &&& 0x7F)))) &&& 0x80 = (if b = 0 then 0 else 0x80) := by
  decide +kernel

theorem rep_le (k : Nat) : rep 0x7F k ≤ rep 0x80 k ∧ rep 0x80 k ≤ rep 0xFF k := by
  induction k with
  | zero => simp [rep]
  | succ k ih => simp only [rep]; omega

theorem gather_rec (k : Nat) : ∀ x, gather k x = marks k x := by
  induction k with
  | zero => intro x; simp [gather, rep, marks]
  | succ k ih =>
    intro x
    have hb : x % 256 < 256 := Nat.mod_lt _ (by omega)
    have hx : x = 256 * (x / 256) + x % 256 := by omega
    rw [marks, ← ih, ← gather_byte _ hb]
    unfold gather
    conv_lhs => rw [hx]
    simp only [rep]
    generalize x % 256 = b at *
    generalize x / 256 = h
    have hr := rep_le k
    have hle : (h &&& rep 0x7F k) ≤ rep 0x7F k := Nat.and_le_right
    have hble : (b &&& 0x7F) ≤ 0x7F := Nat.and_le_right
    rw [and_split hb (by omega), and_split hb (by omega)]
    have e1 : 256 * rep 0xFF k + 0xFF - (256 * rep 0x80 k + 0x80 - (256 * (h &&& rep 0x7F k) + (b &&& 0x7F))) =
        256 * (rep 0xFF k - (rep 0x80 k - (h &&& rep 0x7F k))) + (0xFF - (0x80 - (b &&& 0x7F))) := by omega
    have hor : (b &&& 0x80) < 2^8 := Nat.and_lt_two_pow _ (by decide)
    rw [e1, or_split hor (by omega), and_split (Nat.or_lt_two_pow (n := 8) hor (by omega)) (by omega)]
    omega

theorem gather_mul {e0 e1 e2 e3 e4 e5 e6 e7 : Nat} (l0 : e0 ≤ 1) (l1 : e1 ≤ 1) (l2 : e2 ≤ 1) (l3 : e3 ≤ 1) (l4 : e4 ≤ 1) (l5 : e5 ≤ 1)
    (l6 : e6 ≤ 1) (l7 : e7 ≤ 1) :
    (0x80*e0 + 256*(0x80*e1 + 256*(0x80*e2 + 256*(0x80*e3 + 256*(0x80*e4 + 256*(0x80*e5 + 256*(0x80*e6 + 256*(0x80*e7 + 256*0)))))))) *
      0x0002040810204081 % 2^64 / 2^56 % 256 = e0 + 2*(e1 + 2*(e2 + 2*(e3 + 2*(e4 + 2*(e5 + 2*(e6 + 2*(e7 + 2*0))))))) := by
  have h := byte7 (P := (0x80*e0 + 256*(0x80*e1 + 256*(0x80*e2 + 256*(0x80*e3 + 256*(0x80*e4 + 256*(0x80*e5 + 256*(0x80*e6 + 256*(0x80*e7 + 256*0)))))))) *
      0x0002040810204081)
    (s := 567382630219904*e0 + 1134765260439552*e1 + 2269530520813568*e2 + 4539061024849920*e3 + 9078117754732544*e4 + 18155135997837312*e5 + 36028797018963968*e6)
    (r := 1*e0 + 2*e1 + 4*e2 + 8*e3 + 16*e4 + 32*e5 + 64*e6 + 128*e7)
    (q := 1*e1 + 258*e2 + 66052*e3 + 16909320*e4 + 4328785936*e5 + 1108169199648*e6 + 283691315109952*e7)
    (by omega) (by omega) (by omega)
  omega

theorem summary_eq (x : Nat) : summary x = nonzeroBytes 8 x := by
  have hr80 : rep 0x80 8 = 0x8080808080808080 := by decide
  have hr7f : rep 0x7F 8 = 0x7F7F7F7F7F7F7F7F := by decide
  have hrff : rep 0xFF 8 = 2^64 - 1 := by decide
  have hg := gather_rec 8 x
  unfold gather at hg
  rw [hr80, hr7f, hrff] at hg
  unfold summary
  dsimp only
  have hle : (x &&& 0x7F7F7F7F7F7F7F7F) ≤ 0x7F7F7F7F7F7F7F7F := Nat.and_le_right
  have e1 : compl (u64 (0x8080808080808080 + 2^64 - (x &&& 0x7F7F7F7F7F7F7F7F))) =
      2^64 - 1 - (0x8080808080808080 - (x &&& 0x7F7F7F7F7F7F7F7F)) := by
    unfold compl u64; omega
  rw [e1, hg]
  simp only [marks, nonzeroBytes]
  have gen : ∀ y : Nat, ∃ e, e ≤ 1 ∧ (if y % 256 = 0 then 0 else 0x80) = 0x80 * e ∧ (if y % 256 = 0 then 0 else 1) = e := by
    intro y
    by_cases h : y % 256 = 0
    · exact ⟨0, by omega, by simp [h], by simp [h]⟩
    · exact ⟨1, by omega, by simp [h], by simp [h]⟩
  obtain ⟨e0, l0, p0, q0⟩ := gen x
  obtain ⟨e1, l1, p1, q1⟩ := gen (x/256)
  obtain ⟨e2, l2, p2, q2⟩ := gen (x/256/256)
  obtain ⟨e3, l3, p3, q3⟩ := gen (x/256/256/256)
  obtain ⟨e4, l4, p4, q4⟩ := gen (x/256/256/256/256)
  obtain ⟨e5, l5, p5, q5⟩ := gen (x/256/256/256/256/256)
  obtain ⟨e6, l6, p6, q6⟩ := gen (x/256/256/256/256/256/256)
  obtain ⟨e7, l7, p7, q7⟩ := gen (x/256/256/256/256/256/256/256)
  rw [p0, p1, p2, p3, p4, p5, p6, p7, q0, q1, q2, q3, q4, q5, q6, q7, Nat.shiftRight_eq_div_pow, u64]
  clear p0 p1 p2 p3 p4 p5 p6 p7 q0 q1 q2 q3 q4 q5 q6 q7 hg
  exact gather_mul l0 l1 l2 l3 l4 l5 l6 l7

/-- **C27, summary.** One bit per byte, set when the byte is not zero. -/
theorem C27_summary (x : Nat) : summary x = nonzeroBytes 8 x := summary_eq x

theorem testBit_nonzeroBytes : ∀ k x i, (nonzeroBytes k x).testBit i = decide (i < k ∧ x / 256^i % 256 ≠ 0) := by
  intro k
  induction k with
  | zero => intro x i; simp [nonzeroBytes]
  | succ k ih =>
    intro x i
    cases i with
    | zero =>
      rw [Nat.testBit_zero, nonzeroBytes]
      by_cases h : x % 256 = 0 <;> simp [h] <;> omega
    | succ i =>
      rw [Nat.testBit_succ, nonzeroBytes]
      have : ((if x % 256 = 0 then 0 else 1) + 2 * nonzeroBytes k (x / 256)) / 2 = nonzeroBytes k (x/256) := by
        split <;> omega
      rw [this, ih, Nat.pow_succ', Nat.div_div_eq_div_mul]
      simp only [Nat.add_lt_add_iff_right]

theorem lt_of_high_zero : ∀ n x i, x < 256^n → i < n → (∀ k, i < k → k < n → x / 256^k % 256 = 0) → x < 256^(i+1) := by
  intro n
  induction n with
  | zero => intro x i _ h; omega
  | succ n ih =>
    intro x i hx hi hk
    by_cases h : i = n
    · subst h; exact hx
    · apply ih x i _ (by omega) (fun k h1 h2 => hk k h1 (by omega))
      have h0 := hk n (by omega) (by omega)
      have hlt : x / 256^n < 256 := by
        rw [Nat.div_lt_iff_lt_mul (Nat.pow_pos (by omega))]
        rw [Nat.pow_succ] at hx; omega
      have : x / 256^n = 0 := by rw [Nat.mod_eq_of_lt hlt] at h0; exact h0
      rcases Nat.div_eq_zero_iff.1 this with h | h
      · have := Nat.pow_pos (n := n) (show 0 < 256 by omega); omega
      · exact h

/-- `clz` of a non-zero word. -/
theorem clz_spec {x : Nat} (hx : x < 2^64) (h0 : x ≠ 0) : ∃ k, clz x = some k ∧ k < 64 ∧ 2^(63-k) ≤ x ∧ x < 2^(64-k) := by
  have hs256 : nonzeroBytes 8 x < 256 := by
    apply Nat.lt_of_not_le
    intro hge
    have h1 := Nat.testBit_log2 (n := nonzeroBytes 8 x) (by omega)
    rw [testBit_nonzeroBytes] at h1
    simp at h1
    have := (Nat.le_log2 (k := 8) (n := nonzeroBytes 8 x) (by omega)).2 (by omega)
    omega
  have hs0 : nonzeroBytes 8 x ≠ 0 := by
    intro h
    have hall : ∀ k, k < 8 → x / 256^k % 256 = 0 := by
      intro k hk
      have := testBit_nonzeroBytes 8 x k
      rw [h, Nat.zero_testBit] at this
      by_contra hne
      simp [hk, hne] at this
    have h1 := lt_of_high_zero 8 x 0 (by omega) (by omega) (fun k _ hk => hall k hk)
    have h2 := hall 0 (by omega)
    simp at h1 h2
    omega
  obtain ⟨l1, l2, l3⟩ := log2p1_byte _ hs256 hs0
  generalize hi : log2p1 (nonzeroBytes 8 x) - 1 = i at l2
  have hi1 : log2p1 (nonzeroBytes 8 x) = i + 1 := by omega
  rw [hi1] at l3
  have hlog : (nonzeroBytes 8 x).log2 = i := by
    have a := (Nat.le_log2 (k := i) hs0).2 l2
    have b := (Nat.log2_lt (k := i+1) hs0).2 l3
    omega
  have hbit : (nonzeroBytes 8 x).testBit i = true := by rw [← hlog]; exact Nat.testBit_log2 hs0
  rw [testBit_nonzeroBytes] at hbit
  simp only [decide_eq_true_eq] at hbit
  have hhigh : ∀ k, i < k → k < 8 → x / 256^k % 256 = 0 := by
    intro k hk1 hk2
    by_contra hne
    have : (nonzeroBytes 8 x).testBit k = true := by rw [testBit_nonzeroBytes]; simp [hk2, hne]
    have h1 := Nat.ge_two_pow_of_testBit this
    have h2 : 2^(i+1) ≤ 2^k := Nat.pow_le_pow_right (by omega) (by omega)
    omega
  have hxlt := lt_of_high_zero 8 x i (by omega) hbit.1 hhigh
  have hdiv : x / 256^i < 256 := by
    rw [Nat.div_lt_iff_lt_mul (Nat.pow_pos (by omega))]
    rw [Nat.pow_succ] at hxlt; omega
  have h256 : 256^i = 2^(8*i) := by rw [Nat.pow_mul]
  have hb : (x >>> (8*i)) &&& (2^8 - 1) = x / 2^(8*i) := by
    rw [Nat.shiftRight_eq_div_pow, Nat.and_two_pow_sub_one_eq_mod, ← h256]; exact Nat.mod_eq_of_lt hdiv
  have hb0 : x / 2^(8*i) ≠ 0 := by
    rw [← h256]
    intro h
    rw [h] at hbit
    exact hbit.2 rfl
  rw [h256] at hdiv
  obtain ⟨m1, m2, m3⟩ := log2p1_byte _ hdiv hb0
  have hm8 : log2p1 (x / 2^(8*i)) ≤ 8 := by
    by_contra hge
    have : 2^8 ≤ 2^(log2p1 (x / 2^(8*i)) - 1) := Nat.pow_le_pow_right (by omega) (by omega)
    omega
  generalize hj : log2p1 (x / 2^(8*i)) - 1 = j at *
  have hj1 : log2p1 (x / 2^(8*i)) = j + 1 := by omega
  rw [hj1] at m3
  refine ⟨63 - (8*i + j), ?_, by omega, ?_, ?_⟩
  · rw [clz, if_neg h0, summary_eq, mssb8, if_neg hs0, hi, Option.bind_some, bextr, if_pos (by omega), Option.bind_some,
      if_pos (by omega), hb, mssb8, if_neg hb0, hj, Option.map_some]
  · rw [show 63 - (63 - (8*i+j)) = 8*i + j by omega, Nat.pow_add, Nat.mul_comm]
    exact (Nat.le_div_iff_mul_le (Nat.two_pow_pos _)).1 m2
  · rw [show 64 - (63 - (8*i+j)) = 8*i + (j+1) by omega, Nat.pow_add, Nat.mul_comm]
    exact (Nat.div_lt_iff_lt_mul (Nat.two_pow_pos _)).1 m3

/-- **C27, clz.** -/
theorem C27_clz (x : Nat) (hx : x < 2^64) :
    (x = 0 → clz x = some 64) ∧ (x ≠ 0 → ∃ k, clz x = some k ∧ k < 64 ∧ 2^(63-k) ≤ x ∧ x < 2^(64-k)) :=
  ⟨fun h => by subst h; rfl, clz_spec hx⟩

/-- **C27, clo.** The leading ones of `x` are the leading zeros of the complement: exactly the top `clo x` bits are set. -/
theorem C27_clo (x : Nat) (hx : x < 2^64) : ∃ k, clo x = some k ∧ k ≤ 64 ∧ 2^64 - 2^(64-k) ≤ x ∧ (k < 64 → x < 2^64 - 2^(63-k)) := by
  unfold clo
  have hc : compl x < 2^64 := by unfold compl; omega
  by_cases h0 : compl x = 0
  · refine ⟨64, by rw [h0]; rfl, by omega, ?_, by omega⟩
    unfold compl at h0
    have : 2^(64-64) = 1 := by norm_num
    omega
  · obtain ⟨k, e, hk, h1, h2⟩ := clz_spec hc h0
    refine ⟨k, e, by omega, ?_, ?_⟩
    · unfold compl at h2; omega
    · intro _
      unfold compl at h1; omega

/-- **C27, bit_width.** -/
theorem C27_bit_width (x : Nat) (hx : x < 2^64) :
    ∃ w, bitWidth x = some w ∧ (x = 0 → w = 0) ∧ (x ≠ 0 → 0 < w ∧ 2^(w-1) ≤ x ∧ x < 2^w) := by
  by_cases h0 : x = 0
  · subst h0
    exact ⟨0, rfl, fun _ => rfl, fun h => absurd rfl h⟩
  · obtain ⟨k, e, hk, h1, h2⟩ := clz_spec hx h0
    refine ⟨64 - k, by rw [bitWidth, e, Option.map_some], fun h => absurd h h0, fun _ => ⟨by omega, ?_, h2⟩⟩
    rw [show 64 - k - 1 = 63 - k by omega]; exact h1

/-- **C27, bit_floor.** The greatest power of two not above `x`. -/
theorem C27_bit_floor (x : Nat) (hx : x < 2^64) (h0 : x ≠ 0) : ∃ k, bitFloor x = some (2^k) ∧ 2^k ≤ x ∧ x < 2^(k+1) := by
  obtain ⟨k, e, hk, h1, h2⟩ := clz_spec hx h0
  refine ⟨63 - k, ?_, h1, ?_⟩
  · rw [bitFloor, if_neg h0, bitWidth, e, Option.map_some, Option.bind_some, shl1, if_pos (by omega), show 64 - k - 1 = 63 - k by omega]
  · rw [show 63 - k + 1 = 64 - k by omega]; exact h2

/-- **C27, bit_ceil.** The least power of two not below `x`, for `x ≤ 2^63`; above, the result is not representable and the shift is undefined. -/
theorem C27_bit_ceil (x : Nat) (hx : x < 2^64) :
    (x ≤ 2^63 → ∃ k, bitCeil x = some (2^k) ∧ x ≤ 2^k ∧ ∀ j, x ≤ 2^j → k ≤ j) ∧ (2^63 < x → bitCeil x = none) := by
  by_cases hx1 : x ≤ 1
  · refine ⟨fun _ => ⟨0, ?_, by omega, fun j _ => by omega⟩, fun h => by omega⟩
    have : x = 0 ∨ x = 1 := by omega
    rcases this with rfl | rfl <;> rfl
  · obtain ⟨k, e, hk, h1, h2⟩ := clz_spec (x := x-1) (by omega) (by omega)
    have hbw : bitWidth (x-1) = some (64-k) := by rw [bitWidth, e, Option.map_some]
    constructor
    · intro hle
      have hk1 : 1 ≤ k := by
        by_contra hlt
        have hk0 : k = 0 := by omega
        subst hk0
        omega
      refine ⟨64 - k, ?_, by omega, ?_⟩
      · rw [bitCeil, if_neg (by omega), hbw, Option.bind_some, shl1, if_pos (by omega)]
      · intro j hj
        by_contra hlt
        have : 2^j ≤ 2^(63-k) := Nat.pow_le_pow_right (by omega) (by omega)
        omega
    · intro hgt
      have hk0 : k = 0 := by
        by_contra hne
        have : 2^(64-k) ≤ 2^63 := Nat.pow_le_pow_right (by omega) (by omega)
        omega
      subst hk0
      rw [bitCeil, if_neg (by omega), hbw, Option.bind_some, shl1, if_neg (by omega)]

/-- **C27, has_single_bit.** -/
theorem C27_has_single_bit (x : Nat) (hx : x < 2^64) : hasSingleBit x = true ↔ ∃ k, x = 2^k := by
  unfold hasSingleBit
  by_cases h0 : x = 0
  · subst h0
    simp only [bne_self_eq_false, Bool.false_and, Bool.false_eq_true, false_iff]
    rintro ⟨k, hk⟩
    have := Nat.two_pow_pos k
    omega
  · rw [show u64 (x + 2^64 - 1) = x - 1 by unfold u64; omega]
    have := Nat.and_sub_one_eq_zero_iff_isPowerOfTwo h0
    unfold Nat.isPowerOfTwo at this
    simp [h0, this]

/-- **C27, bextr.** The `len` bits from position `start`. -/
theorem C27_bextr (x start len : Nat) (hx : x < 2^64) (hs : start < 64) : bextr x start len = some (x / 2^start % 2^len) := by
  unfold bextr
  rw [if_pos hs, Nat.shiftRight_eq_div_pow]
  refine congrArg some ?_
  split
  · rw [Nat.and_two_pow_sub_one_eq_mod]
  · rename_i hl
    have h1 : x / 2^start < 2^64 := Nat.lt_of_le_of_lt (Nat.div_le_self _ _) hx
    have h2 : 2^64 ≤ 2^len := Nat.pow_le_pow_right (by omega) (by omega)
    rw [show (0xFFFFFFFFFFFFFFFF : Nat) = 2^64 - 1 by norm_num, Nat.and_two_pow_sub_one_eq_mod, Nat.mod_eq_of_lt h1,
      Nat.mod_eq_of_lt (by omega)]

/-! ### Reversal -/

theorem xor_set : ∀ k, k < 6 → ∀ i, i < 64 → i.testBit k = true → 2^k ≤ i ∧ i ^^^ 2^k = i - 2^k := by decide +kernel
theorem xor_unset : ∀ k, k < 6 → ∀ i, i < 64 → i.testBit k = false → i ^^^ 2^k = i + 2^k ∧ i + 2^k < 64 ∧ (i + 2^k).testBit k = true := by
  decide +kernel
theorem set_low : ∀ k, k < 6 → ∀ i, i < 64 → i.testBit k = true → (i - 2^k).testBit k = false := by decide +kernel
theorem unset_low : ∀ k, k < 6 → ∀ i, i < 64 → i.testBit k = false → 2^k ≤ i → (i - 2^k).testBit k = true := by decide +kernel
theorem set_high : ∀ k, k < 6 → ∀ i, i < 64 → i.testBit k = true → i + 2^k < 64 → (i + 2^k).testBit k = false := by decide +kernel

theorem revStep_bit {lo hi k : Nat} (hk : k < 6) (hlo : ∀ i, i < 64 → lo.testBit i = !(i.testBit k))
    (hhi : ∀ i, i < 64 → hi.testBit i = i.testBit k) (hhi64 : hi < 2^64) (x : Nat) :
    revStep lo hi (2^k) x < 2^64 ∧ ∀ i, i < 64 → (revStep lo hi (2^k) x).testBit i = x.testBit (i ^^^ 2^k) := by
  constructor
  · unfold revStep
    apply Nat.or_lt_two_pow
    · exact Nat.mod_lt _ (Nat.two_pow_pos _)
    · rw [Nat.shiftRight_eq_div_pow]
      exact Nat.lt_of_le_of_lt (Nat.div_le_self _ _) (Nat.and_lt_two_pow _ hhi64)
  · intro i hi64
    have hhi' : ∀ i, hi.testBit i = (decide (i < 64) && i.testBit k) := by
      intro i
      by_cases h : i < 64
      · simp [h, hhi i h]
      · have : hi < 2^i := Nat.lt_of_lt_of_le hhi64 (Nat.pow_le_pow_right (by omega) (by omega))
        simp [h, Nat.testBit_lt_two_pow this]
    unfold revStep u64
    rw [Nat.testBit_or, Nat.testBit_mod_two_pow, Nat.testBit_shiftLeft, Nat.testBit_shiftRight, Nat.testBit_and, Nat.testBit_and,
      hhi', Nat.add_comm (2^k) i, hlo (i - 2^k) (Nat.lt_of_le_of_lt (Nat.sub_le _ _) hi64)]
    cases hb : i.testBit k
    · obtain ⟨h1, h2, h3⟩ := xor_unset k hk i hi64 hb
      rw [h1, h3]
      by_cases hge : 2^k ≤ i
      · rw [unset_low k hk i hi64 hb hge]; simp [h2]
      · simp [hge, h2]
    · obtain ⟨h1, h2⟩ := xor_set k hk i hi64 hb
      rw [h2, set_low k hk i hi64 hb]
      by_cases hlt : i + 2^k < 64
      · rw [set_high k hk i hi64 hb hlt]; simp [h1, hi64]
      · simp [hlt, h1, hi64]

theorem rev_index : ∀ i, i < 64 → (i ^^^ 2^0) < 64 ∧ (i ^^^ 2^0 ^^^ 2^1) < 64 ∧ (i ^^^ 2^0 ^^^ 2^1 ^^^ 2^2) < 64 ∧
    (i ^^^ 2^0 ^^^ 2^1 ^^^ 2^2 ^^^ 2^3) < 64 ∧ (i ^^^ 2^0 ^^^ 2^1 ^^^ 2^2 ^^^ 2^3 ^^^ 2^4) < 64 ∧
    i ^^^ 2^0 ^^^ 2^1 ^^^ 2^2 ^^^ 2^3 ^^^ 2^4 ^^^ 2^5 = 63 - i := by decide +kernel

/-- **C27, bit_reverse.** Bit `i` of the result is bit `63-i` of the argument. -/
theorem C27_bit_reverse (x : Nat) : bitReverse x < 2^64 ∧ ∀ i, i < 64 → (bitReverse x).testBit i = x.testBit (63 - i) := by
  have s5 := revStep_bit (k := 5) (lo := 0x00000000FFFFFFFF) (hi := 0xFFFFFFFF00000000) (by omega) (by decide +kernel) (by decide +kernel) (by decide)
  have s4 := revStep_bit (k := 4) (lo := 0x0000FFFF0000FFFF) (hi := 0xFFFF0000FFFF0000) (by omega) (by decide +kernel) (by decide +kernel) (by decide)
  have s3 := revStep_bit (k := 3) (lo := 0x00FF00FF00FF00FF) (hi := 0xFF00FF00FF00FF00) (by omega) (by decide +kernel) (by decide +kernel) (by decide)
  have s2 := revStep_bit (k := 2) (lo := 0x0F0F0F0F0F0F0F0F) (hi := 0xF0F0F0F0F0F0F0F0) (by omega) (by decide +kernel) (by decide +kernel) (by decide)
  have s1 := revStep_bit (k := 1) (lo := 0x3333333333333333) (hi := 0xCCCCCCCCCCCCCCCC) (by omega) (by decide +kernel) (by decide +kernel) (by decide)
  have s0 := revStep_bit (k := 0) (lo := 0x5555555555555555) (hi := 0xAAAAAAAAAAAAAAAA) (by omega) (by decide +kernel) (by decide +kernel) (by decide)
  unfold bitReverse
  refine ⟨(s0 _).1, ?_⟩
  intro i hi
  obtain ⟨r0, r1, r2, r3, r4, r5⟩ := rev_index i hi
  rw [← r5]
  refine ((s0 _).2 i hi).trans ?_
  refine ((s1 _).2 _ r0).trans ?_
  refine ((s2 _).2 _ r1).trans ?_
  refine ((s3 _).2 _ r2).trans ?_
  refine ((s4 _).2 _ r3).trans ?_
  exact (s5 _).2 _ r4

/-! ### Examples -/

example : popcnt 0xF0F0000000000001 = 9 ∧ ones 64 0xF0F0000000000001 = 9 := by decide +kernel
example : ctz 0x8000000000000000 = 63 ∧ ctz 40 = 3 ∧ cto 0b11011011 = 2 := by decide +kernel
example : clz 1 = some 63 ∧ clz 0x0B00000000000000 = some 4 ∧ clo 0xF400000000000000 = some 4 := by decide +kernel
example : bitWidth 0x36 = some 6 ∧ bitCeil 0x36 = some 64 ∧ bitFloor 0x36 = some 32 ∧ bitCeil (2^63+1) = none := by decide +kernel
example : bitReverse 3 = 0xC000000000000000 ∧ hasSingleBit 32 = true ∧ hasSingleBit 33 = false := by decide +kernel
example : bextr 0xABCDEF 8 8 = some 0xCD ∧ summary 0xAB00CD = 5 ∧ popcntE8 0xFF01 = 0x0801 := by decide +kernel
example : mssb8 0x2C = some 5 ∧ lssb8 0x2C = some 2 ∧ ctz8 0x2C = 2 ∧ clz8 0x2C = some 2 := by decide +kernel

end Verif.BitManip
