import Verif.Succinct.BvModel
/-!
The word trick of bv.hpp:153-166: among seven 9-bit fields it finds the last small block whose count is below `m`.
-/
namespace Verif.Succinct
open Verif.BitManip

/-- The low `j` fields of 9 bits. -/
def F (f : Nat → Nat) : Nat → Nat
  | 0 => 0
  | j+1 => F f j + f j * 512^j

theorem F_lt {f : Nat → Nat} : ∀ j, (∀ i, i < j → f i < 512) → F f j < 512^j
  | 0, _ => by simp [F]
  | j+1, h => by
      have ih := F_lt j (fun i hi => h i (by omega))
      have hj := h j (by omega)
      have : f j * 512^j ≤ 511 * 512^j := Nat.mul_le_mul_right _ (by omega)
      rw [F, Nat.pow_succ]
      omega

theorem F_mod {f : Nat → Nat} {k : Nat} (h : ∀ i, i < k → f i < 512) : ∀ d j, j + d = k → F f k % 512^j = F f j
  | 0, j, e => by
      have : j = k := by omega
      subst this
      exact Nat.mod_eq_of_lt (F_lt _ h)
  | d+1, j, e => by
      have ih := F_mod h d (j+1) (by omega)
      have hl := F_lt j (fun i hi => h i (by omega))
      have : F f k % 512^j = (F f k % 512^(j+1)) % 512^j := by
        rw [Nat.mod_mod_of_dvd _ (Nat.pow_dvd_pow 512 (by omega))]
      rw [this, ih, F, Nat.add_mul_mod_self_right, Nat.mod_eq_of_lt hl]

theorem add_mod_two {P s : Nat} (hs : s < 4 * P) : s % (2 * P) = if s < 2 * P then s else s - 2 * P := by
  by_cases c : s < 2 * P
  · rw [if_pos c, Nat.mod_eq_of_lt c]
  · rw [if_neg c, Nat.mod_eq_sub_mod (by omega), Nat.mod_eq_of_lt (by omega)]

/-- One binary position of a subtraction: the high digits `xd`, `ad`, `zd`, the low parts `xl`, `al`, `zl`. -/
theorem borrow_digit {P xl al zl xd ad zd : Nat} (hxl : xl < P) (hal : al < P) (hzl : zl < P) (hx : xd < 2) (ha : ad < 2) (hz : zd < 2)
    (h : (zl + P * zd + (al + P * ad)) % (2 * P) = xl + P * xd) :
    (((decide (xd = 1) ^^ decide (ad = 1) ^^ decide (zd = 1)) && ((!decide (xd = 1)) || decide (ad = 1))) || ((!decide (xd = 1)) && decide (ad = 1))) =
      decide (xl + P * xd < al + P * ad) := by
  have m2 : ∀ y : Nat, y < 2 → y = 0 ∨ y = 1 := fun y _ => by omega
  rcases m2 xd hx with rfl | rfl <;> rcases m2 ad ha with rfl | rfl <;> rcases m2 zd hz with rfl | rfl <;>
    rw [add_mod_two (by omega)] at h <;> split at h <;> simp <;> omega

theorem sub_add_mod {x a k : Nat} (ha : a < 2^64) (hk : k < 64) : (u64 (x + 2^64 - a) + a) % 2^(k+1) = x % 2^(k+1) := by
  have hd : 2^(k+1) ∣ 2^64 := Nat.pow_dvd_pow 2 (by omega)
  unfold u64
  rw [Nat.add_mod, Nat.mod_mod_of_dvd _ hd, ← Nat.add_mod, Nat.sub_add_cancel (Nat.le_trans (Nat.le_of_lt ha) (Nat.le_add_left _ _)), Nat.add_mod,
    Nat.mod_eq_zero_of_dvd hd, Nat.add_zero, Nat.mod_mod]

/-- Borrow out of bit `k` of a subtraction. -/
theorem borrow {x a k : Nat} (ha : a < 2^64) (hk : k < 64) :
    (((x.testBit k ^^ a.testBit k ^^ (u64 (x + 2^64 - a)).testBit k) && ((!x.testBit k) || a.testBit k)) || ((!x.testBit k) && a.testBit k)) =
      decide (x % 2^(k+1) < a % 2^(k+1)) := by
  have hsum := sub_add_mod (x := x) ha hk
  generalize u64 (x + 2^64 - a) = z at hsum
  have hP : 0 < (2:Nat)^k := Nat.two_pow_pos k
  have hmod : ∀ z : Nat, z % 2^(k+1) = z % 2^k + 2^k * (z / 2^k % 2) := fun z => by rw [Nat.pow_succ, Nat.mod_mul]
  rw [Nat.testBit_eq_decide_div_mod_eq, Nat.testBit_eq_decide_div_mod_eq, Nat.testBit_eq_decide_div_mod_eq]
  rw [Nat.add_mod, hmod z, hmod a, hmod x, Nat.pow_succ, Nat.mul_comm (2^k) 2] at hsum
  rw [hmod x, hmod a]
  exact borrow_digit (Nat.mod_lt _ hP) (Nat.mod_lt _ hP) (Nat.mod_lt _ hP) (Nat.mod_lt _ (by omega)) (Nat.mod_lt _ (by omega)) (Nat.mod_lt _ (by omega)) hsum

theorem sm_bit : ∀ k, k < 64 → (0x4020100804020100 : Nat).testBit k = decide (k % 9 = 8) := by decide +kernel

/-- The flags before gathering. -/
def flagsRaw (x a xda : Nat) : Nat :=
  ((x ^^^ a ^^^ xda) &&& ((BitManip.compl x ||| a) &&& 0x4020100804020100)) ||| ((BitManip.compl x &&& a) &&& 0x4020100804020100)

theorem flagsRaw_bit {x a : Nat} (hx : x < 2^64) (ha : a < 2^64) {k : Nat} (hk : k < 64) :
    (flagsRaw x a (u64 (x + 2^64 - a))).testBit k = (decide (k % 9 = 8) && decide (x % 2^(k+1) < a % 2^(k+1))) := by
  rw [← borrow ha hk]
  unfold flagsRaw
  rw [Nat.testBit_or, Nat.testBit_and, Nat.testBit_and, Nat.testBit_and, Nat.testBit_and, Nat.testBit_xor, Nat.testBit_xor, Nat.testBit_or, sm_bit k hk,
    compl_testBit hx hk]
  cases x.testBit k <;> cases a.testBit k <;> cases (u64 (x + 2^64 - a)).testBit k <;> cases (decide (k % 9 = 8)) <;> rfl

/-- The flags when exactly the low `n` fields are flagged. -/
def flagNum : Nat → Nat
  | 0 => 0
  | n+1 => flagNum n + 2^(9 * n + 8)

theorem flagNum_bit : ∀ n, n < 8 → ∀ k, k < 64 → (flagNum n).testBit k = (decide (k % 9 = 8) && decide (k / 9 < n)) := by decide +kernel
theorem flagNum_lt : ∀ n, n < 8 → flagNum n < 2^64 := by decide +kernel
theorem flagNum_clz : ∀ n, n < 8 → clz8 (u64 (flagNum n * 0x0001010101010101) >>> 56) = some (8 - n) := by decide +kernel

theorem flagsRaw_eq {x a n : Nat} (hx : x < 2^64) (ha : a < 2^64) (hn : n < 8)
    (h : ∀ j, j < 7 → (x % 2^(9 * j + 9) < a % 2^(9 * j + 9) ↔ j < n)) : flagsRaw x a (u64 (x + 2^64 - a)) = flagNum n := by
  apply Nat.eq_of_testBit_eq
  intro k
  by_cases hk : k < 64
  · rw [flagsRaw_bit hx ha hk, flagNum_bit n hn k hk]
    by_cases h9 : k % 9 = 8
    · have := h (k / 9) (by omega)
      rw [show 9 * (k / 9) + 9 = k + 1 by omega] at this
      rw [decide_eq_true h9, Bool.true_and, Bool.true_and]
      exact decide_eq_decide.mpr this
    · rw [decide_eq_false h9]; rfl
  · have hc : BitManip.compl x < 2^64 := by unfold BitManip.compl; omega
    have hlt : flagsRaw x a (u64 (x + 2^64 - a)) < 2^64 := by
      unfold flagsRaw
      exact Nat.or_lt_two_pow (Nat.lt_of_le_of_lt Nat.and_le_right (Nat.lt_of_le_of_lt Nat.and_le_right (by decide)))
        (Nat.lt_of_le_of_lt Nat.and_le_right (by decide))
    have hp : (2:Nat)^64 ≤ 2^k := Nat.pow_le_pow_right (by omega) (by omega)
    rw [Nat.testBit_lt_two_pow (Nat.lt_of_lt_of_le hlt hp), Nat.testBit_lt_two_pow (Nat.lt_of_lt_of_le (flagNum_lt n hn) hp)]

theorem or_one {xda : Nat} (hx : xda < 2^64) : u64 (BitManip.compl xda <<< 1) ||| 1 = 2^64 - 1 - 2 * (xda % 2^63) := by
  have e : u64 (BitManip.compl xda <<< 1) = (2^63 - 1 - xda % 2^63) <<< 1 := by
    unfold u64 BitManip.compl
    rw [Nat.shiftLeft_eq, Nat.shiftLeft_eq]; omega
  rw [e, ← Nat.shiftLeft_add_eq_or_of_lt (by decide), Nat.shiftLeft_eq]
  omega

theorem shift_val {K N U q M T : Nat} (hKN : 2 * (K * N) = T) (hU : U < N) (hM : M + 1 + 2 * (U + N * q) = T) :
    M * K % T = T - K * (1 + 2 * U) ∨ K = 0 := by
  rcases Nat.eq_zero_or_pos K with h0 | hK
  · right; exact h0
  left
  have h1 : K * (1 + 2 * U) < T := by
    rw [← hKN]
    have : K * (1 + 2 * U) < K * (2 * N) := Nat.mul_lt_mul_of_pos_left (by omega) hK
    rw [Nat.mul_left_comm] at this
    exact this
  have h2 : M * K + K * (1 + 2 * U) + T * q = T * K := by
    have : (M + 1 + 2 * (U + N * q)) * K = T * K := by rw [hM]
    rw [← this, ← hKN]; ring
  have h3 : M * K + T * (q + 1) = (T - K * (1 + 2 * U)) + T * K := by
    rw [Nat.mul_add]; omega
  have h4 : (M * K + T * (q + 1)) % T = ((T - K * (1 + 2 * U)) + T * K) % T := by rw [h3]
  have h5 : 0 < K * (1 + 2 * U) := Nat.mul_pos hK (by omega)
  rwa [Nat.add_mul_mod_self_left, Nat.add_mul_mod_self_left, Nat.mod_eq_of_lt (by omega : T - K * (1 + 2 * U) < T)] at h4

/-- The value fed to `clz` at line 164. -/
theorem shifted {xda n U : Nat} (hn : n < 8) (hU : xda % 2^(9 * n) = U) (hx : xda < 2^64) :
    u64 ((u64 (BitManip.compl xda <<< 1) ||| 1) <<< (9 * (7 - n))) = 2^64 - 2^(9 * (7 - n)) * (1 + 2 * U) := by
  rw [or_one hx]
  have hUlt : U < 2^(9 * n) := by rw [← hU]; exact Nat.mod_lt _ (Nat.two_pow_pos _)
  have hsplit : xda % 2^63 = U + 2^(9 * n) * (xda / 2^(9 * n) % 2^(63 - 9 * n)) := by
    rw [← hU, ← Nat.mod_mul, ← Nat.pow_add, show 9 * n + (63 - 9 * n) = 63 by omega]
  have hlt : xda % 2^63 < 2^63 := Nat.mod_lt _ (Nat.two_pow_pos _)
  have hKN : 2 * (2^(9 * (7 - n)) * 2^(9 * n)) = 2^64 := by
    rw [← Nat.pow_add, ← Nat.pow_succ', show (9 * (7 - n) + 9 * n).succ = 64 by omega]
  rw [Nat.shiftLeft_eq, u64]
  have := shift_val (M := 2^64 - 1 - 2 * (xda % 2^63)) (q := xda / 2^(9 * n) % 2^(63 - 9 * n)) hKN hUlt (by
    rw [← hsplit]; omega)
  rcases this with h | h
  · exact h
  · exact absurd h (Nat.ne_of_gt (Nat.two_pow_pos _))

theorem clz_of_bounds {x k : Nat} (hx : x < 2^64) (h1 : 2^k ≤ x) (h2 : x < 2^(k+8)) : ∃ c, clz x = some c ∧ c ≤ 63 - k ∧ 56 ≤ c + k := by
  have hp := Nat.two_pow_pos k
  obtain ⟨c, e, hc, l, u⟩ := clz_spec hx (by omega)
  refine ⟨c, e, ?_, ?_⟩
  · by_contra hcon
    have : (2:Nat)^(64 - c) ≤ 2^k := Nat.pow_le_pow_right (by omega) (by omega)
    omega
  · by_contra hcon
    have : (2:Nat)^(k+8) ≤ 2^(63 - c) := Nat.pow_le_pow_right (by omega) (by omega)
    omega

/-- The trick: given the counts `g 1 ≤ ... ≤ g 7` of the small blocks (`g s` stands in the field `7 - s`), with steps of at most 64, and `v = m - 1`,
the answer is the last `s` with `g s ≤ v`. -/
theorem findS_spec (g : Nat → Nat) (v S : Nat) (hv : v < 512) (h0 : g 0 = 0) (hmono : ∀ s, s < 7 → g s ≤ g (s + 1)) (hstep : ∀ s, s < 7 → g (s + 1) ≤ g s + 64)
    (hS : S ≤ 7) (hle : g S ≤ v) (hgt : S < 7 → v < g (S + 1)) : findS (v + 1) (F (fun j => g (7 - j)) 7) = some S := by
  have hm : ∀ d s, s + d ≤ 7 → g s ≤ g (s + d) := by
    intro d
    induction d with
    | zero => intro s _; exact Nat.le_refl _
    | succ d ih => intro s hs; exact Nat.le_trans (ih s (by omega)) (hmono (s + d) (by omega))
  have hb : ∀ s, s ≤ 7 → g s ≤ 64 * s := by
    intro s
    induction s with
    | zero => intro _; omega
    | succ s ih => intro hs; have := ih (by omega); have := hstep s (by omega); omega
  have hf : ∀ i, i < 7 → (fun j => g (7 - j)) i < 512 := fun i hi => by
    have := hb (7 - i) (by omega)
    show g (7 - i) < 512
    omega
  have hvf : ∀ i, i < 7 → (fun _ : Nat => v) i < 512 := fun _ _ => hv
  have hx : u64 ((v + 1 - 1) * 0x0040201008040201) = F (fun _ => v) 7 := by
    simp only [F, u64, Nat.add_sub_cancel]
    omega
  have hA := F_lt 7 hf
  have hX := F_lt 7 hvf
  have h63 : (512:Nat)^7 < 2^64 := by decide
  have e512 : ∀ j, (2:Nat)^(9 * j) = 512^j := fun j => by rw [Nat.pow_mul]
  -- prefix comparison
  have cmp_gt : ∀ j, j < 7 → v < g (7 - j) → F (fun _ => v) (j+1) < F (fun j => g (7 - j)) (j+1) := by
    intro j hj hlt
    have := F_lt j (fun i hi => hvf i (by omega))
    have : (v + 1) * 512^j ≤ g (7 - j) * 512^j := Nat.mul_le_mul_right _ (by omega)
    rw [Nat.add_mul] at this
    simp only [F]
    omega
  have cmp_lt : ∀ j, j < 7 → g (7 - j) < v → F (fun j => g (7 - j)) (j+1) < F (fun _ => v) (j+1) := by
    intro j hj hlt
    have := F_lt j (fun i hi => hf i (by omega))
    have : (g (7 - j) + 1) * 512^j ≤ v * 512^j := Nat.mul_le_mul_right _ (by omega)
    rw [Nat.add_mul] at this
    simp only [F]
    omega
  have cmp_eq : ∀ j, j < 7 → g (7 - j) = v → (F (fun _ => v) (j+1) < F (fun j => g (7 - j)) (j+1) ↔ F (fun _ => v) j < F (fun j => g (7 - j)) j) := by
    intro j hj he
    simp only [F, he]
    omega
  -- the number of flagged fields
  have hn : ∃ n, n < 8 ∧ (∀ j, j < 7 → (F (fun _ => v) (j+1) < F (fun j => g (7 - j)) (j+1) ↔ j < n)) ∧
      (S < 7 → 7 - S ≤ n ∧ ∀ j, 7 - S ≤ j → j < n → g (7 - j) = v) ∧ (S = 7 → n = 0) := by
    by_cases hS7 : S = 7
    · refine ⟨0, by omega, ?_, by omega, fun _ => rfl⟩
      have : ∀ j, j ≤ 7 → F (fun j => g (7 - j)) j ≤ F (fun _ => v) j := by
        intro j
        induction j with
        | zero => intro _; exact Nat.le_refl _
        | succ j ih =>
          intro hj
          have h1 := ih (by omega)
          have h2 := hm j (7 - j) (by omega)
          rw [show 7 - j + j = 7 by omega] at h2
          have h3 : g (7 - j) * 512^j ≤ v * 512^j := Nat.mul_le_mul_right _ (by rw [hS7] at hle; omega)
          simp only [F]
          omega
      intro j hj
      have := this (j+1) (by omega)
      omega
    · -- fields above 7 - S: equal ones first, then smaller ones
      have hlow : ∀ j, j < 7 - S → F (fun _ => v) (j+1) < F (fun j => g (7 - j)) (j+1) := by
        intro j hj
        refine cmp_gt j (by omega) ?_
        have h2 := hm (7 - j - (S + 1)) (S + 1) (by omega)
        rw [show S + 1 + (7 - j - (S + 1)) = 7 - j by omega] at h2
        have := hgt (by omega)
        omega
      have hup : ∀ d, ∃ n, 7 - S ≤ n ∧ n ≤ 7 - S + d ∧ (n < 7 - S + d → n < 7 → g (7 - n) < v) ∧ (∀ j, 7 - S ≤ j → j < n → g (7 - j) = v) := by
        intro d
        induction d with
        | zero => exact ⟨7 - S, by omega, by omega, by omega, by omega⟩
        | succ d ih =>
          obtain ⟨n, a1, a2, a3, a4⟩ := ih
          by_cases hnd : n < 7 - S + d
          · exact ⟨n, a1, by omega, fun _ => a3 hnd, a4⟩
          · by_cases he : g (7 - n) = v
            · refine ⟨n + 1, by omega, by omega, by omega, ?_⟩
              intro j h1 h2
              rcases Nat.lt_succ_iff_lt_or_eq.mp h2 with h | h
              · exact a4 j h1 h
              · rw [h]; exact he
            · refine ⟨n, a1, by omega, ?_, a4⟩
              intro _ hn7
              have h2 := hm (S - (7 - n)) (7 - n) (by omega)
              rw [show 7 - n + (S - (7 - n)) = S by omega] at h2
              omega
      obtain ⟨n, a1, a2, a3, a4⟩ := hup S
      refine ⟨n, by omega, ?_, fun _ => ⟨a1, a4⟩, by omega⟩
      intro j hj
      constructor
      · intro hfl
        by_contra hjn
        have hsm : g (7 - j) < v := by
          have h1 := a3 (by omega) (by omega)
          have h2 := hm (j - n) (7 - j) (by omega)
          rw [show 7 - j + (j - n) = 7 - n by omega] at h2
          omega
        have := cmp_lt j hj hsm
        omega
      · intro hjn
        by_cases hjl : j < 7 - S
        · exact hlow j hjl
        · have : ∀ e, 7 - S + e ≤ j → F (fun _ => v) (7 - S + e) < F (fun j => g (7 - j)) (7 - S + e) := by
            intro e
            induction e with
            | zero =>
              intro _
              have := hlow (7 - S - 1) (by omega)
              rwa [show 7 - S - 1 + 1 = 7 - S + 0 by omega] at this
            | succ e ih =>
              intro he
              exact (cmp_eq (7 - S + e) (by omega) (a4 _ (by omega) (by omega))).mpr (ih (by omega))
          have h1 := this (j - (7 - S)) (by omega)
          rw [show 7 - S + (j - (7 - S)) = j by omega] at h1
          exact (cmp_eq j hj (a4 j (by omega) hjn)).mpr h1
  obtain ⟨n, hn8, hflag, hlt7, heq7⟩ := hn
  unfold findS
  dsimp only
  rw [hx]
  have hflags : flags (F (fun _ => v) 7) (F (fun j => g (7 - j)) 7) (u64 (F (fun _ => v) 7 + 2^64 - F (fun j => g (7 - j)) 7)) =
      u64 (flagNum n * 0x0001010101010101) >>> 56 := by
    have := flagsRaw_eq (x := F (fun _ => v) 7) (a := F (fun j => g (7 - j)) 7) (n := n) (by omega) (by omega) hn8 (by
      intro j hj
      rw [show 9 * j + 9 = 9 * (j+1) by omega, e512, F_mod hvf (7 - (j+1)) (j+1) (by omega), F_mod hf (7 - (j+1)) (j+1) (by omega)]
      exact hflag j hj)
    rw [← this]
    rfl
  rw [hflags, pick, flagNum_clz n hn8, Option.bind_some, if_neg (by omega), show 8 - n - 1 = 7 - n by omega]
  have hxlt : u64 (F (fun _ => v) 7 + 2^64 - F (fun j => g (7 - j)) 7) < 2^64 := by unfold u64; omega
  rw [shifted hn8 rfl hxlt]
  by_cases hS7 : S = 7
  · have hn0 := heq7 hS7
    subst hn0
    have : 2^64 - 2^(9 * (7 - 0)) * (1 + 2 * (u64 (F (fun _ => v) 7 + 2^64 - F (fun j => g (7 - j)) 7) % 2^(9*0))) = 2^63 := by
      rw [Nat.mul_zero, Nat.pow_zero, Nat.mod_one]
      decide
    rw [this, show clz (2^63) = some 0 by decide +kernel, hS7]
    rfl
  · obtain ⟨hn1, heqs⟩ := hlt7 (by omega)
    -- the difference of the low `n` fields
    have hDn : ∀ e, 7 - S + e ≤ n → F (fun j => g (7 - j)) (7 - S + e) + F (fun _ => v) (7 - S) = F (fun _ => v) (7 - S + e) + F (fun j => g (7 - j)) (7 - S) := by
      intro e
      induction e with
      | zero => intro _; exact Nat.add_comm _ _
      | succ e ih =>
        intro he
        have h1 := ih (by omega)
        have h2 := heqs (7 - S + e) (by omega) (by omega)
        rw [show 7 - S + (e + 1) = (7 - S + e) + 1 by omega]
        simp only [F, h2]
        omega
    have hDn' := hDn (n - (7 - S)) (by omega)
    rw [show 7 - S + (n - (7 - S)) = n by omega] at hDn'
    obtain ⟨D, hD⟩ : ∃ D, F (fun j => g (7 - j)) (7 - S) = F (fun _ => v) (7 - S) + D := by
      have := (hflag (7 - S - 1) (by omega)).mpr (by omega)
      rw [show 7 - S - 1 + 1 = 7 - S by omega] at this
      exact ⟨F (fun j => g (7 - j)) (7 - S) - F (fun _ => v) (7 - S), by omega⟩
    have hDlo : 512^(6 - S) ≤ D ∧ D < 65 * 512^(6 - S) := by
      have hv7 := hgt (by omega)
      have hs7 := hstep S (by omega)
      have l1 := F_lt (f := fun j => g (7 - j)) (6 - S) (fun i hi => hf i (by omega))
      have l3 : F (fun _ => v) (6 - S) ≤ F (fun j => g (7 - j)) (6 - S) := by
        by_cases h6 : 6 - S = 0
        · rw [h6]; exact Nat.le_refl _
        · have := (hflag (6 - S - 1) (by omega)).mpr (by omega)
          rw [show 6 - S - 1 + 1 = 6 - S by omega] at this
          omega
      rw [show 7 - S = (6 - S) + 1 by omega] at hD
      simp only [F] at hD
      rw [show 7 - (6 - S) = S + 1 by omega] at hD
      have m1 : (v + 1) * 512^(6-S) ≤ g (S+1) * 512^(6-S) := Nat.mul_le_mul_right _ (by omega)
      have m2 : g (S+1) * 512^(6-S) ≤ (v + 64) * 512^(6-S) := Nat.mul_le_mul_right _ (by omega)
      rw [Nat.add_mul] at m1 m2
      constructor <;> omega
    have hpos : 0 < (512:Nat)^(6 - S) := Nat.pos_of_ne_zero (by simp)
    -- the low part of the difference word
    have hAn := F_lt n (fun i hi => hf i (by omega))
    have hXn := F_lt n (fun i hi => hvf i (by omega))
    have hU : u64 (F (fun _ => v) 7 + 2^64 - F (fun j => g (7 - j)) 7) % 2^(9 * n) = 512^n - D := by
      have hs := sub_add_mod (x := F (fun _ => v) 7) (a := F (fun j => g (7 - j)) 7) (k := 9 * n - 1) (by omega) (by omega)
      rw [show 9 * n - 1 + 1 = 9 * n by omega, e512, Nat.add_mod, F_mod hvf (7 - n) n (by omega), F_mod hf (7 - n) n (by omega)] at hs
      rw [e512]
      have hz := Nat.mod_lt (u64 (F (fun _ => v) 7 + 2^64 - F (fun j => g (7 - j)) 7)) (show 0 < 512^n by omega)
      generalize u64 (F (fun _ => v) 7 + 2^64 - F (fun j => g (7 - j)) 7) % 512^n = z at *
      by_cases c : z + F (fun j => g (7 - j)) n < 512^n
      · rw [Nat.mod_eq_of_lt c] at hs; omega
      · rw [Nat.mod_eq_sub_mod (by omega), Nat.mod_eq_of_lt (by omega)] at hs; omega
    rw [hU]
    have hval : 2^64 - 2^(9 * (7 - n)) * (1 + 2 * (512^n - D)) = 2^(9 * (7 - n)) * (2 * D - 1) := by
      have hKN : 2 * (2^(9 * (7 - n)) * 512^n) = 2^64 := by
        rw [← e512, ← Nat.pow_add, ← Nat.pow_succ', show (9 * (7 - n) + 9 * n).succ = 64 by omega]
      have hDn2 : D ≤ 512^n := by omega
      have h2 : 2^(9 * (7 - n)) * (1 + 2 * (512^n - D)) + 2^(9 * (7 - n)) * (2 * D - 1) = 2^64 := by
        rw [← Nat.mul_add, ← hKN, Nat.mul_left_comm 2]
        congr 1
        omega
      omega
    rw [hval]
    have hlo2 : 2^(9 * (7 - n) + 9 * (6 - S)) ≤ 2^(9 * (7 - n)) * (2 * D - 1) := by
      rw [Nat.pow_add, e512 (6 - S)]
      exact Nat.mul_le_mul_left _ (by omega)
    have hhi2 : 2^(9 * (7 - n)) * (2 * D - 1) < 2^(9 * (7 - n) + 9 * (6 - S) + 8) := by
      rw [Nat.add_assoc, Nat.pow_add, Nat.pow_add 2 (9 * (6 - S)) 8, e512 (6 - S)]
      exact Nat.mul_lt_mul_of_pos_left (by omega) (Nat.two_pow_pos _)
    have h64 : 2^(9 * (7 - n)) * (2 * D - 1) < 2^64 := Nat.lt_of_lt_of_le hhi2 (Nat.pow_le_pow_right (by omega) (by omega))
    obtain ⟨c, ec, c1, c2⟩ := clz_of_bounds h64 hlo2 hhi2
    rw [ec, Option.map_some, if_pos (by omega)]
    refine congrArg some ?_
    omega

end Verif.Succinct
