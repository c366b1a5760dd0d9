import Verif.SearchFloat.Props
import Mathlib.Algebra.Order.Field.Power
import Mathlib.Algebra.Order.Floor.Ring
/-!
# C146 for doubles: what `rd64` does, and that `bisect_float` stays between its arguments
-/
namespace Verif.SearchFloat

theorem pow2_eq (e : Int) : pow2 e = (2 : ℚ)^e := by
  unfold pow2
  by_cases h : 0 ≤ e
  · rw [if_pos h]
    obtain ⟨n, rfl⟩ := Int.eq_ofNat_of_zero_le h
    rw [Int.toNat_natCast, zpow_natCast]
    push_cast
    rfl
  · rw [if_neg h]
    obtain ⟨n, hn⟩ := Int.eq_ofNat_of_zero_le (show 0 ≤ -e by omega)
    obtain rfl : e = -(n : Int) := by omega
    rw [neg_neg, Int.toNat_natCast, zpow_neg, zpow_natCast, one_div]
    push_cast
    rfl

theorem expo_spec {x : ℚ} (hx : x ≠ 0) : (2 : ℚ)^(expo x) ≤ |x| ∧ |x| < (2 : ℚ)^(expo x + 1) := by
  have h2 : (2 : ℚ) ≠ 0 := two_ne_zero
  have ha : x.num.natAbs ≠ 0 := by rw [Int.natAbs_ne_zero]; exact Rat.num_ne_zero.2 hx
  have hd : x.den ≠ 0 := x.den_nz
  have hxe : |x| = (x.num.natAbs : ℚ) / (x.den : ℚ) := by
    conv_lhs => rw [← Rat.num_div_den x]
    rw [abs_div, Nat.abs_cast, Nat.cast_natAbs, Int.cast_abs]
  have hdp : (0 : ℚ) < x.den := by exact_mod_cast Nat.pos_of_ne_zero hd
  have a1 : ((2 : ℚ)^Nat.log2 x.num.natAbs) ≤ x.num.natAbs := by exact_mod_cast Nat.log2_self_le ha
  have a2 : (x.num.natAbs : ℚ) < (2 : ℚ)^(Nat.log2 x.num.natAbs + 1) := by exact_mod_cast Nat.lt_log2_self
  have d1 : ((2 : ℚ)^Nat.log2 x.den) ≤ x.den := by exact_mod_cast Nat.log2_self_le hd
  have d2 : (x.den : ℚ) < (2 : ℚ)^(Nat.log2 x.den + 1) := by exact_mod_cast Nat.lt_log2_self
  have hexp : expo x = if |x| < (2 : ℚ)^((Nat.log2 x.num.natAbs : Int) - Nat.log2 x.den) then (Nat.log2 x.num.natAbs : Int) - Nat.log2 x.den - 1 else (Nat.log2 x.num.natAbs : Int) - Nat.log2 x.den := by
    unfold expo
    dsimp only
    rw [pow2_eq]
  generalize Nat.log2 x.num.natAbs = p at *
  generalize Nat.log2 x.den = q at *
  have hi : |x| < (2 : ℚ)^((p : Int) - q + 1) := by
    have e : (2 : ℚ)^((p : Int) - q + 1) = 2^(p+1) / 2^q := by
      rw [zpow_add_one₀ h2, zpow_sub₀ h2, zpow_natCast, zpow_natCast, pow_succ]
      ring
    rw [hxe, e, div_lt_div_iff₀ hdp (by positivity)]
    calc (x.num.natAbs : ℚ) * 2^q ≤ x.num.natAbs * x.den := mul_le_mul_of_nonneg_left d1 (Nat.cast_nonneg _)
      _ < 2^(p+1) * x.den := mul_lt_mul_of_pos_right a2 hdp
  have lo : (2 : ℚ)^((p : Int) - q - 1) ≤ |x| := by
    have e : (2 : ℚ)^((p : Int) - q - 1) = 2^p / 2^(q+1) := by
      rw [zpow_sub_one₀ h2, zpow_sub₀ h2, zpow_natCast, zpow_natCast, pow_succ]
      field_simp
    rw [hxe, e, div_le_div_iff₀ (by positivity) hdp]
    calc (2 : ℚ)^p * x.den ≤ 2^p * 2^(q+1) := mul_le_mul_of_nonneg_left d2.le (by positivity)
      _ ≤ x.num.natAbs * 2^(q+1) := mul_le_mul_of_nonneg_right a1 (by positivity)
  by_cases hc : |x| < (2 : ℚ)^((p : Int) - q)
  · rw [hexp, if_pos hc, sub_add_cancel]
    exact ⟨lo, hc⟩
  · rw [hexp, if_neg hc]
    exact ⟨not_lt.1 hc, hi⟩

theorem near_bounds (x : ℚ) : (x.floor : ℚ) ≤ x ∧ x < x.floor + 1 := ⟨Rat.floor_le x, by have := Rat.lt_floor_add_one x; push_cast at this; exact this⟩

theorem near_cases (x : ℚ) : (near x = x.floor ∧ x - x.floor ≤ 1/2) ∨ (near x = x.floor + 1 ∧ 1/2 ≤ x - x.floor) := by
  unfold near
  dsimp only
  split
  · rename_i h; exact Or.inl ⟨rfl, h.le⟩
  · rename_i h
    split
    · rename_i h'; exact Or.inr ⟨rfl, h'.le⟩
    · rename_i h'
      split
      · exact Or.inl ⟨rfl, not_lt.1 h'⟩
      · exact Or.inr ⟨rfl, not_lt.1 h⟩

theorem le_near {m : Int} {x : ℚ} (h : (m : ℚ) ≤ x) : m ≤ near x := by
  have : m ≤ x.floor := Rat.le_floor_iff.2 h
  rcases near_cases x with h | h <;> omega

theorem near_le {m : Int} {x : ℚ} (h : x ≤ (m : ℚ)) : near x ≤ m := by
  obtain ⟨b1, b2⟩ := near_bounds x
  rcases near_cases x with ⟨e, h'⟩ | ⟨e, h'⟩
  · rw [e]; have : (x.floor : ℚ) ≤ m := b1.trans h; exact_mod_cast this
  · rw [e]
    by_contra hc
    have h3 : m ≤ x.floor := by omega
    have h4 : (m : ℚ) ≤ x.floor := by exact_mod_cast h3
    linarith

theorem near_mono {x y : ℚ} (h : x ≤ y) : near x ≤ near y := by
  by_cases hf : x.floor = y.floor
  · by_cases he : x = y
    · rw [he]
    · have hlt : x < y := lt_of_le_of_ne h he
      rcases near_cases x with ⟨e, h1⟩ | ⟨e, h1⟩ <;> rcases near_cases y with ⟨e', h2⟩ | ⟨e', h2⟩
      · omega
      · omega
      · rw [hf] at h1; linarith
      · omega
  · have h1 : x.floor ≤ y.floor := Rat.le_floor_iff.2 ((near_bounds x).1.trans h)
    have h2 : x ≤ ((x.floor + 1 : Int) : ℚ) := by push_cast; exact (near_bounds x).2.le
    have h3 : ((x.floor + 1 : Int) : ℚ) ≤ y := by
      have : x.floor + 1 ≤ y.floor := by omega
      exact Rat.le_floor_iff.1 this
    exact (near_le h2).trans (le_near h3)

/-- The unit in the last place of `x`. -/
def ulp (x : ℚ) : ℚ := (2 : ℚ)^(expo x - 52)

theorem ulp_pos (x : ℚ) : 0 < ulp x := zpow_pos two_pos _

theorem rd64_eq {x : ℚ} (hx : x ≠ 0) : rd64 x = near (x / ulp x) * ulp x := by
  unfold rd64 ulp
  rw [if_neg hx, pow2_eq]

theorem le_rd64 {m : Int} {x : ℚ} (hx : x ≠ 0) (h : m * ulp x ≤ x) : m * ulp x ≤ rd64 x := by
  rw [rd64_eq hx]
  have : m ≤ near (x / ulp x) := le_near ((le_div_iff₀ (ulp_pos x)).2 h)
  exact mul_le_mul_of_nonneg_right (by exact_mod_cast this) (ulp_pos x).le

theorem rd64_le {m : Int} {x : ℚ} (hx : x ≠ 0) (h : x ≤ m * ulp x) : rd64 x ≤ m * ulp x := by
  rw [rd64_eq hx]
  have : near (x / ulp x) ≤ m := near_le ((div_le_iff₀ (ulp_pos x)).2 h)
  exact mul_le_mul_of_nonneg_right (by exact_mod_cast this) (ulp_pos x).le

theorem lo_ulp (x : ℚ) : ((2^52 : Int) : ℚ) * ulp x = 2^(expo x) := by
  unfold ulp
  rw [zpow_sub₀ two_ne_zero]
  push_cast
  field_simp

theorem hi_ulp (x : ℚ) : ((2^53 : Int) : ℚ) * ulp x = 2^(expo x + 1) := by
  rw [zpow_add_one₀ two_ne_zero, ← lo_ulp]
  push_cast
  ring

theorem rd64_nonneg {x : ℚ} (h : 0 ≤ x) : 0 ≤ rd64 x := by
  by_cases hx : x = 0
  · rw [hx]; exact le_of_eq (if_pos rfl).symm
  · have := le_rd64 (m := 0) hx (by push_cast; rw [zero_mul]; exact h)
    push_cast at this
    rwa [zero_mul] at this

theorem rd64_nonpos {x : ℚ} (h : x ≤ 0) : rd64 x ≤ 0 := by
  by_cases hx : x = 0
  · rw [hx]; exact le_of_eq (if_pos rfl)
  · have := rd64_le (m := 0) hx (by push_cast; rw [zero_mul]; exact h)
    push_cast at this
    rwa [zero_mul] at this

theorem expo_le {x y : ℚ} (hx : x ≠ 0) (hy : y ≠ 0) (h : |x| ≤ |y|) : expo x ≤ expo y := by
  have h1 := (expo_spec hx).1
  have h2 := (expo_spec hy).2
  have := (zpow_lt_zpow_iff_right₀ (one_lt_two (α := ℚ))).1 ((h1.trans h).trans_lt h2)
  omega

theorem rd64_mono {x y : ℚ} (h : x ≤ y) : rd64 x ≤ rd64 y := by
  have one : (1 : ℚ) ≤ 2 := one_le_two
  by_cases hx0 : 0 ≤ x
  · by_cases hx : x = 0
    · rw [hx]; exact (rd64_nonpos le_rfl).trans (rd64_nonneg (hx ▸ h))
    · have hxp : 0 < x := lt_of_le_of_ne hx0 (Ne.symm hx)
      have hy : y ≠ 0 := (lt_of_lt_of_le hxp h).ne'
      have he := expo_le hx hy (by rw [abs_of_pos hxp, abs_of_pos (hxp.trans_le h)]; exact h)
      rcases he.eq_or_lt with he | he
      · rw [rd64_eq hx, rd64_eq hy]
        have hu : ulp x = ulp y := by unfold ulp; rw [he]
        rw [hu]
        have := near_mono (div_le_div_of_nonneg_right h (ulp_pos y).le)
        exact mul_le_mul_of_nonneg_right (by exact_mod_cast this) (ulp_pos y).le
      · have a := (expo_spec hx).2
        have b := (expo_spec hy).1
        rw [abs_of_pos hxp] at a
        rw [abs_of_pos (hxp.trans_le h)] at b
        have h1 := rd64_le hx (m := 2^53) (by rw [hi_ulp]; exact a.le)
        have h2 := le_rd64 hy (m := 2^52) (by rw [lo_ulp]; exact b)
        rw [hi_ulp] at h1
        rw [lo_ulp] at h2
        exact h1.trans ((zpow_le_zpow_right₀ one (by omega)).trans h2)
  · have hxn : x < 0 := not_le.1 hx0
    by_cases hy0 : 0 ≤ y
    · exact (rd64_nonpos hxn.le).trans (rd64_nonneg hy0)
    · have hyn : y < 0 := not_le.1 hy0
      have he := expo_le hyn.ne hxn.ne (by rw [abs_of_neg hxn, abs_of_neg hyn]; linarith)
      rcases he.eq_or_lt with he | he
      · rw [rd64_eq hxn.ne, rd64_eq hyn.ne]
        have hu : ulp x = ulp y := by unfold ulp; rw [he]
        rw [hu]
        have := near_mono (div_le_div_of_nonneg_right h (ulp_pos y).le)
        exact mul_le_mul_of_nonneg_right (by exact_mod_cast this) (ulp_pos y).le
      · have a := (expo_spec hxn.ne).1
        have b := (expo_spec hyn.ne).2
        rw [abs_of_neg hxn] at a
        rw [abs_of_neg hyn] at b
        have h1 := rd64_le hxn.ne (m := -2^52) (by rw [Int.cast_neg, neg_mul, lo_ulp]; linarith)
        have h2 := le_rd64 hyn.ne (m := -2^53) (by rw [Int.cast_neg, neg_mul, hi_ulp]; linarith)
        rw [Int.cast_neg, neg_mul, lo_ulp] at h1
        rw [Int.cast_neg, neg_mul, hi_ulp] at h2
        have h3 : (2:ℚ)^(expo y + 1) ≤ 2^(expo x) := zpow_le_zpow_right₀ one (by omega)
        linarith

theorem near_even (x : ℚ) : |x - near x| ≤ 1/2 ∧ (|x - near x| = 1/2 → near x % 2 = 0) := by
  have h1 := Rat.floor_le x
  have h2 : x < (x.floor : ℚ) + 1 := by have := Rat.lt_floor_add_one x; push_cast at this; exact this
  unfold near
  dsimp only
  by_cases a : x - x.floor < 1/2
  · rw [if_pos a, abs_of_nonneg (by linarith)]
    exact ⟨a.le, fun h => absurd h a.ne⟩
  · rw [if_neg a]
    by_cases b : x - x.floor > 1/2
    · rw [if_pos b]
      push_cast
      rw [abs_of_nonpos (by linarith)]
      exact ⟨by linarith, fun h => by linarith⟩
    · rw [if_neg b]
      by_cases c : x.floor % 2 = 0
      · rw [if_pos c, abs_of_nonneg (by linarith)]
        exact ⟨by linarith, fun _ => c⟩
      · rw [if_neg c]
        push_cast
        rw [abs_of_nonpos (by linarith)]
        exact ⟨by linarith, fun _ => by omega⟩

/-- `rd64` is rounding to nearest, ties to even, on the grid of numbers with 53 significant bits around `x`. -/
theorem rd64_nearest {x : ℚ} (hx : x ≠ 0) : ∃ m : Int, rd64 x = m * ulp x ∧ |x - rd64 x| ≤ ulp x / 2 ∧ (|x - rd64 x| = ulp x / 2 → m % 2 = 0) ∧
    (2 : ℚ)^52 * ulp x ≤ |x| ∧ |x| < (2 : ℚ)^53 * ulp x := by
  have hu := ulp_pos x
  have he : |x - rd64 x| = |x / ulp x - near (x / ulp x)| * ulp x := by
    rw [rd64_eq hx, ← abs_of_pos hu, ← abs_mul, abs_of_pos hu, sub_mul, div_mul_cancel₀ _ hu.ne']
  obtain ⟨n1, n2⟩ := near_even (x / ulp x)
  have h1 := expo_spec hx
  refine ⟨near (x / ulp x), rd64_eq hx, ?_, fun h => n2 ?_, ?_, ?_⟩
  · rw [he]
    have := mul_le_mul_of_nonneg_right n1 hu.le
    linarith
  · rw [he] at h
    have : |x / ulp x - near (x / ulp x)| * ulp x = 1/2 * ulp x := by linarith
    exact mul_right_cancel₀ hu.ne' this
  · have := lo_ulp x
    push_cast at this
    rw [show (2 : ℚ)^52 * ulp x = (2 : ℚ)^(expo x) by rw [← this]; norm_num]
    exact h1.1
  · have := hi_ulp x
    push_cast at this
    rw [show (2 : ℚ)^53 * ulp x = (2 : ℚ)^(expo x + 1) by rw [← this]; norm_num]
    exact h1.2

example : rd64 (2^53 + 1) = 2^53 ∧ rd64 (2^53 + 3) = 2^53 + 4 ∧ rd64 (-(2^53 + 1)) = -2^53 := by decide +kernel

/-- Numbers with at most 53 significant bits are not changed. -/
theorem rd64_rep {m t : Int} (hm : |m| ≤ 2^53) : rd64 (m * (2 : ℚ)^t) = m * (2 : ℚ)^t := by
  have key : ∀ (m t : Int), |m| < 2^53 → rd64 (m * (2 : ℚ)^t) = m * (2 : ℚ)^t := fun m t hm => by
    by_cases h0 : m = 0
    · rw [h0, Int.cast_zero, zero_mul]; exact if_pos rfl
    · have htp : (0 : ℚ) < (2 : ℚ)^t := zpow_pos two_pos t
      have hw : (m : ℚ) * (2 : ℚ)^t ≠ 0 := mul_ne_zero (by exact_mod_cast h0) htp.ne'
      have h1 := (expo_spec hw).1
      have h2 : |(m : ℚ) * (2 : ℚ)^t| < (2 : ℚ)^(53 + t) := by
        rw [abs_mul, abs_of_pos htp, zpow_add₀ two_ne_zero]
        refine mul_lt_mul_of_pos_right ?_ htp
        have : ((|m| : Int) : ℚ) < ((2^53 : Int) : ℚ) := by exact_mod_cast hm
        rw [Int.cast_abs] at this
        exact this.trans_eq (by norm_num)
      have h3 := (zpow_lt_zpow_iff_right₀ (one_lt_two (α := ℚ))).1 (h1.trans_lt h2)
      obtain ⟨n, hn⟩ := Int.eq_ofNat_of_zero_le (show 0 ≤ t - (expo ((m : ℚ) * (2 : ℚ)^t) - 52) by omega)
      have hu : (m : ℚ) * (2 : ℚ)^t = ((m * 2^n : Int) : ℚ) * ulp ((m : ℚ) * (2 : ℚ)^t) := by
        have : (2 : ℚ)^t = 2^n * ulp ((m : ℚ) * (2 : ℚ)^t) := by
          unfold ulp
          rw [← zpow_natCast, ← zpow_add₀ two_ne_zero]
          congr 1
          omega
        conv_lhs => rw [this]
        push_cast
        ring
      exact le_antisymm ((rd64_le hw hu.le).trans hu.ge) (hu.le.trans (le_rd64 hw hu.ge))
  rcases hm.lt_or_eq with h | h
  · exact key m t h
  · rcases abs_choice m with h' | h'
    · rw [h'] at h
      have := key 1 (t + 53) (by decide)
      rw [zpow_add₀ two_ne_zero] at this
      rw [h, show ((2^53 : Int) : ℚ) * (2 : ℚ)^t = ((1 : Int) : ℚ) * ((2 : ℚ)^t * (2 : ℚ)^(53 : Int)) by push_cast; norm_num; ring]
      exact this
    · rw [h'] at h
      obtain rfl : m = -2^53 := by omega
      have := key (-1) (t + 53) (by decide)
      rw [zpow_add₀ two_ne_zero] at this
      rw [show ((-2^53 : Int) : ℚ) * (2 : ℚ)^t = ((-1 : Int) : ℚ) * ((2 : ℚ)^t * (2 : ℚ)^(53 : Int)) by push_cast; norm_num; ring]
      exact this

theorem rd64_form (x : ℚ) : ∃ m t : Int, |m| ≤ 2^53 ∧ rd64 x = m * (2 : ℚ)^t := by
  by_cases hx : x = 0
  · exact ⟨0, 0, by decide, by rw [hx, Int.cast_zero, zero_mul]; exact if_pos rfl⟩
  · refine ⟨near (x / ulp x), expo x - 52, ?_, rd64_eq hx⟩
    have h := (expo_spec hx).2
    rw [← hi_ulp, abs_lt] at h
    rw [abs_le]
    refine ⟨le_near ?_, near_le ?_⟩
    · rw [le_div_iff₀ (ulp_pos x), Int.cast_neg, neg_mul]; exact h.1.le
    · rw [div_le_iff₀ (ulp_pos x)]; exact h.2.le

theorem rd64_half (x : ℚ) : rd64 (rd64 x / 2) = rd64 x / 2 := by
  obtain ⟨m, t, hm, e⟩ := rd64_form x
  have : rd64 x / 2 = m * (2 : ℚ)^(t - 1) := by
    rw [e, zpow_sub_one₀ two_ne_zero]
    ring
  rw [this]
  exact rd64_rep hm

theorem rd64_le_double {x : ℚ} (h : 0 ≤ x) : rd64 x ≤ 2 * x := by
  by_cases hx : x = 0
  · rw [hx, mul_zero]; exact rd64_nonpos le_rfl
  · have a := expo_spec hx
    rw [abs_of_nonneg h] at a
    have h1 := rd64_le hx (m := 2^53) (by rw [hi_ulp]; exact a.2.le)
    rw [hi_ulp, zpow_add_one₀ two_ne_zero] at h1
    linarith [a.1]

theorem rd64_ge_double {x : ℚ} (h : x ≤ 0) : 2 * x ≤ rd64 x := by
  by_cases hx : x = 0
  · rw [hx, mul_zero]; exact rd64_nonneg le_rfl
  · have a := expo_spec hx
    rw [abs_of_nonpos h] at a
    have h1 := le_rd64 hx (m := -2^53) (by rw [Int.cast_neg, neg_mul, hi_ulp]; linarith [a.2])
    rw [Int.cast_neg, neg_mul, hi_ulp, zpow_add_one₀ two_ne_zero] at h1
    linarith [a.1]

/-- The midpoint computed with doubles lies between its ends. -/
theorem mid64_mem {a b : ℚ} (ha : rd64 a = a) (hb : rd64 b = b) : rd64 (a + rd64 (rd64 (b - a) / 2)) ∈ Set.uIcc a b := by
  rw [rd64_half]
  rcases le_total a b with h | h
  · rw [Set.uIcc_of_le h]
    have h1 := rd64_nonneg (show 0 ≤ b - a by linarith)
    have h2 := rd64_le_double (show 0 ≤ b - a by linarith)
    have h3 := rd64_mono (show a ≤ a + rd64 (b - a) / 2 by linarith)
    have h4 := rd64_mono (show a + rd64 (b - a) / 2 ≤ b by linarith)
    rw [ha] at h3
    rw [hb] at h4
    exact ⟨h3, h4⟩
  · rw [Set.uIcc_of_ge h]
    have h1 := rd64_nonpos (show b - a ≤ 0 by linarith)
    have h2 := rd64_ge_double (show b - a ≤ 0 by linarith)
    have h3 := rd64_mono (show a + rd64 (b - a) / 2 ≤ a by linarith)
    have h4 := rd64_mono (show b ≤ a + rd64 (b - a) / 2 by linarith)
    rw [ha] at h3
    rw [hb] at h4
    exact ⟨h4, h3⟩

theorem rd64_idem (x : ℚ) : rd64 (rd64 x) = rd64 x := by
  obtain ⟨m, t, hm, e⟩ := rd64_form x
  rw [e]
  exact rd64_rep hm

/-- C146 for doubles: if `bisect_float` returns `x` for doubles `ok` and `ng`, then `x` is a double between `ok` and `ng`, where `fn` holds unless `x = ok`, and there is a double `y` between them, where `fn`
fails unless `y = ng`, such that `|x - y|`, rounded, is at most `eps`.  What is missing from C146 is that it returns: see `C146_violated`. -/
theorem C146_double_partial (fn : ℚ → Bool) (eps : ℚ) : ∀ n (ok ng x : ℚ), rd64 ok = ok → rd64 ng = ng → bisectFloat rd64 fn eps n ok ng = some x →
    ∃ y, rd64 x = x ∧ rd64 y = y ∧ x ∈ Set.uIcc ok ng ∧ y ∈ Set.uIcc ok ng ∧ (x = ok ∨ fn x = true) ∧ (y = ng ∨ fn y = false) ∧ rd64 |x - y| ≤ eps
  | 0, _, _, _, _, _, e => by cases e
  | n+1, ok, ng, x, ho, hg, e => by
      rw [bisectFloat] at e
      by_cases h : rd64 |ok - ng| > eps
      · rw [if_pos h] at e
        have hm := mid64_mem ho hg
        have hi := rd64_idem (ok + rd64 (rd64 (ng - ok) / 2))
        generalize rd64 (ok + rd64 (rd64 (ng - ok) / 2)) = c at e hm hi
        cases hc : fn c with
        | true =>
          rw [if_pos hc] at e
          obtain ⟨y, h1, h2, h3, h4, h5, h6, h7⟩ := C146_double_partial fn eps n c ng x hi hg e
          exact ⟨y, h1, h2, Set.uIcc_subset_uIcc hm Set.right_mem_uIcc h3, Set.uIcc_subset_uIcc hm Set.right_mem_uIcc h4, Or.inr (h5.elim (fun h => h ▸ hc) id), h6, h7⟩
        | false =>
          rw [if_neg (by rw [hc]; exact Bool.false_ne_true)] at e
          obtain ⟨y, h1, h2, h3, h4, h5, h6, h7⟩ := C146_double_partial fn eps n ok c x ho hi e
          exact ⟨y, h1, h2, Set.uIcc_subset_uIcc Set.left_mem_uIcc hm h3, Set.uIcc_subset_uIcc Set.left_mem_uIcc hm h4, h5, Or.inr (h6.elim (fun h => h ▸ hc) id), h7⟩
      · rw [if_neg h] at e
        cases e
        exact ⟨ng, ho, hg, Set.left_mem_uIcc, Set.right_mem_uIcc, Or.inl rfl, Or.inl rfl, not_lt.1 h⟩

example : rd64 1 = 1 ∧ rd64 2 = 2 ∧ bisectFloat rd64 (fun x => decide (x * x ≤ 2)) (rd64 EPS) 31 1 2 = some (1518500249 / 1073741824) := by decide +kernel
example : rd64 (-3) = -3 ∧ rd64 (1/2) = 1/2 ∧ bisectFloat rd64 (fun x => decide (-1 ≤ x)) (1/4) 10 (1/2) (-3) = some (-13/16) := by decide +kernel

end Verif.SearchFloat
