import Verif.SearchFloat.Double
/-!
# C146 for doubles: `bisect_float` returns when `eps` is at least twice the largest distance of neighbouring doubles around its arguments
-/
namespace Verif.SearchFloat

theorem rd64_zero : rd64 0 = 0 := if_pos rfl

/-- Relative error of a rounding. -/
theorem rd64_rel (x : ℚ) : |x - rd64 x| ≤ |x| / 2^53 := by
  by_cases hx : x = 0
  · rw [hx, rd64_zero, sub_zero, abs_zero, zero_div]
  · obtain ⟨m, _, h1, _, h2, _⟩ := rd64_nearest hx
    have : (2 : ℚ)^52 * ulp x = 2^53 * (ulp x / 2) := by ring
    rw [this] at h2
    rw [le_div_iff₀ (by positivity)]
    calc |x - rd64 x| * 2^53 ≤ ulp x / 2 * 2^53 := mul_le_mul_of_nonneg_right h1 (by positivity)
      _ = 2^53 * (ulp x / 2) := mul_comm _ _
      _ ≤ |x| := h2

/-- Absolute error of a rounding below a power of two. -/
theorem rd64_abs {x : ℚ} {e : Int} (h : |x| ≤ (2 : ℚ)^e) : |x - rd64 x| ≤ (2 : ℚ)^e / 2^54 := by
  have hp : (0 : ℚ) < (2 : ℚ)^e := zpow_pos two_pos e
  by_cases hx : x = 0
  · rw [hx, rd64_zero, sub_zero, abs_zero]; positivity
  · rcases h.lt_or_eq with h | h
    · obtain ⟨m, _, h1, _, _, _⟩ := rd64_nearest hx
      have h2 := (zpow_lt_zpow_iff_right₀ (one_lt_two (α := ℚ))).1 ((expo_spec hx).1.trans_lt h)
      have h3 : ulp x ≤ (2 : ℚ)^(e - 53) := zpow_le_zpow_right₀ one_le_two (by omega)
      have h4 : (2 : ℚ)^(e - 53) = (2 : ℚ)^e / 2^53 := by
        rw [zpow_sub₀ two_ne_zero]; norm_num
      rw [h4] at h3
      have h5 : (2 : ℚ)^e / 2^54 = (2 : ℚ)^e / 2^53 / 2 := by ring
      rw [h5]
      linarith
    · have hr : rd64 x = x := by
        rcases abs_choice x with h' | h'
        · have := rd64_rep (m := 1) (t := e) (by decide)
          rw [Int.cast_one, one_mul, ← h, h'] at this
          exact this
        · have := rd64_rep (m := -1) (t := e) (by decide)
          rw [Int.cast_neg, Int.cast_one, neg_one_mul, ← h, h', neg_neg] at this
          exact this
      rw [hr, sub_self, abs_zero]
      positivity

theorem abs_le_of_uIcc {a b c B : ℚ} (ha : |a| ≤ B) (hb : |b| ≤ B) (hc : c ∈ Set.uIcc a b) : |c| ≤ B := by
  rw [abs_le] at *
  rcases le_total a b with h | h
  · rw [Set.uIcc_of_le h] at hc
    exact ⟨ha.1.trans hc.1, hc.2.trans hb.2⟩
  · rw [Set.uIcc_of_ge h] at hc
    exact ⟨hb.1.trans hc.1, hc.2.trans ha.2⟩

/-- The exact sum whose rounding is the midpoint lies between the ends. -/
theorem sum_mem (a b : ℚ) : a + rd64 (b - a) / 2 ∈ Set.uIcc a b := by
  rcases le_total a b with h | h
  · rw [Set.uIcc_of_le h]
    have h1 := rd64_nonneg (show 0 ≤ b - a by linarith)
    have h2 := rd64_le_double (show 0 ≤ b - a by linarith)
    exact ⟨by linarith, by linarith⟩
  · rw [Set.uIcc_of_ge h]
    have h1 := rd64_nonpos (show b - a ≤ 0 by linarith)
    have h2 := rd64_ge_double (show b - a ≤ 0 by linarith)
    exact ⟨by linarith, by linarith⟩

/-- Both halves of a bracket longer than `2^(e-52)` are shorter by an eighth at least. -/
theorem mid64_shrinks {a b : ℚ} {e : Int} (ha : |a| ≤ (2 : ℚ)^e) (hb : |b| ≤ (2 : ℚ)^e) (hd : (2 : ℚ)^e ≤ |a - b| * 2^52) :
    |rd64 (a + rd64 (rd64 (b - a) / 2)) - b| ≤ 7/8 * |a - b| ∧ |a - rd64 (a + rd64 (rd64 (b - a) / 2))| ≤ 7/8 * |a - b| := by
  rw [rd64_half]
  have h1 := rd64_rel (b - a)
  have h2 := rd64_abs (abs_le_of_uIcc ha hb (sum_mem a b))
  generalize rd64 (a + rd64 (b - a) / 2) = c at *
  generalize rd64 (b - a) = h at *
  rw [abs_sub_comm b a] at h1
  generalize (2 : ℚ)^e = B at *
  have h3 : B / 2^54 ≤ |a - b| / 4 := by
    rw [div_le_div_iff₀ (by positivity) (by positivity)]
    calc B * 4 ≤ |a - b| * 2^52 * 4 := mul_le_mul_of_nonneg_right hd (by norm_num)
      _ = |a - b| * 2^54 := by ring
  have h4 : |a - b| / 2^53 ≤ |a - b| / 8 := div_le_div_of_nonneg_left (abs_nonneg _) (by norm_num) (by norm_num)
  have h5 := abs_le.1 (h1.trans h4)
  have h6 := abs_le.1 (h2.trans h3)
  have h7 : |a - b| = a - b ∨ |a - b| = -(a - b) := abs_choice _
  have h8 := abs_nonneg (a - b)
  obtain ⟨u1, u2⟩ := h5
  obtain ⟨v1, v2⟩ := h6
  clear h1 h2 h3 h4 ha hb hd
  constructor <;> rw [abs_le] <;> rcases h7 with h7 | h7 <;> constructor <;> linarith

/-- C146 for doubles, termination: if `|ok|, |ng| ≤ 2^e` and `eps ≥ 2^(e-52)`, `bisect_float` returns; after `n` rounds if `|ok - ng| (7/8)^n ≤ eps`.  What is missing from C146: larger arguments, see
`C146_violated`. -/
theorem C146_returns_partial (fn : ℚ → Bool) {eps : ℚ} (he : rd64 eps = eps) {e : Int} (hB : (2 : ℚ)^e ≤ eps * 2^52) : ∀ n (ok ng : ℚ), rd64 ok = ok → rd64 ng = ng →
    |ok| ≤ (2 : ℚ)^e → |ng| ≤ (2 : ℚ)^e → |ok - ng| * 7^n ≤ eps * 8^n → ∃ x, bisectFloat rd64 fn eps (n+1) ok ng = some x
  | n, ok, ng, ho, hg, h1, h2, hn => by
      rw [bisectFloat]
      by_cases h : rd64 |ok - ng| > eps
      · rw [if_pos h]
        have hd : eps < |ok - ng| := by
          by_contra hc
          have := rd64_mono (not_lt.1 hc)
          rw [he] at this
          exact absurd h (not_lt.2 this)
        cases n with
        | zero => rw [pow_zero, pow_zero, mul_one, mul_one] at hn; exact absurd hd (not_lt.2 hn)
        | succ n =>
          have hm := mid64_mem ho hg
          have hi := rd64_idem (ok + rd64 (rd64 (ng - ok) / 2))
          have hs := mid64_shrinks h1 h2 (hB.trans (mul_le_mul_of_nonneg_right hd.le (by positivity)))
          generalize rd64 (ok + rd64 (rd64 (ng - ok) / 2)) = c at hm hi hs ⊢
          have key : ∀ d : ℚ, d ≤ 7/8 * |ok - ng| → d * 7^n ≤ eps * 8^n := fun d hd => by
            have h3 := mul_le_mul_of_nonneg_right hd (show (0 : ℚ) ≤ 7^n by positivity)
            rw [pow_succ, pow_succ] at hn
            linarith
          have hcB := abs_le_of_uIcc h1 h2 hm
          cases hc : fn c with
          | true =>
            rw [if_pos rfl]
            exact C146_returns_partial fn he hB n c ng hi hg hcB h2 (key _ hs.1)
          | false =>
            rw [if_neg Bool.false_ne_true]
            exact C146_returns_partial fn he hB n ok c ho hi h1 hcB (key _ hs.2)
      · rw [if_neg h]
        exact ⟨ok, rfl⟩

/-- C146 for doubles of absolute value at most `2^22` and the default `eps`: at most 275 rounds, and the result is right. -/
theorem C146_default_partial (fn : ℚ → Bool) (ok ng : ℚ) (ho : rd64 ok = ok) (hg : rd64 ng = ng) (h1 : |ok| ≤ 2^22) (h2 : |ng| ≤ 2^22) :
    ∃ x y, bisectFloat rd64 fn (rd64 EPS) 276 ok ng = some x ∧ rd64 x = x ∧ rd64 y = y ∧ x ∈ Set.uIcc ok ng ∧ y ∈ Set.uIcc ok ng ∧ (x = ok ∨ fn x = true) ∧ (y = ng ∨ fn y = false) ∧
      rd64 |x - y| ≤ rd64 EPS := by
  have e1 : (2 : ℚ)^(22 : Int) = 2^22 := by norm_num
  have e2 : (2 : ℚ)^22 ≤ rd64 EPS * 2^52 := by decide +kernel
  have e3 : (2 : ℚ)^23 * 7^275 ≤ rd64 EPS * 8^275 := by decide +kernel
  have h3 : |ok - ng| ≤ 2^23 := by
    rw [abs_le] at *
    constructor <;> linarith [h1.1, h1.2, h2.1, h2.2]
  obtain ⟨x, hx⟩ := C146_returns_partial fn (rd64_idem EPS) (e := 22) (by rw [e1]; exact e2) 275 ok ng ho hg (by rw [e1]; exact h1) (by rw [e1]; exact h2)
    ((mul_le_mul_of_nonneg_right h3 (by positivity)).trans e3)
  obtain ⟨y, hy⟩ := C146_double_partial fn (rd64 EPS) 276 ok ng x ho hg hx
  exact ⟨x, y, hx, hy⟩

/-- At the edge of the range: between `2^22 - 1` and `2^22`. -/
example : rd64 4194303 = 4194303 ∧ rd64 4194304 = 4194304 ∧ bisectFloat rd64 (fun x => decide (3 * x ≤ 12582911)) (rd64 EPS) 276 4194303 4194304 = some (2251799634728277 / 536870912) := by decide +kernel

/-! ### The bound on `eps` cannot be halved -/

/-- Half way between `2^e` and the next double: ties go to even, so down to `2^e`. -/
theorem rd64_tie (e : Int) : rd64 ((2 : ℚ)^e + (2 : ℚ)^(e - 52) / 2) = (2 : ℚ)^e := by
  have hu : (0 : ℚ) < (2 : ℚ)^(e - 52) := zpow_pos two_pos _
  have he : (2 : ℚ)^e = 2^52 * (2 : ℚ)^(e - 52) := by
    rw [zpow_sub₀ two_ne_zero]
    norm_num
    ring
  have he1 : (2 : ℚ)^(e + 1) = 2^53 * (2 : ℚ)^(e - 52) := by
    rw [zpow_add_one₀ two_ne_zero, he]
    ring
  have hx0 : (0 : ℚ) < (2 : ℚ)^e + (2 : ℚ)^(e - 52) / 2 := by positivity
  have hexp : expo ((2 : ℚ)^e + (2 : ℚ)^(e - 52) / 2) = e := by
    have hs := expo_spec hx0.ne'
    rw [abs_of_pos hx0] at hs
    have h1 := (zpow_lt_zpow_iff_right₀ (one_lt_two (α := ℚ))).1 (hs.1.trans_lt (show _ < (2 : ℚ)^(e + 1) by rw [he, he1]; linarith))
    have h2 := (zpow_lt_zpow_iff_right₀ (one_lt_two (α := ℚ))).1 (lt_of_le_of_lt (show (2 : ℚ)^e ≤ _ by linarith) hs.2)
    omega
  obtain ⟨m, h1, h2, h3, _⟩ := rd64_nearest hx0.ne'
  have hul : ulp ((2 : ℚ)^e + (2 : ℚ)^(e - 52) / 2) = (2 : ℚ)^(e - 52) := by
    unfold ulp
    rw [hexp]
  rw [hul] at h1 h2 h3
  rw [h1] at h2 h3 ⊢
  rw [he] at h2 h3 ⊢
  generalize (2 : ℚ)^(e - 52) = u at *
  rw [abs_le] at h2
  have a1 : ((2^52 : Int) : ℚ) ≤ m := le_of_mul_le_mul_right (by push_cast; linarith [h2.2]) hu
  have a2 : (m : ℚ) ≤ ((2^52 + 1 : Int) : ℚ) := le_of_mul_le_mul_right (by push_cast; linarith [h2.1]) hu
  have a1' : (2^52 : Int) ≤ m := by exact_mod_cast a1
  have a2' : m ≤ (2^52 + 1 : Int) := by exact_mod_cast a2
  have hm : m = 2^52 := by
    rcases a2'.lt_or_eq with h | h
    · omega
    · have := h3 (by
        rw [h]
        push_cast
        rw [abs_of_nonpos (by linarith)]
        linarith)
      omega
  rw [hm]
  push_cast
  rfl

/-- C146 fails for doubles of every magnitude: between `2^e` and the next double, `bisect_float` never returns if `eps` is less than their distance `2^(e-52)` and `fn` holds at `2^e`.  So the bound on
`eps` in `C146_returns_partial` is sharp up to the last double. -/
theorem C146_violated_all (fn : ℚ → Bool) (e : Int) (eps : ℚ) (he : eps < (2 : ℚ)^(e - 52)) (hf : fn ((2 : ℚ)^e) = true) :
    ∀ n, bisectFloat rd64 fn eps n ((2 : ℚ)^e) ((2 : ℚ)^e + (2 : ℚ)^(e - 52)) = none
  | 0 => rfl
  | n+1 => by
      have hr : rd64 ((2 : ℚ)^(e - 52)) = (2 : ℚ)^(e - 52) := by
        have := rd64_rep (m := 1) (t := e - 52) (by decide)
        rwa [Int.cast_one, one_mul] at this
      have hh := rd64_half ((2 : ℚ)^(e - 52))
      rw [hr] at hh
      have hd : |(2 : ℚ)^e - ((2 : ℚ)^e + (2 : ℚ)^(e - 52))| = (2 : ℚ)^(e - 52) := by
        rw [sub_add_cancel_left, abs_neg, abs_of_pos (zpow_pos two_pos _)]
      rw [bisectFloat, hd, hr, if_pos he, add_sub_cancel_left, hr, hh, rd64_tie, hf, if_pos rfl]
      exact C146_violated_all fn e eps he hf n

/-- With the default `eps` this happens from `2^23` on, while everything up to `2^22` is fine. -/
example : rd64 EPS < (2 : ℚ)^((23 : Int) - 52) ∧ ¬ (2 : ℚ)^((23 : Int)) ≤ rd64 EPS * 2^52 ∧ (2 : ℚ)^((22 : Int)) ≤ rd64 EPS * 2^52 := by decide +kernel
example : rd64 (2^23) = 2^23 ∧ rd64 (2^23 + 1 / 2^29) = 2^23 + 1 / 2^29 ∧ decide ((2 : ℚ)^(23 : Int) ≤ 2^23) = true := by decide +kernel

end Verif.SearchFloat
