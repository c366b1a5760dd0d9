import Verif.SearchFloat.Props
/-!
# C147 for doubles: `golden_ratio_search` may hang, and may return a point far from the maximum
-/
namespace Verif.SearchFloat

/-- The bracket after one round of search.hpp:105-118. -/
def gStep (rnd : ℚ → ℚ) (G : ℚ) (fn : ℚ → ℚ) (s : ℚ × ℚ) : ℚ × ℚ :=
  if fn (rightPt rnd G s.1 s.2) < fn (leftPt rnd G s.1 s.2) then (s.1, rightPt rnd G s.1 s.2) else (leftPt rnd G s.1 s.2, s.2)

theorem golden_none {rnd : ℚ → ℚ} {G : ℚ} {fn : ℚ → ℚ} {eps : ℚ} : ∀ n (s : ℚ × ℚ) ret, (∀ k, rnd |((gStep rnd G fn)^[k] s).2 - ((gStep rnd G fn)^[k] s).1| > eps) →
    goldenLoop rnd G fn (fun a b => decide (a < b)) eps n s.1 s.2 ret = none
  | 0, _, _, _ => rfl
  | n+1, s, ret, h => by
      have ih := fun ret' => golden_none n (gStep rnd G fn s) ret' (fun k => by
        have := h (k+1)
        rwa [Function.iterate_succ_apply] at this)
      rw [goldenLoop, if_pos (show rnd |s.2 - s.1| > eps from h 0)]
      unfold gStep at ih
      by_cases hc : fn (rightPt rnd G s.1 s.2) < fn (leftPt rnd G s.1 s.2)
      · rw [if_pos hc] at ih
        rw [if_pos (decide_eq_true hc)]
        exact ih _
      · rw [if_neg hc] at ih
        rw [if_neg (by rw [decide_eq_true_iff]; exact hc)]
        exact ih _

/-- A tent with its top at `2^30 + 1/2` (for doubles in `[2^30, 2^30+1]` the subtraction is exact). -/
def tent (x : ℚ) : ℚ := - |x - 2147483649 / 2|

/-- C147 fails for doubles: `golden_ratio_search(2^30, 2^30+1, tent)` with the default `eps` never returns.  After 30 rounds the bracket consists of three neighbouring doubles, and the left inner point
rounds to the left end. -/
theorem C147_violated_hang : ∀ n, golden rd64 (rd64 GR) tent 0 (fun a b => decide (a < b)) (rd64 EPS) n 1073741824 1073741825 = none := by
  intro n
  refine golden_none n ((1073741824 : ℚ), (1073741825 : ℚ)) _ (fun k => ?_)
  have h1 : ∀ k, k < 31 → rd64 |((gStep rd64 (rd64 GR) tent)^[k] ((1073741824 : ℚ), (1073741825 : ℚ))).2 - ((gStep rd64 (rd64 GR) tent)^[k] ((1073741824 : ℚ), (1073741825 : ℚ))).1| > rd64 EPS := by
    decide +kernel
  have h2 : gStep rd64 (rd64 GR) tent ((gStep rd64 (rd64 GR) tent)^[30] ((1073741824 : ℚ), (1073741825 : ℚ))) = (gStep rd64 (rd64 GR) tent)^[30] ((1073741824 : ℚ), (1073741825 : ℚ)) := by decide +kernel
  by_cases hk : k < 31
  · exact h1 k hk
  · obtain ⟨j, rfl⟩ : ∃ j, k = j + 30 := ⟨k - 30, by omega⟩
    rw [Function.iterate_add_apply, Function.iterate_fixed h2 j]
    exact h1 30 (by omega)

/-- C147 fails for doubles: for the decreasing function `-x` on `[2^30, 2^30+1]`, with the maximum at `2^30`, the point returned is `2^30 + 3/2^22`, more than 700 times `eps` away. -/
theorem C147_violated_far : golden rd64 (rd64 GR) (fun x => -x) 0 (fun a b => decide (a < b)) (rd64 EPS) 33 1073741824 1073741825 = some (1073741824 + 3 / 4194304, -(1073741824 + 3 / 4194304)) ∧
    |(1073741824 + 3 / 4194304 : ℚ) - 1073741824| > 700 * rd64 EPS := by decide +kernel

/-- The arguments are doubles, and both functions have a single maximum there. -/
example : rd64 1073741824 = 1073741824 ∧ rd64 1073741825 = 1073741825 ∧ tent (2147483649 / 2) = 0 ∧ tent 1073741824 = -1/2 ∧ rd64 (1073741824 + 3 / 4194304) = 1073741824 + 3 / 4194304 := by decide +kernel
example : Unimodal (fun x : ℚ => -x) 1073741824 1073741825 1073741824 := ⟨le_rfl, by norm_num, fun x y a b c => by linarith, fun x y _ b _ => by linarith⟩
example : Unimodal tent 1073741824 1073741825 (2147483649 / 2) := by
  refine ⟨by norm_num, by norm_num, fun x y a b c => ?_, fun x y a b c => ?_⟩
  · unfold tent
    rw [abs_of_nonpos (by linarith), abs_of_nonpos (by linarith)]
    linarith
  · unfold tent
    rw [abs_of_nonneg (by linarith), abs_of_nonneg (by linarith)]
    linarith

end Verif.SearchFloat
