import Verif.SearchFloat.Model
import Mathlib.Order.Interval.Set.UnorderedInterval
import Mathlib.Tactic.Ring
import Mathlib.Tactic.Linarith
import Mathlib.Tactic.FieldSimp
/-!
Lemmas for C146 and C147.
-/
namespace Verif.SearchFloat

variable {K V : Type} [Field K] [LinearOrder K]

/-! ### bisect_float -/

/-- One round of the loop of `bisect_float`. -/
def bStep (rnd : K → K) (fn : K → Bool) (s : K × K) : K × K :=
  if fn (rnd (s.1 + rnd (rnd (s.2 - s.1) / 2))) then (rnd (s.1 + rnd (rnd (s.2 - s.1) / 2)), s.2) else (s.1, rnd (s.1 + rnd (rnd (s.2 - s.1) / 2)))

theorem bisect_step {rnd : K → K} {fn : K → Bool} {eps : K} {n : Nat} {ok ng : K} (h : rnd |ok - ng| > eps) :
    bisectFloat rnd fn eps (n+1) ok ng = bisectFloat rnd fn eps n (bStep rnd fn (ok, ng)).1 (bStep rnd fn (ok, ng)).2 := by
  rw [bisectFloat, if_pos h]
  unfold bStep
  dsimp only
  split <;> rfl

/-- A state that never meets the bound, whatever the number of rounds. -/
theorem bisect_none {rnd : K → K} {fn : K → Bool} {eps : K} : ∀ n (s : K × K), (∀ k, rnd |((bStep rnd fn)^[k] s).1 - ((bStep rnd fn)^[k] s).2| > eps) → bisectFloat rnd fn eps n s.1 s.2 = none
  | 0, _, _ => rfl
  | n+1, s, h => by
      rw [bisect_step (ok := s.1) (ng := s.2) (h 0)]
      exact bisect_none n _ (fun k => by
        have := h (k+1)
        rwa [Function.iterate_succ_apply] at this)

variable [IsStrictOrderedRing K]

theorem mid_mem (a b : K) : a + (b - a) / 2 ∈ Set.uIcc a b := by
  rcases le_total a b with h | h
  · rw [Set.uIcc_of_le h]; constructor <;> linarith
  · rw [Set.uIcc_of_ge h]; constructor <;> linarith

theorem half_right (a b : K) : |a + (b - a) / 2 - b| = |a - b| / 2 := by
  have : a + (b - a) / 2 - b = (a - b) / 2 := by ring
  rw [this, abs_div, abs_two]

theorem half_left (a b : K) : |a - (a + (b - a) / 2)| = |a - b| / 2 := by
  have : a - (a + (b - a) / 2) = (a - b) / 2 := by ring
  rw [this, abs_div, abs_two]

/-! ### golden_ratio_search -/

theorem leftPt_eq {G : K} (hG : 1 < G) (l r : K) : leftPt id G l r = l + (r - l) / (G + 1) := by
  have : G + 1 ≠ 0 := by linarith
  unfold leftPt
  simp only [id]
  field_simp
  ring

theorem rightPt_eq {G : K} (hG : 1 < G) (l r : K) : rightPt id G l r = r - (r - l) / (G + 1) := by
  have : G + 1 ≠ 0 := by linarith
  unfold rightPt
  simp only [id]
  field_simp
  ring

/-- `fn` grows strictly up to `m` and falls strictly after it, on `[l, r]`. -/
structure Unimodal [LT V] (fn : K → V) (l r m : K) : Prop where
  lo : l ≤ m
  hi : m ≤ r
  up : ∀ x y, l ≤ x → x < y → y ≤ m → fn x < fn y
  down : ∀ x y, m ≤ x → x < y → y ≤ r → fn y < fn x

theorem Unimodal.sub [LT V] {fn : K → V} {l r m l' r' : K} (U : Unimodal fn l r m) (h1 : l ≤ l') (h2 : r' ≤ r) (h3 : l' ≤ m) (h4 : m ≤ r') : Unimodal fn l' r' m :=
  ⟨h3, h4, fun x y a b c => U.up x y (h1.trans a) b c, fun x y a b c => U.down x y a b (c.trans h2)⟩

/-- The points of one round, and the part that keeps the maximum. -/
theorem golden_round [LinearOrder V] {G : K} (hG : 1 < G) {fn : K → V} {l r m : K} (hlr : l < r) (U : Unimodal fn l r m) :
    l < leftPt id G l r ∧ leftPt id G l r < rightPt id G l r ∧ rightPt id G l r < r ∧ rightPt id G l r - l = (r - l) * (G / (G + 1)) ∧ r - leftPt id G l r = (r - l) * (G / (G + 1)) ∧
      (fn (rightPt id G l r) < fn (leftPt id G l r) → m ≤ rightPt id G l r) ∧ (¬ fn (rightPt id G l r) < fn (leftPt id G l r) → leftPt id G l r ≤ m) := by
  have hG1 : 0 < G + 1 := by linarith
  have hd : 0 < r - l := by linarith
  have hq : 0 < (r - l) / (G + 1) := div_pos hd hG1
  have hq2 : (r - l) / (G + 1) * 2 < r - l := by
    rw [div_mul_eq_mul_div, div_lt_iff₀ hG1]
    nlinarith
  have hq3 : (r - l) - (r - l) / (G + 1) = (r - l) * (G / (G + 1)) := by
    field_simp
    ring
  rw [leftPt_eq hG, rightPt_eq hG]
  generalize (r - l) / (G + 1) = q at *
  refine ⟨by linarith, by linarith, by linarith, by linarith, by linarith, fun h => ?_, fun h => ?_⟩
  · by_contra hm
    exact absurd h (not_lt.2 (le_of_lt (U.up _ _ (by linarith) (by linarith) (by linarith))))
  · by_contra hm
    exact h (U.down _ _ (by linarith) (by linarith) (by linarith))

theorem golden_ok [LinearOrder V] {G : K} (hG : 1 < G) {fn : K → V} {eps m : K} :
    ∀ N (l r p : K), l < r → Unimodal fn l r m → (r - l) * (G / (G + 1))^N ≤ eps → l ≤ p → p ≤ r →
      ∃ q, (∀ n, N < n → goldenLoop id G fn (fun a b => decide (a < b)) eps n l r (p, fn p) = some (q, fn q)) ∧ l ≤ q ∧ q ≤ r ∧ |q - m| ≤ eps := by
  intro N
  induction N with
  | zero =>
    intro l r p hlr U he h1 h2
    rw [pow_zero, mul_one] at he
    refine ⟨p, fun n hn => ?_, h1, h2, ?_⟩
    · obtain ⟨n, rfl⟩ : ∃ k, n = k + 1 := ⟨n - 1, by omega⟩
      rw [goldenLoop, if_neg]
      rw [id, abs_of_pos (by linarith)]
      exact not_lt.2 he
    · have := U.lo; have := U.hi
      rw [abs_le]; constructor <;> linarith
  | succ N ih =>
    intro l r p hlr U he h1 h2
    by_cases hb : r - l > eps
    · obtain ⟨a1, a2, a3, a4, a5, a6, a7⟩ := golden_round hG hlr U
      by_cases hc : fn (rightPt id G l r) < fn (leftPt id G l r)
      · obtain ⟨q, e, b1, b2, b3⟩ := ih l (rightPt id G l r) (leftPt id G l r) (by linarith) (U.sub le_rfl a3.le U.lo (a6 hc))
          (by rw [a4, mul_assoc, ← pow_succ']; exact he) a1.le a2.le
        refine ⟨q, fun n hn => ?_, b1, by linarith, b3⟩
        obtain ⟨n, rfl⟩ : ∃ k, n = k + 1 := ⟨n - 1, by omega⟩
        rw [goldenLoop, if_pos (by rw [id, abs_of_pos (by linarith)]; exact hb), if_pos (decide_eq_true hc)]
        exact e n (by omega)
      · obtain ⟨q, e, b1, b2, b3⟩ := ih (leftPt id G l r) r (rightPt id G l r) (by linarith) (U.sub a1.le le_rfl (a7 hc) U.hi)
          (by rw [a5, mul_assoc, ← pow_succ']; exact he) a2.le a3.le
        refine ⟨q, fun n hn => ?_, by linarith, b2, b3⟩
        obtain ⟨n, rfl⟩ : ∃ k, n = k + 1 := ⟨n - 1, by omega⟩
        rw [goldenLoop, if_pos (by rw [id, abs_of_pos (by linarith)]; exact hb), if_neg (by rw [decide_eq_true_iff]; exact hc)]
        exact e n (by omega)
    · refine ⟨p, fun n hn => ?_, h1, h2, ?_⟩
      · obtain ⟨n, rfl⟩ : ∃ k, n = k + 1 := ⟨n - 1, by omega⟩
        rw [goldenLoop, if_neg]
        rw [id, abs_of_pos (by linarith)]
        exact hb
      · have := U.lo; have := U.hi
        rw [abs_le]; constructor <;> linarith [not_lt.1 hb]

end Verif.SearchFloat
