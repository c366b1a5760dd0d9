import Verif.SearchFloat.Proofs
import Mathlib.Algebra.Order.Archimedean.Basic
import Mathlib.Data.Rat.Floor
/-!
# C146: bisect_float;  C147: golden_ratio_search and trisect_float
-/
namespace Verif.SearchFloat

variable {K V : Type} [Field K] [LinearOrder K]

/-- C146, for every way of rounding: if `bisect_float` returns `x`, then `x` is `ok` or `fn` holds at `x`, and some `y` that is `ng` or where `fn` fails has a (rounded) distance of at most
`eps` from `x`.  What is missing from C146 is that it returns: see `C146_violated`. -/
theorem C146_result_partial (rnd : K → K) (fn : K → Bool) (eps : K) : ∀ n (ok ng x : K), bisectFloat rnd fn eps n ok ng = some x →
    (x = ok ∨ fn x = true) ∧ ∃ y, (y = ng ∨ fn y = false) ∧ rnd |x - y| ≤ eps
  | 0, _, _, _, e => by cases e
  | n+1, ok, ng, x, e => by
      rw [bisectFloat] at e
      by_cases h : rnd |ok - ng| > eps
      · rw [if_pos h] at e
        generalize rnd (ok + rnd (rnd (ng - ok) / 2)) = c at e
        cases hc : fn c with
        | true =>
          rw [if_pos hc] at e
          obtain ⟨h1, h2⟩ := C146_result_partial rnd fn eps n c ng x e
          exact ⟨Or.inr (h1.elim (fun h => h ▸ hc) id), h2⟩
        | false =>
          rw [if_neg (by rw [hc]; exact Bool.false_ne_true)] at e
          obtain ⟨h1, y, h2, h3⟩ := C146_result_partial rnd fn eps n ok c x e
          exact ⟨h1, y, Or.inr (h2.elim (fun h => h ▸ hc) id), h3⟩
      · rw [if_neg h] at e
        cases e
        exact ⟨Or.inl rfl, ng, Or.inl rfl, not_lt.1 h⟩

/-- C146 in exact arithmetic: with `|ok - ng| ≤ eps 2^N`, `bisect_float` returns within `N` halvings (`N+1` tests of the condition) a point `x` between `ok` and `ng`, and there is a point `y`
between them at a distance of at most `eps` such that `fn` holds at `x` (or `x = ok`) and fails at `y` (or `y = ng`).  `fn` need not be monotone. -/
theorem C146_exact_partial [IsStrictOrderedRing K] (fn : K → Bool) (eps : K) : ∀ N (ok ng : K), |ok - ng| ≤ eps * 2^N →
    ∃ x y, (∀ n, N < n → bisectFloat id fn eps n ok ng = some x) ∧ x ∈ Set.uIcc ok ng ∧ y ∈ Set.uIcc ok ng ∧ |x - y| ≤ eps ∧ (x = ok ∨ fn x = true) ∧ (y = ng ∨ fn y = false) := by
  have stop : ∀ N (ok ng : K), ¬ |ok - ng| > eps →
      ∃ x y, (∀ n, N < n → bisectFloat id fn eps n ok ng = some x) ∧ x ∈ Set.uIcc ok ng ∧ y ∈ Set.uIcc ok ng ∧ |x - y| ≤ eps ∧ (x = ok ∨ fn x = true) ∧ (y = ng ∨ fn y = false) := fun N ok ng h =>
    ⟨ok, ng, fun n hn => by
      obtain ⟨n, rfl⟩ : ∃ k, n = k + 1 := ⟨n - 1, by omega⟩
      rw [bisectFloat, if_neg]
      exact h, Set.left_mem_uIcc, Set.right_mem_uIcc, not_lt.1 h, Or.inl rfl, Or.inl rfl⟩
  intro N
  induction N with
  | zero => exact fun ok ng h => stop 0 ok ng (by rw [pow_zero, mul_one] at h; exact not_lt.2 h)
  | succ N ih =>
    intro ok ng h
    by_cases hb : |ok - ng| > eps
    · have hh : |ok - ng| / 2 ≤ eps * 2^N := by
        rw [pow_succ, ← mul_assoc] at h
        exact (div_le_iff₀ two_pos).2 h
      have hm := mid_mem ok ng
      have hr := half_right ok ng
      have hl := half_left ok ng
      have hs : ∀ n, bisectFloat id fn eps (n+1) ok ng = if fn (ok + (ng - ok) / 2) then bisectFloat id fn eps n (ok + (ng - ok) / 2) ng else bisectFloat id fn eps n ok (ok + (ng - ok) / 2) :=
        fun n => by rw [bisectFloat, if_pos (show id |ok - ng| > eps from hb)]; rfl
      generalize ok + (ng - ok) / 2 = c at *
      cases hc : fn c with
      | true =>
        obtain ⟨x, y, e, p1, p2, p3, p4, p5⟩ := ih c ng (by rw [hr]; exact hh)
        refine ⟨x, y, fun n hn => ?_, Set.uIcc_subset_uIcc hm Set.right_mem_uIcc p1, Set.uIcc_subset_uIcc hm Set.right_mem_uIcc p2, p3, Or.inr (p4.elim (fun h => h ▸ hc) id), p5⟩
        obtain ⟨n, rfl⟩ : ∃ k, n = k + 1 := ⟨n - 1, by omega⟩
        rw [hs, if_pos hc]
        exact e n (by omega)
      | false =>
        obtain ⟨x, y, e, p1, p2, p3, p4, p5⟩ := ih ok c (by rw [hl]; exact hh)
        refine ⟨x, y, fun n hn => ?_, Set.uIcc_subset_uIcc Set.left_mem_uIcc hm p1, Set.uIcc_subset_uIcc Set.left_mem_uIcc hm p2, p3, p4, Or.inr (p5.elim (fun h => h ▸ hc) id)⟩
        obtain ⟨n, rfl⟩ : ∃ k, n = k + 1 := ⟨n - 1, by omega⟩
        rw [hs, if_neg (by rw [hc]; exact Bool.false_ne_true)]
        exact e n (by omega)
    · exact stop _ ok ng hb

/-- C146 in exact arithmetic, for `fn` that holds up to `θ` and fails above, and `eps > 0`: it returns, and the result is at most `θ` and less than `eps` below it. -/
theorem C146_threshold_partial [IsStrictOrderedRing K] [Archimedean K] (fn : K → Bool) (eps ok ng θ : K) (he : 0 < eps) (h1 : ok ≤ θ) (h2 : θ < ng) (hf : ∀ x, ok ≤ x → x ≤ ng → (fn x = true ↔ x ≤ θ)) :
    ∃ N x, (∀ n, N < n → bisectFloat id fn eps n ok ng = some x) ∧ x ≤ θ ∧ θ < x + eps := by
  obtain ⟨N, hN⟩ := pow_unbounded_of_one_lt (|ok - ng| / eps) (one_lt_two (α := K))
  obtain ⟨x, y, e, p1, p2, p3, p4, p5⟩ := C146_exact_partial fn eps N ok ng (by
    have := (div_lt_iff₀ he).1 hN
    rw [mul_comm] at this
    exact this.le)
  rw [Set.uIcc_of_le (h1.trans h2.le)] at p1 p2
  refine ⟨N, x, e, ?_, ?_⟩
  · rcases p4 with rfl | h
    · exact h1
    · exact (hf x p1.1 p1.2).1 h
  · have hy : θ < y := by
      rcases p5 with rfl | h
      · exact h2
      · by_contra hc
        rw [(hf y p2.1 p2.2).2 (not_lt.1 hc)] at h
        cases h
    have := (abs_le.1 p3).1
    linarith

/-- C146 fails for doubles: `bisect_float(2^30, 2^30+1, [](double x){ return x <= 2^30; })` with the default `eps` never returns.  The midpoint of two neighbouring doubles rounds to one of
them, and their distance 2^-22 exceeds `1e-9`. -/
theorem C146_violated : ∀ n, bisectFloat rd64 (fun x => decide (x ≤ 2^30)) (rd64 EPS) n (2^30) (2^30 + 1) = none := by
  intro n
  refine bisect_none n ((2^30 : ℚ), (2^30 + 1 : ℚ)) (fun k => ?_)
  have h1 : ∀ k, k < 23 → rd64 |((bStep rd64 (fun x => decide (x ≤ 2^30)))^[k] ((2^30 : ℚ), (2^30 + 1 : ℚ))).1 - ((bStep rd64 (fun x => decide (x ≤ 2^30)))^[k] ((2^30 : ℚ), (2^30 + 1 : ℚ))).2| > rd64 EPS := by
    decide +kernel
  have h2 : bStep rd64 (fun x => decide (x ≤ 2^30)) ((bStep rd64 (fun x => decide (x ≤ 2^30)))^[22] ((2^30 : ℚ), (2^30 + 1 : ℚ))) =
      (bStep rd64 (fun x => decide (x ≤ 2^30)))^[22] ((2^30 : ℚ), (2^30 + 1 : ℚ)) := by decide +kernel
  by_cases hk : k < 23
  · exact h1 k hk
  · obtain ⟨j, rfl⟩ : ∃ j, k = j + 22 := ⟨k - 22, by omega⟩
    rw [Function.iterate_add_apply, Function.iterate_fixed h2 j]
    exact h1 22 (by omega)

/-- The arguments are doubles, `rd64` rounds as expected, and other calls return. -/
example : rd64 (2^30) = 2^30 ∧ rd64 (2^30 + 1) = 2^30 + 1 ∧ rd64 (1/10) = 3602879701896397 / 36028797018963968 := by decide +kernel
example : bisectFloat rd64 (fun x => decide (x * x ≤ 2)) (rd64 EPS) 31 1 2 = some (1518500249 / 1073741824) := by decide +kernel
example : ∀ x : ℚ, 1 ≤ x → x ≤ 3 → (decide (x ≤ 2) = true ↔ x ≤ 2) := fun x _ _ => by rw [decide_eq_true_iff]
example : |(1 : ℚ) - 3| ≤ 1/4 * 2^3 := by decide +kernel

/-- C147 in exact arithmetic: for `l < r`, a function that grows strictly up to `m` and falls strictly after it, and `eps < r - l`: `golden_ratio_search` returns a point `q` of `[l, r]` at a
distance of at most `eps` from `m`, with its value, within `N` rounds if `(r - l) (G/(G+1))^N ≤ eps`.  `G > 1` need not be the golden ratio.  What is missing from C147 is the case
`r - l ≤ eps`: see `C147_violated`. -/
theorem C147_golden_partial [IsStrictOrderedRing K] [LinearOrder V] {G : K} (hG : 1 < G) (fn : K → V) (v0 : V) (eps l r m : K) (U : Unimodal fn l r m) (h0 : 0 < eps) (he : eps < r - l) (N : Nat)
    (hN : (r - l) * (G / (G + 1))^N ≤ eps) :
    ∃ q, (∀ n, N < n → golden id G fn v0 (fun a b => decide (a < b)) eps n l r = some (q, fn q)) ∧ l ≤ q ∧ q ≤ r ∧ |q - m| ≤ eps := by
  have hlr : l < r := by linarith
  obtain ⟨a1, a2, a3, a4, a5, a6, a7⟩ := golden_round hG hlr U
  cases N with
  | zero => rw [pow_zero, mul_one] at hN; exact absurd he (not_lt.2 hN)
  | succ N =>
    have hstep : ∀ n, golden id G fn v0 (fun a b => decide (a < b)) eps (n+1) l r = goldenLoop id G fn (fun a b => decide (a < b)) eps (n+1) l r (l, fn l) := fun n => by
      unfold golden
      have hb : id |r - l| > eps := by rw [id, abs_of_pos (by linarith)]; exact he
      rw [goldenLoop, goldenLoop, if_pos hb, if_pos hb]
    obtain ⟨q, e, b1, b2, b3⟩ := golden_ok hG (fn := fn) (N+1) l r l hlr U hN le_rfl hlr.le
    refine ⟨q, fun n hn => ?_, b1, b2, b3⟩
    obtain ⟨n, rfl⟩ : ∃ k, n = k + 1 := ⟨n - 1, by omega⟩
    rw [hstep]
    exact e (n+1) hn

/-- C147 in exact arithmetic: with the constant of the code it always returns such a point. -/
theorem C147_returns_partial [IsStrictOrderedRing K] [Archimedean K] [LinearOrder V] (fn : K → V) (v0 : V) (eps l r m : K) (U : Unimodal fn l r m) (h0 : 0 < eps) (he : eps < r - l) :
    ∃ N q, (∀ n, N < n → golden id ((GR : ℚ) : K) fn v0 (fun a b => decide (a < b)) eps n l r = some (q, fn q)) ∧ l ≤ q ∧ q ≤ r ∧ |q - m| ≤ eps := by
  have hG : (1 : K) < ((GR : ℚ) : K) := by
    have : (1 : ℚ) < GR := by decide +kernel
    exact_mod_cast this
  have hlr : 0 < r - l := by linarith
  obtain ⟨N, hN⟩ := exists_pow_lt_of_lt_one (div_pos h0 hlr) (show ((GR : ℚ) : K) / ((GR : ℚ) + 1) < 1 by rw [div_lt_one (by linarith)]; linarith)
  refine ⟨N, C147_golden_partial hG fn v0 eps l r m U h0 he N ?_⟩
  rw [lt_div_iff₀ hlr, mul_comm] at hN
  exact hN.le

/-- C147 fails if the interval is not longer than `eps`: on `[5, 5]`, or `[5, 5 + 1e-10]`, the result is the point 0 with the value 0, whatever `fn` is. -/
theorem C147_violated (fn : ℚ → ℚ) (n : Nat) : golden id GR fn 0 (fun a b => decide (a < b)) EPS (n+1) 5 5 = some (0, 0) ∧
    golden id GR fn 0 (fun a b => decide (a < b)) EPS (n+1) 5 (5 + 1/10000000000) = some (0, 0) := by
  constructor
  · unfold golden
    rw [goldenLoop, if_neg (by decide +kernel)]
  · unfold golden
    rw [goldenLoop, if_neg (by decide +kernel)]

/-- The maximum of `-(x-2)^2` on `[0, 5]` to a distance of 1/10, exactly and with doubles. -/
example : (golden id GR (fun x : ℚ => -(x-2)^2) 0 (fun a b => decide (a < b)) (1/10) 12 0 5).map (fun q => decide (|q.1 - 2| ≤ 1/10 ∧ q.2 = -(q.1-2)^2)) = some true := by decide +kernel
example : (golden rd64 (rd64 GR) (fun x : ℚ => -(x-2)^2) 0 (fun a b => decide (a < b)) (1/10) 12 0 5).map (fun q => decide (|q.1 - 2| ≤ 1/10)) = some true := by decide +kernel
example : Unimodal (fun x : ℚ => -(x-2)^2) 0 5 2 := ⟨by norm_num, by norm_num, fun x y _ _ _ => by nlinarith, fun x y _ _ _ => by nlinarith⟩

end Verif.SearchFloat
