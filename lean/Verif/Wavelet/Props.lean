import Verif.Wavelet.Query
/-!
C45: the queries of `WaveletMatrix` agree with the plain sequence.
-/
namespace Verif.Wavelet

/-- C45 (partial: value arguments that fit in the height; `range_freq` for heights below 64).  For every sequence of non-negative values (below `2^64`; below
`2^H` when the template parameter `Height` fixes the height to the `H` value bits of `T`) the constructor succeeds, and then

* `get(i)` is element `i`,
* `range_rank(c, l, r)` and `rank(c, i)` count `c` in `[l, r)` and `[0, i)`, and `rank_3way(c, l, r)` counts the elements less than, equal to and greater than `c`,
* `range_select(c, l, r, i)` and `select(c, i)` are the position of the `i`-th `c`, or `n` if there is none,
* `range_freq(l, r, x, y)` counts the elements in `[x, y)`,
* `quantile(l, r, k)` is an element with at most `k` smaller ones and more than `k` not greater.

The height is 1 or the largest element needs it, so values `c` beyond it do not occur in the sequence; for these the full statement fails (`C45_violated`). -/
theorem C45_partial (height : Option Nat) (S : List Nat) (hS : ∀ x ∈ S, x < 2^64) (hH : ∀ H, height = some H → 1 ≤ H ∧ ∀ x ∈ S, x < 2^H) :
    ∃ w, mk height S = some w ∧ (∀ x ∈ S, x < 2^w.h) ∧ (∀ H, height = some H → w.h = H) ∧ (height = none → w.h = 1 ∨ ∃ x ∈ S, 2^(w.h - 1) ≤ x) ∧
      (∀ i x, S[i]? = some x → w.get i = some x) ∧
      ∀ l r, l ≤ r → r ≤ S.length →
        (∀ c : Int, 0 ≤ c → c < 2^w.h →
          w.rangeRank c l r = some ((slice S l r).count c.toNat) ∧
          w.rank c r = some ((S.take r).count c.toNat) ∧
          w.rank3 c l r = some (((slice S l r).filter (fun (x : Nat) => decide ((x : Int) < c))).length, (slice S l r).count c.toNat,
            ((slice S l r).filter (fun (x : Nat) => decide (c < (x : Int)))).length) ∧
          (∀ i, (i < (slice S l r).count c.toNat →
              ∃ p, w.rangeSelect c l r i = some p ∧ l ≤ p ∧ p < r ∧ S[p]? = some c.toNat ∧ (slice S l p).count c.toNat = i) ∧
            ((slice S l r).count c.toNat ≤ i → w.rangeSelect c l r i = some S.length)) ∧
          ∀ i, (i < S.count c.toNat → ∃ p, w.select c i = some p ∧ p < S.length ∧ S[p]? = some c.toNat ∧ (S.take p).count c.toNat = i) ∧
            (S.count c.toNat ≤ i → w.select c i = some S.length)) ∧
        (w.h < 64 → ∀ x y : Int, w.rangeFreq l r x y = some ((slice S l r).filter (fun (v : Nat) => decide (x ≤ (v : Int) ∧ (v : Int) < y))).length) ∧
        ∀ k, k < r - l → ∃ v, w.quantile l r k = some v ∧ v ∈ slice S l r ∧ ((slice S l r).filter (fun x => decide (x < v))).length ≤ k ∧
          k < ((slice S l r).filter (fun x => decide (x ≤ v))).length := by
  obtain ⟨w, e, ok, e1, e2⟩ := mk_ok' height S hS hH
  have s0 : ∀ p, slice S 0 p = S.take p := fun p => by unfold slice; simp
  refine ⟨w, e, ok.lt, e1, e2, fun i x hx => get_ok' ok hx, ?_⟩
  intro l r h1 h2
  refine ⟨?_, fun h64 x y => rangeFreq_ok ok h64 h1 h2 x y, fun k hk => quantile_ok ok h1 h2 hk⟩
  intro c hc0 hc1
  obtain ⟨v, rfl⟩ := Int.eq_ofNat_of_zero_le hc0
  have hv : v < 2^w.h := by exact_mod_cast hc1
  have h3 := rank3_ok ok hv h1 h2
  have hr := rangeRank_ok ok hv (l := 0) (Nat.zero_le _) h2
  rw [s0] at hr
  have hsel := fun i => rangeSelect_ok ok hv (l := 0) (r := S.length) (Nat.zero_le _) (Nat.le_refl _) i
  rw [s0, List.take_length] at hsel
  rw [Int.toNat_natCast]
  refine ⟨rangeRank_ok ok hv h1 h2, hr, ?_, fun i => rangeSelect_ok ok hv h1 h2 i, fun i => ⟨?_, ?_⟩⟩
  · rw [h3]
    simp only [Nat.cast_lt]
  · intro hi
    obtain ⟨p, a1, _, a2, a3, a4⟩ := (hsel i).1 hi
    rw [s0] at a4
    refine ⟨p, ?_, a2, a3, a4⟩
    unfold WM.select
    rw [ok.n]; exact a1
  · intro hi
    unfold WM.select
    rw [ok.n]; exact (hsel i).2 hi

/-- A sequence meeting the hypotheses. -/
example : (∀ x ∈ [3, 1, 4, 1, 5, 9, 2, 6], x < 2^64) ∧ (∀ H, some 31 = some H → 1 ≤ H ∧ ∀ x ∈ [3, 1, 4, 1, 5, 9, 2, 6], x < 2^H) :=
  ⟨by decide, fun H h => by cases h; decide⟩

example : (mk none [3, 1, 4, 1, 5, 9, 2, 6]).map (fun w => (w.get 5, w.rangeRank 1 0 4, w.rank3 4 1 7)) =
    some (some 9, some 2, some (3, 1, 2)) := by decide +kernel
example : (mk none [3, 1, 4, 1, 5, 9, 2, 6]).map (fun w => (w.select 1 1, w.rangeFreq 1 7 2 6, w.quantile 0 8 3)) =
    some (some 3, some 3, some 3) := by decide +kernel

/-- C45 is violated: on `{0, 1}` (height 1), `rank(2, 2)` is 1 although 2 does not occur, `select(2, 0)` is position 0, and `rank_3way(2, 0, 2)` says that one
element is greater than 2; and on `{2^63}` (height 64), `range_freq(0, 1, 0, 5)` shifts a 64-bit value by 64. -/
theorem C45_violated :
    (mk none [0, 1]).map (fun w => (w.rank 2 2, w.select 2 0, w.rank3 2 0 2)) = some (some 1, some 0, some (0, 1, 1)) ∧
    (mk none [2^63]).map (fun w => w.rangeFreq 0 1 0 5) = some none := by
  constructor <;> decide +kernel

end Verif.Wavelet
