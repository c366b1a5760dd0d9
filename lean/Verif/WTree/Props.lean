import Verif.WTree.Query
/-!
C108: the queries of `WaveletTree` agree with the plain sequence.
-/
namespace Verif.WTree
open Verif.BitManip Verif.Succinct Verif.Wavelet

/-- C108 (partial: sequences with a non-zero element, value arguments that fit in the height).  For every sequence of non-negative values below `2^64`, not all of them 0,
the constructor succeeds, and then

* `get(i)` is element `i`,
* `rank(c, i)` counts `c`, `rank_lower(c, i)` counts the elements less than `c`, and `rank_3way(c, i)` counts the elements less than, equal to and greater than `c`, among the first `i`,
* `select(c, i)` is the position of the `i`-th `c`, or `n` if there is none (when `n h` fits in an `int`),
* `enumerate(l, r)` lists the distinct values of `[l, r)` in increasing order with their numbers of occurrences.

The full statement (any sequence, any value argument) fails: `C108_zero_violated`, `C108_violated`.  The last conjunct says that values `c` beyond the height are greater than all elements. -/
theorem C108_partial (S : List Nat) (hS : ∀ x ∈ S, x < 2^64) (h0 : ∃ x ∈ S, x ≠ 0) :
    ∃ w, mk S = some w ∧ (∀ i x, S[i]? = some x → w.get i = some x) ∧
      (∀ c : Int, 0 ≤ c → c < 2^w.h →
        (∀ i, i ≤ S.length →
          w.rank c i = some ((S.take i).count c.toNat) ∧
          w.rankLower c i = some ((S.take i).filter (fun (x : Nat) => decide ((x : Int) < c))).length ∧
          w.rank3 c i = some (((S.take i).filter (fun (x : Nat) => decide ((x : Int) < c))).length, (S.take i).count c.toNat, ((S.take i).filter (fun (x : Nat) => decide (c < (x : Int)))).length)) ∧
        (S.length * w.h < 2^31 → ∀ i, (i < S.count c.toNat → ∃ p, w.select c i = some p ∧ S[p]? = some c.toNat ∧ (S.take p).count c.toNat = i) ∧
          (S.count c.toNat ≤ i → w.select c i = some S.length))) ∧
      (∀ l r, l ≤ r → r ≤ S.length → ∃ E, w.enumerate l r = some E ∧ E.Pairwise (fun a b => a.1 < b.1) ∧ ∀ v m, (v, m) ∈ E ↔ 0 < m ∧ ((S.drop l).take (r - l)).count v = m) ∧
      (∀ x ∈ S, x < 2^w.h) ∧ ∃ x ∈ S, 2^(w.h - 1) ≤ x := by
  obtain ⟨m, hm, hm0⟩ := h0
  obtain ⟨w, e, ok, hx⟩ := mk_ok S hS hm hm0
  refine ⟨w, e, fun i x hx => get_ok ok hx, ?_, fun l r h1 h2 => enumerate_ok ok h1 h2, ok.lt, hx⟩
  intro c hc0 hc1
  obtain ⟨v, rfl⟩ := Int.eq_ofNat_of_zero_le hc0
  have hv : v < 2^w.h := by exact_mod_cast hc1
  rw [Int.toNat_natCast]
  refine ⟨fun i hi => ?_, fun hsz i => ⟨fun h => ?_, (select_ok ok hsz hv i).2⟩⟩
  · obtain ⟨r1, r2, r3⟩ := ranks3_ok ok hv hi
    simp only [Nat.cast_lt]
    exact ⟨r1, r2, r3⟩
  · obtain ⟨p, p1, _, p2, p3⟩ := (select_ok ok hsz hv i).1 h
    exact ⟨p, p1, p2, p3⟩

/-- A sequence meeting the hypotheses. -/
example : (∀ x ∈ [3, 1, 4, 1, 5, 9, 2, 6], x < 2^64) ∧ ∃ x ∈ [3, 1, 4, 1, 5, 9, 2, 6], x ≠ 0 := by decide
example : (mk [3, 1, 4, 1, 5, 9, 2, 6]).map (fun w => (w.get 5, w.rank 1 4, w.rankLower 5 7)) = some (some 9, some 2, some 5) := by decide +kernel
example : (mk [3, 1, 4, 1, 5, 9, 2, 6]).map (fun w => w.rank3 4 7) = some (some (4, 1, 2)) := by decide +kernel
example : (mk [3, 1, 4, 1, 5, 9, 2, 6]).map (fun w => (w.select 1 1, w.enumerate 1 5)) = some (some 3, some [(1, 2), (4, 1), (5, 1)]) := by decide +kernel

/-- C108 fails: for a sequence of zeros (of any positive length) the constructor writes past an empty array; for the empty sequence it dereferences the end. -/
theorem C108_zero_violated (n : Nat) : mk (List.replicate n 0) = none := by
  cases n with
  | zero => rfl
  | succ n =>
    have hf : ∀ n, (List.replicate n 0).foldl max 0 = 0 := by
      intro n
      induction n with
      | zero => rfl
      | succ n ih => rw [List.replicate_succ, List.foldl_cons]; exact ih
    unfold mk height
    rw [if_neg (by simp), hf, (C27_clz 0 (by omega)).1 rfl]
    simp only [Option.map_some, Option.bind_some, List.length_replicate]
    show (((some _ : Option CSt).bind _)) = _
    rw [Option.bind_some]
    have hw : writeBody (List.replicate (n+1) 0) 0 0 (Bm.assign (Bm.mk' 0 false) ((64 - 64) * (n + 1)) false, Bm.begin) = none := by
      rw [Nat.sub_self, Nat.zero_mul]
      rfl
    show Option.bind (forRange 0 (n + 1) _ _) _ = _
    rw [forRange]
    show Option.bind (forUp _ 0 (n + 1) _) _ = _
    rw [forUp, hw]
    rfl

/-- C108 is violated: on `{0, 1}` (height 1), `rank(2, 2)` is 1 although 2 does not occur, `rank_lower(2, 2)` is 0 although both elements are less, and `select(2, 0)` is position 0. -/
theorem C108_violated : (mk [0, 1]).map (fun w => (w.rank 2 2, w.rankLower 2 2, w.select 2 0)) = some (some 1, some 0, some 0) := by decide +kernel

end Verif.WTree
