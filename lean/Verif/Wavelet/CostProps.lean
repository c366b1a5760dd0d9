import Verif.Wavelet.Cost
import Verif.Wavelet.ListsProps
import Mathlib.Data.List.Dedup
import Mathlib.Data.Finset.Card
/-!
C139: the complexities documented for the listing functions of `WaveletMatrix` (lines 282, 292, 329, 335 and 340), counted in rounds of their `while` loops.  A round takes
constant time apart from the operations on the queue (logarithmic in its size for the `std::priority_queue` of `top_k`).
-/
namespace Verif.Wavelet

/-- `top_k(l, r, k)` stopped after `m` rounds of the loop :261-279 (`none`: not finished). -/
def WM.topKRounds (w : WM) (l r k m : Nat) : Option (List (Nat × Nat)) := (usub r l).bind (fun d => w.tkLoop k m [(d, l, 0)] [])
/-- `range_list_k(l, r, k, x, y)` stopped after `m` rounds of the loop :301-324 (`none`: not finished). -/
def WM.rangeListRounds (w : WM) (a : RlArgs) (l r k m : Nat) : Option (List (Nat × Nat)) := (usub r l).bind (fun d => w.rlLoop a k m [(d, l, 0)] [])

theorem dedup_bound {h : Nat} {M : List Nat} (hM : ∀ v ∈ M, v < 2^h) : M.dedup.length ≤ 2^h := by
  have := (List.nodup_dedup M).subperm (l₂ := List.range (2^h)) (fun v hv => List.mem_range.mpr (hM v (List.mem_dedup.mp hv)))
  simpa using this.length_le

theorem topK_cost {w : WM} {S : List Nat} (ok : Ok w S) {l r : Nat} (h1 : l < r) (h2 : r ≤ S.length) (k : Nat) :
    ∃ n L, n ≤ (slice S l r).dedup.length * (w.h + 1) ∧ Takes (w.topKRounds l r k) n L ∧ w.topK l r k = some L := by
  have hne : S ≠ [] := by intro h; rw [h] at h2; simp at h2; omega
  have hn : w.n = S.length := ok.n
  have hs := Sg.start (w := w) (Nat.le_of_lt h1) h2
  have hlev : l / w.n = 0 := by rw [hn]; exact Nat.div_eq_of_lt (by omega)
  have hlen := (slice_split (Nat.le_of_lt h1) h2).2
  have hv : ∀ M, (∀ x ∈ M, x < 2^w.h) → vals w M (r - l, l, 0) = M := by
    intro M hM
    unfold vals
    dsimp only
    rw [hlev, Nat.sub_zero, Nat.zero_div, pf_top hM]
  have hM : ∀ x ∈ slice S l r, x < 2^w.h := fun x hx => ok.lt x (slice_mem hx)
  have hu : usub r l = some (r - l) := by unfold usub; rw [if_pos (Nat.le_of_lt h1)]
  have hf : ∀ m, w.topKRounds l r k m = w.tkLoop k m [(r - l, l, 0)] [] := by
    intro m
    unfold WM.topKRounds
    rw [hu, Option.bind_some]
  obtain ⟨x, hx⟩ := tkLoop_cost (M := slice S l r) (M' := (slice S l r).dedup) ok hne (fun v hv => List.mem_dedup.mpr hv) k
    ((slice S l r).dedup.length * (w.h + 1)) [(r - l, l, 0)] [] (by
      intro i hi
      rw [List.mem_singleton] at hi
      subst hi
      refine ⟨by dsimp only; omega, by dsimp only; exact Nat.dvd_zero _, ?_, by dsimp only; omega⟩
      rw [hv _ hM]
      dsimp only
      rw [hlev, show l + (r - l) = r by omega]
      exact hs) (by
      simp only [List.map_cons, List.map_nil, List.sum_cons, List.sum_nil, cwt, Nat.add_zero]
      rw [hv _ (fun x hx => hM x (List.mem_dedup.mp hx)), hlev, Nat.sub_zero])
  rw [← hf] at hx
  obtain ⟨n, hn, ht⟩ := takes_of (f := w.topKRounds l r k) (fun m x h => by
    rw [hf] at h ⊢; exact tkLoop_mono w k m _ _ _ h) _ x hx
  refine ⟨n, x, hn, ht, ?_⟩
  have hle : (slice S l r).dedup.length ≤ r - l := by
    have := (List.dedup_sublist (slice S l r)).length_le
    omega
  have := Nat.mul_le_mul_right (w.h + 1) hle
  have h3 := ht.2 ((r - l) * (w.h + 1) + 2) (by omega)
  rw [hf] at h3
  unfold WM.topK
  rw [hu, Option.bind_some, h3]

theorem rangeList_cost {w : WM} {S : List Nat} (ok : Ok w S) (hh : 1 ≤ w.h) {a : RlArgs} (hg : a.Good) {l r : Nat} (h1 : l < r) (h2 : r ≤ S.length) (k : Nat)
    {M' : List Nat} (ha : Acc a (slice S l r) M') (h0 : ∃ v ∈ M', v / 2^w.h = 0) :
    ∃ n L, n ≤ M'.length * (w.h + 1) ∧ Takes (w.rangeListRounds a l r k) n L ∧ w.rangeListK a l r k = some L := by
  have hne : S ≠ [] := by intro h; rw [h] at h2; simp at h2; omega
  have hn : w.n = S.length := ok.n
  have hs := Sg.start (w := w) (Nat.le_of_lt h1) h2
  have hlev : l / w.n = 0 := by rw [hn]; exact Nat.div_eq_of_lt (by omega)
  have hu : usub r l = some (r - l) := by unfold usub; rw [if_pos (Nat.le_of_lt h1)]
  have hf : ∀ m, w.rangeListRounds a l r k m = w.rlLoop a k m [(r - l, l, 0)] [] := by
    intro m
    unfold WM.rangeListRounds
    rw [hu, Option.bind_some]
  obtain ⟨x, hx⟩ := rlLoop_cost (M := slice S l r) (M' := M') ok hne hg ha k (M'.length * (w.h + 1)) [(r - l, l, 0)] [] (by
      intro i hi
      rw [List.mem_singleton] at hi
      subst hi
      refine ⟨by dsimp only; omega, ⟨?_, by dsimp only; omega, by dsimp only; omega⟩, ?_⟩
      · dsimp only
        rw [hlev, Nat.sub_zero, pf_top (fun x hx => ok.lt x (slice_mem hx)), show l + (r - l) = r by omega]
        exact hs
      · dsimp only
        rw [hlev, Nat.sub_zero]
        exact h0) (by
      simp only [List.map_cons, List.map_nil, List.sum_cons, List.sum_nil, rcw, Nat.add_zero]
      rw [hlev, Nat.sub_zero, Nat.sub_zero]
      exact Nat.mul_le_mul_right _ (List.length_filter_le _ _))
  rw [← hf] at hx
  obtain ⟨n, hn, ht⟩ := takes_of (f := w.rangeListRounds a l r k) (fun m x h => by
    rw [hf] at h ⊢; exact rlLoop_mono w a k m _ _ _ h) _ x hx
  refine ⟨n, x, hn, ht, ?_⟩
  have h4 := rangeListK_ok ok hh hg h1 h2 k
  have h5 : w.rangeListK a l r k = w.rangeListRounds a l r k ((r - l) * (w.h + 1) + 2) := by
    rw [hf]
    unfold WM.rangeListK
    rw [hu, Option.bind_some]
  by_cases c : n ≤ (r - l) * (w.h + 1) + 2
  · rw [h5, ht.2 _ c]
  · rw [h5, ht.1 _ (by omega)] at h4
    cases h4

theorem acc_all {a : RlArgs} (M : List Nat) : Acc a M M.dedup := fun _ _ ⟨v, hv, e⟩ _ => ⟨v, List.mem_dedup.mpr hv, e⟩

theorem acc_range {a : RlArgs} (hg : a.Good) (hv : a.vr = true) (M : List Nat) :
    Acc a M ((M.filter (fun (v : Nat) => decide (a.x ≤ (v : Int) ∧ (v : Int) < a.y))).dedup ++ [a.x.toNat, (a.y - 1).toNat, 0]) := by
  rintro s nc ⟨v, hm, hnc⟩ hsk
  unfold RlArgs.skip at hsk
  rw [hv, hg hv, Bool.true_and, Bool.or_eq_false_iff, decide_eq_false_iff_not, decide_eq_false_iff_not] at hsk
  have hp : (0 : Int) < 2^s := by exact_mod_cast Nat.two_pow_pos s
  have e : ((nc : Nat) : Int) = (v : Int) / 2^s := by rw [← hnc]; norm_cast
  -- the ends of the interval
  have hend : ∀ z : Int, (nc : Int) = z / 2^s → z.toNat / 2^s = nc := by
    intro z hz
    have h0 : 0 ≤ z := by
      by_contra hc
      have : z / 2^s < 0 := Int.ediv_neg_of_neg_of_pos (by omega) hp
      omega
    have h3 : ((z.toNat : Nat) : Int) = z := Int.toNat_of_nonneg h0
    have h4 : ((z.toNat / 2^s : Nat) : Int) = (nc : Int) := by
      rw [hz]
      push_cast
      rw [h3]
    exact_mod_cast h4
  by_cases c1 : (nc : Int) = a.x / 2^s
  · exact ⟨a.x.toNat, by simp, hend _ c1⟩
  · by_cases c2 : (nc : Int) = (a.y - 1) / 2^s
    · exact ⟨(a.y - 1).toNat, by simp, hend _ c2⟩
    · refine ⟨v, ?_, hnc⟩
      rw [List.mem_append]
      left
      rw [List.mem_dedup, List.mem_filter, decide_eq_true_eq]
      refine ⟨hm, ?_, ?_⟩
      · by_contra hc
        have := Int.ediv_le_ediv hp (show (v : Int) ≤ a.x by omega)
        omega
      · by_contra hc
        have := Int.ediv_le_ediv hp (show a.y - 1 ≤ (v : Int) by omega)
        omega

theorem rangeList_slow {w : WM} {S : List Nat} (ok : Ok w S) {a : RlArgs} (hv : a.vr = false) {l r : Nat} (h1 : l < r) (h2 : r ≤ S.length) (k : Nat)
    (hall : ∀ v, v < 2^w.h → v ∈ slice S l r) {n : Nat} {L : List (Nat × Nat)} (ht : Takes (w.rangeListRounds a l r k) n L) : 2^w.h ≤ n := by
  have hne : S ≠ [] := by intro h; rw [h] at h2; simp at h2; omega
  have hs := Sg.start (w := w) (Nat.le_of_lt h1) h2
  have hu : usub r l = some (r - l) := by unfold usub; rw [if_pos (Nat.le_of_lt h1)]
  by_contra hc
  have hin := inner_full (M := slice S l r) w.h 0 (fun v hv => hall v (by
    exact (Nat.div_eq_zero_iff.mp hv).resolve_left (by have := Nat.two_pow_pos w.h; omega)))
  have := rlLoop_slow (M := slice S l r) ok hne hv k n 0 [(r - l, l, 0)] [] [] ok.h1 (by
    intro i hi
    rw [List.mem_singleton] at hi
    subst hi
    refine ⟨?_, by dsimp only; omega, by have := ok.h1; omega⟩
    dsimp only
    rw [Nat.sub_zero, pf_top (fun x hx => ok.lt x (slice_mem hx)), show l + (r - l) = r by omega]
    exact hs) (by simp) (by simp) (by simp only [List.map_cons, List.map_nil, List.sum_cons, List.sum_nil, Nat.add_zero, Nat.sub_zero]; omega)
  have h3 := ht.2 n (Nat.le_refl _)
  unfold WM.rangeListRounds at h3
  rw [hu, Option.bind_some] at h3
  rw [List.append_nil] at this
  rw [this] at h3
  cases h3

/-- C139 (partial: the bound documented for `range_min_k` and `range_max_k` does not hold, see `C139_violated`; the bounds count rounds).  For every sequence, constructed as
in C45, of height `h` (the number of bits of the greatest value, unless another is given) and every range `[l, r)` that is not empty, with `D` distinct values:

* `D` is at most `r - l` and at most `2^h`, and the loop of `top_k(l, r, k)`, with `k = r - l` that of `sum(l, r)`, ends in at most `D * (h + 1)` rounds: `O(min(r-l, σ) log σ)`
  as documented for `sum`;
* the loop of `range_list_k(l, r, k, x, y)`, with `k = r - l` that of `range_list(l, r, x, y)`, ends in at most `(W + 3) * (h + 1)` rounds when `W` distinct values of the range
  lie in `[x, y)`: `O(W log σ)` as documented for `range_list` (whose `k` is the number of values that it returns);
* the loops of `range_min_k(l, r, k)` and `range_max_k(l, r, k)` end in at most `D * (h + 1)` rounds, whatever `k`; and when all values of `h` bits occur in the range they take
  at least `2^h` rounds, whatever `k`. -/
theorem C139_rounds_partial (height : Option Nat) (S : List Nat) (hS : ∀ x ∈ S, x < 2^64) (hH : ∀ H, height = some H → 1 ≤ H ∧ ∀ x ∈ S, x < 2^H) :
    ∃ w, mk height S = some w ∧ (∀ H, height = some H → w.h = H) ∧ (height = none → w.h = 1 ∨ ∃ x ∈ S, 2^(w.h - 1) ≤ x) ∧ ∀ l r k, l < r → r ≤ S.length →
      ((slice S l r).dedup.length ≤ r - l ∧ (slice S l r).dedup.length ≤ 2^w.h ∧
        ∃ n L, n ≤ (slice S l r).dedup.length * (w.h + 1) ∧ Takes (w.topKRounds l r k) n L ∧ w.topK l r k = some L) ∧
      (∀ (u : Option Nat) (x y : Int), (∀ bits, u = some bits → 0 < y ∧ y < 2^bits) → ∀ asc, ∃ n L,
        n ≤ (((slice S l r).filter (fun (v : Nat) => decide (x ≤ (v : Int) ∧ (v : Int) < y))).dedup.length + 3) * (w.h + 1) ∧
        Takes (w.rangeListRounds ⟨asc, true, u, x, y⟩ l r k) n L ∧ w.rangeListK ⟨asc, true, u, x, y⟩ l r k = some L) ∧
      ∀ (u : Option Nat) (asc : Bool), ∃ n L, n ≤ (slice S l r).dedup.length * (w.h + 1) ∧
        Takes (w.rangeListRounds ⟨asc, false, u, 0, 0⟩ l r k) n L ∧ (if asc then w.rangeMinK u l r k else w.rangeMaxK u l r k) = some L ∧
        ((∀ v, v < 2^w.h → v ∈ slice S l r) → 2^w.h ≤ n) := by
  obtain ⟨w, e, ok, e1, e2⟩ := mk_ok' height S hS hH
  have hh := h_pos hH ok e1 e2
  refine ⟨w, e, e1, e2, fun l r k h1 h2 => ⟨⟨?_, dedup_bound (fun v hv => ok.lt v (slice_mem hv)), topK_cost ok h1 h2 k⟩, ?_, ?_⟩⟩
  · have := (List.dedup_sublist (slice S l r)).length_le
    have hlen := (slice_split (Nat.le_of_lt h1) h2).2
    omega
  · intro u x y hu asc
    have hg : (⟨asc, true, u, x, y⟩ : RlArgs).Good := by
      intro _
      show ym1 u y = y - 1
      cases u with
      | none => rfl
      | some bits =>
          have := hu bits rfl
          exact Int.emod_eq_of_lt (by omega) (by omega)
    obtain ⟨n, L, hn, ht, hr⟩ := rangeList_cost ok hh hg h1 h2 k (acc_range hg rfl (slice S l r)) ⟨0, by simp, by simp⟩
    refine ⟨n, L, ?_, ht, hr⟩
    rw [List.length_append] at hn
    exact hn
  · intro u asc
    have hg : (⟨asc, false, u, 0, 0⟩ : RlArgs).Good := fun h => by cases h
    have hlen := (slice_split (Nat.le_of_lt h1) h2).2
    obtain ⟨v, hv⟩ := List.exists_mem_of_length_pos (show 0 < (slice S l r).length by omega)
    obtain ⟨n, L, hn, ht, hr⟩ := rangeList_cost ok hh hg h1 h2 k (acc_all (slice S l r))
      ⟨v, List.mem_dedup.mpr hv, Nat.div_eq_of_lt (ok.lt v (slice_mem hv))⟩
    refine ⟨n, L, hn, ht, ?_, fun hall => rangeList_slow ok rfl h1 h2 k hall ht⟩
    cases asc
    · exact hr
    · exact hr

/-- A sequence meeting the hypotheses: the listing of the values in `[1, 5)` ends in round 11, not before. -/
example : (mk none [3, 1, 4, 1, 5, 9, 2, 6]).map (fun w => (w.h, w.rangeListRounds ⟨true, true, none, 1, 5⟩ 0 8 8 10, w.rangeListRounds ⟨true, true, none, 1, 5⟩ 0 8 8 11)) =
    some (4, none, some [(1, 2), (2, 1), (3, 1), (4, 1)]) := by decide +kernel

/-- The bound documented for `range_min_k(l, r, k)` and `range_max_k(l, r, k)`, `O(k log σ)`, is violated: lines 297-323 visit the nodes in the order of a `std::queue`, level by
level, so no value is listed before all the inner nodes are visited.  For every `h` up to 64, asking for the single smallest or greatest one of the values of `h` bits takes
at least `2^h` rounds, although `k = 1` and `log σ = h`. -/
theorem C139_violated (h : Nat) (h1 : 1 ≤ h) (h2 : h ≤ 64) (u : Option Nat) (asc : Bool) :
    ∃ w, mk (some h) (List.range (2^h)) = some w ∧ w.h = h ∧ ∃ n L, Takes (w.rangeListRounds ⟨asc, false, u, 0, 0⟩ 0 (2^h) 1) n L ∧
      (if asc then w.rangeMinK u 0 (2^h) 1 else w.rangeMaxK u 0 (2^h) 1) = some L ∧ 2^h ≤ n := by
  have hp := Nat.two_pow_pos h
  obtain ⟨w, e, eh, _, hw⟩ := C139_rounds_partial (some h) (List.range (2^h)) (fun x hx => by
    have := List.mem_range.mp hx
    have := Nat.pow_le_pow_right (show 0 < 2 by omega) h2
    omega) (fun H hH => by
    cases hH
    exact ⟨h1, fun x hx => List.mem_range.mp hx⟩)
  have eh := eh h rfl
  obtain ⟨n, L, _, ht, hr, hs⟩ := (hw 0 (2^h) 1 hp (by simp)).2.2 u asc
  refine ⟨w, e, eh, n, L, ht, hr, ?_⟩
  rw [eh] at hs
  refine hs (fun v hv => ?_)
  unfold slice
  simp [hv]

/-- The least of the values 0..7 is found in round 8. -/
example : (mk (some 3) (List.range 8)).map (fun w => (w.rangeListRounds ⟨true, false, none, 0, 0⟩ 0 8 1 7, w.rangeListRounds ⟨true, false, none, 0, 0⟩ 0 8 1 8)) =
    some (none, some [(0, 1)]) := by decide +kernel

end Verif.Wavelet
