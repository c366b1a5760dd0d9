import Verif.Wavelet.TopK
/-!
C111 and C112: the listing functions of `WaveletMatrix` (`range_list_k`, `range_list`, `range_min_k`, `range_max_k`, `top_k`, `sum`).
-/
namespace Verif.Wavelet

/-- `L` lists, in increasing (`asc`) or decreasing order of value, the distinct elements of `M` accepted by `want`, each with its number of occurrences in `M`. -/
structure ByValue (asc : Bool) (want : Nat → Prop) (M : List Nat) (L : List (Nat × Nat)) : Prop where
  mem : ∀ v f, (v, f) ∈ L ↔ (v ∈ M ∧ want v ∧ f = M.count v)
  ord : L.Pairwise (fun a b => if asc then a.1 < b.1 else b.1 < a.1)

theorem byValue_lst {a : RlArgs} {want : Nat → Prop} (hw : ∀ v, a.want v = true ↔ want v) {h : Nat} {M : List Nat} (hM : ∀ v ∈ M, v < 2^h) :
    ByValue a.asc want M (lst a M h 0) := by
  refine ⟨fun v f => ?_, lst_sorted a M h 0⟩
  rw [lst_mem, hw]
  constructor
  · exact fun h => h.2
  · exact fun h => ⟨Nat.div_eq_of_lt (hM v h.1), h⟩

theorem ByValue.length_le {asc : Bool} {want : Nat → Prop} {M : List Nat} {L : List (Nat × Nat)} (h : ByValue asc want M L) : L.length ≤ M.length := by
  have hd : L.Pairwise (fun a b => a.1 ≠ b.1) := h.ord.imp (fun {a b} hab => by cases asc <;> simp at hab <;> omega)
  have hn : (L.map Prod.fst).Nodup := List.pairwise_map.mpr hd
  have := hn.subperm (l₂ := M) (by
    intro v hv
    obtain ⟨⟨v', f⟩, hm, rfl⟩ := List.mem_map.mp hv
    exact ((h.mem v' f).mp hm).1)
  have := this.length_le
  rwa [List.length_map] at this

theorem h_pos {height : Option Nat} {S : List Nat} {w : WM} (hH : ∀ H, height = some H → 1 ≤ H ∧ ∀ x ∈ S, x < 2^H) (ok : Ok w S)
    (e1 : ∀ H, height = some H → w.h = H) (e2 : height = none → w.h = 1 ∨ ∃ x ∈ S, 2^(w.h - 1) ≤ x) : 1 ≤ w.h := by
  cases height with
  | some H => have := (hH H rfl).1; rw [e1 H rfl]; exact this
  | none =>
      rcases e2 rfl with h | ⟨x, hx, h⟩
      · omega
      · by_contra hc
        have := ok.lt x hx
        rw [show w.h = 0 by omega] at this h
        simp at this h
        omega

theorem rlk {w : WM} {S : List Nat} (ok : Ok w S) (hh : 1 ≤ w.h) (hne : S ≠ []) {l r : Nat} (h1 : l ≤ r) (h2 : r ≤ S.length) (h3 : l < S.length ∨ 1 < w.h)
    {a : RlArgs} (hg : a.Good) {want : Nat → Prop} (hw : ∀ v, a.want v = true ↔ want v) :
    ∃ L, ByValue a.asc want (slice S l r) L ∧ ∀ k, w.rangeListK a l r k = some (cut k L) := by
  by_cases c : l = r
  · subst c
    have : slice S l l = [] := by unfold slice; simp
    refine ⟨[], ⟨by simp [this], by simp⟩, fun k => ?_⟩
    rw [rangeListK_empty ok hh hne hg (by omega), cut_le (by simp)]
  · exact ⟨_, byValue_lst hw (fun v hv => ok.lt v (slice_mem hv)), fun k => rangeListK_ok ok hh hg (by omega) h2 k⟩

/-- C111 (partial: the sequence is not empty, `k` is not 0, `y` is not 0 for a wide unsigned `T`, and not both the range is the empty range at the end and the height
is 1).  For every sequence, constructed as in C45, and every range `[l, r)` there are lists `L` of the distinct elements of `S[l, r)` with their frequencies such that

* `range_list_k<ASC>(l, r, k, x, y)` returns the first `k` entries of the list, in increasing or decreasing order, of the values in `[x, y)`,
* `range_list(l, r, x, y)` returns that whole list in increasing order,
* `range_min_k(l, r, k)` and `range_max_k(l, r, k)` return the first `k` entries of the increasing and the decreasing list of all values.

`u` is `some bits` when `T` is an unsigned type of `bits` bits, at least those of `int`, and `none` otherwise. -/
theorem C111_listing_partial (height : Option Nat) (S : List Nat) (hne : S ≠ []) (hS : ∀ x ∈ S, x < 2^64) (hH : ∀ H, height = some H → 1 ≤ H ∧ ∀ x ∈ S, x < 2^H) :
    ∃ w, mk height S = some w ∧ ∀ l r u, l ≤ r → r ≤ S.length → (l < S.length ∨ 1 < w.h) →
      (∀ x y : Int, (∀ bits, u = some bits → 0 < y ∧ y < 2^bits) → ∀ asc, ∃ L, ByValue asc (fun v => x ≤ (v : Int) ∧ (v : Int) < y) (slice S l r) L ∧
        (∀ k, 0 < k → w.rangeListK ⟨asc, true, u, x, y⟩ l r k = some (L.take k)) ∧ (asc = true → w.rangeList u l r x y = some L)) ∧
      ∃ L, ByValue true (fun _ => True) (slice S l r) L ∧ ∀ k, 0 < k → w.rangeMinK u l r k = some (L.take k) ∧ w.rangeMaxK u l r k = some (L.reverse.take k) := by
  obtain ⟨w, e, ok, e1, e2⟩ := mk_ok' height S hS hH
  have hh := h_pos hH ok e1 e2
  refine ⟨w, e, fun l r u h1 h2 h3 => ⟨?_, ?_⟩⟩
  · intro x y hu asc
    obtain ⟨L, hL, hr⟩ := rlk ok hh hne h1 h2 h3 (a := ⟨asc, true, u, x, y⟩) (by
      intro _
      show ym1 u y = y - 1
      cases u with
      | none => rfl
      | some bits =>
          have := hu bits rfl
          exact Int.emod_eq_of_lt (by omega) (by omega)) (want := fun v => x ≤ (v : Int) ∧ (v : Int) < y) (by
      intro v; unfold RlArgs.want; simp)
    refine ⟨L, hL, fun k hk => ?_, fun ha => ?_⟩
    · rw [hr k]; unfold cut; rw [if_neg (by omega)]
    · have hl := (slice_split h1 h2).2
      have hle := hL.length_le
      subst ha
      unfold WM.rangeList usub
      rw [if_pos h1, Option.bind_some, hr, cut_le (by omega)]
  · obtain ⟨L, hL, hr⟩ := rlk ok hh hne h1 h2 h3 (a := ⟨true, false, u, 0, 0⟩) (fun h => by cases h) (want := fun _ => True) (by
      intro v; unfold RlArgs.want; simp)
    obtain ⟨L', hL', hr'⟩ := rlk ok hh hne h1 h2 h3 (a := ⟨false, false, u, 0, 0⟩) (fun h => by cases h) (want := fun _ => True) (by
      intro v; unfold RlArgs.want; simp)
    refine ⟨L, hL, fun k hk => ⟨?_, ?_⟩⟩
    · unfold WM.rangeMinK
      rw [hr k]; unfold cut; rw [if_neg (by omega)]
    · unfold WM.rangeMaxK
      have hrev : L' = L.reverse := by
        have o1 : L'.Pairwise (fun a b => b.1 < a.1) := by simpa using hL'.ord
        have o2 : L.reverse.Pairwise (fun a b => b.1 < a.1) := by
          rw [List.pairwise_reverse]; simpa using hL.ord
        have n1 : L'.Nodup := o1.imp (fun {a b} h hc => by subst hc; omega)
        have n2 : L.reverse.Nodup := o2.imp (fun {a b} h hc => by subst hc; omega)
        have hp : L'.Perm L.reverse := (List.perm_ext_iff_of_nodup n1 n2).mpr (fun p => by
          obtain ⟨v, f⟩ := p
          rw [List.mem_reverse, hL.mem, hL'.mem])
        exact hp.eq_of_pairwise (fun a b _ _ h1 h2 => by omega) o1 o2
      rw [hr' k, hrev]; unfold cut; rw [if_neg (by omega)]

/-- A sequence meeting the hypotheses, with the results of the functions. -/
example : [3, 1, 4, 1, 5, 9, 2, 6] ≠ [] ∧ (∀ x ∈ [3, 1, 4, 1, 5, 9, 2, 6], x < 2^64) := by decide
example : (mk none [3, 1, 4, 1, 5, 9, 2, 6]).map (fun w => (w.h, w.rangeListK ⟨false, true, some 64, 1, 5⟩ 0 7 3)) = some (4, some [(4, 1), (3, 1), (2, 1)]) := by decide +kernel
example : (mk none [3, 1, 4, 1, 5, 9, 2, 6]).map (fun w => (w.rangeList none 0 7 1 5)) = some (some [(1, 2), (2, 1), (3, 1), (4, 1)]) := by decide +kernel
example : (mk none [3, 1, 4, 1, 5, 9, 2, 6]).map (fun w => (w.rangeMinK none 0 7 2, w.rangeMaxK none 0 7 2)) = some (some [(1, 2), (2, 1)], some [(9, 1), (5, 1)]) := by decide +kernel

/-- C111 is violated: with `k = 0` all values are returned, not none (lines 307-309 test the limit only after adding); the empty range at the end of a sequence of height 1
yields the value 0 with frequency 0; for an unsigned `T`, `y = 0` makes `y-1` wrap, so that the values from `x` on are visited and the assertion in line 306 fails; and on an
empty matrix there is a division by 0. -/
theorem C111_violated :
    (mk none [5, 7, 5]).map (fun w => w.rangeMinK (some 64) 0 3 0) = some (some [(5, 2), (7, 1)]) ∧
    (mk none [1, 0]).map (fun w => w.rangeMinK (some 64) 2 2 1) = some (some [(0, 0)]) ∧
    (mk none [5, 7, 5]).map (fun w => w.rangeList (some 64) 0 3 0 0) = some none ∧
    (mk none []).map (fun w => w.rangeList (some 64) 0 0 0 5) = some none := by
  refine ⟨?_, ?_, ?_, ?_⟩ <;> decide +kernel

/-- C112 (partial: the sequence is not empty, `k` is not 0, and for `top_k` not both the range is the empty range at the end and the height is 1).  For every sequence,
constructed as in C45, and every range `[l, r)`: for every `k`, `top_k(l, r, k)` returns the first `k` entries of some list of the distinct elements of `S[l, r)` with their
frequencies, the most frequent first; and `sum<U>(l, r)` is the sum of `S[l, r)` in `U`, which may be any commutative semiring, such as the integers
modulo `2^64`. -/
theorem C112_top_k_sum_partial (height : Option Nat) (S : List Nat) (hne : S ≠ []) (hS : ∀ x ∈ S, x < 2^64) (hH : ∀ H, height = some H → 1 ≤ H ∧ ∀ x ∈ S, x < 2^H) :
    ∃ w, mk height S = some w ∧ ∀ l r, l ≤ r → r ≤ S.length →
      (∀ k, 0 < k → (l < S.length ∨ 1 < w.h) → ∃ L, ByFreq (slice S l r) L ∧ w.topK l r k = some (L.take k)) ∧
      ∀ (U : Type) [CommSemiring U], w.sum (U := U) l r = some (((slice S l r).map (fun (v : Nat) => (v : U))).sum) := by
  obtain ⟨w, e, ok, e1, e2⟩ := mk_ok' height S hS hH
  have hh := h_pos hH ok e1 e2
  refine ⟨w, e, fun l r h1 h2 => ⟨?_, fun U _ => sum_ok ok hh hne h1 h2⟩⟩
  intro k hk h3
  by_cases c : l = r
  · subst c
    have : slice S l l = [] := by unfold slice; simp
    refine ⟨[], ⟨by simp [this], by simp, by simp⟩, ?_⟩
    rw [topK_empty ok hh hne h2, if_neg (by omega), List.take_nil]
  · obtain ⟨L, hL, hr⟩ := topK_ok ok (show l < r by omega) h2 k
    refine ⟨L, hL, ?_⟩
    rw [hr]; unfold cut; rw [if_neg (by omega)]

example : (mk none [3, 1, 4, 1, 5, 9, 2, 6, 5, 3, 5]).map (fun w => (w.topK 0 11 3, w.sum (U := Nat) 2 9)) = some (some [(5, 3), (3, 2), (1, 2)], some 32) := by decide +kernel

/-- C112 is violated: `top_k` with `k = 0` returns all values; the empty range at the end of a sequence of height 1 yields the value 0 with frequency 0; and `top_k` and
`sum` of an empty matrix divide by 0. -/
theorem C112_violated :
    (mk none [5, 7, 5]).map (fun w => w.topK 0 3 0) = some (some [(5, 2), (7, 1)]) ∧
    (mk none [1, 0]).map (fun w => w.topK 2 2 1) = some (some [(0, 0)]) ∧
    (mk none []).map (fun w => w.sum (U := Nat) 0 0) = some none := by
  refine ⟨?_, ?_, ?_⟩ <;> decide +kernel

end Verif.Wavelet
