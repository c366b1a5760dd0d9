import Verif.Ors.Whole
/-!
C105: `ORS` counts points and sums weights over rectangles, after any sequence of `weight_add`.
C106: `ORS::enumerate` lists the points of a rectangle (violated).

Spec: `rectSum` adds the weights of the points of a list that lie in `[xl, xh) × [yl, yh)`; a `weight_add(x, y, dw)` counts as one more point `(x, y, dw)`.
-/
namespace Verif.Ors
open Verif Verif.Succinct Verif.Wavelet

variable {W : Type}

theorem OrsOk.congr {o : Ors} {T T' : List (Pt W)} (ok : OrsOk o T) (h1 : T'.map (·.1) = T.map (·.1)) (h2 : T'.map (·.2.1) = T.map (·.2.1)) : OrsOk o T' := by
  refine ⟨?_, by rw [h1]; exact ok.mrank, by rw [h1]; exact ok.mget, by rw [h1]; exact ok.mcount, by rw [h2]; exact ok.rank, ?_, ok.h⟩
  · have := ok.srt
    have hm : ∀ L : List (Pt W), (L.map (·.1)).Pairwise (· ≤ ·) ↔ L.Pairwise (fun p q => p.1 ≤ q.1) := fun L => List.pairwise_map
    rw [← hm] at this ⊢
    rwa [h1]
  · have e : ∀ L : List (Pt W), L.map (fun p => BinSet.below (T.map (·.2.1)) p.2.1) = (L.map (·.2.1)).map (BinSet.below (T.map (·.2.1))) := by intro L; rw [List.map_map]; rfl
    rw [h2, e, h2, ← e]
    exact ok.wm

/-- The operations `weight_add` one after another. -/
def addAll [Add W] (o : Ors) (F : List W) (adds : List (Pt W)) : Option (List W) := adds.foldlM (fun F a => weightAdd o F a.1 a.2.1 a.2.2) F

section
variable [AddCommMonoid W]

theorem rectSum_perm {T T' : List (Pt W)} (h : T.Perm T') (xl xh yl yh : Int) : rectSum T xl xh yl yh = rectSum T' xl xh yl yh := ((h.filter _).map _).sum_eq

theorem rectSum_add (T0 T1 L : List (Pt W)) (x y : Nat) (w dw : W) (xl xh yl yh : Int) :
    rectSum ((T0 ++ (x, y, w + dw) :: T1) ++ L) xl xh yl yh = rectSum ((T0 ++ (x, y, w) :: T1) ++ (x, y, dw) :: L) xl xh yl yh := by
  unfold rectSum
  have e : ∀ v : W, inRect xl xh yl yh (x, y, v) = inRect xl xh yl yh (x, y, w) := fun _ => rfl
  by_cases c : inRect xl xh yl yh (x, y, w) = true
  · simp only [List.filter_append, List.filter_cons, e, c, if_true, List.map_append, List.map_cons, List.sum_append, List.sum_cons]
    ac_rfl
  · simp only [List.filter_append, List.filter_cons, e, c, Bool.false_eq_true, if_false, List.map_append, List.sum_append]

theorem addAll_ok {o : Ors} : ∀ (adds T : List (Pt W)), OrsOk o T → (∀ p ∈ T, p.1 < 2^31 ∧ p.2.1 < 2^31) → (∀ a ∈ adds, ∃ p ∈ T, p.1 = a.1 ∧ p.2.1 = a.2.1) →
    ∃ T', addAll o (allW o.wm.h (T.map (key (T.map (·.2.1)))) (o.wm.h + 1)) adds = some (allW o.wm.h (T'.map (key (T'.map (·.2.1)))) (o.wm.h + 1)) ∧ OrsOk o T' ∧ T'.length = T.length ∧
      ∀ xl xh yl yh, rectSum T' xl xh yl yh = rectSum (T ++ adds) xl xh yl yh
  | [], T, ok, _, _ => ⟨T, rfl, ok, rfl, by simp⟩
  | (x, y, dw) :: adds, T, ok, hc, ha => by
    obtain ⟨p, hp, hpx, hpy⟩ := ha _ List.mem_cons_self
    obtain ⟨T0, w0, T1, eT, e⟩ := weightAdd_ok ok (x := x) (y := y) (by have := (hc p hp).1; dsimp only at hpx; omega) (by have := (hc p hp).2; dsimp only at hpy; omega) ⟨p, hp, hpx, hpy⟩ dw
    have h1 : (T0 ++ (x, y, w0 + dw) :: T1).map (·.1) = T.map (·.1) := by rw [eT]; simp
    have h2 : (T0 ++ (x, y, w0 + dw) :: T1).map (·.2.1) = T.map (·.2.1) := by rw [eT]; simp
    have tr : ∀ p ∈ T, ∃ q ∈ T0 ++ (x, y, w0 + dw) :: T1, q.1 = p.1 ∧ q.2.1 = p.2.1 := by
      intro p hp
      rw [eT] at hp
      rcases List.mem_append.1 hp with hp | hp
      · exact ⟨p, List.mem_append_left _ hp, rfl, rfl⟩
      · rcases List.mem_cons.1 hp with rfl | hp
        · exact ⟨(x, y, w0 + dw), by simp, rfl, rfl⟩
        · exact ⟨p, by simp [hp], rfl, rfl⟩
    have tr2 : ∀ p ∈ T0 ++ (x, y, w0 + dw) :: T1, ∃ q ∈ T, q.1 = p.1 ∧ q.2.1 = p.2.1 := by
      intro p hp
      rw [eT]
      rcases List.mem_append.1 hp with hp | hp
      · exact ⟨p, List.mem_append_left _ hp, rfl, rfl⟩
      · rcases List.mem_cons.1 hp with rfl | hp
        · exact ⟨(x, y, w0), by simp, rfl, rfl⟩
        · exact ⟨p, by simp [hp], rfl, rfl⟩
    obtain ⟨T', e', ok', hl, hr⟩ := addAll_ok adds _ (ok.congr h1 h2) (by
      intro p hp
      obtain ⟨q, hq, q1, q2⟩ := tr2 p hp
      rw [← q1, ← q2]
      exact hc q hq) (by
      intro a haa
      obtain ⟨p, hp, p1, p2⟩ := ha a (List.mem_cons_of_mem _ haa)
      obtain ⟨q, hq, q1, q2⟩ := tr p hp
      exact ⟨q, hq, q1.trans p1, q2.trans p2⟩)
    refine ⟨T', ?_, ok', by rw [hl, eT]; simp, fun xl xh yl yh => ?_⟩
    · unfold addAll at e' ⊢
      rw [List.foldlM_cons, e]
      rw [h2] at e'
      exact e'
    · rw [hr, rectSum_add, ← eT]

theorem build_ok {s : Nat} (h1 : 1 ≤ s) (hs : s ≤ 63) {ps : List (Pt W)} (hc : ∀ p ∈ ps, p.1 < 2^31 ∧ p.2.1 < 2^31) (hn : ps.length < 2^31) :
    ∃ o, build s ps = some (o, allW o.wm.h ((sortPts ps).map (key ((sortPts ps).map (·.2.1)))) (o.wm.h + 1)) ∧ OrsOk o (sortPts ps) := by
  have hp := sort_perm ps
  obtain ⟨o, e, ok⟩ := index_ok h1 hs (sort_srt ps) (fun p h => hc p (hp.mem_iff.1 h)) (by rw [hp.length_eq]; exact hn)
  refine ⟨o, ?_, ok⟩
  unfold build
  rw [e, Option.bind_some]
  have hz : ((sortPts ps).map (fun p => BinSet.below ((sortPts ps).map (·.2.1)) p.2.1)).zip ((sortPts ps).map (·.2.2)) = (sortPts ps).map (key ((sortPts ps).map (·.2.1))) := by
    rw [List.zip_map']; rfl
  have hw := weights_ok o.wm.h ((sortPts ps).map (key ((sortPts ps).map (·.2.1))))
  have hnn : o.wm.n = ((sortPts ps).map (key ((sortPts ps).map (·.2.1)))).length := by rw [ok.wm.n, List.length_map, List.length_map]
  dsimp only
  rw [hz, hnn]
  obtain ⟨t, et, hw⟩ := Option.bind_eq_some_iff.1 hw
  rw [et, Option.bind_some, hw, Option.map_some]
end

/-- C105 (counting): after `build()`, also of no points, `freq` is the number of points in the rectangle. -/
theorem C105_freq_partial (s : Nat) (h1 : 1 ≤ s) (hs : s ≤ 63) (ps : List (Pt W)) (hc : ∀ p ∈ ps, p.1 < 2^31 ∧ p.2.1 < 2^31) (hn : ps.length < 2^31) :
    ∃ o, build0 s ps = some o ∧ ∀ xl xh yl yh : Int, 0 ≤ xl → xl ≤ xh → xh < 2^31 → 0 ≤ yl → yl < 2^31 → 0 ≤ yh → yh < 2^31 →
      freq o xl xh yl yh = some (ps.filter (inRect xl xh yl yh)).length := by
  have hp := sort_perm ps
  obtain ⟨o, e, ok⟩ := index_ok h1 hs (sort_srt ps) (fun p h => hc p (hp.mem_iff.1 h)) (by rw [hp.length_eq]; exact hn)
  refine ⟨o, by rw [build0, e]; rfl, fun xl xh yl yh a1 a2 a3 a4 a5 a6 a7 => ?_⟩
  have e2 : (ps.filter (inRect xl xh yl yh)).length = ((sortPts ps).filter (inRect xl xh yl yh)).length := ((hp.filter _).length_eq).symm
  have hl : ((sortPts ps).filter (inRect xl xh yl yh)).length = (((sortPts ps).map (fun p => ((p.1, p.2.1, (0 : Nat)) : Pt Nat))).filter (inRect xl xh yl yh)).length := by
    rw [List.filter_map, List.length_map]; rfl
  rw [e2, hl]
  exact freq_ok ok.unweighted a1 a2 a4 a6 (by omega) (by omega) (by omega)

/-- C105 (weights): after `build` and any `weight_add`s at points, `sum` is the sum over the rectangle of the weights with everything added.
Full statement: for all query bounds of type `int`, without a result for `1ull << -1`, and also without points.
Missing: the shift by -1 must give `2^63` (as on x86-64); no negative bounds, at least one point; see the `violated` theorems. -/
theorem C105_sum_partial [AddCommMonoid W] (s : Nat) (h1 : 1 ≤ s) (hs : s ≤ 63) (ps : List (Pt W)) (hne : ps ≠ []) (hc : ∀ p ∈ ps, p.1 < 2^31 ∧ p.2.1 < 2^31) (hn : ps.length < 2^31) :
    ∃ o F, build s ps = some (o, F) ∧ ∀ adds : List (Pt W), (∀ a ∈ adds, ∃ p ∈ ps, p.1 = a.1 ∧ p.2.1 = a.2.1) →
      ∃ F', addAll o F adds = some F' ∧ ∀ xl xh yl yh : Int, 0 ≤ xl → xl ≤ xh → xh < 2^31 → 0 ≤ yl → yl < 2^31 → 0 ≤ yh → yh < 2^31 →
        sum (some (2^63)) o F' xl xh yl yh = some (rectSum (ps ++ adds) xl xh yl yh) ∧ freq o xl xh yl yh = some (ps.filter (inRect xl xh yl yh)).length := by
  have hp := sort_perm ps
  obtain ⟨o, e, ok⟩ := build_ok h1 hs hc hn
  refine ⟨o, _, e, fun adds ha => ?_⟩
  obtain ⟨T', e', ok', hl, hr⟩ := addAll_ok adds (sortPts ps) ok (fun p h => hc p (hp.mem_iff.1 h)) (by
    intro a haa
    obtain ⟨p, hpp, h⟩ := ha a haa
    exact ⟨p, hp.mem_iff.2 hpp, h⟩)
  refine ⟨_, e', fun xl xh yl yh a1 a2 a3 a4 a5 a6 a7 => ⟨?_, ?_⟩⟩
  · rw [sum_ok ok' (by
      intro hc
      rw [hc, hp.length_eq] at hl
      exact hne (List.length_eq_zero_iff.1 hl.symm)) a1 a2 a4 a6 (by omega) (by omega) (by omega), hr, rectSum_perm (hp.append_right adds)]
  · rw [freq_ok ok a1 a2 a4 a6 (by omega) (by omega) (by omega), (hp.filter _).length_eq]

example : ∃ o F, build 63 [(3, 5, 10), (1, 2, 7), (3, 5, 1), (3, 9, 100)] = some (o, F) ∧ ∃ F', addAll o F [(3, 9, 1000), (1, 2, 20000)] = some F' ∧
    sum (some (2^63)) o F' 2 4 0 10 = some 1111 ∧ sum (some (2^63)) o F' 0 4 2 6 = some 20018 ∧ freq o 0 4 2 6 = some 3 := by
  obtain ⟨o, F, e, h⟩ := C105_sum_partial 63 (by decide) (by decide) [(3, 5, 10), (1, 2, 7), (3, 5, 1), (3, 9, 100)] (by simp) (by simp) (by simp)
  obtain ⟨F', e', h⟩ := h [(3, 9, 1000), (1, 2, 20000)] (by simp)
  refine ⟨o, F, e, F', e', ?_⟩
  rw [(h 2 4 0 10 (by decide) (by decide) (by decide) (by decide) (by decide) (by decide) (by decide)).1, (h 0 4 2 6 (by decide) (by decide) (by decide) (by decide) (by decide) (by decide) (by decide)).1,
    (h 0 4 2 6 (by decide) (by decide) (by decide) (by decide) (by decide) (by decide) (by decide)).2]
  decide

example : ∃ o, build0 63 [(3, 5, 10), (1, 2, 7), (3, 5, 1), (3, 9, 100)] = some o ∧ freq o 3 4 0 6 = some 2 := by
  obtain ⟨o, e, h⟩ := C105_freq_partial 63 (by decide) (by decide) [(3, 5, 10), (1, 2, 7), (3, 5, 1), (3, 9, 100)] (by simp) (by simp)
  exact ⟨o, e, by rw [h 3 4 0 6 (by decide) (by decide) (by decide) (by decide) (by decide) (by decide) (by decide)]; decide⟩

theorem sort1 (p : Pt W) : sortPts [p] = [p] := by simp [sortPts]

/-- C105 fails: with one point, `sum` of a rectangle that contains it shifts `1ull` by -1. -/
theorem C105_shift_violated : ∃ o F, build 3 [((0, 0, 5) : Pt Nat)] = some (o, F) ∧ sum none o F 0 1 0 1 = none := by
  have h : ((build 3 [((0, 0, 5) : Pt Nat)]).map fun r => sum none r.1 r.2 0 1 0 1) = some none := by
    unfold build
    rw [sort1]
    decide +kernel
  obtain ⟨⟨o, F⟩, e, h⟩ := Option.map_eq_some_iff.1 h
  exact ⟨o, F, e, h⟩

/-- C105 fails: without points `sum` divides by zero. -/
theorem C105_empty_violated (sh : Option Nat) : ∃ o F, build 3 ([] : List (Pt Nat)) = some (o, F) ∧ sum sh o F 0 1 0 1 = none := by
  have h : ((build 3 ([] : List (Pt Nat))).map fun r => (r.1.wm.n, (compress r.1 0 1 0 1).isSome)) = some (0, true) := by
    unfold build sortPts
    rw [List.mergeSort_nil]
    decide +kernel
  obtain ⟨⟨o, F⟩, e, h⟩ := Option.map_eq_some_iff.1 h
  obtain ⟨hn, hc⟩ := Prod.mk.inj h
  dsimp only at hn hc
  refine ⟨o, F, e, ?_⟩
  unfold sum traverse
  obtain ⟨q, eq⟩ := Option.isSome_iff_exists.1 hc
  rw [eq, Option.bind_some]
  have : 2^(o.wm.h + 2) = (2^(o.wm.h + 2) - 1) + 1 := by have := Nat.two_pow_pos (o.wm.h + 2); omega
  show trav _ _ _ _ _ _ (2^(o.wm.h + 2)) _ _ = none
  rw [this, trav, if_neg (by rw [hn]; simp)]

/-- C105 fails for a negative bound: it is converted to `uint32_t`, so the point (0, 0) is not found in [-1, 1) × [0, 1). -/
theorem C105_negative_violated : ∃ o, build0 3 [((0, 0, 5) : Pt Nat)] = some o ∧ freq o (-1) 1 0 1 = some 0 ∧ inRect (-1) 1 0 1 ((0, 0, 5) : Pt Nat) = true := by
  have h : ((build0 3 [((0, 0, 5) : Pt Nat)]).map fun o => freq o (-1) 1 0 1) = some (some 0) := by
    unfold build0
    rw [sort1]
    decide +kernel
  obtain ⟨o, e, h⟩ := Option.map_eq_some_iff.1 h
  exact ⟨o, e, h, by decide⟩

/-- `weight_add` at an `x` without points passes its assertion and changes the weight of a point with the next `x`. -/
theorem C105_missing_point : ∃ o F, build 3 [((2, 0, 5) : Pt Nat)] = some (o, F) ∧ ∃ F', weightAdd o F 1 0 10 = some F' ∧ sum (some (2^63)) o F' 2 3 0 1 = some 15 := by
  have h : ((build 3 [((2, 0, 5) : Pt Nat)]).map fun r => (weightAdd r.1 r.2 1 0 10).bind fun F => sum (some (2^63)) r.1 F 2 3 0 1) = some (some 15) := by
    unfold build
    rw [sort1]
    decide +kernel
  obtain ⟨⟨o, F⟩, e, h⟩ := Option.map_eq_some_iff.1 h
  obtain ⟨F', e', h⟩ := Option.bind_eq_some_iff.1 h
  exact ⟨o, F, e, F', e', h⟩

/-- C106, the part that holds: `enumerate` of a rectangle without points is empty.
Full statement: `enumerate` lists the coordinates of the points in the rectangle. -/
theorem C106_enumerate_partial (s : Nat) (h1 : 1 ≤ s) (hs : s ≤ 63) (ps : List (Pt W)) (hne : ps ≠ []) (hc : ∀ p ∈ ps, p.1 < 2^31 ∧ p.2.1 < 2^31) (hn : ps.length < 2^31) :
    ∃ o, build0 s ps = some o ∧ ∀ xl xh yl yh : Int, 0 ≤ xl → xl ≤ xh → xh < 2^31 → (∀ p ∈ ps, inRect xl xh yl yh p = false) →
      enumerate (some (2^63)) o xl xh yl yh = some ((ps.filter (inRect xl xh yl yh)).map (fun p => (p.1, p.2.1))) := by
  have hp := sort_perm ps
  obtain ⟨o, e, ok⟩ := index_ok h1 hs (sort_srt ps) (fun p h => hc p (hp.mem_iff.1 h)) (by rw [hp.length_eq]; exact hn)
  refine ⟨o, by rw [build0, e]; rfl, fun xl xh yl yh a1 a2 a3 hr => ?_⟩
  rw [enum_ok' ok (by intro h; rw [h] at hp; exact hne hp.nil_eq.symm) a1 a2 (by omega), List.filter_eq_nil_iff.2 (fun p hpp => by rw [hr p hpp]; simp)]
  rfl

/-- C106 fails whenever there is something to list: the list is empty then too. -/
theorem C106_enumerate_violated (s : Nat) (h1 : 1 ≤ s) (hs : s ≤ 63) (ps : List (Pt W)) (hc : ∀ p ∈ ps, p.1 < 2^31 ∧ p.2.1 < 2^31) (hn : ps.length < 2^31) :
    ∃ o, build0 s ps = some o ∧ ∀ xl xh yl yh : Int, 0 ≤ xl → xl ≤ xh → xh < 2^31 → (∃ p ∈ ps, inRect xl xh yl yh p = true) →
      ¬ ∃ l, enumerate (some (2^63)) o xl xh yl yh = some l ∧ ∃ p ∈ ps, inRect xl xh yl yh p = true ∧ (p.1, p.2.1) ∈ l := by
  have hp := sort_perm ps
  obtain ⟨o, e, ok⟩ := index_ok h1 hs (sort_srt ps) (fun p h => hc p (hp.mem_iff.1 h)) (by rw [hp.length_eq]; exact hn)
  refine ⟨o, by rw [build0, e]; rfl, fun xl xh yl yh a1 a2 a3 hr => ?_⟩
  rintro ⟨l, el, p, _, _, hl⟩
  obtain ⟨q, hq, _⟩ := hr
  rw [enum_ok' ok (by intro h; rw [h] at hp; rw [← hp.nil_eq] at hq; cases hq) a1 a2 (by omega)] at el
  rw [← Option.some.inj el] at hl
  cases hl

example : ∃ o, build0 63 [((3, 5, 10) : Pt Nat), (1, 2, 7)] = some o ∧ enumerate (some (2^63)) o 2 9 0 4 = some [] := by
  obtain ⟨o, e, h⟩ := C106_enumerate_partial 63 (by decide) (by decide) [((3, 5, 10) : Pt Nat), (1, 2, 7)] (by simp) (by simp) (by simp)
  exact ⟨o, e, by rw [h 2 9 0 4 (by decide) (by decide) (by decide) (by decide)]; decide⟩

end Verif.Ors
