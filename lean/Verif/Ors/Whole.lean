import Verif.Ors.Add
/-! The built object as a whole. -/
namespace Verif.Ors
open Verif Verif.Succinct Verif.Wavelet

variable {W : Type}

/-- The key of a point: the number of different smaller `y`. -/
def key (ys : List Nat) (p : Pt W) : Nat × W := (BinSet.below ys p.2.1, p.2.2)

/-- What is known of the built object; `T` are the points in the order of the sort. -/
structure OrsOk (o : Ors) (T : List (Pt W)) : Prop where
  srt : T.Pairwise (fun p q => p.1 ≤ q.1)
  mrank : ∀ x, BinSet.mrank o.X x = some (BinSet.mbelow (T.map (·.1)) x)
  mget : ∀ i v, (T.map (·.1))[i]? = some v → BinSet.mget o.X i = some v
  mcount : ∀ x ∈ T.map (·.1), BinSet.mcount o.X x = some ((T.map (·.1)).count x)
  rank : ∀ y, BinSet.rank o.Y y = some (BinSet.below (T.map (·.2.1)) y)
  wm : Wavelet.Ok o.wm (T.map (fun p => BinSet.below (T.map (·.2.1)) p.2.1))
  h : o.wm.h ≤ 31

theorem sort_perm (ps : List (Pt W)) : (sortPts ps).Perm ps := List.mergeSort_perm _ _

theorem sort_srt (ps : List (Pt W)) : (sortPts ps).Pairwise (fun p q => p.1 ≤ q.1) := by
  have := List.pairwise_mergeSort (le := fun p q : Pt W => !ptLt q p) (by
    intro a b c h1 h2
    unfold ptLt at *
    split at h1 <;> split at h2 <;> split <;> simp at * <;> omega) (by
    intro a b
    unfold ptLt
    split <;> split <;> simp at * <;> omega) ps
  refine this.imp ?_
  intro a b h
  unfold ptLt at h
  split at h <;> simp at h <;> omega

theorem mapM_rank {α : Type} (f : α → Option Nat) (g : α → Nat) (h : ∀ x, f x = some (g x)) : ∀ l : List α, l.mapM f = some (l.map g)
  | [] => rfl
  | a :: l => by rw [List.mapM_cons, h a, mapM_rank f g h l]; rfl

theorem index_ok {s : Nat} (h1 : 1 ≤ s) (hs : s ≤ 63) {T : List (Pt W)} (hT : T.Pairwise (fun p q => p.1 ≤ q.1)) (hc : ∀ p ∈ T, p.1 < 2^31 ∧ p.2.1 < 2^31) (hn : T.length < 2^31) :
    ∃ o, index s T = some (o, T.map (fun p => BinSet.below (T.map (·.2.1)) p.2.1)) ∧ OrsOk o T := by
  obtain ⟨X, Z, eX, _, hZ, x1, x2, x3, _⟩ := BinSet.C102_multiset_partial s h1 hs (T.map (·.1)) (by
    intro v hv
    obtain ⟨p, hp, rfl⟩ := List.mem_map.1 hv
    have := (hc p hp).1
    omega) (by rw [List.length_map]; omega)
  obtain ⟨Y, _, eY, _, _, y1, _⟩ := BinSet.C101_set_partial s h1 hs (T.map (·.2.1)) (by
    intro v hv
    obtain ⟨p, hp, rfl⟩ := List.mem_map.1 hv
    have := (hc p hp).2
    omega)
  have hk : ∀ x ∈ T.map (fun p => BinSet.below (T.map (·.2.1)) p.2.1), x < 2^31 := by
    intro x hx
    obtain ⟨p, hp, rfl⟩ := List.mem_map.1 hx
    have := BinSet.below_lt_all (xs := T.map (·.2.1)) (x := p.2.1) (v := p.2.1) (List.mem_map.2 ⟨p, hp, rfl⟩) (Nat.le_refl _)
    have := (List.dedup_sublist (T.map (·.2.1))).length_le
    rw [List.length_map] at this
    omega
  obtain ⟨w, ew, ok, _, hh⟩ := Wavelet.mk_ok' none (T.map (fun p => BinSet.below (T.map (·.2.1)) p.2.1)) (fun x hx => Nat.lt_trans (hk x hx) (by decide)) (by simp)
  refine ⟨⟨X, Y, w⟩, ?_, hT, x1, ?_, fun x hx => x3 x (hZ x hx), y1, ok, ?_⟩
  · unfold index
    rw [eX, Option.bind_some, eY, Option.bind_some, mapM_rank _ _ (fun p : Pt W => y1 p.2.1), Option.bind_some, ew, Option.map_some]
  · intro i v hv
    refine x2 i v ?_
    rw [List.mergeSort_of_pairwise]
    · exact hv
    · rw [List.pairwise_map]
      exact hT.imp (by simp)
  · rcases hh rfl with h | ⟨x, hx, h⟩
    · show w.h ≤ 31
      omega
    · have := Nat.lt_of_le_of_lt h (hk x hx)
      have := (Nat.pow_lt_pow_iff_right (by omega)).1 this
      show w.h ≤ 31
      omega

/-- Sorted points split by `x`. -/
theorem split3 {T : List (Pt W)} {a b : Nat} (hab : a ≤ b) : T.Pairwise (fun p q => p.1 ≤ q.1) →
    T = T.filter (fun p => decide (p.1 < a)) ++ T.filter (fun p => decide (a ≤ p.1 ∧ p.1 < b)) ++ T.filter (fun p => decide (b ≤ p.1)) := by
  induction T with
  | nil => intro _; rfl
  | cons p T ih =>
    intro h
    obtain ⟨h1, h2⟩ := List.pairwise_cons.1 h
    have ih := ih h2
    by_cases c1 : p.1 < a
    · rw [List.filter_cons_of_pos (by simpa using c1), List.filter_cons_of_neg (by simp; omega), List.filter_cons_of_neg (by simp; omega), List.cons_append, List.cons_append, ← ih]
    · have e1 : (p :: T).filter (fun p => decide (p.1 < a)) = [] := by
        rw [List.filter_eq_nil_iff]
        intro q hq
        rcases List.mem_cons.1 hq with rfl | hq
        · simpa using c1
        · have := h1 q hq; simp; omega
      have e1' : T.filter (fun p => decide (p.1 < a)) = [] := by
        rw [List.filter_eq_nil_iff]
        intro q hq
        have := h1 q hq; simp; omega
      rw [e1, List.nil_append]
      rw [e1', List.nil_append] at ih
      by_cases c2 : p.1 < b
      · rw [List.filter_cons_of_pos (by simp; omega), List.filter_cons_of_neg (by simp; omega), List.cons_append, ← ih]
      · have e2 : (p :: T).filter (fun p => decide (a ≤ p.1 ∧ p.1 < b)) = [] := by
          rw [List.filter_eq_nil_iff]
          intro q hq
          rcases List.mem_cons.1 hq with rfl | hq
          · simp; omega
          · have := h1 q hq; simp; omega
        rw [e2, List.nil_append, List.filter_eq_self.2]
        intro q hq
        rcases List.mem_cons.1 hq with rfl | hq
        · simp; omega
        · have := h1 q hq; simp; omega

theorem mbelow_map (T : List (Pt W)) (x : Nat) : BinSet.mbelow (T.map (·.1)) x = (T.filter (fun p => decide (p.1 < x))).length := by
  unfold BinSet.mbelow
  rw [List.filter_map, List.length_map]; rfl

theorem mbelow_diff {T : List (Pt W)} {a b : Nat} (hab : a ≤ b) :
    BinSet.mbelow (T.map (·.1)) b = BinSet.mbelow (T.map (·.1)) a + (T.filter (fun p => decide (a ≤ p.1 ∧ p.1 < b))).length := by
  rw [mbelow_map, mbelow_map]
  induction T with
  | nil => rfl
  | cons p T ih =>
    by_cases c1 : p.1 < a
    · rw [List.filter_cons_of_pos (by simp; omega), List.filter_cons_of_pos (by simpa using c1), List.filter_cons_of_neg (by simp; omega), List.length_cons, List.length_cons, ih]
      omega
    · by_cases c2 : p.1 < b
      · rw [List.filter_cons_of_pos (by simpa using c2), List.filter_cons_of_neg (by simpa using c1), List.filter_cons_of_pos (by simp; omega), List.length_cons, List.length_cons, ih]
        omega
      · rw [List.filter_cons_of_neg (by simpa using c2), List.filter_cons_of_neg (by simpa using c1), List.filter_cons_of_neg (by simp; omega), ih]

theorem conv_eq {x : Int} (h0 : 0 ≤ x) (h1 : x < 2^32) : (conv x : Int) = x := by unfold conv; omega

/-- The index `a` separates the `y` below and not below `yl`. -/
theorem key_iff {ys : List Nat} {y z : Nat} (hy : y ∈ ys) : BinSet.below ys z ≤ BinSet.below ys y ↔ z ≤ y := by
  constructor
  · intro h
    by_contra hc
    have := BinSet.below_lt hy (show y < z by omega)
    omega
  · exact fun h => BinSet.below_mono ys h

/-- The rectangle. -/
def inRect (xl xh yl yh : Int) (p : Pt W) : Bool := decide (xl ≤ p.1 ∧ (p.1 : Int) < xh ∧ yl ≤ p.2.1 ∧ (p.2.1 : Int) < yh)

/-- The sum of the weights of the points in the rectangle. -/
def rectSum [AddCommMonoid W] (T : List (Pt W)) (xl xh yl yh : Int) : W := ((T.filter (inRect xl xh yl yh)).map (·.2.2)).sum

theorem con_rect {xl xh yl yh : Int} (ax : 0 ≤ xl) (bx : 0 ≤ xh) (ay : 0 ≤ yl) (by' : 0 ≤ yh) (ax2 : xl < 2^32) (bx2 : xh < 2^32) (ay2 : yl < 2^32) (by2 : yh < 2^32) (T : List (Pt W)) :
    ((T.filter (fun p => decide (conv xl ≤ p.1 ∧ p.1 < conv xh))).map (key (T.map (·.2.1)))).filter
      (fun p => decide (((BinSet.below (T.map (·.2.1)) (conv yl) : Nat) : Int) ≤ (p.1 : Int) ∧ (p.1 : Int) < (BinSet.below (T.map (·.2.1)) (conv yh) : Nat))) =
    (T.filter (inRect xl xh yl yh)).map (key (T.map (·.2.1))) := by
  rw [List.filter_map, List.filter_filter]
  congr 1
  apply List.filter_congr
  intro p hp
  have hy : p.2.1 ∈ T.map (·.2.1) := List.mem_map.2 ⟨p, hp, rfl⟩
  have k1 := key_iff (z := conv yl) hy
  have k2 := key_iff (z := conv yh) hy
  have e1 := conv_eq ax ax2
  have e2 := conv_eq bx bx2
  have e3 := conv_eq ay ay2
  have e4 := conv_eq by' by2
  unfold inRect key
  rw [Bool.eq_iff_iff]
  simp only [Function.comp, Bool.and_eq_true, decide_eq_true_eq]
  omega

section
variable [AddCommMonoid W]

theorem compress_ok {o : Ors} {T : List (Pt W)} (ok : OrsOk o T) (xl xh yl yh : Int) :
    compress o xl xh yl yh = some (BinSet.mbelow (T.map (·.1)) (conv xl), BinSet.mbelow (T.map (·.1)) (conv xh), BinSet.below (T.map (·.2.1)) (conv yl), BinSet.below (T.map (·.2.1)) (conv yh)) := by
  unfold compress
  rw [ok.mrank, Option.bind_some, ok.mrank, Option.bind_some, ok.rank, Option.bind_some, ok.rank, Option.map_some]

theorem keys_fst (ys : List Nat) (T : List (Pt W)) : (T.map (key ys)).map (·.1) = T.map (fun p => BinSet.below ys p.2.1) := by rw [List.map_map]; rfl

/-- The item that `_traverse` starts from. -/
theorem start_ok {o : Ors} {T : List (Pt W)} (ok : OrsOk o T) (hne : T ≠ []) {a b : Nat} (hab : a ≤ b) :
    G o.wm (T.map (key (T.map (·.2.1)))) (BinSet.mbelow (T.map (·.1)) a, BinSet.mbelow (T.map (·.1)) b, 0) ((T.filter (fun p => decide (a ≤ p.1 ∧ p.1 < b))).map (key (T.map (·.2.1)))) := by
  have hn : o.wm.n = T.length := by rw [ok.wm.n, List.length_map]
  have hsg : SgP o.wm (T.map (key (T.map (·.2.1)))) 0 (BinSet.mbelow (T.map (·.1)) a) (BinSet.mbelow (T.map (·.1)) b) ((T.filter (fun p => decide (a ≤ p.1 ∧ p.1 < b))).map (key (T.map (·.2.1)))) := by
    refine ⟨(T.filter (fun p => decide (p.1 < a))).map (key (T.map (·.2.1))), (T.filter (fun p => decide (b ≤ p.1))).map (key (T.map (·.2.1))), ?_, ?_, ?_⟩
    · show T.map _ = _
      rw [← List.map_append, ← List.map_append, ← split3 hab ok.srt]
    · rw [mbelow_map]; simp
    · rw [mbelow_diff hab]; simp
  have hpos : 0 < T.length := List.length_pos_iff.2 hne
  refine ⟨Nat.two_pow_pos _, fun hV => ?_, fun hV => ⟨?_, ?_⟩⟩
  · have hlv := hsg.level (by rw [keys_fst]; exact ok.wm) hV
    dsimp only
    rw [hlv]
    refine ⟨Nat.zero_le _, hsg, by simp, fun p hp => ?_⟩
    obtain ⟨q, hq, rfl⟩ := List.mem_map.1 hp
    have := ok.wm.lt (BinSet.below (T.map (·.2.1)) q.2.1) (List.mem_map.2 ⟨q, (List.mem_filter.1 hq).1, rfl⟩)
    unfold hi key
    rw [Nat.sub_zero, Nat.div_eq_of_lt this]; simp
  · have := mbelow_diff (T := T) hab
    rw [show T.filter (fun p => decide (a ≤ p.1 ∧ p.1 < b)) = [] by simpa using hV] at this
    exact this.symm
  · have := BinSet.mbelow_le (T.map (·.1)) a
    rw [List.length_map] at this
    dsimp only
    rw [hn, Nat.mul_add]
    omega

theorem start_fuel (o : Ors) {T : List (Pt W)} (ok : OrsOk o T) (i j : Nat) : wtT o.wm (i, j, 0) ≤ 2^(o.wm.h + 2) := by
  unfold wtT
  have : 2^(o.wm.h + 2 - i / o.wm.n) ≤ 2^(o.wm.h + 2) := Nat.pow_le_pow_right (by omega) (Nat.sub_le _ _)
  exact Nat.le_trans (Nat.sub_le _ _) this

theorem sum_ok {o : Ors} {T : List (Pt W)} (ok : OrsOk o T) (hne : T ≠ []) {xl xh yl yh : Int} (ax : 0 ≤ xl) (hx : xl ≤ xh) (ay : 0 ≤ yl) (by' : 0 ≤ yh) (bx2 : xh < 2^32) (ay2 : yl < 2^32) (by2 : yh < 2^32) :
    sum (some (2^63)) o (allW o.wm.h (T.map (key (T.map (·.2.1)))) (o.wm.h + 1)) xl xh yl yh = some (rectSum T xl xh yl yh) := by
  unfold sum traverse
  rw [compress_ok ok, Option.bind_some]
  have hab : conv xl ≤ conv xh := by
    have := conv_eq ax (by omega)
    have := conv_eq (x := xh) (by omega) bx2
    omega
  have hw : Wavelet.Ok o.wm ((T.map (key (T.map (·.2.1)))).map (·.1)) := by rw [keys_fst]; exact ok.wm
  have := trav_ok hw (by simpa using hne) ok.h (a := (BinSet.below (T.map (·.2.1)) (conv yl) : Nat)) (b := (BinSet.below (T.map (·.2.1)) (conv yh) : Nat)) (by omega)
    (inner := fun t l r _ => (rangeSum (allW o.wm.h (T.map (key (T.map (·.2.1)))) (o.wm.h + 1)) l r).map (t + ·)) (fun t _ _ _ => some t) (act := fun t x => t + x) (fun t => add_zero t) (fun t x y => add_assoc t x y)
    (fun t l r c V h cl => by rw [h.sum hw cl]; rfl)
    (2^(o.wm.h + 2)) [((BinSet.mbelow (T.map (·.1)) (conv xl), BinSet.mbelow (T.map (·.1)) (conv xh), 0), (T.filter (fun p => decide (conv xl ≤ p.1 ∧ p.1 < conv xh))).map (key (T.map (·.2.1))))] 0
    (by intro x hx; rw [List.mem_singleton.1 hx]; exact start_ok ok hne hab)
    (by simpa using start_fuel o ok _ _)
  rw [List.map_cons, List.map_nil] at this
  refine this.trans ?_
  rw [List.map_cons, List.map_nil, List.sum_cons, List.sum_nil, add_zero, zero_add]
  unfold con
  rw [con_rect ax (by omega) ay by' (by omega) bx2 ay2 by2, List.map_map]
  rfl

theorem enum_ok {o : Ors} {T : List (Pt W)} (ok : OrsOk o T) (hne : T ≠ []) {xl xh yl yh : Int} (ax : 0 ≤ xl) (hx : xl ≤ xh) (bx2 : xh < 2^32) : enumerate (some (2^63)) o xl xh yl yh = some [] := by
  unfold enumerate traverse
  rw [compress_ok ok, Option.bind_some]
  have hab : conv xl ≤ conv xh := by
    have := conv_eq ax (by omega)
    have := conv_eq (x := xh) (by omega) bx2
    omega
  have hw : Wavelet.Ok o.wm ((T.map (key (T.map (·.2.1)))).map (·.1)) := by rw [keys_fst]; exact ok.wm
  have := trav_ok hw (by simpa using hne) ok.h (a := (BinSet.below (T.map (·.2.1)) (conv yl) : Nat)) (b := (BinSet.below (T.map (·.2.1)) (conv yh) : Nat)) (by omega)
    (inner := fun t _ _ _ => some t)
    (fun t l r c => forRange l r (fun idx t => (forRange 0 o.wm.h (climb o.wm c) idx).bind fun j => (BinSet.mget o.X j).bind fun x => (BinSet.get o.Y c).map fun y => t ++ [(x, y)]) t)
    (act := fun t _ => t) (fun t => rfl) (fun t x y => rfl) (fun t l r c V h cl => rfl)
    (2^(o.wm.h + 2)) [((BinSet.mbelow (T.map (·.1)) (conv xl), BinSet.mbelow (T.map (·.1)) (conv xh), 0), (T.filter (fun p => decide (conv xl ≤ p.1 ∧ p.1 < conv xh))).map (key (T.map (·.2.1))))] []
    (by intro x hx; rw [List.mem_singleton.1 hx]; exact start_ok ok hne hab)
    (by simpa using start_fuel o ok _ _)
  rw [List.map_cons, List.map_nil] at this
  exact this

theorem freq_ok {o : Ors} {T : List (Pt W)} (ok : OrsOk o T) {xl xh yl yh : Int} (ax : 0 ≤ xl) (hx : xl ≤ xh) (ay : 0 ≤ yl) (by' : 0 ≤ yh) (bx2 : xh < 2^32) (ay2 : yl < 2^32) (by2 : yh < 2^32) :
    freq o xl xh yl yh = some (T.filter (inRect xl xh yl yh)).length := by
  unfold freq
  rw [compress_ok ok, Option.bind_some]
  have hab : conv xl ≤ conv xh := by
    have := conv_eq ax (by omega)
    have := conv_eq (x := xh) (by omega) bx2
    omega
  have hd := mbelow_diff (T := T) hab
  have hle := BinSet.mbelow_le (T.map (·.1)) (conv xh)
  dsimp only
  rw [rangeFreq_ok ok.wm (Nat.lt_of_le_of_lt ok.h (by omega)) (by omega) (by rw [List.length_map]; rw [List.length_map] at hle; exact hle)]
  have es : slice (T.map (fun p => BinSet.below (T.map (·.2.1)) p.2.1)) (BinSet.mbelow (T.map (·.1)) (conv xl)) (BinSet.mbelow (T.map (·.1)) (conv xh)) =
      ((T.filter (fun p => decide (conv xl ≤ p.1 ∧ p.1 < conv xh))).map (key (T.map (·.2.1)))).map (·.1) := by
    unfold slice
    rw [hd, Nat.add_sub_cancel_left, mbelow_map, keys_fst]
    conv => lhs; arg 2; arg 2; arg 2; rw [split3 hab ok.srt]
    rw [← List.map_drop, ← List.map_take, List.append_assoc, List.drop_left, List.take_left]
  have := congrArg List.length (con_rect ax (by omega) ay by' (by omega) bx2 ay2 by2 T)
  rw [es, List.filter_map, List.length_map]
  rw [List.length_map] at this
  exact congrArg some this

theorem first_y (y : Nat) : ∀ M : List (Pt W), (∃ p ∈ M, p.2.1 = y) → ∃ P p Q, M = P ++ p :: Q ∧ p.2.1 = y ∧ ∀ q ∈ P, q.2.1 ≠ y
  | [], h => by obtain ⟨p, hp, _⟩ := h; cases hp
  | q :: M, h => by
    by_cases c : q.2.1 = y
    · exact ⟨[], q, M, rfl, c, by simp⟩
    · obtain ⟨P, p, Q, e1, e2, e3⟩ := first_y y M (by
        obtain ⟨p, hp, e⟩ := h
        rcases List.mem_cons.1 hp with rfl | hp
        · exact absurd e c
        · exact ⟨p, hp, e⟩)
      refine ⟨q :: P, p, Q, by rw [e1]; rfl, e2, fun r hr => ?_⟩
      rcases List.mem_cons.1 hr with rfl | hr
      · exact c
      · exact e3 r hr

/-- `weight_add` at a point adds to the weight of one point with these coordinates. -/
theorem weightAdd_ok {o : Ors} {T : List (Pt W)} (ok : OrsOk o T) {x y : Nat} (hx : x < 2^32) (hy : y < 2^32) (hp : ∃ p ∈ T, p.1 = x ∧ p.2.1 = y) (dw : W) :
    ∃ T0 w0 T1, T = T0 ++ (x, y, w0) :: T1 ∧
      weightAdd o (allW o.wm.h (T.map (key (T.map (·.2.1)))) (o.wm.h + 1)) x y dw = some (allW o.wm.h ((T0 ++ (x, y, w0 + dw) :: T1).map (key (T.map (·.2.1)))) (o.wm.h + 1)) := by
  have hs := split3 (a := x) (b := x + 1) (by omega) ok.srt
  obtain ⟨p, hpT, hpx, hpy⟩ := hp
  obtain ⟨P, p', Q, eM, ey, hP⟩ := first_y y (T.filter (fun p => decide (x ≤ p.1 ∧ p.1 < x + 1))) ⟨p, List.mem_filter.2 ⟨hpT, by simp; omega⟩, hpy⟩
  have hp' : p' ∈ T.filter (fun p => decide (x ≤ p.1 ∧ p.1 < x + 1)) := by rw [eM]; simp
  have ep' : p'.1 = x := by
    have := (List.mem_filter.1 hp').2
    simp at this; omega
  obtain ⟨a, b, w0⟩ := p'
  simp only at ep' ey
  subst ep'
  subst ey
  have hcnt : (T.map (·.1)).count a = (T.filter (fun p => decide (a ≤ p.1 ∧ p.1 < a + 1))).length := by
    have h1 := BinSet.mbelow_succ (T.map (·.1)) a
    have h2 := mbelow_diff (T := T) (show a ≤ a + 1 by omega)
    omega
  rw [eM] at hs hcnt
  have hconv : ∀ z : Nat, z < 2^32 → conv (z : Int) = z := by intro z hz; unfold conv; omega
  have ha : a ∈ T.map (·.1) := List.mem_map.2 ⟨_, (List.mem_filter.1 hp').1, rfl⟩
  generalize hA : T.filter (fun p => decide (p.1 < a)) = A at hs
  generalize T.filter (fun p => decide (a + 1 ≤ p.1)) = C at hs
  have hmb : BinSet.mbelow (T.map (·.1)) a = A.length := by rw [mbelow_map, hA]
  have hget : (T.map (·.1))[A.length]? = some a := by
    have : ∀ q ∈ P ++ (a, b, w0) :: Q, q.1 = a := by
      intro q hq
      rw [← eM] at hq
      have := (List.mem_filter.1 hq).2
      simp at this; omega
    rw [hs, List.map_append, List.map_append, List.append_assoc, List.getElem?_append_right (by simp), List.length_map, Nat.sub_self]
    cases P with
    | nil => rfl
    | cons q P =>
      have := this q (by simp)
      simp [this]
  have hkey : (T.map (key (T.map (·.2.1)))) = A.map (key (T.map (·.2.1))) ++ (P.map (key (T.map (·.2.1))) ++ (BinSet.below (T.map (·.2.1)) b, w0) :: Q.map (key (T.map (·.2.1)))) ++ C.map (key (T.map (·.2.1))) := by
    conv => lhs; arg 2; rw [hs]
    simp [key]
  have hbY : b ∈ T.map (·.2.1) := List.mem_map.2 ⟨_, (List.mem_filter.1 hp').1, rfl⟩
  refine ⟨A ++ P, w0, Q ++ C, by rw [hs]; simp, ?_⟩
  have hw : Wavelet.Ok o.wm ((T.map (key (T.map (·.2.1)))).map (·.1)) := by rw [keys_fst]; exact ok.wm
  rw [hkey] at hw
  obtain ⟨q, e1, e2, e3⟩ := climb_ok (dw := dw) hw (ok.wm.lt _ (List.mem_map.2 ⟨_, (List.mem_filter.1 hp').1, rfl⟩)) (by
    intro p hp
    obtain ⟨r, hr, rfl⟩ := List.mem_map.1 hp
    have hr1 : r.2.1 ∈ T.map (·.2.1) := by
      refine List.mem_map.2 ⟨r, ?_, rfl⟩
      rw [hs]; simp [hr]
    have := hP r hr
    intro hc
    have hc : BinSet.below (T.map (·.2.1)) r.2.1 = BinSet.below (T.map (·.2.1)) b := hc
    have k1 := (key_iff (z := b) hr1).1 (by omega)
    have k2 := (key_iff (z := r.2.1) hbY).1 (by omega)
    omega)
  rw [List.length_map, List.length_map, List.length_map] at e1
  unfold weightAdd
  rw [hconv a hx, hconv b hy, ok.mrank, Option.bind_some, hmb, ok.mget _ _ hget, Option.bind_some, ok.mcount _ ha, Option.bind_some, hcnt, ok.rank, Option.bind_some]
  simp only [List.length_append, List.length_cons]
  rw [e1, Option.bind_some, if_neg e2, hkey, e3]
  congr 2
  simp [key]

end

/-- The weights do not matter. -/
theorem OrsOk.unweighted {o : Ors} {T : List (Pt W)} (ok : OrsOk o T) : OrsOk o (T.map (fun p => ((p.1, p.2.1, (0 : Nat)) : Pt Nat))) := by
  have m1 : (T.map (fun p => ((p.1, p.2.1, (0 : Nat)) : Pt Nat))).map (·.1) = T.map (·.1) := by rw [List.map_map]; rfl
  have m2 : (T.map (fun p => ((p.1, p.2.1, (0 : Nat)) : Pt Nat))).map (·.2.1) = T.map (·.2.1) := by rw [List.map_map]; rfl
  refine ⟨?_, by rw [m1]; exact ok.mrank, by rw [m1]; exact ok.mget, by rw [m1]; exact ok.mcount, by rw [m2]; exact ok.rank, ?_, ok.h⟩
  · rw [List.pairwise_map]; exact ok.srt
  · rw [m2, List.map_map]; exact ok.wm

theorem enum_ok' {o : Ors} {T : List (Pt W)} (ok : OrsOk o T) (hne : T ≠ []) {xl xh yl yh : Int} (ax : 0 ≤ xl) (hx : xl ≤ xh) (bx2 : xh < 2^32) : enumerate (some (2^63)) o xl xh yl yh = some [] :=
  enum_ok ok.unweighted (by simpa using hne) ax hx bx2

end Verif.Ors
