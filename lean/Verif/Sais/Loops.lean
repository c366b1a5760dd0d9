import Verif.Sais.Keys
import Mathlib.Data.List.GetD
/-! The counting and placing loops of `sa_is`. -/
namespace Verif.Sais

variable {n N : Nat} {S : Nat → Nat} {ty : Nat → Bool}

/-- The types of the positions. -/
theorem types_ok {Sl : List Nat} (hS : Rep Sl n S) (hn : 2 ≤ n) (hlt : ∀ x, x < n → S x < n) (h0 : S (n-1) = 0)
    (hp : ∀ x, x + 1 < n → 0 < S x) : ∃ t ty, types Sl = some t ∧ Rep t n ty ∧ Ctx n S ty := by
  obtain ⟨t0, e0, r0⟩ := (Rep.replicate n false).wr (i := n-1) (by omega) true
  obtain ⟨t1, e1, ty, r1, r2, r3⟩ := forRangeDown_inv (a := 0) (b := n - 2) (s := t0) (body := typeStep Sl)
    (fun i t => ∃ ty, Rep t n ty ∧ ty (n-1) = true ∧
      ∀ x, i ≤ x → x + 1 < n → ty x = (decide (S x < S (x+1)) || (decide (S x = S (x+1)) && ty (x+1)))) (by omega)
    ⟨_, r0, upd_same _ _ _, fun x h1 h2 => by
      have hx : x = n - 2 := by omega
      have h3 := hp x h2
      rw [upd_ne _ _ (by omega), show x + 1 = n - 1 by omega, h0]
      simp
      intro h4; omega⟩
    (by
      rintro i t _ hi ⟨ty, r, h1, h2⟩
      obtain ⟨t', e, r'⟩ := r.wr (i := i) (by omega) (decide (S i < S (i+1)) || (decide (S i = S (i+1)) && ty (i+1)))
      refine ⟨t', ?_, _, r', ?_, ?_⟩
      · simp only [typeStep, hS.val i (by omega), hS.val (i+1) (by omega), r.val (i+1) (by omega), Option.bind_some, e]
      · rw [upd_ne _ _ (by omega)]; exact h1
      · intro x hx hx1
        by_cases hxi : x = i
        · rw [hxi, upd_same, upd_ne _ _ (by omega)]
        · rw [upd_ne _ _ hxi, upd_ne _ _ (by omega)]
          exact h2 x (by omega) hx1)
  refine ⟨t1, ty, ?_, r1, hn, hlt, h0, hp, r2, fun x hx => r3 x (by omega) hx⟩
  unfold types
  rw [hS.len, e0, Option.bind_some, e1]

theorem num_step (n : Nat) (p : Nat → Prop) [Decidable (p n)] : num (n+1) p = num n p + if p n then 1 else 0 := by
  classical
  unfold num
  rw [Finset.range_add_one, Finset.filter_insert]
  by_cases h : p n
  · rw [if_pos h, if_pos h, Finset.card_insert_of_notMem]
    rw [Finset.mem_filter, Finset.mem_range]
    intro hc; omega
  · rw [if_neg h, if_neg h, Nat.add_zero]

theorem num_zero (p : Nat → Prop) : num 0 p = 0 := num_none (fun x hx => by omega)

theorem num_filter (n : Nat) (p : Nat → Bool) : num n (fun x => p x = true) = ((List.range n).filter p).length := by
  induction n with
  | zero => rw [num_zero]; rfl
  | succ n ih =>
    rw [num_step n (fun x => p x = true), ih, List.range_succ, List.filter_append, List.length_append]
    congr 1
    cases h : p n <;> simp [h]

theorem num_count (n : Nat) (S : Nat → Nat) (c : Nat) : num n (fun x => S x = c) = ((List.range n).map S).count c := by
  induction n with
  | zero => rw [num_zero]; rfl
  | succ n ih =>
    rw [num_step n (fun x => S x = c), ih, List.range_succ, List.map_append, List.count_append]
    congr 1
    rw [List.map_cons, List.map_nil, List.count_singleton]
    simp

theorem counts_aux : ∀ (l cnt : List Nat) (g : Nat → Nat), Rep cnt n g → (∀ c ∈ l, c < n) →
    ∃ cnt', l.foldlM countStep cnt = some cnt' ∧ Rep cnt' n (fun c => g c + l.count c) := by
  intro l
  induction l with
  | nil => intro cnt g h _; exact ⟨cnt, rfl, h.congr (fun c _ => by simp)⟩
  | cons c l ih =>
    intro cnt g h hl
    have hc := hl c (by simp)
    obtain ⟨cnt1, e1, r1⟩ := h.wr hc (g c + 1)
    obtain ⟨cnt2, e2, r2⟩ := ih cnt1 _ r1 (fun d hd => hl d (by simp [hd]))
    refine ⟨cnt2, ?_, r2.congr ?_⟩
    · rw [List.foldlM_cons]
      simp only [countStep, h.val c hc, Option.bind_some, e1]
      exact e2
    · intro d _
      show upd g c (g c + 1) d + l.count d = g d + (c :: l).count d
      by_cases hd : d = c
      · rw [hd, upd_same, List.count_cons_self]; omega
      · rw [upd_ne _ _ hd, List.count_cons_of_ne (Ne.symm hd)]

theorem counts_ok {Sl : List Nat} (hS : Rep Sl n S) (hlt : ∀ x, x < n → S x < n) :
    ∃ cnt, counts Sl = some cnt ∧ Rep cnt n (fun c => num n (fun x => S x = c)) := by
  have hSl : Sl = (List.range n).map S := hS.ext (Rep.map_range n S)
  obtain ⟨cnt, e, r⟩ := counts_aux Sl _ _ (Rep.replicate n 0) (by
    intro c hc
    rw [hSl, List.mem_map] at hc
    obtain ⟨x, hx, rfl⟩ := hc
    exact hlt x (List.mem_range.1 hx))
  refine ⟨cnt, by unfold counts; rw [hS.len]; exact e, r.congr (fun c _ => ?_)⟩
  rw [num_count, ← hSl, Nat.zero_add]

theorem initBucket_ok {cnt : List Nat} (hc : Rep cnt n (fun c => num n (fun x => S x = c))) {b : Buckets} (hb : b.length = N) (hN : n ≤ N) :
    ∃ b' g, initBucket n cnt b = some b' ∧ Rep b' N g ∧ ∀ c, c < n → g c = (st n S c, st n S (c+1)) := by
  obtain ⟨s, e, g, r, h1, h2⟩ := forRange_inv (b := n) (s := (b, 0)) (body := bucketStep cnt)
    (fun i s => ∃ g, Rep s.1 N g ∧ (∀ c, c < i → g c = (st n S c, st n S (c+1))) ∧ s.2 = st n S i) (Nat.zero_le n)
    ⟨fun i => b.getD i (0, 0), by rw [← hb]; exact Rep.ofList b (0, 0), fun c hc => by omega, by
      show 0 = _
      unfold st; rw [num_none]; intro x _ h; omega⟩
    (by
      rintro i ⟨B, s⟩ _ hi ⟨g, r, h1, h2⟩
      have h2 : s = st n S i := h2
      obtain ⟨B', e, r'⟩ := r.wr (i := i) (by omega) (st n S i, st n S (i+1))
      refine ⟨(B', st n S (i+1)), ?_, _, r', ?_, rfl⟩
      · simp only [bucketStep, hc.val i hi, Option.bind_some]
        rw [h2, ← st_succ, e]; rfl
      · intro c hc
        by_cases hci : c = i
        · rw [hci, upd_same]
        · rw [upd_ne _ _ hci]; exact h1 c (by omega))
  exact ⟨s.1, g, by rw [initBucket, e]; rfl, r, h1⟩

variable {κ : Type} [LinearOrder κ]

theorem PSt.empty (k : Nat → κ) {B : Buckets} {g : Nat → Nat × Nat} (hB : Rep B N g) (hg : ∀ c, c < n → g c = (st n S c, st n S (c+1))) :
    ∃ a g, PSt n N S ty k (fun _ => False) (List.replicate n none, B) a g := by
  refine ⟨_, g, Rep.replicate n none, hB, ?_, ?_, ?_⟩
  · intro p hp x
    simp
  · intro c hc; rw [hg c hc]
  · intro c hc; rw [hg c hc, num_none (fun x _ h => h.1), Nat.sub_zero]

/-- The first placing of the LMS positions, from right to left. -/
theorem seed_ok {k : Nat → κ} (C : Ctx n S ty) (K : KeyL n S ty k) (hN : n ≤ N) {Sl : List Nat} (hS : Rep Sl n S) {t : List Bool} (ht : Rep t n ty)
    {B : Buckets} {g : Nat → Nat × Nat} (hB : Rep B N g) (hg : ∀ c, c < n → g c = (st n S c, st n S (c+1)))
    (ho : ∀ p y, p < n → y < n → lms ty p = true → lms ty y = true → S y = S p → (p < y ↔ k p < k y)) :
    ∃ s, forRangeDown 1 n (seedStep Sl t) ((List.replicate n none, B), 0) = some (s, num n (fun x => lms ty x = true)) ∧
      ∃ a g, PSt n N S ty k (fun x => lms ty x = true) s a g := by
  have hn := C.two
  obtain ⟨s, e, h1, h2⟩ := forRangeDown_inv (a := 1) (b := n) (s := ((List.replicate n none, B), 0)) (body := seedStep Sl t)
    (fun i s => (∃ a g, PSt n N S ty k (fun x => lms ty x = true ∧ i ≤ x) s.1 a g) ∧ s.2 = num n (fun x => lms ty x = true ∧ i ≤ x)) (by omega)
    ⟨PSt.congr (PSt.empty k hB hg) (fun x hx => ⟨False.elim, fun h => by omega⟩), by
      show 0 = _
      rw [num_none]; intro x hx h; omega⟩
    (by
      rintro i ⟨s, c⟩ hi1 hi ⟨h1, h2⟩
      have h2 : c = _ := h2
      cases hl : lms ty i with
      | false =>
        have key : ∀ x, x < n → ((lms ty x = true ∧ i + 1 ≤ x) ↔ (lms ty x = true ∧ i ≤ x)) := by
          intro x _
          refine and_congr_right fun h3 => ?_
          have : x ≠ i := by rintro rfl; rw [hl] at h3; cases h3
          omega
        refine ⟨(s, c), ?_, PSt.congr h1 key, ?_⟩
        · simp [seedStep, isLms_ok ht hi, hl]
        · show c = _
          rw [h2]; exact num_congr key
      | true =>
        obtain ⟨s', e', h3⟩ := PSt.place C K hN hS h1 hi hl (fun x _ h => h.1) (fun y hy h3 h4 => by
          rw [← ho i y hi hy hl h3 h4]
          exact ⟨fun h5 => h5.2, fun h5 => ⟨h3, h5⟩⟩)
        have key : ∀ x, x < n → ((lms ty x = true ∧ i ≤ x) ↔ ((lms ty x = true ∧ i + 1 ≤ x) ∨ x = i)) := by
          intro x _
          constructor
          · rintro ⟨h4, h5⟩
            by_cases hx : x = i
            · exact Or.inr hx
            · exact Or.inl ⟨h4, by omega⟩
          · rintro (⟨h4, h5⟩ | rfl)
            · exact ⟨h4, by omega⟩
            · exact ⟨hl, le_refl _⟩
        refine ⟨(s', c+1), ?_, PSt.congr h3 (fun x hx => (key x hx).symm), ?_⟩
        · simp only [seedStep, isLms_ok ht hi, hl, Option.bind_some, if_true, e', Option.map_some]
        · show c + 1 = _
          rw [h2]
          exact (num_succ hi (fun h => by omega) key).symm)
  refine ⟨s.1, ?_, PSt.congr h1 (fun x _ => ⟨fun h => h.1, fun h => ⟨h, lms_pos h⟩⟩)⟩
  rw [e]
  congr 1
  refine Prod.ext rfl ?_
  show s.2 = _
  rw [h2]
  exact num_congr (fun x _ => ⟨fun h => h.1, fun h => ⟨h, lms_pos h⟩⟩)

/-- Placing a list of LMS positions from the greatest to the least. -/
theorem place_list {k : Nat → κ} (C : Ctx n S ty) (K : KeyL n S ty k) (hN : n ≤ N) {Sl : List Nat} (hS : Rep Sl n S) :
    ∀ (r : List Nat) (D : Nat → Prop) (s : Slots × Buckets), (∃ a g, PSt n N S ty k D s a g) →
      (∀ x, x < n → D x → lms ty x = true) → (∀ x ∈ r, x < n ∧ lms ty x = true) → (∀ y, y < n → lms ty y = true → D y ∨ y ∈ r) →
      (∀ x ∈ r, ∀ y, y < n → D y → k x < k y) → r.Pairwise (fun x y => k y < k x) →
      ∃ s', r.foldlM (fun s x => placeBack Sl x s) s = some s' ∧ ∃ a g, PSt n N S ty k (fun x => lms ty x = true) s' a g := by
  intro r
  induction r with
  | nil =>
    intro D s h h1 _ h3 _ _
    refine ⟨s, rfl, PSt.congr h (fun x hx => ⟨h1 x hx, fun hl => ?_⟩)⟩
    rcases h3 x hx hl with h4 | h4
    · exact h4
    · simp at h4
  | cons p r ih =>
    intro D s h h1 h2 h3 h4 h5
    obtain ⟨hp, hl⟩ := h2 p (by simp)
    rw [List.pairwise_cons] at h5
    obtain ⟨s1, e1, q1⟩ := PSt.place C K hN hS h hp hl h1 (fun y hy hly _ => by
      constructor
      · intro hD; exact h4 p (by simp) y hy hD
      · intro hlt
        rcases h3 y hy hly with h6 | h6
        · exact h6
        · rw [List.mem_cons] at h6
          rcases h6 with h6 | h6
          · rw [h6] at hlt; exact absurd hlt (lt_irrefl _)
          · exact absurd hlt (lt_asymm (h5.1 y h6)))
    obtain ⟨s2, e2, q2⟩ := ih _ s1 q1 (by
        rintro x hx (h6 | rfl)
        · exact h1 x hx h6
        · exact hl) (fun x hx => h2 x (by simp [hx])) (by
        intro y hy hly
        rcases h3 y hy hly with h6 | h6
        · exact Or.inl (Or.inl h6)
        · rw [List.mem_cons] at h6
          rcases h6 with h6 | h6
          · exact Or.inl (Or.inr h6)
          · exact Or.inr h6) (by
        rintro x hx y hy (h6 | rfl)
        · exact h4 x (by simp [hx]) y hy h6
        · exact h5.1 x hx) h5.2
    refine ⟨s2, ?_, q2⟩
    rw [List.foldlM_cons, e1]
    exact e2

/-- The comparison loop. -/
theorem sameLoop_ok (C : Ctx n S ty) {Sl : List Nat} (hS : Rep Sl n S) {t : List Bool} (ht : Rep t n ty) : ∀ (fuel i j : Nat),
    n - i ≤ fuel → i < n → j < n → sameLoop Sl t fuel i j = some (decide (wd n S ty i = wd n S ty j)) := by
  intro fuel
  induction fuel with
  | zero => intro i j h hi; omega
  | succ fuel ih =>
    intro i j h hi hj
    simp only [sameLoop, hS.val i hi, hS.val j hj, Option.bind_some, isLms_ok ht hi, isLms_ok ht hj]
    by_cases h1 : S i = S j
    · rw [if_neg (by simp [h1])]
      by_cases h2 : lms ty i = lms ty j
      · rw [if_neg (by simp [h2])]
        cases h3 : lms ty i with
        | true =>
          have h4 : lms ty j = true := by rw [← h2]; exact h3
          rw [if_pos rfl, wd_lms hi h3, wd_lms hj h4, h1]
          simp
        | false =>
          have h4 : lms ty j = false := by rw [← h2]; exact h3
          rw [if_neg (by decide), ih (i+1) (j+1) (by omega) (C.not_last hi h3) (C.not_last hj h4), wd_not hi h3, wd_not hj h4, h1]
          simp
      · rw [if_pos h2]
        have : wd n S ty i ≠ wd n S ty j := fun e => h2 (C.wd_eq hi hj e).2.1
        simp [this]
    · rw [if_pos h1]
      have : wd n S ty i ≠ wd n S ty j := fun e => h1 (C.wd_eq hi hj e).1
      simp [this]

/-- `are_same_lms_substr` decides equality of the LMS substrings. -/
theorem sameLms_ok (C : Ctx n S ty) {Sl : List Nat} (hS : Rep Sl n S) {t : List Bool} (ht : Rep t n ty) {x y : Nat} (hx : x < n) (hy : y < n)
    (hne : x ≠ y) (lx : lms ty x = true) (ly : lms ty y = true) : sameLms Sl t x y = some (decide (s2 n S ty x = s2 n S ty y)) := by
  unfold sameLms
  rw [if_pos ⟨by rw [isLms_ok ht hx, lx], by rw [isLms_ok ht hy, ly]⟩, hS.val x hx, hS.val y hy]
  simp only [Option.bind_some]
  rw [s2_S hx (lms_ty lx), s2_S hy (lms_ty ly)]
  by_cases h1 : S x = S y
  · rw [if_neg (by simp [h1])]
    have hx1 : x + 1 < n := by
      by_contra hc
      have h2 : x = n - 1 := by omega
      have h3 := C.last
      rw [← h2, h1] at h3
      exact hne (by rw [h2, C.zero hy h3])
    have hy1 : y + 1 < n := by
      by_contra hc
      have h2 : y = n - 1 := by omega
      have h3 := C.last
      rw [← h2, ← h1] at h3
      exact hne (by rw [h2, C.zero hx h3])
    rw [hS.len, sameLoop_ok C hS ht n (x+1) (y+1) (by omega) hx1 hy1]
    congr 1
    rw [tc_congr h1 ((lms_ty lx).trans (lms_ty ly).symm)]
    have := C.s2_of_wd n x y (by omega) hx1 hy1 (lms_ty lx) (lms_ty ly) h1
    simp only [List.cons.injEq, true_and]
    exact decide_eq_decide.2 this
  · rw [if_pos h1]
    congr 1
    symm
    rw [decide_eq_false_iff_not]
    intro e
    injection e with e _
    exact h1 (tc_eq e).1

/-- The LMS positions in increasing order. -/
def lmsList (n : Nat) (ty : Nat → Bool) : List Nat := (List.range n).filter (lms ty)

theorem lmsList_mem {x : Nat} : x ∈ lmsList n ty ↔ x < n ∧ lms ty x = true := by
  unfold lmsList; rw [List.mem_filter, List.mem_range]

theorem lmsList_sorted : (lmsList n ty).Pairwise (· < ·) := List.Pairwise.filter _ List.pairwise_lt_range

theorem lmsList_succ (i : Nat) : lmsList (i+1) ty = lmsList i ty ++ if lms ty i = true then [i] else [] := by
  unfold lmsList
  rw [List.range_succ, List.filter_append]
  congr 1
  cases h : lms ty i <;> simp [h]

/-- `citi`. -/
theorem citi_ok {t : List Bool} (ht : Rep t n ty) (hn : 2 ≤ n) : forRange 1 n (citiStep t) [] = some (lmsList n ty) := by
  obtain ⟨s, e, h⟩ := forRange_inv (fun i s => s = lmsList i ty) (a := 1) (b := n) (s := []) (body := citiStep t) (by omega)
    (by rw [lmsList_succ]; simp [lmsList, lms])
    (by
      intro i s _ hi h
      refine ⟨lmsList (i+1) ty, ?_, rfl⟩
      rw [citiStep, isLms_ok ht hi, lmsList_succ, h]
      cases hl : lms ty i <;> simp)
  rw [e, h]

/-- No two LMS positions are adjacent, so at most half of the positions are LMS. -/
theorem lms_half : ∀ i, num i (fun x => lms ty x = true) ≤ i / 2 := by
  intro i
  induction i using Nat.strong_induction_on with
  | _ i ih =>
    match i with
    | 0 => rw [num_zero]
    | 1 =>
      have h : num 1 (fun x => lms ty x = true) = 0 := num_none (fun x hx h => by have := lms_pos h; omega)
      rw [h]
    | i+2 =>
      rw [num_step (i+1) (fun x => lms ty x = true), num_step i (fun x => lms ty x = true)]
      have h1 := ih i (by omega)
      have h2 := ih (i+1) (by omega)
      rw [num_step i (fun x => lms ty x = true)] at h2
      by_cases h : lms ty (i+1) = true
      · have h3 := lms_prev h
        rw [show i + 1 - 1 = i by omega] at h3
        have h4 : ¬ lms ty i = true := fun h5 => by rw [lms_ty h5] at h3; cases h3
        rw [if_pos h, if_neg h4]
        omega
      · rw [if_neg h]
        omega

theorem lms_div {x y : Nat} (hx : lms ty x = true) (hy : lms ty y = true) (h : x / 2 = y / 2) : x = y := by
  rcases Nat.lt_trichotomy x y with e | e | e
  · have h3 := lms_prev hy
    rw [show y - 1 = x by omega, lms_ty hx] at h3; cases h3
  · exact e
  · have h3 := lms_prev hx
    rw [show x - 1 = y by omega, lms_ty hy] at h3; cases h3

end Verif.Sais
