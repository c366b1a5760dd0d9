import Verif.Sais.Main
/-! The string of ranks and the result of `SuffixArray`. -/
namespace Verif.Sais

theorem toInt32_id {v : Int} (h1 : -2^31 ≤ v) (h2 : v < 2^31) : toInt32 v = v := by
  unfold toInt32; omega

theorem minmax_aux : ∀ (l : List Int) (a b : Int) (p : Int × Int), l.foldl (fun p w => (min p.1 w, max p.2 w)) (a, b) = p →
    p.1 ≤ a ∧ b ≤ p.2 ∧ (∀ w ∈ l, p.1 ≤ w ∧ w ≤ p.2) ∧ (p.1 = a ∨ p.1 ∈ l) ∧ (p.2 = b ∨ p.2 ∈ l) := by
  intro l
  induction l with
  | nil => intro a b p h; subst h; simp
  | cons w l ih =>
    intro a b p h
    rw [List.foldl_cons] at h
    obtain ⟨h1, h2, h3, h4, h5⟩ := ih _ _ p h
    refine ⟨by omega, by omega, ?_, ?_, ?_⟩
    · intro x hx
      rw [List.mem_cons] at hx
      rcases hx with rfl | hx
      · omega
      · exact h3 x hx
    · rw [List.mem_cons]
      rcases h4 with h4 | h4
      · rcases Int.le_total a w with h6 | h6
        · left; omega
        · right; left; omega
      · exact Or.inr (Or.inr h4)
    · rw [List.mem_cons]
      rcases h5 with h5 | h5
      · rcases Int.le_total b w with h6 | h6
        · right; left; omega
        · left; omega
      · exact Or.inr (Or.inr h5)

theorem minmax_ok {s : List Int} (hs : s ≠ []) : ∃ p, minmax s = some p ∧ (∀ w ∈ s, p.1 ≤ w ∧ w ≤ p.2) ∧ p.1 ∈ s ∧ p.2 ∈ s := by
  match s with
  | [] => exact absurd rfl hs
  | v :: l =>
    obtain ⟨h1, h2, h3, h4, h5⟩ := minmax_aux l v v _ rfl
    refine ⟨_, rfl, ?_, by rw [List.mem_cons]; exact h4, by rw [List.mem_cons]; exact h5⟩
    intro w hw
    rw [List.mem_cons] at hw
    rcases hw with rfl | hw
    · exact ⟨h1, h2⟩
    · exact h3 w hw

/-- The result of the sort of the indices by value. -/
structure Sorted (ord : List Nat) (s : List Int) : Prop where
  perm : ord.Perm (List.range s.length)
  le : ord.Pairwise (fun a b => s.getD a 0 ≤ s.getD b 0)

/-- The ranks. -/
theorem rank_ok {ord : List Nat} {s : List Int} (ho : Sorted ord s) :
    ∃ Sl k, forRange 0 s.length (rankStep s ord) (List.replicate (s.length + 1) 0, 1) = some (Sl, k) ∧ Sl.length = s.length + 1 ∧
      Sl.getD s.length 0 = 0 ∧ (∀ x, x < s.length → 0 < Sl.getD x 0 ∧ Sl.getD x 0 ≤ s.length) ∧
      ∀ x y, x < s.length → y < s.length → (Sl.getD x 0 < Sl.getD y 0 ↔ s.getD x 0 < s.getD y 0) := by
  obtain ⟨n, hn⟩ : ∃ n, s.length = n := ⟨_, rfl⟩
  have hs : Rep s n (fun i => s.getD i 0) := by rw [← hn]; exact Rep.ofList s 0
  have hol : ord.length = n := by rw [ho.perm.length_eq, List.length_range, hn]
  have hod : Rep ord n (fun i => ord.getD i 0) := by rw [← hol]; exact Rep.ofList ord 0
  have hle : ∀ i j, i < j → j < n → s.getD (ord.getD i 0) 0 ≤ s.getD (ord.getD j 0) 0 := by
    intro i j hij hj
    rw [List.getD_eq_getElem ord 0 (by omega : i < ord.length), List.getD_eq_getElem ord 0 (by omega : j < ord.length)]
    exact List.pairwise_iff_getElem.1 ho.le i j (by omega) (by omega) hij
  have hnd : ord.Nodup := ho.perm.nodup_iff.2 List.nodup_range
  have hinj : ∀ i j, i < n → j < n → ord.getD i 0 = ord.getD j 0 → i = j := by
    intro i j hi hj e
    rw [List.getD_eq_getElem ord 0 (by omega : i < ord.length), List.getD_eq_getElem ord 0 (by omega : j < ord.length)] at e
    exact (List.Nodup.getElem_inj_iff hnd).1 e
  have hlt : ∀ i, i < n → ord.getD i 0 < n := by
    intro i hi
    rw [List.getD_eq_getElem ord 0 (by omega : i < ord.length)]
    have := List.mem_range.1 (ho.perm.mem_iff.1 (List.getElem_mem (by omega : i < ord.length)))
    omega
  have hex : ∀ x, x < n → ∃ i, i < n ∧ ord.getD i 0 = x := by
    intro x hx
    have hm : x ∈ ord := ho.perm.mem_iff.2 (List.mem_range.2 (by omega))
    obtain ⟨i, hi, e⟩ := List.mem_iff_getElem.1 hm
    exact ⟨i, by omega, by rw [List.getD_eq_getElem ord 0 hi, e]⟩
  generalize hof : (fun i => ord.getD i 0) = od at hod
  have hof' : ∀ i, ord.getD i 0 = od i := fun i => by rw [← hof]
  generalize hsf : (fun i => s.getD i 0) = sv at hs
  have hsf' : ∀ i, s.getD i 0 = sv i := fun i => by rw [← hsf]
  simp only [hof', hsf'] at hle hinj hlt hex
  rw [hn]
  obtain ⟨⟨Sl, k⟩, e, g, r, h1, h2, h3, h4, h5⟩ := forRange_inv (a := 0) (b := n) (s := (List.replicate (n + 1) 0, 1)) (body := rankStep s ord)
    (fun i s => ∃ g, Rep s.1 (n+1) g ∧ g n = 0 ∧ 1 ≤ s.2 ∧ s.2 ≤ max 1 i ∧ (0 < i → g (od (i-1)) = s.2) ∧
      ∀ j, j < i → 1 ≤ g (od j) ∧ g (od j) ≤ s.2 ∧ ∀ j', j' ≤ j → g (od j') ≤ g (od j) ∧ (g (od j') = g (od j) ↔ sv (od j') = sv (od j)))
    (Nat.zero_le n) ⟨_, Rep.replicate (n+1) 0, rfl, le_refl _, le_refl _, fun h => by omega, fun j hj => by omega⟩
    (by
      rintro i ⟨Sl, k⟩ _ hi ⟨g, r, h1, h2, h3, h4, h5⟩
      have h2 : 1 ≤ k := h2
      have h3 : k ≤ max 1 i := h3
      have h4 : 0 < i → g (od (i-1)) = k := h4
      have h5 : ∀ j, j < i → 1 ≤ g (od j) ∧ g (od j) ≤ k ∧ ∀ j', j' ≤ j → g (od j') ≤ g (od j) ∧ (g (od j') = g (od j) ↔ sv (od j') = sv (od j)) := h5
      by_cases hi0 : i = 0
      · subst hi0
        obtain ⟨S', e', r'⟩ := r.wr (i := od 0) (by have := hlt 0 hi; omega) k
        refine ⟨(S', k), ?_, _, r', ?_, h2, by show k ≤ _; omega, ?_, ?_⟩
        · simp only [rankStep, hod.val 0 hi, Option.bind_some, if_true, e', Option.map_some]
        · rw [upd_ne _ _ (by have := hlt 0 hi; omega)]; exact h1
        · intro _; exact upd_same _ _ _
        · intro j hj
          have : j = 0 := by omega
          subst this
          rw [upd_same]
          refine ⟨h2, le_refl _, ?_⟩
          intro j' hj'
          have : j' = 0 := by omega
          subst this
          rw [upd_same]
          simp
      · obtain ⟨k', hk'⟩ : ∃ k', (if sv (od i) ≠ sv (od (i-1)) then k + 1 else k) = k' := ⟨_, rfl⟩
        have hkk : k ≤ k' ∧ k' ≤ k + 1 := by rw [← hk']; split <;> omega
        obtain ⟨S', e', r'⟩ := r.wr (i := od i) (by have := hlt i hi; omega) k'
        have hne : ∀ j, j < i → od j ≠ od i := fun j hj e => by have := hinj j i (by omega) hi e; omega
        refine ⟨(S', k'), ?_, _, r', ?_, by show 1 ≤ k'; omega, by show k' ≤ _; omega, ?_, ?_⟩
        · simp only [rankStep, hod.val i hi, hod.val (i-1) (by omega), hs.val _ (hlt i hi), hs.val _ (hlt (i-1) (by omega)), Option.bind_some,
            if_neg hi0, hk', e', Option.map_some]
        · rw [upd_ne _ _ (by have := hlt i hi; omega)]; exact h1
        · intro _; exact upd_same _ _ _
        · intro j hj
          by_cases hji : j = i
          · subst hji
            rw [upd_same]
            refine ⟨by omega, le_refl _, ?_⟩
            intro j' hj'
            by_cases hjj : j' = j
            · subst hjj; rw [upd_same]; simp
            · have hjl : j' < j := by omega
              rw [upd_ne _ _ (hne j' hjl)]
              obtain ⟨_, q2, _⟩ := h5 j' hjl
              obtain ⟨_, _, q3⟩ := h5 (j-1) (by omega)
              obtain ⟨q4, q5⟩ := q3 j' (by omega)
              rw [h4 (by omega)] at q4 q5
              refine ⟨by omega, ?_⟩
              by_cases hc : sv (od j) = sv (od (j-1))
              · rw [if_neg (by simp [hc])] at hk'
                rw [← hk', q5, hc]
              · rw [if_pos hc] at hk'
                have w1 := hle (j-1) j (by omega) hi
                have w2 : sv (od j') ≤ sv (od (j-1)) := by
                  by_cases hj2 : j' = j - 1
                  · rw [hj2]
                  · exact hle j' (j-1) (by omega) (by omega)
                constructor
                · intro h; omega
                · intro h; omega
          · have hjl : j < i := by omega
            obtain ⟨q1, q2, q3⟩ := h5 j hjl
            rw [upd_ne _ _ (hne j hjl)]
            refine ⟨q1, by show _ ≤ k'; omega, ?_⟩
            intro j' hj'
            rw [upd_ne _ _ (hne j' (by omega))]
            exact q3 j' hj')
  have hSv : ∀ x, x < n + 1 → Sl.getD x 0 = g x := by
    intro x hx
    rw [List.getD_eq_getElem?_getD, r.val x hx]; rfl
  refine ⟨Sl, k, e, r.len, by rw [hSv n (by omega)]; exact h1, ?_, ?_⟩
  · intro x hx
    obtain ⟨i, hi, rfl⟩ := hex x hx
    obtain ⟨q1, q2, _⟩ := h5 i hi
    have h3 : k ≤ max 1 n := h3
    have q2 : g (od i) ≤ k := q2
    rw [hSv _ (by omega)]
    omega
  · intro x y hx hy
    rw [hSv x (by omega), hSv y (by omega), hsf', hsf']
    obtain ⟨i, hi, rfl⟩ := hex x hx
    obtain ⟨j, hj, rfl⟩ := hex y hy
    rcases Nat.lt_or_ge i j with hij | hij
    · obtain ⟨_, _, q⟩ := h5 j hj
      obtain ⟨q1, q2⟩ := q i (by omega)
      have q3 := hle i j hij hj
      constructor
      · intro h
        rcases Int.lt_or_eq_of_le q3 with h6 | h6
        · exact h6
        · have := q2.2 h6; omega
      · intro h
        have : g (od i) ≠ g (od j) := fun h6 => by have := q2.1 h6; omega
        omega
    · obtain ⟨_, _, q⟩ := h5 i hi
      obtain ⟨q1, q2⟩ := q j hij
      have q3 : sv (od j) ≤ sv (od i) := by
        by_cases hji : j = i
        · rw [hji]
        · exact hle j i (by omega) hi
      constructor
      · intro h; omega
      · intro h; omega

/-- The string given to `sa_is` is accepted and has the order of the input. -/
theorem sentinel_ok {ord : List Nat} {s : List Int} (hs : s ≠ []) (hr : ∀ v ∈ s, -2^31 ≤ v ∧ v < 2^31) (ho : Sorted ord s) :
    ∃ Sl, sentinelString ord s = some Sl ∧ Valid Sl ∧ Sl.length = s.length + 1 ∧
      ∀ x y, x < s.length → y < s.length → (Sl.getD x 0 < Sl.getD y 0 ↔ s.getD x 0 < s.getD y 0) := by
  have key : ∃ Sl, sentinelString ord s = some Sl ∧ Sl.length = s.length + 1 ∧
      Sl.getD s.length 0 = 0 ∧ (∀ x, x < s.length → 0 < Sl.getD x 0 ∧ Sl.getD x 0 ≤ s.length) ∧
      ∀ x y, x < s.length → y < s.length → (Sl.getD x 0 < Sl.getD y 0 ↔ s.getD x 0 < s.getD y 0) := by
    obtain ⟨p, ep, h1, h2, h3⟩ := minmax_ok hs
    unfold sentinelString
    rw [ep]
    simp only [Option.bind_some]
    by_cases hc : 0 < toInt32 p.1 ∧ toInt32 p.2 ≤ s.length
    · rw [if_pos hc]
      have r1 := hr _ h2
      have r2 := hr _ h3
      rw [toInt32_id r1.1 r1.2, toInt32_id r2.1 r2.2] at hc
      have hid : ∀ v ∈ s, toInt32 v = v := fun v hv => toInt32_id (hr v hv).1 (hr v hv).2
      rw [if_pos (fun v hv => by rw [hid v hv]; have := h1 v hv; omega)]
      have hg : ∀ x, x < s.length → ((s.map (fun v => (toInt32 v).toNat)) ++ [0]).getD x 0 = (s.getD x 0).toNat ∧ s.getD x 0 ∈ s := by
        intro x hx
        rw [List.getD_eq_getElem s 0 hx, List.getD_eq_getElem?_getD, List.getElem?_append_left (by simpa using hx), List.getElem?_map,
          List.getElem?_eq_getElem hx]
        exact ⟨by simp [hid _ (List.getElem_mem hx)], List.getElem_mem hx⟩
      refine ⟨_, rfl, by simp, ?_, ?_, ?_⟩
      · rw [List.getD_eq_getElem?_getD, List.getElem?_append_right (by simp)]
        simp
      · intro x hx
        obtain ⟨e, hm⟩ := hg x hx
        have := h1 _ hm
        rw [e]; omega
      · intro x y hx hy
        obtain ⟨e, hm⟩ := hg x hx
        obtain ⟨e', hm'⟩ := hg y hy
        have := h1 _ hm
        have := h1 _ hm'
        rw [e, e']; omega
    · rw [if_neg hc]
      obtain ⟨Sl, k, e, h⟩ := rank_ok ho
      exact ⟨Sl, by rw [e]; rfl, h⟩
  obtain ⟨Sl, e, hl, h0, hb, hi⟩ := key
  refine ⟨Sl, e, ⟨?_, ?_, ?_⟩, hl, hi⟩
  · rw [List.getLast?_eq_getElem?, hl, Nat.add_sub_cancel, List.getElem?_eq_getElem (by omega)]
    rw [List.getD_eq_getElem Sl 0 (by omega)] at h0
    rw [h0]
  · intro c hc
    obtain ⟨x, hx, rfl⟩ := List.mem_iff_getElem.1 hc
    by_cases hx2 : x = s.length
    · subst hx2
      rw [List.getD_eq_getElem Sl 0 (by omega)] at h0
      rw [h0]; omega
    · have := (hb x (by omega)).2
      rw [List.getD_eq_getElem Sl 0 hx] at this
      omega
  · intro x hx
    exact (hb x (by omega)).1

theorem mapM_some (l : List Nat) : (l.map some).mapM id = some l := by
  induction l with
  | nil => rfl
  | cons a l ih => rw [List.map_cons, List.mapM_cons, ih]; rfl

/-- The order of the suffixes without the final 0. -/
theorem drop_order {Sl : List Nat} {s : List Int} (V : Valid Sl) (hl : Sl.length = s.length + 1)
    (hi : ∀ x y, x < s.length → y < s.length → (Sl.getD x 0 < Sl.getD y 0 ↔ s.getD x 0 < s.getD y 0)) :
    ∀ (d x y : Nat), s.length - x ≤ d → x ≤ s.length → y ≤ s.length → Sl.drop x < Sl.drop y → s.drop x < s.drop y := by
  have h0 : Sl[s.length]? = some 0 := by
    have := V.last
    rw [List.getLast?_eq_getElem?, hl, Nat.add_sub_cancel] at this
    exact this
  have hd : ∀ x, x ≤ s.length → Sl.drop x = Sl.getD x 0 :: Sl.drop (x+1) := by
    intro x hx
    rw [List.drop_eq_getElem_cons (by omega), List.getD_eq_getElem Sl 0 (by omega)]
  have hd2 : ∀ x, x < s.length → s.drop x = s.getD x 0 :: s.drop (x+1) := by
    intro x hx
    rw [List.drop_eq_getElem_cons (by omega), List.getD_eq_getElem s 0 (by omega)]
  have hz : Sl.drop s.length = [0] := by
    rw [hd _ (le_refl _), List.getD_eq_getElem?_getD, h0, List.drop_eq_nil_of_le (by omega)]; rfl
  have hend : ∀ x y, x = s.length → y ≤ s.length → Sl.drop x < Sl.drop y → s.drop x < s.drop y := by
    rintro x y rfl hy h
    by_cases hy2 : y = s.length
    · rw [hy2] at h; exact absurd h (lt_irrefl _)
    · rw [hd2 y (by omega), List.drop_eq_nil_of_le (le_refl _)]
      simp
  intro d
  induction d with
  | zero => intro x y h hx; exact hend x y (by omega)
  | succ d ih =>
    intro x y h hx hy e
    by_cases hx2 : x = s.length
    · exact hend x y hx2 hy e
    · by_cases hy2 : y = s.length
      · exfalso
        rw [hy2, hz, hd x hx, cons_lt] at e
        have := V.pos x (by omega)
        omega
      · rw [hd x hx, hd y hy, cons_lt] at e
        rw [hd2 x (by omega), hd2 y (by omega)]
        rcases e with e | ⟨e1, e2⟩
        · exact List.cons_lt_cons_iff.2 (Or.inl ((hi x y (by omega) (by omega)).1 e))
        · refine List.cons_lt_cons_iff.2 (Or.inr ⟨?_, ih (x+1) (y+1) (by omega) (by omega) (by omega) e2⟩)
          have h1 := hi x y (by omega) (by omega)
          have h2 := hi y x (by omega) (by omega)
          omega

theorem suffixArray_ok {ord : List Nat} {s : List Int} (hs : s ≠ []) (hr : ∀ v ∈ s, -2^31 ≤ v ∧ v < 2^31) (ho : Sorted ord s) :
    ∃ sa, suffixArray ord s = some sa ∧ sa.Perm (List.range s.length) ∧ sa.Pairwise (fun i j => s.drop i < s.drop j) := by
  obtain ⟨Sl, e, V, hl, hi⟩ := sentinel_ok hs hr ho
  obtain ⟨o, B, e2, _, hp, hw⟩ := saIs_ok Sl.length Sl (List.replicate Sl.length (0, 0)) false (le_refl _) V (by simp) (fun h => by cases h)
  have h0 : Sl.drop s.length = [0] := by
    have := V.last
    rw [List.getLast?_eq_getElem?, hl, Nat.add_sub_cancel] at this
    rw [List.drop_eq_getElem_cons (by omega), List.drop_eq_nil_of_le (by omega)]
    rw [List.getElem?_eq_getElem (by omega)] at this
    injection this with this
    rw [this]
  rw [hl] at hp
  match o with
  | [] =>
    have := hp.length_eq
    simp at this
  | a :: o =>
    have ha : a = s.length := by
      have h1 : s.length ∈ a :: o := hp.mem_iff.2 (by simp)
      rw [List.mem_cons] at h1
      rcases h1 with h1 | h1
      · exact h1.symm
      · exfalso
        have h2 := (List.pairwise_cons.1 hw).1 _ h1
        have h3 : a < s.length + 1 := List.mem_range.1 (hp.mem_iff.1 (by simp))
        have h4 : a ≠ s.length := by
          rintro rfl; exact absurd h2 (lt_irrefl _)
        rw [h0, List.drop_eq_getElem_cons (by omega), cons_lt] at h2
        have := V.pos a (by omega)
        rw [List.getD_eq_getElem Sl 0 (by omega)] at this
        omega
    subst ha
    have hp2 : o.Perm (List.range s.length) := by
      rw [List.range_succ] at hp
      have := hp.trans (List.perm_append_singleton s.length (List.range s.length))
      exact this.cons_inv
    refine ⟨o, ?_, hp2, ?_⟩
    · unfold suffixArray
      rw [e, Option.bind_some, e2, Option.bind_some]
      simp only [List.map_cons, List.tail_cons, mapM_some]
    · refine List.Pairwise.imp_of_mem ?_ (List.pairwise_cons.1 hw).2
      intro x y hx hy h
      have h1 := List.mem_range.1 (hp2.mem_iff.1 hx)
      have h2 := List.mem_range.1 (hp2.mem_iff.1 hy)
      exact drop_order V hl hi _ x y (le_refl _) (by omega) (by omega) h

end Verif.Sais
