import Verif.Skew.Model
/-! C16: the skew-binary list refines ordinary lists. -/
namespace Verif.Skew

variable {T : Type}

/-- The elements of a tree, in order. -/
def elems : Tree T → List T
  | .nil => []
  | .node v d l r => if d ≤ 1 then [v] else if l.isNil then List.replicate (2^d - 1) v else v :: (elems l ++ elems r)

/-- A perfect tree of digit `d`, possibly with lumps. -/
def WF : Nat → Tree T → Prop
  | _, .nil => False
  | d, .node _ dg l r => dg = d ∧ 1 ≤ d ∧ (d = 1 ∨ l.isNil = true ∨ (WF (d-1) l ∧ WF (d-1) r))

/-- No lump inside. -/
def NoLump : Tree T → Prop
  | .nil => True
  | .node _ d l r => d ≤ 1 ∨ (l.isNil = false ∧ NoLump l ∧ NoLump r)

theorem two_pow_split {d : Nat} (h : 2 ≤ d) : 2^d = 2 * 2^(d-1) := by
  have h1 := Nat.pow_succ 2 (d-1)
  rw [Nat.succ_eq_add_one, Nat.sub_add_cancel (by omega)] at h1
  omega

theorem two_pow_ge {d : Nat} (h : 1 ≤ d) : 2 ≤ 2^d := by
  have : 2^1 ≤ 2^d := Nat.pow_le_pow_right (by omega) h
  simpa using this

theorem WF.size {d : Nat} {t : Tree T} (h : WF d t) : t.size = some (2^d - 1) ∧ t.digit = some d ∧ t.isNil = false ∧ 1 ≤ d := by
  cases t with
  | nil => exact absurd h (by simp [WF])
  | node v dg l r => obtain ⟨rfl, h2, _⟩ := h; exact ⟨rfl, rfl, rfl, h2⟩

theorem elems_length : ∀ {d : Nat} {t : Tree T}, WF d t → (elems t).length = 2^d - 1
  | d, .nil, h => absurd h (by simp [WF])
  | d, .node v dg l r, h => by
    obtain ⟨rfl, h1, h2⟩ := h
    unfold elems
    by_cases hd : dg ≤ 1
    · have : dg = 1 := by omega
      subst this; simp
    · rw [if_neg hd]
      have hp := two_pow_split (d := dg) (by omega)
      have hg := two_pow_ge (d := dg - 1) (by omega)
      rcases h2 with h2 | h2 | ⟨h2, h3⟩
      · omega
      · simp [h2]
      · rw [if_neg (by simp [h2.size.2.2.1])]
        have := elems_length h2
        have := elems_length h3
        simp only [List.length_cons, List.length_append]; omega

theorem elems_head {d : Nat} {v : T} {dg : Nat} {l r : Tree T} (h : WF d (.node v dg l r)) : (elems (.node v dg l r)).head? = some v := by
  obtain ⟨rfl, h1, h2⟩ := h
  unfold elems
  by_cases hd : dg ≤ 1
  · simp [hd]
  · have hg := two_pow_ge (d := dg) (by omega)
    rw [if_neg hd]
    split
    · rw [List.head?_replicate, if_neg (by omega)]
    · rfl

/-- A non-lump inner node. -/
theorem elems_inner {d : Nat} {v : T} {dg : Nat} {l r : Tree T} (h : WF d (.node v dg l r)) (hl : ¬ (dg > 1 && l.isNil) = true) (hd : 1 < dg) :
    elems (.node v dg l r) = v :: (elems l ++ elems r) ∧ WF (dg-1) l ∧ WF (dg-1) r := by
  obtain ⟨rfl, h1, h2⟩ := h
  have hn : l.isNil = false := by simpa [hd] using hl
  rcases h2 with h2 | h2 | h2
  · omega
  · rw [hn] at h2; simp at h2
  · refine ⟨?_, h2⟩
    rw [elems, if_neg (by omega), if_neg (by simp [hn])]

theorem elems_leaf {d : Nat} {v : T} {dg : Nat} {l r : Tree T} (h : WF d (.node v dg l r)) (hd : ¬ 1 < dg) :
    elems (.node v dg l r) = [v] ∧ dg = 1 := by
  obtain ⟨rfl, h1, _⟩ := h
  exact ⟨by rw [elems, if_pos (by omega)], by omega⟩

theorem elems_lump {v : T} {dg : Nat} {l r : Tree T} (hl : (dg > 1 && l.isNil) = true) : elems (.node v dg l r) = List.replicate (2^dg - 1) v := by
  simp only [Bool.and_eq_true, decide_eq_true_eq] at hl
  rw [elems, if_neg (by omega), if_pos hl.2]

theorem fresh_wf (v : T) {d : Nat} (h : 1 ≤ d) : WF d (fresh v d) := ⟨rfl, h, Or.inr (Or.inl rfl)⟩

theorem fresh_elems (v : T) {d : Nat} (h : 1 ≤ d) : elems (fresh v d) = List.replicate (2^d - 1) v := by
  unfold fresh
  by_cases hd : 1 < d
  · exact elems_lump (by simp [hd, Tree.isNil])
  · have : d = 1 := by omega
    subst this
    simp [elems, List.replicate_one]

/-! ### Digit lists -/

def AllWF (ds : List (Tree T)) : Prop := ∀ t ∈ ds, ∃ d, WF d t

def toList (ds : List (Tree T)) : List T := ds.flatMap elems

theorem toList_cons (t : Tree T) (ds : List (Tree T)) : toList (t :: ds) = elems t ++ toList ds := by simp [toList]

theorem AllWF.cons {t : Tree T} {ds : List (Tree T)} {d : Nat} (h : WF d t) (hs : AllWF ds) : AllWF (t :: ds) := by
  intro x hx
  rcases List.mem_cons.1 hx with rfl | hx
  · exact ⟨d, h⟩
  · exact hs x hx

theorem AllWF.tail {t : Tree T} {ds : List (Tree T)} (h : AllWF (t :: ds)) : AllWF ds := fun x hx => h x (List.mem_cons_of_mem _ hx)

theorem wf_node {d : Nat} (v : T) {a b : Tree T} (ha : WF d a) (hb : WF d b) : WF (d+1) (.node v (d+1) a b) :=
  ⟨rfl, by omega, Or.inr (Or.inr ⟨ha, hb⟩)⟩

theorem node_elems {d : Nat} (v : T) {a b : Tree T} (ha : WF d a) (hb : WF d b) : elems (.node v (d+1) a b) = v :: (elems a ++ elems b) := by
  have h := wf_node v ha hb
  exact (elems_inner h (by simp [ha.size.2.2.1]) (by have := ha.size.2.2.2; omega)).1

theorem push_spec {ds : List (Tree T)} (hw : AllWF ds) (v : T) : ∃ ds', pushDs v ds = some ds' ∧ AllWF ds' ∧ toList ds' = v :: toList ds ∧
    ((∀ t ∈ ds, NoLump t) → ∀ t ∈ ds', NoLump t) := by
  have leaf : ∀ ds : List (Tree T), AllWF ds → AllWF (fresh v 1 :: ds) ∧ toList (fresh v 1 :: ds) = v :: toList ds ∧
      ((∀ t ∈ ds, NoLump t) → ∀ t ∈ fresh v 1 :: ds, NoLump t) := by
    intro ds h
    refine ⟨AllWF.cons (fresh_wf v (Nat.le_refl 1)) h, by rw [toList_cons, fresh_elems v (Nat.le_refl 1)]; rfl, fun hn t ht => ?_⟩
    rcases List.mem_cons.1 ht with rfl | ht
    · exact Or.inl (Nat.le_refl 1)
    · exact hn t ht
  match ds, hw with
  | [], hw => exact ⟨_, rfl, leaf _ hw⟩
  | [a], hw => exact ⟨_, rfl, leaf _ hw⟩
  | a :: b :: rest, hw =>
    obtain ⟨da, ha⟩ := hw a (by simp)
    obtain ⟨db, hb⟩ := hw b (by simp)
    simp only [pushDs, ha.size.2.1, hb.size.2.1, Option.bind_some]
    by_cases hd : da = db
    · subst hd
      rw [if_pos rfl]
      refine ⟨_, rfl, AllWF.cons (wf_node v ha hb) hw.tail.tail, ?_, fun hn t ht => ?_⟩
      · rw [toList_cons, toList_cons, toList_cons, node_elems v ha hb]; simp
      · rcases List.mem_cons.1 ht with rfl | ht
        · exact Or.inr ⟨ha.size.2.2.1, hn a (by simp), hn b (by simp)⟩
        · exact hn t (by simp [ht])
    · rw [if_neg hd]
      exact ⟨_, rfl, leaf _ hw⟩

theorem pop_spec {ds : List (Tree T)} {x : T} {xs : List T} (hw : AllWF ds) (hx : toList ds = x :: xs) :
    ∃ ds', popDs ds = some ds' ∧ AllWF ds' ∧ toList ds' = xs ∧ ((∀ t ∈ ds, NoLump t) → ∀ t ∈ ds', NoLump t) := by
  match ds, hw with
  | [], hw => simp [toList] at hx
  | .nil :: rest, hw =>
    obtain ⟨d, hd⟩ := hw .nil (by simp)
    exact absurd hd (by simp [WF])
  | .node v d l r :: rest, hw =>
    obtain ⟨d', hd⟩ := hw _ (List.mem_cons_self ..)
    obtain rfl : d = d' := hd.1
    have h1 := hd.2.1
    rw [toList_cons] at hx
    by_cases hg : 1 < d
    · have hp := two_pow_split (d := d) (by omega)
      have hge := two_pow_ge (d := d - 1) (by omega)
      simp only [popDs, if_pos (show 2^d - 1 > 1 by omega)]
      by_cases hl : (d > 1 && l.isNil) = true
      · rw [if_pos hl]
        rw [elems_lump hl, show 2^d - 1 = 2 * (2^(d-1) - 1) + 1 by omega, List.replicate_succ, List.cons_append] at hx
        refine ⟨_, rfl, AllWF.cons (fresh_wf v (by omega)) (AllWF.cons (fresh_wf v (by omega)) hw.tail), ?_, fun hn => ?_⟩
        · rw [toList_cons, toList_cons, fresh_elems v (by omega), ← (List.cons.inj hx).2, ← List.append_assoc, List.replicate_append_replicate]
          congr 2; omega
        · have hc := hn _ (List.mem_cons_self ..)
          simp only [NoLump, Bool.and_eq_true, decide_eq_true_eq] at hc hl
          rcases hc with hc | hc
          · omega
          · rw [hl.2] at hc; simp at hc
      · rw [if_neg hl]
        obtain ⟨e, wl, wr⟩ := elems_inner hd hl hg
        rw [e, List.cons_append] at hx
        refine ⟨_, rfl, AllWF.cons wl (AllWF.cons wr hw.tail), ?_, fun hn t ht => ?_⟩
        · rw [toList_cons, toList_cons, ← (List.cons.inj hx).2, List.append_assoc]
        · have hc := hn _ (List.mem_cons_self ..)
          simp only [NoLump] at hc
          rcases List.mem_cons.1 ht with rfl | ht
          · rcases hc with hc | hc
            · omega
            · exact hc.2.1
          · rcases List.mem_cons.1 ht with rfl | ht
            · rcases hc with hc | hc
              · omega
              · exact hc.2.2
            · exact hn t (by simp [ht])
    · obtain ⟨e, rfl⟩ := elems_leaf hd hg
      rw [e] at hx
      simp only [List.cons_append, List.nil_append, List.cons.injEq] at hx
      refine ⟨rest, by simp [popDs], hw.tail, hx.2, fun hn t ht => hn t (by simp [ht])⟩

theorem getTree_spec : ∀ {d : Nat} {t : Tree T} {j : Nat}, WF d t → j < 2^d - 1 → getTree t j = (elems t)[j]?
  | d, .nil, j, h, _ => absurd h (by simp [WF])
  | d, .node v dg l r, j, h, hj => by
    have h' := h
    obtain ⟨rfl, h1, h2⟩ := h'
    unfold getTree
    by_cases h0 : j = 0
    · subst h0
      have := elems_head h
      simp [← List.head?_eq_getElem?, this]
    · rw [if_neg h0]
      by_cases hl : (dg > 1 && l.isNil) = true
      · rw [if_pos hl, elems_lump hl, List.getElem?_replicate, if_pos hj]
      · rw [if_neg hl]
        by_cases hg : 1 < dg
        · obtain ⟨e, wl, wr⟩ := elems_inner h hl hg
          have hp := two_pow_split (d := dg) (by omega)
          have hge := two_pow_ge (d := dg - 1) (by omega)
          have hll := elems_length wl
          rw [wl.size.1, Option.bind_some, e]
          obtain ⟨k, rfl⟩ : ∃ k, j = k + 1 := ⟨j - 1, by omega⟩
          simp only [Nat.add_sub_cancel, List.getElem?_cons_succ]
          split
          · rename_i hlt
            rw [getTree_spec wl hlt, List.getElem?_append_left (by omega)]
          · rename_i hlt
            rw [getTree_spec wr (by omega), List.getElem?_append_right (by omega), hll]
        · obtain ⟨_, rfl⟩ := elems_leaf h hg
          omega

theorem get_spec : ∀ {ds : List (Tree T)} {j : Nat}, AllWF ds → j < (toList ds).length → getDs ds j = (toList ds)[j]?
  | [], j, _, hj => by simp [toList] at hj
  | c :: rest, j, hw, hj => by
    obtain ⟨d, hc⟩ := hw c (by simp)
    have hl := elems_length hc
    rw [toList_cons] at hj ⊢
    simp only [getDs, hc.size.1, Option.bind_some]
    split
    · rw [get_spec hw.tail (by simp at hj; omega), List.getElem?_append_right (by omega), hl]
    · rw [getTree_spec hc (by omega), List.getElem?_append_left (by omega)]

theorem lump_spec (v x : T) : ∀ (D s j : Nat), s = (2^D - 1) / 2 → j < 2^D - 1 →
    ∃ t, lumpUpd v x D s j = some t ∧ WF D t ∧ elems t = (List.replicate (2^D - 1) v).set j x
  | 0, s, j, _, hj => by simp at hj
  | D+1, s, j, hs, hj => by
    have hp : 2^(D+1) = 2 * 2^D := by rw [Nat.pow_succ]; omega
    have hpos := Nat.two_pow_pos D
    have hs' : s = 2^D - 1 := by omega
    by_cases hD : D = 0
    · subst hD
      have : j = 0 := by omega
      subst this
      exact ⟨.node x 1 (fresh v 0) (fresh v 0), by simp [lumpUpd], ⟨rfl, by omega, Or.inl rfl⟩, by simp [elems]⟩
    · have hge := two_pow_ge (d := D) (by omega)
      have hf := fresh_wf v (d := D) (by omega)
      have hfe := fresh_elems v (d := D) (by omega)
      have hsplit : List.replicate (2^(D+1) - 1) v = v :: (List.replicate (2^D - 1) v ++ List.replicate (2^D - 1) v) := by
        rw [List.replicate_append_replicate, ← List.replicate_succ]
        congr 1; omega
      rw [hsplit]
      unfold lumpUpd
      by_cases h0 : j = 0
      · subst h0
        rw [if_pos rfl]
        exact ⟨_, rfl, wf_node x hf hf, by rw [node_elems x hf hf, hfe]; rfl⟩
      · rw [if_neg h0]
        obtain ⟨k, rfl⟩ : ∃ k, j = k + 1 := ⟨j - 1, by omega⟩
        simp only [Nat.add_sub_cancel, List.set_cons_succ]
        split
        · obtain ⟨t, e, w, el⟩ := lump_spec v x D (s/2) k (by rw [hs']) (by omega)
          refine ⟨_, by rw [e]; rfl, wf_node v w hf, ?_⟩
          rw [node_elems v w hf, el, hfe, List.set_append_left _ _ (by simp; omega)]
        · obtain ⟨t, e, w, el⟩ := lump_spec v x D (s/2) (k - s) (by rw [hs']) (by omega)
          refine ⟨_, by rw [e]; rfl, wf_node v hf w, ?_⟩
          rw [node_elems v hf w, el, hfe, List.set_append_right _ _ (by simp; omega), hs']
          simp

theorem updTree_spec (x : T) : ∀ {d : Nat} {t : Tree T} {j : Nat}, WF d t → j < 2^d - 1 →
    ∃ t', updTree x t j = some t' ∧ WF d t' ∧ elems t' = (elems t).set j x ∧ (NoLump t → NoLump t')
  | d, .nil, j, h, _ => absurd h (by simp [WF])
  | d, .node v dg l r, j, h, hj => by
    have h' := h
    obtain ⟨rfl, h1, h2⟩ := h'
    unfold updTree
    by_cases hl : (dg > 1 && l.isNil) = true
    · rw [if_pos hl, elems_lump hl]
      obtain ⟨t, e, w, el⟩ := lump_spec v x dg _ j rfl hj
      refine ⟨t, e, w, el, fun hn => ?_⟩
      simp only [NoLump, Bool.and_eq_true, decide_eq_true_eq] at hn hl
      rcases hn with hn | hn
      · omega
      · rw [hl.2] at hn; simp at hn
    · rw [if_neg hl]
      by_cases hg : 1 < dg
      · obtain ⟨e, wl, wr⟩ := elems_inner h hl hg
        have hp := two_pow_split (d := dg) (by omega)
        have hge := two_pow_ge (d := dg - 1) (by omega)
        have hll := elems_length wl
        obtain ⟨D, rfl⟩ : ∃ D, dg = D + 1 := ⟨dg - 1, by omega⟩
        simp only [Nat.add_sub_cancel] at wl wr hp hge hll
        have hnl : NoLump (.node v (D+1) l r) → NoLump l ∧ NoLump r := by
          rintro (hn | hn)
          · omega
          · exact hn.2
        by_cases h0 : j = 0
        · subst h0
          rw [if_pos rfl]
          refine ⟨_, rfl, wf_node x wl wr, by rw [node_elems x wl wr, e]; rfl, fun hn => ?_⟩
          exact Or.inr ⟨wl.size.2.2.1, hnl hn⟩
        · rw [if_neg h0, wl.size.1, Option.bind_some, e]
          obtain ⟨k, rfl⟩ : ∃ k, j = k + 1 := ⟨j - 1, by omega⟩
          simp only [Nat.add_sub_cancel, List.set_cons_succ]
          split
          · rename_i hlt
            obtain ⟨t, e1, w, el, hn⟩ := updTree_spec x wl hlt
            refine ⟨_, by rw [e1]; rfl, wf_node v w wr, ?_, fun h => Or.inr ⟨w.size.2.2.1, hn (hnl h).1, (hnl h).2⟩⟩
            rw [node_elems v w wr, el, List.set_append_left _ _ (by omega)]
          · rename_i hlt
            obtain ⟨t, e1, w, el, hn⟩ := updTree_spec x wr (j := k - (2^D - 1)) (by omega)
            refine ⟨_, by rw [e1]; rfl, wf_node v wl w, ?_, fun h => Or.inr ⟨wl.size.2.2.1, (hnl h).1, hn (hnl h).2⟩⟩
            rw [node_elems v wl w, el, List.set_append_right _ _ (by omega), hll]
      · obtain ⟨e, rfl⟩ := elems_leaf h hg
        have : j = 0 := by omega
        subst this
        rw [if_pos rfl, e]
        exact ⟨_, rfl, ⟨rfl, by omega, Or.inl rfl⟩, by simp [elems], fun _ => Or.inl (Nat.le_refl 1)⟩

theorem upd_spec (x : T) : ∀ {ds : List (Tree T)} {j : Nat}, AllWF ds → j < (toList ds).length →
    ∃ ds', updDs x ds j = some ds' ∧ AllWF ds' ∧ toList ds' = (toList ds).set j x ∧ ((∀ t ∈ ds, NoLump t) → ∀ t ∈ ds', NoLump t)
  | [], j, _, hj => by simp [toList] at hj
  | c :: rest, j, hw, hj => by
    obtain ⟨d, hc⟩ := hw c (by simp)
    have hl := elems_length hc
    rw [toList_cons] at hj ⊢
    simp only [updDs, hc.size.1, Option.bind_some]
    split
    · obtain ⟨ds', e, w, el, hn⟩ := upd_spec x (j := j - (2^d - 1)) hw.tail (by simp at hj; omega)
      refine ⟨_, by rw [e]; rfl, AllWF.cons hc w, ?_, fun h t ht => ?_⟩
      · rw [toList_cons, el, List.set_append_right _ _ (by omega), hl]
      · rcases List.mem_cons.1 ht with rfl | ht
        · exact h _ (by simp)
        · exact hn (fun t ht => h t (by simp [ht])) t ht
    · obtain ⟨t', e, w, el, hn⟩ := updTree_spec x hc (j := j) (by omega)
      refine ⟨_, by rw [e]; rfl, AllWF.cons w hw.tail, ?_, fun h t ht => ?_⟩
      · rw [toList_cons, el, List.set_append_left _ _ (by omega)]
      · rcases List.mem_cons.1 ht with rfl | ht
        · exact hn (h _ (by simp))
        · exact h t (by simp [ht])

theorem dropTree_spec : ∀ {d : Nat} {t : Tree T} {j : Nat} {dst : List (Tree T)}, WF d t → NoLump t → j < 2^d - 1 → AllWF dst →
    (∀ u ∈ dst, NoLump u) →
    ∃ ds', dropTree t j dst = some ds' ∧ AllWF ds' ∧ toList ds' = (elems t).drop j ++ toList dst ∧ (∀ u ∈ ds', NoLump u) ∧ ds' ≠ []
  | d, .nil, j, _, h, _, _, _, _ => absurd h (by simp [WF])
  | d, .node v dg l r, j, dst, h, hn, hj, hw, hwn => by
    have h' := h
    obtain ⟨rfl, h1, h2⟩ := h'
    unfold dropTree
    by_cases h0 : j = 0
    · subst h0
      rw [if_pos rfl]
      refine ⟨_, rfl, AllWF.cons h hw, by rw [toList_cons]; rfl, fun u hu => ?_, by simp⟩
      rcases List.mem_cons.1 hu with rfl | hu
      · exact hn
      · exact hwn u hu
    · rw [if_neg h0]
      by_cases hg : 1 < dg
      · have hn' : l.isNil = false ∧ NoLump l ∧ NoLump r := by
          simp only [NoLump] at hn
          rcases hn with hn | hn
          · omega
          · exact hn
        obtain ⟨e, wl, wr⟩ := elems_inner h (by simp [hn'.1]) hg
        have hp := two_pow_split (d := dg) (by omega)
        have hge := two_pow_ge (d := dg - 1) (by omega)
        have hll := elems_length wl
        rw [wl.size.1, Option.bind_some, wr.size.1, e]
        obtain ⟨k, rfl⟩ : ∃ k, j = k + 1 := ⟨j - 1, by omega⟩
        simp only [Nat.add_sub_cancel, Option.bind_some, List.drop_succ_cons]
        split
        · rename_i hlt
          obtain ⟨ds', e1, w, el, hx⟩ := dropTree_spec (dst := r :: dst) wl hn'.2.1 hlt (AllWF.cons wr hw) (fun u hu => by
            rcases List.mem_cons.1 hu with rfl | hu
            · exact hn'.2.2
            · exact hwn u hu)
          refine ⟨ds', e1, w, ?_, hx⟩
          rw [el, toList_cons, List.drop_append_of_le_length (by omega), List.append_assoc]
        · rename_i hlt
          obtain ⟨ds', e1, w, el, hx⟩ := dropTree_spec (j := k - (2^(dg-1) - 1)) (dst := dst) wr hn'.2.2 (by omega) hw hwn
          refine ⟨ds', e1, w, ?_, hx⟩
          rw [el, List.drop_append, hll, List.drop_eq_nil_of_le (as := elems l) (by omega)]; rfl
      · obtain ⟨_, rfl⟩ := elems_leaf h hg
        omega

theorem drop_spec : ∀ {ds : List (Tree T)} {j : Nat}, AllWF ds → (∀ t ∈ ds, NoLump t) →
    ∃ ds', dropDs ds j = some ds' ∧ AllWF ds' ∧ toList ds' = (toList ds).drop j ∧ (∀ t ∈ ds', NoLump t) ∧ (ds' = [] → (toList ds).length ≤ j)
  | [], j, hw, hn => ⟨[], rfl, hw, by simp [toList], hn, fun _ => by simp [toList]⟩
  | c :: rest, j, hw, hn => by
    obtain ⟨d, hc⟩ := hw c (by simp)
    have hl := elems_length hc
    have hnr : ∀ t ∈ rest, NoLump t := fun t ht => hn t (by simp [ht])
    simp only [dropDs, hc.size.1, Option.bind_some]
    rw [toList_cons]
    split
    · obtain ⟨ds', e, w, el, hx, hy⟩ := drop_spec (j := j - (2^d - 1)) hw.tail hnr
      refine ⟨ds', e, w, ?_, hx, fun h => ?_⟩
      · rw [el, List.drop_append, hl, List.drop_eq_nil_of_le (as := elems c) (by omega)]; rfl
      · have := hy h
        simp; omega
    · obtain ⟨ds', e, w, el, hx, hy⟩ := dropTree_spec (j := j) hc (hn c (by simp)) (by omega) hw.tail hnr
      exact ⟨ds', e, w, by rw [el, List.drop_append_of_le_length (by omega)], hx, fun h => absurd h hy⟩

theorem pow_le_of_log2 {m : Nat} (hm : 0 < m) : 2^(m+1).log2 - 1 ≤ m ∧ 1 ≤ (m+1).log2 := by
  have h1 := Nat.log2_self_le (n := m+1) (by omega)
  refine ⟨by omega, ?_⟩
  have : 2^1 ≤ m + 1 := by simp; omega
  exact (Nat.le_log2 (by omega)).2 this

theorem ext2_spec (v : T) : ∀ (f : Nat) (ds : List (Tree T)) (sz m : Nat), m ≤ f → AllWF ds →
    ∃ ds', ext2 v f ds sz m = some (ds', sz + m) ∧ AllWF ds' ∧ toList ds' = List.replicate m v ++ toList ds
  | 0, ds, sz, m, hm, hw => by
    have : m = 0 := by omega
    subst this
    exact ⟨ds, by simp [ext2], hw, by simp⟩
  | f+1, ds, sz, m, hm, hw => by
    unfold ext2
    by_cases h0 : m = 0
    · subst h0; exact ⟨ds, by simp, hw, by simp⟩
    · obtain ⟨h1, h2⟩ := pow_le_of_log2 (m := m) (by omega)
      have hge := two_pow_ge h2
      rw [if_neg h0, if_pos h1]
      obtain ⟨ds', e, w, el⟩ := ext2_spec v f (fresh v (m+1).log2 :: ds) (sz + (2^(m+1).log2 - 1)) (m - (2^(m+1).log2 - 1)) (by omega)
        (AllWF.cons (fresh_wf v h2) hw)
      refine ⟨ds', by rw [e]; congr 2; omega, w, ?_⟩
      rw [el, toList_cons, fresh_elems v h2, ← List.append_assoc, List.replicate_append_replicate]
      congr 2; omega

theorem extRound_spec (v : T) {ds : List (Tree T)} (hne : ds ≠ []) (hw : AllWF ds) (sz m : Nat) (hm : 0 < m) :
    extRound v ds sz m = some none ∨ ∃ ds' k, extRound v ds sz m = some (some (ds', sz + k, m - k)) ∧ 1 ≤ k ∧ k ≤ m ∧ AllWF ds' ∧
      toList ds' = List.replicate k v ++ toList ds ∧ ds' ≠ [] := by
  match ds, hne, hw with
  | [c], _, hw =>
    obtain ⟨d, hc⟩ := hw c (by simp)
    have hge := two_pow_ge hc.size.2.2.2
    simp only [extRound, hc.size.1, hc.size.2.1, Option.bind_some]
    split
    · rename_i hle
      refine Or.inr ⟨_, 2^d - 1, rfl, by omega, hle, AllWF.cons (fresh_wf v hc.size.2.2.2) hw, ?_, by simp⟩
      rw [toList_cons, fresh_elems v hc.size.2.2.2]
    · exact Or.inl rfl
  | a :: b :: rest, _, hw =>
    obtain ⟨d, ha⟩ := hw a (by simp)
    obtain ⟨d', hb⟩ := hw b (by simp)
    have hge := two_pow_ge ha.size.2.2.2
    have hge' := two_pow_ge hb.size.2.2.2
    simp only [extRound, ha.size.1, ha.size.2.1, hb.size.1, Option.bind_some]
    split
    · rename_i heq
      have hdd : d = d' := Nat.pow_right_inj (by omega : 1 < 2) |>.1 (show 2^d = 2^d' by omega)
      subst hdd
      refine Or.inr ⟨_, 1, rfl, by omega, hm, AllWF.cons (wf_node v ha hb) hw.tail.tail, ?_, by simp⟩
      rw [toList_cons, toList_cons, toList_cons, node_elems v ha hb]; simp
    · split
      · rename_i hle
        refine Or.inr ⟨_, 2^d - 1, rfl, by omega, hle, AllWF.cons (fresh_wf v ha.size.2.2.2) hw, ?_, by simp⟩
        rw [toList_cons, fresh_elems v ha.size.2.2.2]
      · exact Or.inl rfl

theorem ext1_spec (v : T) : ∀ (f : Nat) (ds : List (Tree T)) (sz m : Nat), m ≤ f → ds ≠ [] ∨ m = 0 → AllWF ds →
    ∃ ds' k, ext1 v f ds sz m = some (ds', sz + k, m - k) ∧ k ≤ m ∧ AllWF ds' ∧ toList ds' = List.replicate k v ++ toList ds
  | 0, ds, sz, m, hm, _, hw => by
    have : m = 0 := by omega
    subst this
    exact ⟨ds, 0, by simp [ext1], by omega, hw, by simp⟩
  | f+1, ds, sz, m, hm, hne, hw => by
    unfold ext1
    by_cases h0 : m = 0
    · subst h0; exact ⟨ds, 0, by simp, by omega, hw, by simp⟩
    · rw [if_neg h0]
      rcases extRound_spec v (hne.resolve_right h0) hw sz m (by omega) with h | ⟨ds', k, e, hk1, hk2, w, el, hne'⟩
      · exact ⟨ds, 0, by simp [h], by omega, hw, by simp⟩
      · obtain ⟨ds2, k2, e2, hk3, w2, el2⟩ := ext1_spec v f ds' (sz + k) (m - k) (by omega) (Or.inl hne') w
        refine ⟨ds2, k + k2, ?_, by omega, w2, ?_⟩
        · simp only [e, Option.bind_some, e2]
          congr 3 <;> omega
        · rw [el2, el, ← List.append_assoc, List.replicate_append_replicate, Nat.add_comm]

/-! ### Versions -/

/-- `s` denotes `xs`; `clean`: not derived from an `extended` list. -/
structure Den (s : SL T) (xs : List T) (clean : Bool) : Prop where
  wf : AllWF s.ds
  cont : toList s.ds = xs
  size : s.size = xs.length
  clean : clean = true → ∀ t ∈ s.ds, NoLump t

inductive Op (T : Type)
  | push (k : Nat) (v : T)
  | pop (k : Nat)
  | upd (k i : Nat) (v : T)
  | drop (k i : Nat)
  | ext (k n : Nat) (v : T)

def step (ws : List (SL T)) : Op T → Option (List (SL T))
  | .push k v => (ws[k]?).bind (fun s => (pushed s v).map (fun s' => ws ++ [s']))
  | .pop k => (ws[k]?).bind (fun s => (popped s).map (fun s' => ws ++ [s']))
  | .upd k i v => (ws[k]?).bind (fun s => (updatedAt s i v).map (fun s' => ws ++ [s']))
  | .drop k i => (ws[k]?).bind (fun s => (dropped s i).map (fun s' => ws ++ [s']))
  | .ext k n v => (ws[k]?).bind (fun s => (extended s n v).map (fun s' => ws ++ [s']))

def run : List (SL T) → List (Op T) → Option (List (SL T))
  | ws, [] => some ws
  | ws, o :: os => (step ws o).bind (fun ws' => run ws' os)

/-- Result of one operation on a plain list; `none`: arguments not allowed (pop of empty, index out of range). -/
def opSpec (xs : List T) : Op T → Option (List T)
  | .push _ v => some (v :: xs)
  | .pop _ => xs.tail?
  | .upd _ i v => if i < xs.length then some (xs.set i v) else none
  | .drop _ i => some (xs.drop i)
  | .ext _ n v => some (List.replicate n v ++ xs)

def Op.on : Op T → Nat
  | .push k _ => k
  | .pop k => k
  | .upd k _ _ => k
  | .drop k _ => k
  | .ext k _ _ => k

def specStep (vs : List (List T)) (o : Op T) : Option (List (List T)) :=
  (vs[o.on]?).bind (fun xs => (opSpec xs o).map (fun ys => vs ++ [ys]))

def spec : List (List T) → List (Op T) → Option (List (List T))
  | vs, [] => some vs
  | vs, o :: os => (specStep vs o).bind (fun vs' => spec vs' os)

/-- The two uses that do not work: `dropped` on a list derived from `extended`, and `extended` of an empty list.
`taint`/`len` describe the versions made so far. -/
def okStep (vs : List (List T × Bool)) (o : Op T) : Prop :=
  match vs[o.on]?, o with
  | some x, .drop _ _ => x.2 = true
  | some x, .ext _ n _ => x.1 ≠ [] ∨ n = 0
  | _, _ => True

def cleanAfter (c : Bool) : Op T → Bool
  | .ext _ _ _ => false
  | _ => c

/-- Specification carrying, for each version, whether it is free of `extended`. -/
def specStep' (vs : List (List T × Bool)) (o : Op T) : Option (List (List T × Bool)) :=
  (vs[o.on]?).bind (fun x => (opSpec x.1 o).map (fun ys => vs ++ [(ys, cleanAfter x.2 o)]))

/-- The history is allowed by the specification and avoids the two uses above. -/
def Ok : List (List T × Bool) → List (Op T) → Prop
  | _, [] => True
  | vs, o :: os => okStep vs o ∧ ∃ vs', specStep' vs o = some vs' ∧ Ok vs' os

def Good (ws : List (SL T)) (vs : List (List T × Bool)) : Prop := ws.length = vs.length ∧
  ∀ (k : Nat) (s : SL T) (x : List T × Bool), ws[k]? = some s → vs[k]? = some x → Den s x.1 x.2

theorem Good.append {ws : List (SL T)} {vs : List (List T × Bool)} (hg : Good ws vs) {s' : SL T} {ys : List T} {c : Bool} (hd : Den s' ys c) :
    Good (ws ++ [s']) (vs ++ [(ys, c)]) := by
  refine ⟨by simp [hg.1], fun k s x e1 e2 => ?_⟩
  by_cases hk : k < vs.length
  · rw [List.getElem?_append_left (by rw [hg.1]; exact hk)] at e1
    rw [List.getElem?_append_left hk] at e2
    exact hg.2 k s x e1 e2
  · have := (List.getElem?_eq_some_iff.1 e2).1
    simp at this
    have hk' : k = vs.length := by omega
    subst hk'
    rw [← hg.1] at e1
    simp at e1 e2
    subst e1 e2
    exact hd

theorem step_good {ws : List (SL T)} {vs vs' : List (List T × Bool)} (hg : Good ws vs) (o : Op T) (hok : okStep vs o)
    (hs : specStep' vs o = some vs') : ∃ ws', step ws o = some ws' ∧ Good ws' vs' := by
  simp only [specStep', Option.bind_eq_some_iff, Option.map_eq_some_iff] at hs
  obtain ⟨x, ex, ys, ey, rfl⟩ := hs
  have hk : o.on < ws.length := by rw [hg.1]; exact (List.getElem?_eq_some_iff.1 ex).1
  have es := List.getElem?_eq_getElem hk
  generalize ws[o.on] = s at es
  have hd := hg.2 _ s x es ex
  have hsize := hd.size
  have hc := hd.cont
  cases o with
  | push k v =>
    simp only [Op.on] at es ex
    simp only [opSpec, Option.some.injEq] at ey
    subst ey
    obtain ⟨ds', e, w, el, hn⟩ := push_spec hd.wf v
    refine ⟨ws ++ [⟨ds', s.size + 1⟩], by simp only [step, es, Option.bind_some, pushed, e, Option.map_some], hg.append ⟨w, by rw [el, hc], by simp [hsize], ?_⟩⟩
    intro h; exact hn (hd.clean h)
  | pop k =>
    simp only [Op.on] at es ex
    simp only [opSpec] at ey
    cases hx : x.1 with
    | nil => rw [hx] at ey; simp at ey
    | cons a as =>
      rw [hx] at ey hc
      simp only [List.tail?_cons, Option.some.injEq] at ey
      subst ey
      obtain ⟨ds', e, w, el, hn⟩ := pop_spec hd.wf hc
      refine ⟨ws ++ [⟨ds', s.size - 1⟩], by simp only [step, es, Option.bind_some, popped, e, Option.map_some], hg.append ⟨w, el, by simp [hsize, hx], ?_⟩⟩
      intro h; exact hn (hd.clean h)
  | upd k i v =>
    simp only [Op.on] at es ex
    simp only [opSpec, Option.ite_none_right_eq_some, Option.some.injEq] at ey
    obtain ⟨hi, rfl⟩ := ey
    obtain ⟨ds', e, w, el, hn⟩ := upd_spec v hd.wf (j := i) (by rw [hc]; exact hi)
    refine ⟨ws ++ [⟨ds', s.size⟩], by simp only [step, es, Option.bind_some, updatedAt, e, Option.map_some], hg.append ⟨w, by rw [el, hc], by simp [hsize], ?_⟩⟩
    intro h; exact hn (hd.clean h)
  | drop k i =>
    simp only [okStep, ex] at hok
    simp only [Op.on] at es ex
    simp only [opSpec, Option.some.injEq] at ey
    subst ey
    obtain ⟨ds', e, w, el, hn, hy⟩ := drop_spec (j := i) hd.wf (hd.clean hok)
    have hden : Den (if ds'.isEmpty then (empty : SL T) else ⟨ds', s.size - i⟩) (x.1.drop i) (cleanAfter x.2 (.drop k i : Op T)) := by
      rw [hc] at hy el
      by_cases hem : ds' = []
      · subst hem
        have := hy rfl
        rw [List.drop_eq_nil_of_le this]
        exact ⟨fun t ht => by simp [empty] at ht, rfl, rfl, fun _ t ht => by simp [empty] at ht⟩
      · rw [if_neg (by simpa using hem)]
        exact ⟨w, el, by simp [hsize], fun _ => hn⟩
    exact ⟨_, by simp only [step, es, Option.bind_some, dropped, e, Option.map_some], hg.append hden⟩
  | ext k n v =>
    simp only [okStep, ex] at hok
    simp only [Op.on] at es ex
    simp only [opSpec, Option.some.injEq] at ey
    subst ey
    have hne : s.ds ≠ [] ∨ n = 0 := by
      rcases hok with h | h
      · left; intro h0; rw [h0] at hc; exact h hc.symm
      · exact Or.inr h
    obtain ⟨ds1, k1, e1, hk1, w1, el1⟩ := ext1_spec v n s.ds s.size n (Nat.le_refl _) hne hd.wf
    obtain ⟨ds2, e2, w2, el2⟩ := ext2_spec v (n - k1) ds1 (s.size + k1) (n - k1) (Nat.le_refl _) w1
    refine ⟨ws ++ [⟨ds2, s.size + k1 + (n - k1)⟩], ?_, hg.append ⟨w2, ?_, by simp [hsize]; omega, fun h => by simp [cleanAfter] at h⟩⟩
    · simp only [step, es, Option.bind_some, extended, e1, e2]
      rw [if_pos (by omega)]; rfl
    · rw [el2, el1, hc, ← List.append_assoc, List.replicate_append_replicate]
      congr 2; omega

theorem run_good : ∀ (os : List (Op T)) (ws : List (SL T)) (vs : List (List T × Bool)), Good ws vs → Ok vs os →
    ∃ ws' vs', run ws os = some ws' ∧ spec (vs.map (·.1)) os = some (vs'.map (·.1)) ∧ Good ws' vs'
  | [], ws, vs, hg, _ => ⟨ws, vs, rfl, rfl, hg⟩
  | o :: os, ws, vs, hg, hok => by
    obtain ⟨h1, vs1, e1, h2⟩ := hok
    obtain ⟨ws1, a1, a2⟩ := step_good hg o h1 e1
    obtain ⟨ws', vs', b1, b2, b3⟩ := run_good os ws1 vs1 a2 h2
    refine ⟨ws', vs', by simp [run, a1, b1], ?_, b3⟩
    have : specStep (vs.map (·.1)) o = some (vs1.map (·.1)) := by
      simp only [specStep', Option.bind_eq_some_iff, Option.map_eq_some_iff] at e1
      obtain ⟨x, ex, ys, ey, rfl⟩ := e1
      simp [specStep, ex, ey]
    simp [spec, this, b2]

/-- What the property asks for: every history allowed by the list specification works. -/
def C16_statement (T : Type) : Prop := ∀ (os : List (Op T)) (vs : List (List T)), spec [[]] os = some vs →
  ∃ ws, run [empty] os = some ws ∧ ws.length = vs.length ∧
    ∀ (k : Nat) (s : SL T) (xs : List T), ws[k]? = some s → vs[k]? = some xs →
      s.size = xs.length ∧ (xs ≠ [] → front s = xs.head?) ∧ ∀ i, i < xs.length → getAt s i = xs[i]?

/-- **C16 (partial).** Every history of `pushed`, `popped`, `updated_at`, `dropped`, `extended` on any earlier versions,
allowed by the list specification and using neither `dropped` on a version derived from `extended` nor `extended` with
`n > 0` on an empty version, runs without undefined behaviour; afterwards every version has the size, the front and
all elements of its own list.  Missing: the two excluded uses, where the code dereferences null (`C16_violated_drop`,
`C16_violated_extend`). -/
theorem C16_versions_partial (os : List (Op T)) (hok : Ok [([], true)] os) :
    ∃ ws vs, run [empty] os = some ws ∧ spec [[]] os = some vs ∧ ws.length = vs.length ∧
      ∀ (k : Nat) (s : SL T) (xs : List T), ws[k]? = some s → vs[k]? = some xs →
        s.size = xs.length ∧ (xs ≠ [] → front s = xs.head?) ∧ ∀ i, i < xs.length → getAt s i = xs[i]? := by
  obtain ⟨ws, vs, h1, h2, hl, hd⟩ := run_good os [empty] [([], true)] ⟨rfl, by
    intro k s x e1 e2
    cases k with
    | succ k => simp at e1
    | zero =>
      simp at e1 e2
      subst e1 e2
      exact ⟨fun t ht => by simp [empty] at ht, rfl, rfl, fun _ t ht => by simp [empty] at ht⟩⟩ hok
  refine ⟨ws, vs.map Prod.fst, h1, h2, by simp [hl], fun k s xs e1 e2 => ?_⟩
  rw [List.getElem?_map, Option.map_eq_some_iff] at e2
  obtain ⟨x, ex, rfl⟩ := e2
  have d := hd k s x e1 ex
  have hc := d.cont
  refine ⟨d.size, fun hne => ?_, fun i hi => ?_⟩
  · rw [← hc] at hne ⊢
    match hds : s.ds, d.wf with
    | [], _ => rw [hds] at hne; simp [toList] at hne
    | .nil :: rest, w =>
      obtain ⟨d', hd⟩ := w _ (List.mem_cons_self ..)
      exact absurd hd (by simp [WF])
    | .node v dg l r :: rest, w =>
      obtain ⟨d', hd⟩ := w _ (List.mem_cons_self ..)
      have := elems_head hd
      rw [toList_cons, List.head?_append, this]
      simp [front, hds]
  · rw [← hc]
    exact get_spec d.wf (by rw [hc]; exact hi)

/-- `extended` builds a lump of three equal elements on `[1]`; `dropped(1)` then dereferences its null child
(skewbinary_list.hpp:217-226). -/
theorem C16_violated_drop : ¬ C16_statement Nat := by
  intro h
  obtain ⟨ws, h1, _⟩ := h [.push 0 1, .push 1 1, .push 2 1, .ext 3 3 7, .drop 4 1] _ (by rfl)
  exact absurd h1 (by simp [run, step, empty, pushed, pushDs, Tree.digit, fresh, extended, ext1, extRound, Tree.size, ext2, dropped, dropDs, dropTree])

/-- `extended(1, v)` of the empty list dereferences null (skewbinary_list.hpp:247). -/
theorem C16_violated_extend : ¬ C16_statement Nat := by
  intro h
  obtain ⟨ws, h1, _⟩ := h [.ext 0 1 7] _ (by rfl)
  exact absurd h1 (by simp [run, step, empty, extended, ext1, extRound])

/-- A history meeting the hypotheses, with lumps, an update inside a lump, and `dropped` on a clean version. -/
def sample : List (Op Nat) := [.push 0 1, .push 1 2, .push 2 3, .push 3 4, .drop 4 2, .ext 4 9 7, .upd 6 5 8, .pop 7]
example : Ok [([], true)] sample := by
  simp [sample, Ok, okStep, specStep', opSpec, cleanAfter, Op.on]
example : ((run [empty] sample).bind (fun ws => ws[8]?.bind (fun s => getAt s 4))) = some 8 := by decide +kernel

end Verif.Skew
