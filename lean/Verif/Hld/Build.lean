import Verif.Hld.Order
/-!
`add_edge` and `build`: the arrays after `build`.
-/
namespace Verif.Hld

variable {n r : Nat} {P : Nat → Option Nat}

/-- The list `E` holds every edge of the tree once, in any order and direction. -/
def EdgesOf (n r : Nat) (P : Nat → Option Nat) (E : List (Nat × Nat)) : Prop :=
  ∃ dir : Nat → Bool, E.Perm (((List.range n).filter (fun v => v ≠ r)).map (fun v => if dir v then (v, (P v).getD 0) else ((P v).getD 0, v)))

/-- The other ends of the edges at `v`. -/
def nb (v : Nat) (e : Nat × Nat) : List Nat := (if e.1 = v then [e.2] else []) ++ (if e.2 = v then [e.1] else [])

theorem addEdge_ok {edge : List (List Nat)} {e : Nat × Nat} (h1 : e.1 < edge.length) (h2 : e.2 < edge.length) (hne : e.1 ≠ e.2) :
    ∃ edge', addEdge edge e = some edge' ∧ edge'.length = edge.length ∧ ∀ v ev, edge[v]? = some ev → edge'[v]? = some (ev ++ nb v e) := by
  have g1 : edge[e.1]? = some edge[e.1] := List.getElem?_eq_getElem h1
  have g2 : edge[e.2]? = some edge[e.2] := List.getElem?_eq_getElem h2
  obtain ⟨ed1, w1, l1, a1, b1⟩ := wr_ok h1 (edge[e.1] ++ [e.2])
  obtain ⟨ed2, w2, l2, a2, b2⟩ := wr_ok (l := ed1) (i := e.2) (by rw [l1]; exact h2) (edge[e.2] ++ [e.1])
  refine ⟨ed2, ?_, l2.trans l1, ?_⟩
  · unfold addEdge
    rw [g1, Option.bind_some, w1, Option.bind_some, b1 _ hne.symm, g2, Option.bind_some, w2]
  · intro v ev hv
    unfold nb
    by_cases e1 : e.1 = v
    · have e2 : e.2 ≠ v := by rw [← e1]; exact hne.symm
      subst e1
      rw [if_pos rfl, if_neg e2, b2 _ hne, a1]
      rw [g1] at hv
      cases hv
      simp
    · rw [if_neg e1]
      by_cases e2 : e.2 = v
      · subst e2
        rw [if_pos rfl, a2]
        rw [g2] at hv
        cases hv
        simp
      · rw [if_neg e2, b2 _ (Ne.symm e2), b1 _ (Ne.symm e1), hv]
        simp

theorem addEdges_ok : ∀ (E : List (Nat × Nat)) (edge : List (List Nat)), (∀ e ∈ E, e.1 < edge.length ∧ e.2 < edge.length ∧ e.1 ≠ e.2) →
    ∃ edge', addEdges E edge = some edge' ∧ edge'.length = edge.length ∧ ∀ v ev, edge[v]? = some ev → edge'[v]? = some (ev ++ E.flatMap (nb v)) := by
  intro E
  induction E with
  | nil => intro edge _; exact ⟨edge, rfl, rfl, fun v ev h => by rw [h]; simp⟩
  | cons e E ih =>
    intro edge h
    obtain ⟨a1, a2, a3⟩ := h e (List.mem_cons_self ..)
    obtain ⟨ed1, e1, l1, h1⟩ := addEdge_ok a1 a2 a3
    obtain ⟨ed2, e2, l2, h2⟩ := ih ed1 (fun x hx => by rw [l1]; exact h x (List.mem_cons_of_mem _ hx))
    refine ⟨ed2, by rw [addEdges, e1]; exact e2, l2.trans l1, fun v ev hv => ?_⟩
    rw [h2 v _ (h1 v ev hv)]
    simp [List.flatMap_cons]

theorem adj_flatMap (T : Tree n r P) {E : List (Nat × Nat)} (hE : EdgesOf n r P E) {v : Nat} (hv : v < n) : Adj n P v (E.flatMap (nb v)) := by
  obtain ⟨dir, hperm⟩ := hE
  -- one edge
  have one : ∀ w, w < n → w ≠ r → ∀ x, x ∈ nb v (if dir w then (w, (P w).getD 0) else ((P w).getD 0, w)) ↔ (x = w ∧ P w = some v) ∨ (w = v ∧ P v = some x) := by
    intro w hw hwr x
    obtain ⟨p, hp, e⟩ := T.par w hw hwr
    have hpw : p ≠ w := T.par_ne hw e
    rw [e]
    unfold nb
    cases dir w <;> simp only [Option.getD_some, Bool.false_eq_true, if_false, if_true, List.mem_append]
    · constructor
      · rintro (h | h)
        · split at h
          · rename_i h'; subst h'; exact Or.inl ⟨List.mem_singleton.1 h, rfl⟩
          · cases h
        · split at h
          · rename_i h'; subst h'; rw [List.mem_singleton] at h; subst h; exact Or.inr ⟨rfl, e⟩
          · cases h
      · rintro (⟨rfl, h⟩ | ⟨rfl, h⟩)
        · cases h; left; simp
        · rw [e] at h; cases h; right; simp
    · constructor
      · rintro (h | h)
        · split at h
          · rename_i h'; subst h'; rw [List.mem_singleton] at h; subst h; exact Or.inr ⟨rfl, e⟩
          · cases h
        · split at h
          · rename_i h'; subst h'; exact Or.inl ⟨List.mem_singleton.1 h, rfl⟩
          · cases h
      · rintro (⟨rfl, h⟩ | ⟨rfl, h⟩)
        · cases h; right; simp
        · rw [e] at h; cases h; left; simp
  have onend : ∀ w, w < n → w ≠ r → (nb v (if dir w then (w, (P w).getD 0) else ((P w).getD 0, w))).Nodup := by
    intro w hw hwr
    obtain ⟨p, hp, e⟩ := T.par w hw hwr
    have hpw : p ≠ w := T.par_ne hw e
    rw [e]
    unfold nb
    cases dir w <;> simp only [Option.getD_some, Bool.false_eq_true, if_false, if_true]
    · by_cases h1 : p = v
      · subst h1; rw [if_neg (c := w = p) (Ne.symm hpw)]; simp
      · rw [if_neg h1]; split <;> simp
    · by_cases h1 : w = v
      · subst h1; rw [if_neg (c := p = w) hpw]; simp
      · rw [if_neg h1]; split <;> simp
  have hp2 := hperm.flatMap_right (nb v)
  refine Adj.perm ?_ hp2
  rw [List.flatMap_map]
  constructor
  · rw [List.nodup_flatMap]
    refine ⟨fun w hw => ?_, ?_⟩
    · rw [List.mem_filter, List.mem_range] at hw
      exact onend w hw.1 (by simpa using hw.2)
    · refine List.Pairwise.imp_of_mem ?_ (List.Nodup.filter _ List.nodup_range)
      intro a b ha hb hab
      rw [List.mem_filter, List.mem_range] at ha hb
      intro x hx hx'
      rcases (one a ha.1 (by simpa using ha.2) x).1 hx with ⟨h1, h2⟩ | ⟨h1, h2⟩ <;> rcases (one b hb.1 (by simpa using hb.2) x).1 hx' with ⟨h3, h4⟩ | ⟨h3, h4⟩
      · exact hab (h1.symm.trans h3)
      · subst h1; exact T.not_both ha.1 h2 h4
      · subst h3; exact T.not_both hb.1 h4 h2
      · exact hab (h1.trans h3.symm)
  · intro x
    rw [List.mem_flatMap]
    constructor
    · rintro ⟨w, hw, hx⟩
      rw [List.mem_filter, List.mem_range] at hw
      rcases (one w hw.1 (by simpa using hw.2) x).1 hx with ⟨rfl, h⟩ | ⟨rfl, h⟩
      · exact Or.inl ⟨hw.1, h⟩
      · exact Or.inr h
    · rintro (⟨h1, h2⟩ | h)
      · have hxr : x ≠ r := by rintro rfl; rw [T.root] at h2; cases h2
        exact ⟨x, List.mem_filter.2 ⟨List.mem_range.2 h1, by simpa using hxr⟩, (one x h1 hxr x).2 (Or.inl ⟨rfl, h2⟩)⟩
      · have hvr : v ≠ r := by rintro rfl; rw [T.root] at h; cases h
        exact ⟨v, List.mem_filter.2 ⟨List.mem_range.2 hv, by simpa using hvr⟩, (one v hv hvr x).2 (Or.inr ⟨rfl, h⟩)⟩

/-- The object after `build`. -/
structure Built (n r : Nat) (P : Nat → Option Nat) (o : Obj) : Prop where
  n_eq : o.n = n
  r_eq : o.r = r
  good : ∀ w, w < n → Good n P o.sz w
  head : rdI o.hs.head r = some r
  depth : rdI o.hs.depth r = some 0
  clen : o.hs.clen.length = n
  done : Done n P o.sz.edge o.hs r 0

theorem build_ok (T : Tree n r P) {E : List (Nat × Nat)} (hE : EdgesOf n r P E) : ∃ o, build n E r = some o ∧ Built n r P o := by
  unfold build
  have hEdge : ∀ e ∈ E, e.1 < (List.replicate n ([] : List Nat)).length ∧ e.2 < (List.replicate n ([] : List Nat)).length ∧ e.1 ≠ e.2 := by
    intro e he
    obtain ⟨dir, hperm⟩ := hE
    have := hperm.mem_iff.1 he
    obtain ⟨w, hw, rfl⟩ := List.mem_map.1 this
    rw [List.mem_filter, List.mem_range] at hw
    obtain ⟨p, hp, e⟩ := T.par w hw.1 (by simpa using hw.2)
    have hpw : p ≠ w := T.par_ne hw.1 e
    rw [e, List.length_replicate, Option.getD_some]
    cases dir w
    · exact ⟨hp, hw.1, hpw⟩
    · exact ⟨hw.1, hp, hpw.symm⟩
  obtain ⟨edge, e1, l1, h1⟩ := addEdges_ok E (List.replicate n []) hEdge
  rw [e1, Option.bind_some]
  rw [List.length_replicate] at l1
  have hraw : ∀ w, w < n → Anc P r w → Raw n P ⟨edge, List.replicate n 0, List.replicate n none⟩ w := by
    intro w hw _
    have hr : (List.replicate n ([] : List Nat))[w]? = some [] := by simp [hw]
    have := h1 w [] hr
    rw [List.nil_append] at this
    exact ⟨_, this, adj_flatMap T hE hw⟩
  obtain ⟨s, e2, L2, _, good⟩ := dfsSz_ok T (n+1) r ⟨edge, List.replicate n 0, List.replicate n none⟩ T.root_lt (by have := sz_le (n := n) (P := P) (v := r); omega) ⟨l1, List.length_replicate, List.length_replicate⟩ hraw
  rw [T.root] at e2
  rw [e2, Option.bind_some]
  unfold buildHld
  obtain ⟨head, e3, l3, h3, _⟩ := wr_ok (l := List.replicate n (none : Option Nat)) (i := r) (by rw [List.length_replicate]; exact T.root_lt) (some r)
  obtain ⟨depth, e4, l4, h4, _⟩ := wr_ok (l := List.replicate n (none : Option Nat)) (i := r) (by rw [List.length_replicate]; exact T.root_lt) (some 0)
  rw [e3, Option.bind_some, e4, Option.bind_some]
  rw [List.length_replicate] at l3 l4
  have hEO : EdgeOk n P s.edge := by
    intro w hw
    obtain ⟨ev, a, b, c, _⟩ := (good w hw (T.root_anc hw)).edge
    exact ⟨ev, a, b, c⟩
  obtain ⟨h, e5, L5, _, _, hd, dp, _, D⟩ := dfsHld_ok T hEO (n+1) r ⟨List.replicate n none, List.replicate n none, head, List.replicate n none, depth, List.replicate n 0, 0⟩ r 0 T.root_lt
    (by have := sz_le (n := n) (P := P) (v := r); omega) ⟨List.length_replicate, List.length_replicate, l3, List.length_replicate, l4, List.length_replicate⟩ (by have := sz_le (n := n) (P := P) (v := r); simpa using this) (rdI_of h3) (rdI_of h4)
  rw [T.root] at e5
  rw [e5]
  refine ⟨_, rfl, ⟨rfl, rfl, fun w hw => good w hw (T.root_anc hw), ?_, ?_, L5.clen, D⟩⟩
  · show rdI h.head r = _
    rw [rdI_congr hd]; exact rdI_of h3
  · show rdI h.depth r = _
    rw [rdI_congr dp]; exact rdI_of h4

end Verif.Hld
