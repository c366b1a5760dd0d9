import Verif.LinkCut.Forest
/-!
`expose`: afterwards the path from the root of the forest to the node is one splay tree.
-/
namespace Verif.LinkCut
open Verif Verif.LazySegTree Verif.Splay BT

variable {M A : Type} [Monoid M] {S : Acts M A} {n : Nat} {h : Heap M A} {g : Nat → Node M A} {F F' : Forest M A} {P : Nat → Option Nat} {dep : Nat → Nat} {val : Nat → M}

theorem split_seq {l r : List (Nat × M)} {q : Nat} {m : M} {s : List Nat} (e : l ++ (q, m) :: r = s.map (fun a => (a, val a))) :
    ∃ s1 s2, s = s1 ++ q :: s2 ∧ l = s1.map (fun a => (a, val a)) ∧ m = val q ∧ r = s2.map (fun a => (a, val a)) := by
  obtain ⟨s1, s2, e1, e2, e3⟩ := List.map_eq_append_iff.1 e.symm
  obtain ⟨a, s3, e4, e5, e6⟩ := List.map_eq_cons_iff.1 e3
  have := Prod.ext_iff.1 e5
  dsimp only at this
  obtain ⟨rfl, k⟩ := this
  exact ⟨s1, s3, by rw [e1, e4], e2.symm, k.symm, e6.symm⟩

/-- The right subtree of the root of the first tree is exchanged for the second tree. -/
theorem G0.attach (L : Laws S) {l r tr : BT M A} {q : Nat} {d : Dat M A} {pp pt : Option Nat} (I : G0 S n h g ((node l q d r, pp) :: (tr, pt) :: F) P dep val) (hv : VAll S ((node l q d r, pp) :: (tr, pt) :: F)) (hc : Clean S d)
    {h2 : Heap M A} {g2 : Nat → Node M A} (hr : Rep h2 n g2) (hq : g2 q = { g q with r := root tr }) (ht : Rp g2 (some q) tr) (ho : ∀ j, j ≠ q → j ∉ nodes tr → g2 j = g j)
    {P' : Nat → Option Nat} {dep' : Nat → Nat} (hd : ∀ a b, P' a = some b → dep' b < dep' a) (hP : ∀ a, a ∉ nodes tr → P' a = P a)
    (hT : ∀ s, seq S tr = s.map (fun a => (a, val a)) → Path P' (some q) s) :
    ∃ h' g' d', aggregate true q h2 = some h' ∧ G0 S n h' g' ((node l q d' tr, pp) :: (r, some q) :: F) P' dep' val ∧ VAll S ((node l q d' tr, pp) :: (r, some q) :: F) ∧ Clean S d' ∧
      (alln ((node l q d' tr, pp) :: (r, some q) :: F)).Perm (alln ((node l q d r, pp) :: (tr, pt) :: F)) ∧ ∀ j, j ∉ alln ((node l q d r, pp) :: (tr, pt) :: F) → g' j = g j := by
  have hp : ∀ e : Dat M A, (alln ((node l q e tr, pp) :: (r, some q) :: F)).Perm (alln ((node l q d r, pp) :: (tr, pt) :: F)) := by
    intro e
    simp only [alln_cons, nodes, List.cons_append, List.append_assoc]
    refine List.Perm.cons _ (List.Perm.append_left _ ?_)
    rw [← List.append_assoc, ← List.append_assoc]
    exact List.Perm.append_right _ List.perm_append_comm
  have nd := I.nd
  simp only [alln_cons, nodes, List.cons_append] at nd
  have hnl : q ∉ nodes l ∧ q ∉ nodes r ∧ q ∉ nodes tr ∧ q ∉ alln F := by
    have := (List.nodup_cons.1 nd).1
    simp only [List.mem_append] at this
    tauto
  have nd2 := List.nodup_append.1 (List.nodup_cons.1 nd).2
  have nd3 := List.nodup_append.1 nd2.1
  have nd4 := List.nodup_append.1 nd2.2.1
  have dl : ∀ j ∈ nodes l, j ∉ nodes tr := fun j hj hj' => nd2.2.2 j (by simp [hj]) j (by simp [hj']) rfl
  have dr : ∀ j ∈ nodes r, j ∉ nodes tr := fun j hj hj' => nd2.2.2 j (by simp [hj]) j (by simp [hj']) rfl
  have dF : ∀ j ∈ alln F, j ∉ nodes tr := fun j hj hj' => nd4.2.2 j hj' j hj rfl
  obtain ⟨r1, r2, r3⟩ := I.rp (node l q d r, pp) (by simp)
  obtain ⟨s, es, ps⟩ := I.path (node l q d r, pp) (by simp)
  rw [seq_clean L hc] at es
  obtain ⟨s1, s2, rfl, el, em, er⟩ := split_seq es
  obtain ⟨st, et, _⟩ := I.path (tr, pt) (by simp)
  dsimp only at et ps r1 r2 r3
  have mem1 : ∀ a ∈ s1, a ∈ nodes l := fun a ha => (seq_fst el).mem_iff.1 ha
  have mem2 : ∀ a ∈ s2, a ∈ nodes r := fun a ha => (seq_fst er).mem_iff.1 ha
  rw [Path.append_iff] at ps
  have I2 : G0 S n h2 g2 ((node l q d tr, pp) :: (r, some q) :: F) P' dep' val := by
    refine ⟨hr, (hp d).nodup_iff.2 I.nd, fun i hi => I.lt i ((hp d).mem_iff.1 hi), ?_, ?_, ?_, hd⟩
    · intro x hx
      rw [List.mem_cons, List.mem_cons] at hx
      rcases hx with rfl | rfl | hx
      · exact ⟨by rw [hq, r1], Rp_congr r2 fun j hj => ho j (fun e => hnl.1 (e ▸ hj)) (dl j hj), ht⟩
      · exact Rp_congr r3 fun j hj => ho j (fun e => hnl.2.1 (e ▸ hj)) (dr j hj)
      · refine Rp_congr (I.rp x (by simp [hx])) fun j hj => ?_
        have hj' : j ∈ alln F := mem_alln.2 ⟨x, hx, hj⟩
        exact ho j (fun e => hnl.2.2.2 (e ▸ hj')) (dF j hj')
    · intro x hx
      rw [List.mem_cons, List.mem_cons] at hx
      rcases hx with rfl | rfl | hx
      · refine ⟨s1 ++ q :: st, ?_, Path.append_iff.2 ⟨ps.1.congr ?_, hT st et⟩⟩
        · rw [seq_clean L hc, el, em, et, List.map_append, List.map_cons]
        · intro a ha
          rw [List.mem_append, List.mem_singleton] at ha
          rcases ha with ha | rfl
          · exact hP a (dl a (mem1 a ha))
          · exact hP a hnl.2.2.1
      · exact ⟨s2, er, ps.2.congr fun a ha => hP a (dr a (mem2 a ha))⟩
      · obtain ⟨s, e, p⟩ := I.path x (by simp [hx])
        exact ⟨s, e, p.congr fun a ha => hP a (dF a (mem_alln.2 ⟨x, hx, (seq_fst e).mem_iff.1 ha⟩))⟩
    · intro x hx hn q' hq'
      rw [List.mem_cons, List.mem_cons] at hx
      refine (hp d).mem_iff.2 ?_
      rcases hx with rfl | rfl | hx
      · exact I.par (node l q d r, pp) (by simp) (by simp) q' hq'
      · cases hq'
        simp [alln_cons, nodes]
      · exact I.par x (by simp [hx]) hn q' hq'
  obtain ⟨h', g', e', s'⟩ := aggregate_st (lct := true) (c := []) (I2.toH (by simp)) rfl
  obtain ⟨I3, _, f3⟩ := I2.step (by simp) s' (seq_agg _)
  refine ⟨h', g', aggD true l d tr, e', I3, ?_, clean_agg hc, hp _, fun j hj => ?_⟩
  · intro x hx
    rw [List.mem_cons, List.mem_cons] at hx
    have v1 := hv (node l q d r, pp) (by simp)
    rcases hx with rfl | rfl | hx
    · exact valid_agg L hc v1.1 (hv (tr, pt) (by simp))
    · exact v1.2.1
    · exact hv x (by simp [hx])
  · rw [f3 j (fun k => hj ((hp d).mem_iff.1 k))]
    simp only [alln_cons, nodes, List.cons_append, List.mem_cons, List.mem_append, not_or] at hj
    exact ho j hj.1 hj.2.2.1

theorem perm_pick {q : Nat} (hq : q ∈ alln F) : ∃ y F1, q ∈ nodes y.1 ∧ F.Perm (y :: F1) := by
  obtain ⟨y, hy, hqy⟩ := mem_alln.1 hq
  obtain ⟨a, b, rfl⟩ := List.append_of_mem hy
  exact ⟨y, a ++ b, hqy, List.perm_middle⟩

/-- The number of nodes not deeper than `q`. -/
def rk (n : Nat) (dep : Nat → Nat) (q : Nat) : Nat := ((List.range n).filter (fun a => decide (dep a ≤ dep q))).length

theorem rk_lt {q p : Nat} (hp : p < n) (hd : dep q < dep p) : rk n dep q < rk n dep p := by
  unfold rk
  have e : (List.range n).filter (fun a => decide (dep a ≤ dep q)) = ((List.range n).filter (fun a => decide (dep a ≤ dep p))).filter (fun a => decide (dep a ≤ dep q)) := by
    rw [List.filter_filter]
    refine List.filter_congr fun a _ => ?_
    by_cases h1 : dep a ≤ dep q
    · have : dep a ≤ dep p := by omega
      simp [h1, this]
    · simp [h1]
  rw [e]
  refine lt_of_le_of_ne (List.length_filter_le _ _) fun hl => ?_
  have := List.length_filter_eq_length_iff.1 hl p (List.mem_filter.2 ⟨List.mem_range.2 hp, by simp⟩)
  simp only [decide_eq_true_eq] at this
  omega

theorem rk_le (q : Nat) : rk n dep q ≤ n := by
  unfold rk
  exact (List.length_filter_le _ _).trans (by rw [List.length_range])

theorem exposeLoop_ok (L : Laws S) {x fuel : Nat} (hf : n ≤ fuel) : ∀ (k : Nat) {p : Option Nat} {tr : BT M A} {F : Forest M A} {h : Heap M A} {g : Nat → Node M A}, G0 S n h g ((tr, p) :: F) P dep val → VAll S ((tr, p) :: F) →
    (tr = nil → p = some x) → (∀ q, p = some q → q ∈ alln ((tr, p) :: F) ∧ rk n dep q ≤ k) → (tr ≠ nil → ∃ w, seq S tr = w ++ [(x, val x)]) →
    ∃ h' g' t F', exposeLoop S fuel k p (root tr) h = some h' ∧ G0 S n h' g' ((t, none) :: F') P dep val ∧ VAll S ((t, none) :: F') ∧ (∃ w, seq S t = w ++ [(x, val x)]) ∧
      (alln ((t, none) :: F')).Perm (alln ((tr, p) :: F)) ∧ ∀ j, j ∉ alln ((tr, p) :: F) → g' j = g j := by
  intro k
  induction k with
  | zero =>
    intro p tr F h g I hv h1 h2 h3
    cases p with
    | none =>
      have hn : tr ≠ nil := fun e => by cases h1 e
      exact ⟨h, g, tr, F, rfl, I, hv, h3 hn, List.Perm.refl _, fun _ _ => rfl⟩
    | some q =>
      obtain ⟨a, b⟩ := h2 q rfl
      exfalso
      have hq := I.lt q a
      have : 0 < rk n dep q := by
        unfold rk
        exact List.length_pos_of_mem (List.mem_filter.2 ⟨List.mem_range.2 hq, by simp⟩)
      omega
  | succ k ih =>
    intro p tr F h g I hv h1 h2 h3
    cases p with
    | none =>
      have hn : tr ≠ nil := fun e => by cases h1 e
      exact ⟨h, g, tr, F, rfl, I, hv, h3 hn, List.Perm.refl _, fun _ _ => rfl⟩
    | some q =>
      obtain ⟨a, b⟩ := h2 q rfl
      have hqn := I.lt q a
      have hqF : q ∈ alln F := by
        by_cases hn : tr = nil
        · rw [hn, alln_cons] at a; exact a
        · exact (I.up hn rfl).2
      obtain ⟨⟨t, pp⟩, F1, hqt, hpF⟩ := perm_pick hqF
      dsimp only at hqt
      have hp1 : ((tr, some q) :: F).Perm ((t, pp) :: (tr, some q) :: F1) := (hpF.cons _).trans (List.Perm.swap ..)
      have I1 := I.perm hp1
      have v1 := hv.perm hp1
      obtain ⟨ha, ga, l, d, r, ea, Ia, va, ca, qa, pa, fa⟩ := I1.splay L (v1 (t, pp) (by simp)) hqt hf
      obtain ⟨hb, eb, rb⟩ := modN_ok Ia.rep hqn (fun x => { x with r := root tr })
      have va' : VAll S ((node l q d r, pp) :: (tr, some q) :: F1) := by
        intro y hy
        rcases List.mem_cons.1 hy with rfl | hy
        · exact va
        · exact v1 y (by simp only [List.mem_cons]; exact Or.inr (List.mem_cons.1 hy))
      have hqtr : q ∉ nodes tr := by
        intro hm
        exact Ia.disj (x := (node l q d r, pp)) (j := q) (by simp [nodes]) (by rw [alln_cons]; simp [hm])
      obtain ⟨hc', gc, dc, ec, Ic, vc, cc, pc, fc⟩ := Ia.attach L va' ca rb (upd_same ..) (Rp_congr (Ia.rp (tr, some q) (by simp)) fun j hj => upd_ne _ _ (fun e => hqtr (e ▸ hj)))
        (fun j hj _ => upd_ne _ _ hj) Ia.dep (fun _ _ => rfl) (fun s es => by
          obtain ⟨s', e', p'⟩ := Ia.path (tr, some q) (by simp)
          have : s = s' := by
            have := es.symm.trans e'
            have := congrArg (List.map Prod.fst) this
            simpa [List.map_map, Function.comp_def] using this
          rw [this]; exact p')
      have hpall : (alln ((node l q dc tr, pp) :: (r, some q) :: F1)).Perm (alln ((tr, some q) :: F)) := by
        refine pc.trans (List.Perm.trans ?_ (alln_perm hp1.symm))
        rw [alln_cons, alln_cons]
        exact pa.append_right _
      have hseq := seq_clean L cc l q tr
      obtain ⟨s, es, ps⟩ := Ic.path (node l q dc tr, pp) (by simp)
      dsimp only at es ps
      rw [hseq] at es
      obtain ⟨s1, s2, rfl, el, em, er⟩ := split_seq es
      obtain ⟨h', g', t', F', e', I', v', w', p', f'⟩ := ih (p := pp) (tr := node l q dc tr) (F := (r, some q) :: F1) Ic vc (fun e => by cases e) (fun q' hq' => by
          subst hq'
          refine ⟨Ic.par (node l q dc tr, some q') (by simp) (by simp) q' rfl, ?_⟩
          have : dep q' < dep q := ps.dep Ic.dep q (by simp)
          have := rk_lt hqn this
          omega) (fun _ => by
          rw [hseq]
          by_cases hn : tr = nil
          · have : q = x := by simpa using h1 hn
            subst this
            exact ⟨seq S l, by rw [hn, em]; rfl⟩
          · obtain ⟨w, ew⟩ := h3 hn
            exact ⟨seq S l ++ (q, dc.m) :: w, by rw [ew]; simp⟩)
      refine ⟨h', g', t', F', ?_, I', v', w', p'.trans hpall, fun j hj => ?_⟩
      · rw [exposeLoop, ea, Option.bind_some, eb, Option.bind_some, ec, Option.bind_some, Ic.rep.val q hqn, Option.bind_some, (Ic.rp (node l q dc tr, pp) (by simp)).1]
        exact e'
      · have hj' := (alln_perm hp1).mem_iff.not.1 hj
        rw [f' j (fun k => hj (hpall.mem_iff.1 k)), fc j (fun k => hj' ?_), fa j hj']
        rw [alln_cons, List.mem_append] at k ⊢
        rcases k with k | k
        · exact Or.inl (pa.mem_iff.1 k)
        · exact Or.inr k

/-- `expose(x)` -/
theorem expose_ok (L : Laws S) {x fuel : Nat} (hf : n ≤ fuel) (I : G0 S n h g F P dep val) (hv : VAll S F) (hx : x ∈ alln F) :
    ∃ h' g' l d F', expose S fuel x h = some h' ∧ G0 S n h' g' ((node l x d nil, none) :: F') P dep val ∧ VAll S ((node l x d nil, none) :: F') ∧ Clean S d ∧
      (alln ((node l x d nil, none) :: F')).Perm (alln F) ∧ ∀ j, j ∉ alln F → g' j = g j := by
  have I0 : G0 S n h g (((nil : BT M A), some x) :: F) P dep val := by
    refine ⟨I.rep, I.nd, I.lt, ?_, ?_, ?_, I.dep⟩
    · intro y hy
      rcases List.mem_cons.1 hy with rfl | hy
      · trivial
      · exact I.rp y hy
    · intro y hy
      rcases List.mem_cons.1 hy with rfl | hy
      · exact ⟨[], rfl, trivial⟩
      · exact I.path y hy
    · intro y hy hn q hq
      rcases List.mem_cons.1 hy with rfl | hy
      · exact absurd rfl hn
      · exact I.par y hy hn q hq
  have v0 : VAll S (((nil : BT M A), some x) :: F) := by
    intro y hy
    rcases List.mem_cons.1 hy with rfl | hy
    · trivial
    · exact hv y hy
  obtain ⟨h1, g1, t, F1, e1, I1, v1, ⟨w, ew⟩, p1, f1⟩ := exposeLoop_ok L hf fuel I0 v0 (fun _ => rfl) (fun q hq => by
    cases hq
    exact ⟨hx, (rk_le x).trans hf⟩) (fun hn => absurd rfl hn)
  have hxt : x ∈ nodes t := by
    have := (seq_nodes (S := S) t).mem_iff (a := x)
    rw [← this, ew]; simp
  obtain ⟨h2, g2, l, d, r, e2, I2, v2, c2, q2, p2, f2⟩ := I1.splay L (v1 (t, none) (by simp)) hxt hf
  have hr : r = nil := by
    have hs := seq_clean L c2 l x r
    rw [q2, ew] at hs
    have nd : ((seq S (node l x d r)).map Prod.fst).Nodup := by
      refine ((seq_nodes (S := S) (node l x d r)).nodup_iff).2 ?_
      exact (I2.toH (x := (node l x d r, none)) (by simp)).nd
    have hrs : seq S r = [] := by
      by_contra hne
      obtain ⟨b, y, hby⟩ : ∃ b y, seq S r = b ++ [y] := ⟨_, _, (List.dropLast_append_getLast hne).symm⟩
      rw [hby] at hs
      have e : w ++ [(x, val x)] = (seq S l ++ (x, d.m) :: b) ++ [y] := by rw [hs]; simp
      have hy : y = (x, val x) := ((List.append_inj' e rfl).2 |> fun h => by simpa using h.symm)
      rw [seq_clean L c2, hby, hy] at nd
      simp only [List.map_append, List.map_cons, List.map_nil] at nd
      have := (List.nodup_append.1 nd).2.1
      rw [List.nodup_cons] at this
      exact this.1 (by simp)
    cases r with
    | nil => rfl
    | node a b c e =>
      have := (seq_nodes (S := S) (node a b c e)).length_eq
      rw [hrs] at this
      simp [nodes] at this
  subst hr
  have hpa : (alln ((node l x d nil, none) :: F1)).Perm (alln ((t, none) :: F1)) := by rw [alln_cons, alln_cons]; exact p2.append_right _
  refine ⟨h2, g2, l, d, F1, ?_, I2, ?_, c2, hpa.trans p1, fun j hj => ?_⟩
  · unfold expose
    have : root (nil : BT M A) = none := rfl
    rw [this] at e1
    rw [e1, Option.bind_some, e2]
  · intro y hy
    rcases List.mem_cons.1 hy with rfl | hy
    · exact v2
    · exact v1 y (by simp [hy])
  · rw [f2 j (fun k => hj (p1.mem_iff.1 k)), f1 j hj]

end Verif.LinkCut
