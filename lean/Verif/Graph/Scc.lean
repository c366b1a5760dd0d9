import Verif.Graph.Basic
import Mathlib.Data.List.Perm.Subperm
/-!
# C59: strongly connected components (scc.hpp)
-/
namespace Verif.Graph

/-- `v` can be reached from `u`. -/
def Reach (E : List (Nat × Nat)) (u v : Nat) : Prop := ∃ k, Walk E u v k

theorem Reach.refl (E : List (Nat × Nat)) (u : Nat) : Reach E u u := ⟨0, Walk.nil u⟩

theorem Reach.trans {E : List (Nat × Nat)} {u v w : Nat} : Reach E u v → Reach E v w → Reach E u w := fun ⟨_, h1⟩ ⟨_, h2⟩ => ⟨_, h1.trans h2⟩

theorem Reach.edge {E : List (Nat × Nat)} {u v : Nat} (h : (u, v) ∈ E) : Reach E u v := ⟨1, Walk.single h⟩

theorem Reach.induct {E : List (Nat × Nat)} {u : Nat} {P : Nat → Prop} (h0 : P u) (hs : ∀ v w, Reach E u v → P v → (v, w) ∈ E → P w) {v : Nat}
    (h : Reach E u v) : P v := by
  obtain ⟨k, h⟩ := h
  induction h with
  | nil => exact h0
  | snoc hw he ih => exact hs _ _ ⟨_, hw⟩ ih he

theorem Reach.lt {n : Nat} {E : List (Nat × Nat)} (hE : InRange n E) {u v : Nat} (hu : u < n) (h : Reach E u v) : v < n := by
  obtain ⟨k, h⟩ := h
  exact h.lt hE hu

/-- The reversed edges. -/
def rev (E : List (Nat × Nat)) : List (Nat × Nat) := E.map Prod.swap

theorem mem_rev {E : List (Nat × Nat)} {u v : Nat} : (u, v) ∈ rev E ↔ (v, u) ∈ E := by
  unfold rev
  rw [List.mem_map]
  constructor
  · rintro ⟨⟨a, b⟩, h, he⟩
    cases he
    exact h
  · intro h
    exact ⟨(v, u), h, rfl⟩

theorem reach_rev {E : List (Nat × Nat)} {u v : Nat} : Reach (rev E) u v ↔ Reach E v u := by
  constructor
  · intro h
    refine Reach.induct (P := fun x => Reach E x u) (Reach.refl E u) ?_ h
    intro x w _ hx he
    exact (Reach.edge (mem_rev.1 he)).trans hx
  · intro h
    refine Reach.induct (P := fun x => Reach (rev E) x v) (Reach.refl _ v) ?_ h
    intro x w _ hx he
    exact (Reach.edge (mem_rev.2 he)).trans hx

theorem rev_inRange {n : Nat} {E : List (Nat × Nat)} (hE : InRange n E) : InRange n (rev E) := by
  rintro ⟨a, b⟩ h
  have := hE _ (mem_rev.1 h)
  exact ⟨this.2, this.1⟩

/-! ### The depth first search -/

/-- `o`: finished vertices in order, `gr`: vertices whose call is active. -/
structure SInv (n : Nat) (F : List (Nat × Nat)) (o gr : List Nat) (L : List Bool) : Prop where
  rep : Rep L n (fun v => decide (v ∈ o ∨ v ∈ gr))
  nodup : (gr ++ o).Nodup
  lt : ∀ v ∈ gr ++ o, v < n
  closed : ∀ v ∈ o, ∀ w, (v, w) ∈ F → w ∈ o ∨ w ∈ gr
  fin : ∀ l1 v l2, o = l1 ++ v :: l2 → ∀ w, Reach F v w → w ∈ l1 ∨ w = v ∨ ∃ x, (x ∈ l2 ∨ x ∈ gr) ∧ Reach F x v ∧ Reach F v x

def PostOk (n : Nat) (F : List (Nat × Nat)) (rec : Nat → List Bool × List Nat → Option (List Bool × List Nat)) (f : Nat) : Prop :=
  ∀ (s : Nat) (o gr : List Nat) (L : List Bool) (out : List Nat), SInv n F o gr L → s < n → (∀ x ∈ gr, Reach F x s) → n < gr.length + o.length + f →
    ∃ (L' : List Bool) (new : List Nat), rec s (L, out) = some (L', out ++ new) ∧ SInv n F (o ++ new) gr L' ∧ (s ∈ o ++ new ∨ s ∈ gr) ∧
      ∀ v ∈ new, Reach F s v

theorem forEach_ok {n : Nat} {F : List (Nat × Nat)} (hF : InRange n F) {rec : Nat → List Bool × List Nat → Option (List Bool × List Nat)} {f : Nat}
    (hrec : PostOk n F rec f) {s : Nat} {gr : List Nat} (hgr : ∀ x ∈ gr, Reach F x s) :
    ∀ (ts o : List Nat) (L : List Bool) (out : List Nat), (∀ t ∈ ts, (s, t) ∈ F) → SInv n F o gr L → n < gr.length + o.length + f →
    ∃ (L' : List Bool) (new : List Nat), forEach rec ts (L, out) = some (L', out ++ new) ∧ SInv n F (o ++ new) gr L' ∧
      (∀ t ∈ ts, t ∈ o ++ new ∨ t ∈ gr) ∧ ∀ v ∈ new, Reach F s v := by
  intro ts
  induction ts with
  | nil =>
    intro o L out _ hI _
    exact ⟨L, [], by rw [List.append_nil]; rfl, by rwa [List.append_nil], by simp, by simp⟩
  | cons t ts ih =>
    intro o L out hts hI hf
    have he := hts t List.mem_cons_self
    obtain ⟨L1, new1, e1, i1, m1, r1⟩ := hrec t o gr L out hI (hF _ he).2 (fun x hx => (hgr x hx).trans (Reach.edge he)) hf
    obtain ⟨L2, new2, e2, i2, m2, r2⟩ := ih (o ++ new1) L1 (out ++ new1) (fun x hx => hts x (List.mem_cons_of_mem t hx)) i1
      (by rw [List.length_append]; omega)
    refine ⟨L2, new1 ++ new2, ?_, by rwa [← List.append_assoc], ?_, ?_⟩
    · rw [forEach, e1, Option.bind_some, e2, List.append_assoc]
    · intro x hx
      rw [List.mem_cons] at hx
      rw [← List.append_assoc]
      rcases hx with rfl | hx
      · rcases m1 with h | h
        · exact Or.inl (List.mem_append_left _ h)
        · exact Or.inr h
      · exact m2 x hx
    · intro v hv
      rw [List.mem_append] at hv
      rcases hv with hv | hv
      · exact (Reach.edge he).trans (r1 v hv)
      · exact r2 v hv

theorem nodup_length_le' {n : Nat} {l : List Nat} (hn : l.Nodup) (hl : ∀ x ∈ l, x < n) : l.length ≤ n := by
  have := (List.subperm_of_subset hn (fun x hx => List.mem_range.2 (hl x hx))).length_le
  rwa [List.length_range] at this

/-- Entering `s`. -/
theorem SInv.enter {n : Nat} {F : List (Nat × Nat)} {o gr : List Nat} {L L1 : List Bool} (h : SInv n F o gr L) {s : Nat} (hs : s < n)
    (hno : ¬ (s ∈ o ∨ s ∈ gr)) (h1 : Rep L1 n (upd (fun v => decide (v ∈ o ∨ v ∈ gr)) s true)) : SInv n F o (s :: gr) L1 := by
  refine ⟨h1.congr ?_, ?_, ?_, ?_, ?_⟩
  · intro v _
    by_cases hv : v = s
    · subst hv; rw [upd_same]; simp
    · rw [upd_ne _ _ hv]; simp [hv]
  · rw [List.cons_append, List.nodup_cons, List.mem_append]
    exact ⟨fun hc => hno (hc.symm), h.nodup⟩
  · intro v hv
    rw [List.cons_append, List.mem_cons] at hv
    rcases hv with rfl | hv
    · exact hs
    · exact h.lt v hv
  · intro v hv w hw
    rcases h.closed v hv w hw with h | h
    · exact Or.inl h
    · exact Or.inr (List.mem_cons_of_mem s h)
  · intro l1 v l2 hl w hw
    rcases h.fin l1 v l2 hl w hw with h | h | ⟨x, hx, h1, h2⟩
    · exact Or.inl h
    · exact Or.inr (Or.inl h)
    · exact Or.inr (Or.inr ⟨x, hx.imp id (List.mem_cons_of_mem s), h1, h2⟩)

/-- Leaving `s`, when all its successors have been visited. -/
theorem SInv.leave {n : Nat} {F : List (Nat × Nat)} {o gr : List Nat} {L : List Bool} {s : Nat} (h : SInv n F o (s :: gr) L)
    (hgr : ∀ x ∈ gr, Reach F x s) (hall : ∀ t, (s, t) ∈ F → t ∈ o ∨ t ∈ s :: gr) : SInv n F (o ++ [s]) gr L := by
  refine ⟨h.rep.congr ?_, ?_, ?_, ?_, ?_⟩
  · intro v _
    rw [decide_eq_decide, List.mem_cons, List.mem_append, List.mem_singleton, or_assoc]
  · have : (gr ++ (o ++ [s])).Perm ((s :: gr) ++ o) := by
      rw [← List.append_assoc]
      exact (List.perm_append_singleton s (gr ++ o))
    exact this.nodup_iff.2 h.nodup
  · intro v hv
    refine h.lt v ?_
    simp only [List.mem_append, List.mem_cons, List.not_mem_nil, or_false] at hv ⊢
    tauto
  · intro v hv w hw
    have key : w ∈ o ∨ w ∈ s :: gr := by
      rw [List.mem_append, List.mem_singleton] at hv
      rcases hv with hv | rfl
      · exact h.closed v hv w hw
      · exact hall w hw
    simp only [List.mem_append, List.mem_cons, List.not_mem_nil, or_false] at key ⊢
    tauto
  · intro l1 v l2 hl w hw
    rcases List.eq_nil_or_concat l2 with rfl | ⟨l3, y, rfl⟩
    · obtain ⟨h1, h2⟩ := List.append_inj' hl (by simp)
      cases h2
      subst h1
      by_cases hx : ∃ x ∈ gr, Reach F s x
      · obtain ⟨x, hx, hsx⟩ := hx
        exact Or.inr (Or.inr ⟨x, Or.inr hx, hgr x hx, hsx⟩)
      · have : w ∈ o ∨ w = s := by
          refine Reach.induct (P := fun w => w ∈ o ∨ w = s) (Or.inr rfl) ?_ hw
          intro a b ha hp hab
          have hb : b ∈ o ∨ b ∈ s :: gr := by
            rcases hp with hp | rfl
            · exact h.closed a hp b hab
            · exact hall b hab
          rw [List.mem_cons] at hb
          rcases hb with hb | hb | hb
          · exact Or.inl hb
          · exact Or.inr hb
          · exact absurd ⟨b, hb, ha.trans (Reach.edge hab)⟩ hx
        rcases this with h | h
        · exact Or.inl h
        · exact Or.inr (Or.inl h)
    · have hl' : o ++ [s] = (l1 ++ v :: l3) ++ [y] := by rw [hl]; simp
      obtain ⟨h1, h2⟩ := List.append_inj' hl' (by simp)
      cases h2
      rcases h.fin l1 v l3 h1 w hw with h | h | ⟨x, hx, h1, h2⟩
      · exact Or.inl h
      · exact Or.inr (Or.inl h)
      · refine Or.inr (Or.inr ⟨x, ?_, h1, h2⟩)
        simp only [List.concat_eq_append, List.mem_append, List.mem_cons, List.not_mem_nil, or_false] at hx ⊢
        tauto

theorem postDfs_ok {n : Nat} {F : List (Nat × Nat)} (hF : InRange n F) {g : List (List Nat)} (hg : Rep g n (outs F)) :
    ∀ f, PostOk n F (postDfs g f) f := by
  intro f
  induction f with
  | zero =>
    intro s o gr L out hI _ _ hf
    have := nodup_length_le' hI.nodup hI.lt
    rw [List.length_append] at this
    omega
  | succ f ih =>
    intro s o gr L out hI hs hgr hf
    rw [postDfs]
    dsimp only
    rw [hI.rep.val s hs, Option.bind_some]
    by_cases hv : s ∈ o ∨ s ∈ gr
    · rw [if_pos (by simpa using hv)]
      exact ⟨L, [], by rw [List.append_nil], by rwa [List.append_nil], by rwa [List.append_nil], by simp⟩
    · rw [if_neg (by simpa using hv)]
      obtain ⟨L1, e1, h1⟩ := hI.rep.wr hs true
      have hI1 := hI.enter hs hv h1
      have hgr1 : ∀ x ∈ s :: gr, Reach F x s := by
        intro x hx
        rw [List.mem_cons] at hx
        rcases hx with rfl | hx
        · exact Reach.refl F x
        · exact hgr x hx
      obtain ⟨L2, new, e2, i2, m2, r2⟩ := forEach_ok hF ih hgr1 (outs F s) o L1 out (fun t ht => mem_outs.1 ht) hI1
        (by rw [List.length_cons]; omega)
      refine ⟨L2, new ++ [s], ?_, ?_, ?_, ?_⟩
      · rw [e1, Option.bind_some, hg.val s hs, Option.bind_some, e2, Option.map_some, List.append_assoc]
      · rw [← List.append_assoc]
        exact i2.leave hgr (fun t ht => m2 t (mem_outs.2 ht))
      · exact Or.inl (by simp)
      · intro v hv
        rw [List.mem_append, List.mem_singleton] at hv
        rcases hv with hv | rfl
        · exact r2 v hv
        · exact Reach.refl F v

/-! ### Building -/

theorem buildScc_ok {n : Nat} {E : List (Nat × Nat)} (hE : InRange n E) :
    ∃ S, buildScc n E = some S ∧ S.n = n ∧ Built n E S.g ∧ Built n (rev E) S.ig := by
  suffices H : ∀ (E2 E1 : List (Nat × Nat)) (S : SccGraph), InRange n E2 → S.n = n → Built n E1 S.g → Built n (rev E1) S.ig →
      ∃ S', E2.foldlM (fun S e => S.addEdge e.1 e.2) S = some S' ∧ S'.n = n ∧ Built n (E1 ++ E2) S'.g ∧ Built n (rev (E1 ++ E2)) S'.ig from
    H E [] _ hE rfl (new_built n) (new_built n)
  intro E2
  induction E2 with
  | nil => intro E1 S _ h0 h1 h2; exact ⟨S, rfl, h0, by rwa [List.append_nil], by rwa [List.append_nil]⟩
  | cons e E2 ih =>
    intro E1 S hr h0 h1 h2
    obtain ⟨l1, l2⟩ := hr e List.mem_cons_self
    obtain ⟨G1, e1, b1⟩ := addEdgeDir_ok h1 l1 l2
    obtain ⟨G2, e2, b2⟩ := addEdgeDir_ok h2 l2 l1
    obtain ⟨S', e3, h3, h4, h5⟩ := ih (E1 ++ [e]) ⟨S.n, G1, G2⟩ (fun x hx => hr x (List.mem_cons_of_mem e hx)) h0 b1
      (by rw [rev, List.map_append]; exact b2)
    refine ⟨S', ?_, h3, by rwa [List.append_assoc] at h4, by rwa [List.append_assoc] at h5⟩
    rw [List.foldlM_cons, SccGraph.addEdge, e1, Option.bind_some, e2]; exact e3

/-! ### The claim -/

/-- Strongly connected. -/
def Strong (E : List (Nat × Nat)) (u v : Nat) : Prop := Reach E u v ∧ Reach E v u

/-- The answer: every vertex in exactly one component, no empty component, components are the classes of strong connectivity, and no edge
leads to an earlier component. -/
structure SccSpec (n : Nat) (E : List (Nat × Nat)) (cs : List (List Nat)) : Prop where
  each : cs.flatten.Perm (List.range n)
  nonempty : ∀ c ∈ cs, c ≠ []
  same : ∀ c ∈ cs, ∀ u ∈ c, ∀ v, v < n → (v ∈ c ↔ Strong E u v)
  order : ∀ (i j : Nat) (c d : List Nat), cs[i]? = some c → cs[j]? = some d → ∀ u ∈ c, ∀ v ∈ d, (u, v) ∈ E → i ≤ j

theorem first_phase {n : Nat} {E : List (Nat × Nat)} (hE : InRange n E) {S : SccGraph} (hn : S.n = n) (hG : Built n E S.g) :
    ∃ (L : List Bool) (ord : List Nat), forRange 0 S.n (fun i st => postDfs S.g.g (S.n+1) i st) (List.replicate S.n false, []) = some (L, ord) ∧
      ord.Nodup ∧ (∀ v, v ∈ ord ↔ v < n) ∧
      ∀ l1 v l2, ord = l1 ++ v :: l2 → ∀ w, Reach E v w → w ∈ l1 ∨ w = v ∨ ∃ x ∈ l2, Strong E x v := by
  rw [hn]
  obtain ⟨⟨L, ord⟩, e, hI, hall⟩ := forRange_inv (body := fun i st => postDfs S.g.g (n+1) i st) (s := (List.replicate n false, ([] : List Nat)))
    (fun i st => SInv n E st.2 [] st.1 ∧ ∀ j, j < i → j ∈ st.2) (Nat.zero_le n)
    ⟨⟨(Rep.replicate n false).congr (by simp), by simp, by simp, by simp, by simp⟩, by omega⟩
    (by
      rintro i ⟨L, o⟩ _ hi ⟨hI, hall⟩
      obtain ⟨L', new, e, i', m, _⟩ := postDfs_ok hE hG.adj (n+1) i o [] L o hI hi (by simp) (by simp; omega)
      refine ⟨(L', o ++ new), e, i', ?_⟩
      intro j hj
      by_cases hji : j = i
      · subst hji; simpa using m
      · exact List.mem_append_left _ (hall j (by omega)))
  refine ⟨L, ord, e, by simpa using hI.nodup, ?_, ?_⟩
  · intro v
    exact ⟨fun h => hI.lt v (by simpa using h), hall v⟩
  · intro l1 v l2 hl w hw
    rcases hI.fin l1 v l2 hl w hw with h | h | ⟨x, hx, h1, h2⟩
    · exact Or.inl h
    · exact Or.inr (Or.inl h)
    · exact Or.inr (Or.inr ⟨x, by simpa using hx, h1, h2⟩)

/-- The last finished vertex of a class. -/
theorem exists_last {E : List (Nat × Nat)} : ∀ (ord : List Nat) (v : Nat), v ∈ ord →
    ∃ l1 x l2, ord = l1 ++ x :: l2 ∧ Strong E x v ∧ ∀ y ∈ l2, ¬ Strong E y v := by
  intro ord
  induction ord with
  | nil => intro v hv; simp at hv
  | cons a ord ih =>
    intro v hv
    by_cases hex : ∃ y ∈ ord, Strong E y v
    · obtain ⟨y, hy, hyv⟩ := hex
      obtain ⟨l1, x, l2, h1, h2, h3⟩ := ih y hy
      refine ⟨a :: l1, x, l2, by rw [h1]; rfl, ⟨h2.1.trans hyv.1, hyv.2.trans h2.2⟩, ?_⟩
      intro z hz hzv
      exact h3 z hz ⟨hzv.1.trans hyv.2, hyv.1.trans hzv.2⟩
    · rw [List.mem_cons] at hv
      have hva : v = a := by
        rcases hv with h | h
        · exact h
        · exact absurd ⟨v, h, Reach.refl _ _, Reach.refl _ _⟩ hex
      subst hva
      exact ⟨[], v, ord, rfl, ⟨Reach.refl _ _, Reach.refl _ _⟩, fun y hy hyv => hex ⟨y, hy, hyv⟩⟩

theorem sccLoop_ok {n : Nat} {E : List (Nat × Nat)} (hE : InRange n E) {S : SccGraph} (hG : Built n (rev E) S.ig) {ord : List Nat}
    (hnd : ord.Nodup) (hmem : ∀ v, v ∈ ord ↔ v < n)
    (hfin : ∀ l1 v l2, ord = l1 ++ v :: l2 → ∀ w, Reach E v w → w ∈ l1 ∨ w = v ∨ ∃ x ∈ l2, Strong E x v) :
    ∀ (st dn : List Nat) (L : List Bool) (ret : List (List Nat)), ord = st.reverse ++ dn → SInv n (rev E) ret.flatten [] L →
      (∀ v ∈ dn, v ∈ ret.flatten) → (∀ c ∈ ret, c ≠ []) → (∀ c ∈ ret, ∀ u ∈ c, ∀ v, v < n → (v ∈ c ↔ Strong E u v)) →
      (∀ (i j : Nat) (c d : List Nat), ret[i]? = some c → ret[j]? = some d → ∀ u ∈ c, ∀ v ∈ d, (u, v) ∈ E → i ≤ j) →
      ∃ cs, sccLoop S.ig.g n st L ret = some cs ∧ SccSpec n E cs := by
  intro st
  induction st with
  | nil =>
    intro dn L ret ho hI hdn h1 h2 h3
    refine ⟨ret, rfl, ?_, h1, h2, h3⟩
    have hnd2 : ret.flatten.Nodup := by simpa using hI.nodup
    refine (List.perm_ext_iff_of_nodup hnd2 List.nodup_range).2 (fun v => ?_)
    rw [List.mem_range]
    constructor
    · intro h; exact hI.lt v (by simpa using h)
    · intro h
      refine hdn v ?_
      have := (hmem v).2 h
      rw [ho] at this; simpa using this
  | cons u st ih =>
    intro dn L ret ho hI hdn h1 h2 h3
    have ho' : ord = st.reverse ++ (u :: dn) := by rw [ho]; simp
    have hun : u < n := (hmem u).1 (by rw [ho']; simp)
    rw [sccLoop, hI.rep.val u hun, Option.bind_some]
    by_cases hv : u ∈ ret.flatten
    · rw [if_pos (by simpa using hv)]
      refine ih (u :: dn) L ret ho' hI ?_ h1 h2 h3
      intro v hvv
      rw [List.mem_cons] at hvv
      rcases hvv with rfl | hvv
      · exact hv
      · exact hdn v hvv
    · rw [if_neg (by simpa using hv)]
      obtain ⟨L', new, e, i', m, r⟩ := postDfs_ok (rev_inRange hE) hG.adj (n+1) u ret.flatten [] L [] hI hun (by simp) (by simp; omega)
      rw [e, Option.bind_some, List.nil_append]
      -- the visited set is a union of classes
      have hcl : ∀ x ∈ ret.flatten, ∀ y, Strong E x y → y ∈ ret.flatten := by
        intro x hx y hxy
        rw [List.mem_flatten] at hx ⊢
        obtain ⟨c, hc, hxc⟩ := hx
        refine ⟨c, hc, (h2 c hc x hxc y ?_).2 hxy⟩
        refine Reach.lt hE (hI.lt x ?_) hxy.1
        rw [List.nil_append, List.mem_flatten]
        exact ⟨c, hc, hxc⟩
      have hum : u ∈ ret.flatten ++ new := by simpa using m
      have hunew : u ∈ new := by
        rw [List.mem_append] at hum
        exact hum.resolve_left hv
      have hnd' : (ret.flatten ++ new).Nodup := by simpa using i'.nodup
      have hdisj : ∀ x ∈ new, x ∉ ret.flatten := by
        intro x hx hxr
        exact (List.nodup_append.1 hnd').2.2 x hxr x hx rfl
      -- closed under predecessors
      have hpre : ∀ x ∈ ret.flatten ++ new, ∀ y, Reach E y x → y ∈ ret.flatten ++ new := by
        intro x hx y hyx
        refine Reach.induct (E := rev E) (P := fun y => y ∈ ret.flatten ++ new) hx ?_ (reach_rev.2 hyx)
        intro a b _ ha hab
        simpa using i'.closed a ha b hab
      have hnew : ∀ v, v ∈ new ↔ Strong E u v := by
        intro v
        constructor
        · intro hvn
          have hvu : Reach E v u := reach_rev.1 (r v hvn)
          have hvlt : v < n := i'.lt v (by simp [hvn])
          obtain ⟨l1, x, l2, hl, hxv, hlast⟩ := exists_last (E := E) ord v ((hmem v).2 hvlt)
          have hxr : x ∉ ret.flatten := fun h => hdisj v hvn (hcl x h v hxv)
          have hxu : Reach E x u := hxv.1.trans hvu
          -- u finishes no later than x
          have h4 : u ∈ l1 ∨ u = x := by
            rcases hfin l1 x l2 hl u hxu with h | h | ⟨y, hy, hyx⟩
            · exact Or.inl h
            · exact Or.inr h
            · exact absurd ⟨hyx.1.trans hxv.1, hxv.2.trans hyx.2⟩ (hlast y hy)
          -- x finishes no later than u
          have h5 : x ∉ dn := fun h => hxr (hdn x h)
          have hxu' : u = x := by
            rcases h4 with h4 | h4
            · exfalso
              obtain ⟨a, b, rfl⟩ := List.append_of_mem h4
              have hl2 : st.reverse ++ u :: dn = a ++ u :: (b ++ x :: l2) := by rw [← ho', hl]; simp
              have hnd2 := hnd
              rw [ho'] at hnd2
              have : dn = b ++ x :: l2 := by
                have hu1 : u ∉ st.reverse := fun h => (List.nodup_append.1 hnd2).2.2 u h u List.mem_cons_self rfl
                rw [hl2] at hnd2
                have hu2 : u ∉ a := fun h => (List.nodup_append.1 hnd2).2.2 u h u List.mem_cons_self rfl
                rw [List.append_eq_append_iff] at hl2
                rcases hl2 with ⟨c, hc1, hc2⟩ | ⟨c, hc1, hc2⟩
                · cases c with
                  | nil => simpa using hc2
                  | cons z c =>
                    rw [List.cons_append] at hc2
                    injection hc2 with hz _
                    exact absurd (by rw [hc1, ← hz]; simp) hu2
                · cases c with
                  | nil => simpa using hc2.symm
                  | cons z c =>
                    rw [List.cons_append] at hc2
                    injection hc2 with hz _
                    exact absurd (by rw [hc1, ← hz]; simp) hu1
              rw [this] at h5
              simp at h5
            · exact h4
          subst hxu'
          exact hxv
        · intro huv
          have h4 := hpre u hum v huv.2
          rw [List.mem_append] at h4
          rcases h4 with h4 | h4
          · exact absurd (hcl v h4 u ⟨huv.2, huv.1⟩) hv
          · exact h4
      have hfl : (ret ++ [new]).flatten = ret.flatten ++ new := by simp
      refine ih (u :: dn) L' (ret ++ [new]) ho' (by rw [hfl]; exact i') ?_ ?_ ?_ ?_
      · intro v hvv
        rw [hfl]
        rw [List.mem_cons] at hvv
        rcases hvv with rfl | hvv
        · exact hum
        · exact List.mem_append_left _ (hdn v hvv)
      · intro c hc
        rw [List.mem_append, List.mem_singleton] at hc
        rcases hc with hc | rfl
        · exact h1 c hc
        · exact List.ne_nil_of_mem hunew
      · intro c hc x hx v hvn
        rw [List.mem_append, List.mem_singleton] at hc
        rcases hc with hc | rfl
        · exact h2 c hc x hx v hvn
        · have hux := (hnew x).1 hx
          rw [hnew]
          exact ⟨fun h => ⟨hux.2.trans h.1, h.2.trans hux.1⟩, fun h => ⟨hux.1.trans h.1, h.2.trans hux.2⟩⟩
      · intro i j c d hc hd x hx y hy hxy
        rcases Nat.lt_or_ge i ret.length with hi | hi
        · rcases Nat.lt_or_ge j ret.length with hj | hj
          · rw [List.getElem?_append_left hi] at hc
            rw [List.getElem?_append_left hj] at hd
            exact h3 i j c d hc hd x hx y hy hxy
          · omega
        · have hi2 : i < (ret ++ [new]).length := by
            rw [List.getElem?_eq_some_iff] at hc; exact hc.1
          rw [List.length_append, List.length_singleton] at hi2
          rcases Nat.lt_or_ge j ret.length with hj | hj
          · exfalso
            rw [List.getElem?_append_left hj] at hd
            rw [List.getElem?_append_right hi, show i - ret.length = 0 by omega] at hc
            cases hc
            have hyr : y ∈ ret.flatten := List.mem_flatten.2 ⟨d, List.mem_of_getElem? hd, hy⟩
            have := hI.closed y hyr x (mem_rev.2 hxy)
            exact hdisj x hx (by simpa using this)
          · omega

/-- **C59.** -/
theorem C59_scc {n : Nat} {E : List (Nat × Nat)} (hE : InRange n E) : ∃ S cs, buildScc n E = some S ∧ S.scc = some cs ∧ SccSpec n E cs := by
  obtain ⟨S, e, hn, hG, hI⟩ := buildScc_ok hE
  obtain ⟨L, ord, e1, hnd, hmem, hfin⟩ := first_phase hE hn hG
  obtain ⟨cs, e2, hcs⟩ := sccLoop_ok hE hI hnd hmem hfin ord.reverse [] (List.replicate n false) [] (by simp)
    ⟨(Rep.replicate n false).congr (by simp), by simp, by simp, by simp, by simp⟩ (by simp) (by simp) (by simp) (by simp)
  refine ⟨S, cs, e, ?_, hcs⟩
  rw [SccGraph.scc, e1, Option.bind_some, hn]
  exact e2

example : ((buildScc 5 [(0, 1), (1, 2), (2, 0), (2, 3), (3, 4), (4, 3)]).bind (fun S => S.scc)) = some [[1, 2, 0], [4, 3]] := by decide

end Verif.Graph
