import Verif.MaxFlow.FF
/-!
The level graph of `Dinic` (max_flow.hpp:102-114).
-/
namespace Verif.MaxFlow

/-- Invariant of the level computation: `D` is the table of levels, `q` the queue. -/
structure BInv (n : Nat) (g : G) (s t : Nat) (D : Nat → Nat) (dist : List Nat) (q : List Nat) : Prop where
  rep : Rep dist n D
  src : D s = 0
  cnt : ∀ v < n, D v = IINF ∨ D v + dist.count IINF < n
  inq : ∀ v ∈ q, v < n ∧ v ≠ t ∧ D v ≠ IINF
  sorted : q.Pairwise (fun u v => D u ≤ D v)
  near : ∀ u ∈ q, ∀ v < n, D v ≠ IINF → D v ≤ D u + 1
  pred : ∀ v < n, v ≠ s → D v ≠ IINF → ∃ u j x, getE g u j = some x ∧ x.cap ≠ 0 ∧ x.t = v ∧ D u + 1 = D v ∧ D u ≠ IINF
  clo : ∀ v < n, D v ≠ IINF → v ≠ t → v ∉ q → ∀ j x, getE g v j = some x → x.cap ≠ 0 → D x.t ≤ D v + 1

theorem count_set_inf {l : List Nat} {u y : Nat} (h : l[u]? = some IINF) (hy : y ≠ IINF) : (l.set u y).count IINF + 1 = l.count IINF := by
  obtain ⟨hu, e⟩ := List.getElem?_eq_some_iff.1 h
  rw [List.count_set hu, e]
  have : 0 < l.count IINF := List.count_pos_iff.2 (List.mem_of_getElem? h)
  simp [hy]
  omega

/-- What the row loop preserves while `u` is being processed. -/
structure Row (n : Nat) (g : G) (s t u : Nat) (D : Nat → Nat) (dist q : List Nat) (D' : Nat → Nat) (dist' q' : List Nat) : Prop where
  inv : BInv n g s t D' dist' (u :: q')
  keep : ∀ v < n, D v ≠ IINF → D' v = D v
  le : ∀ v < n, D' v ≤ D v
  meas : q'.length + dist'.count IINF ≤ q.length + dist.count IINF

theorem bfsEdge_ok {n : Nat} {g : G} {s t u : Nat} (hs : s < n) (hn : n ≤ IINF) {D : Nat → Nat} {dist q : List Nat} (I : BInv n g s t D dist (u :: q)) {e : FlowPath} {i : Nat}
    (he : getE g u i = some e) (het : e.t < n) : ∃ D' dist' q', bfsEdge t u e (dist, q) = some (dist', q') ∧ Row n g s t u D dist q D' dist' q' ∧
      (e.cap ≠ 0 → D' e.t ≤ D' u + 1) := by
  obtain ⟨hun, hut, huI⟩ := I.inq u List.mem_cons_self
  unfold bfsEdge
  by_cases h0 : e.cap = 0
  · rw [if_pos h0]
    exact ⟨D, dist, q, rfl, ⟨I, fun _ _ _ => rfl, fun _ _ => le_refl _, le_refl _⟩, fun h => absurd h0 h⟩
  · rw [if_neg h0]
    dsimp only
    rw [I.rep.val _ het, Option.bind_some, I.rep.val _ hun, Option.bind_some]
    by_cases hd : D e.t ≤ D u + 1
    · rw [if_pos hd]
      exact ⟨D, dist, q, rfl, ⟨I, fun _ _ _ => rfl, fun _ _ => le_refl _, le_refl _⟩, fun _ => hd⟩
    · rw [if_neg hd]
      have hI : D e.t = IINF := by
        by_contra hne
        exact hd (I.near u List.mem_cons_self _ het hne)
      have hcu := (I.cnt u hun).resolve_left huI
      have hy : D u + 1 ≠ IINF := by omega
      obtain ⟨dist', w1, w2⟩ := I.rep.wr het (D u + 1)
      have hset : dist' = dist.set e.t (D u + 1) := by
        unfold wr at w1
        rw [if_pos (by rw [I.rep.len]; exact het)] at w1
        exact (Option.some.inj w1).symm
      have hcnt : dist'.count IINF + 1 = dist.count IINF := by
        rw [hset]; exact count_set_inf (by rw [I.rep.val _ het, hI]) hy
      rw [w1]
      have hne : ∀ v, v ∈ u :: q → v ≠ e.t := by
        intro v hv e
        exact (I.inq v hv).2.2 (e ▸ hI)
      have hu' : upd D e.t (D u + 1) u = D u := upd_ne _ _ (hne u List.mem_cons_self)
      have hD' : ∀ v, upd D e.t (D u + 1) v = if v = e.t then D u + 1 else D v := by
        intro v
        by_cases c : v = e.t
        · rw [if_pos c, c, upd_same]
        · rw [if_neg c, upd_ne _ _ c]
      have hlt : D u + 1 < IINF := by omega
      have hle : ∀ v < n, upd D e.t (D u + 1) v ≤ D v := by
        intro v _
        rw [hD']
        split_ifs with c
        · rw [c, hI]; omega
        · exact le_refl _
      have hq' : ∀ v, v ∈ (u :: (if e.t ≠ t then q ++ [e.t] else q)) → v ∈ u :: q ∨ (v = e.t ∧ e.t ≠ t) := by
        intro v hv
        by_cases c : e.t ≠ t
        · rw [if_pos c] at hv
          simp at hv ⊢
          tauto
        · rw [if_neg c] at hv
          exact Or.inl hv
      have hsub : ∀ v, v ∈ u :: q → v ∈ (u :: (if e.t ≠ t then q ++ [e.t] else q)) := by
        intro v hv
        by_cases c : e.t ≠ t
        · rw [if_pos c]; simp at hv ⊢; tauto
        · rw [if_neg c]; exact hv
      refine ⟨upd D e.t (D u + 1), dist', if e.t ≠ t then q ++ [e.t] else q, rfl, ⟨⟨w2, ?_, ?_, ?_, ?_, ?_, ?_, ?_⟩, ?_, hle, ?_⟩, ?_⟩
      · rw [hD', if_neg, I.src]
        intro c
        rw [← c, I.src] at hI
        exact absurd hI (by decide)
      · intro v hv
        rw [hD']
        split_ifs with c
        · right; omega
        · rcases I.cnt v hv with h | h
          · exact Or.inl h
          · right; omega
      · intro v hv
        rcases hq' v hv with h | ⟨rfl, h⟩
        · have := I.inq v h
          rw [hD', if_neg (hne v h)]
          exact this
        · refine ⟨het, h, ?_⟩
          rw [upd_same]; exact hy
      · have hp : (u :: q).Pairwise (fun a b => upd D e.t (D u + 1) a ≤ upd D e.t (D u + 1) b) := by
          refine I.sorted.imp_of_mem ?_
          intro a b ha hb h
          rw [hD', hD', if_neg (hne a ha), if_neg (hne b hb)]; exact h
        by_cases c : e.t ≠ t
        · rw [if_pos c]
          have : u :: (q ++ [e.t]) = (u :: q) ++ [e.t] := rfl
          rw [this, List.pairwise_append]
          refine ⟨hp, by simp, ?_⟩
          intro a ha b hb
          rw [List.mem_singleton] at hb
          subst hb
          rw [upd_same, hD', if_neg (hne a ha)]
          exact I.near u List.mem_cons_self a (I.inq a ha).1 (I.inq a ha).2.2
        · rw [if_neg c]; exact hp
      · intro w hw v hv hvI
        have hmin : ∀ w ∈ u :: q, D u ≤ D w := by
          intro w hw
          rcases List.mem_cons.1 hw with h | h
          · rw [h]
          · exact (List.pairwise_cons.1 I.sorted).1 w h
        rcases hq' w hw with h | ⟨rfl, h⟩
        · rw [hD' w, if_neg (hne w h)]
          have := hmin w h
          rw [hD' v] at hvI ⊢
          split_ifs at hvI ⊢ with c
          · omega
          · exact I.near w h v hv hvI
        · rw [upd_same]
          rw [hD' v] at hvI ⊢
          split_ifs at hvI ⊢ with c
          · omega
          · have := I.near u List.mem_cons_self v hv hvI
            omega
      · intro v hv hvs hvI
        by_cases c : v = e.t
        · subst c
          exact ⟨u, i, e, he, h0, rfl, by rw [hu', upd_same], by rw [hu']; exact huI⟩
        · rw [hD', if_neg c] at hvI
          obtain ⟨a, j, x, p1, p2, p3, p4, p5⟩ := I.pred v hv hvs hvI
          have hae : a ≠ e.t := fun h => p5 (h ▸ hI)
          refine ⟨a, j, x, p1, p2, p3, ?_, ?_⟩
          · rw [hD', if_neg hae, hD', if_neg c]; exact p4
          · rw [hD', if_neg hae]; exact p5
      · intro v hv hvI hvt hvq j x hx hxc
        have hvne : v ≠ e.t := by
          rintro rfl
          apply hvq
          rw [if_pos hvt]
          simp
        rw [hD' v, if_neg hvne] at hvI ⊢
        have := I.clo v hv hvI hvt (fun h => hvq (hsub v h)) j x hx hxc
        rw [hD']
        split_ifs with c
        · rw [c, hI] at this
          omega
        · exact this
      · intro v _ hvI
        rw [hD', if_neg]
        rintro rfl
        exact hvI hI
      · by_cases c : e.t ≠ t
        · rw [if_pos c, List.length_append, List.length_singleton]; omega
        · rw [if_neg c]; omega
      · intro _
        rw [upd_same, hu']

theorem Row.trans {n : Nat} {g : G} {s t u : Nat} {D D1 D2 : Nat → Nat} {dist q dist1 q1 dist2 q2 : List Nat} (h : Row n g s t u D dist q D1 dist1 q1)
    (k : Row n g s t u D1 dist1 q1 D2 dist2 q2) : Row n g s t u D dist q D2 dist2 q2 :=
  ⟨k.inv, fun v hv hI => (k.keep v hv (by rw [h.keep v hv hI]; exact hI)).trans (h.keep v hv hI), fun v hv => (k.le v hv).trans (h.le v hv), k.meas.trans h.meas⟩

theorem bfsRow_ok {n : Nat} {g : G} {s t u : Nat} (hs : s < n) (hn : n ≤ IINF) : ∀ (l : List FlowPath) (D : Nat → Nat) (dist q : List Nat), BInv n g s t D dist (u :: q) →
    (∀ e ∈ l, e.t < n ∧ ∃ i, getE g u i = some e) → ∃ D' dist' q', bfsRow t u l (dist, q) = some (dist', q') ∧ Row n g s t u D dist q D' dist' q' ∧
      (∀ e ∈ l, e.cap ≠ 0 → D' e.t ≤ D' u + 1) := by
  intro l
  induction l with
  | nil =>
    intro D dist q I _
    exact ⟨D, dist, q, rfl, ⟨I, fun _ _ _ => rfl, fun _ _ => le_refl _, le_refl _⟩, fun e h => by cases h⟩
  | cons e l ih =>
    intro D dist q I h
    obtain ⟨het, i, he⟩ := h e List.mem_cons_self
    obtain ⟨D1, dist1, q1, a1, a2, a3⟩ := bfsEdge_ok hs hn I he het
    obtain ⟨D2, dist2, q2, b1, b2, b3⟩ := ih D1 dist1 q1 a2.inv (fun x hx => h x (List.mem_cons_of_mem _ hx))
    refine ⟨D2, dist2, q2, ?_, a2.trans b2, ?_⟩
    · unfold bfsRow; rw [a1, Option.bind_some, b1]
    · intro x hx hxc
      rcases List.mem_cons.1 hx with rfl | hx
      · obtain ⟨hun, hut, huI⟩ := a2.inv.inq u List.mem_cons_self
        rw [b2.keep u hun huI]
        exact (b2.le _ het).trans (a3 hxc)
      · exact b3 x hx hxc

theorem bfsLoop_ok {n : Nat} {g : G} {s t : Nat} (hs : s < n) (hn : n ≤ IINF) (hg : g.length = n) (ht : ∀ u i e, getE g u i = some e → e.t < n) :
    ∀ (fuel : Nat) (D : Nat → Nat) (dist q : List Nat), BInv n g s t D dist q → q.length + dist.count IINF ≤ fuel →
      ∃ D' dist', bfsLoop g t fuel (dist, q) = some dist' ∧ BInv n g s t D' dist' [] := by
  intro fuel
  induction fuel with
  | zero =>
    intro D dist q I hm
    cases q with
    | nil => exact ⟨D, dist, by unfold bfsLoop; rfl, I⟩
    | cons u q => simp at hm
  | succ fuel ih =>
    intro D dist q I hm
    cases q with
    | nil => exact ⟨D, dist, by unfold bfsLoop; rfl, I⟩
    | cons u q =>
      obtain ⟨hun, hut, huI⟩ := I.inq u List.mem_cons_self
      have hul : u < g.length := hg ▸ hun
      obtain ⟨row, hrow⟩ : ∃ row, g[u]? = some row := ⟨_, List.getElem?_eq_getElem hul⟩
      have hget : ∀ i, getE g u i = row[i]? := by intro i; unfold getE rd2; rw [hrow, Option.bind_some]
      obtain ⟨D1, dist1, q1, a1, a2, a3⟩ := bfsRow_ok hs hn row D dist q I (by
        intro e he
        obtain ⟨i, hi⟩ := List.mem_iff_getElem?.1 he
        exact ⟨ht u i e (by rw [hget, hi]), i, by rw [hget, hi]⟩)
      unfold bfsLoop
      rw [hrow, Option.bind_some, a1, Option.bind_some]
      have J := a2.inv
      refine ih D1 dist1 q1 ?_ (by have := a2.meas; simp at hm; omega)
      refine ⟨J.rep, J.src, J.cnt, fun v hv => J.inq v (List.mem_cons_of_mem _ hv), (List.pairwise_cons.1 J.sorted).2,
        fun w hw => J.near w (List.mem_cons_of_mem _ hw), J.pred, ?_⟩
      intro v hv hvI hvt hvq j x hx hxc
      by_cases c : v = u
      · subst c
        exact a3 x (List.mem_of_getElem? (by rw [← hget j]; exact hx)) hxc
      · exact J.clo v hv hvI hvt (fun h => by rcases List.mem_cons.1 h with h | h <;> tauto) j x hx hxc

theorem bfs_ok {n : Nat} {g : G} {s t : Nat} (hs : s < n) (hst : s ≠ t) (hn : n ≤ IINF) (hg : g.length = n) (ht : ∀ u i e, getE g u i = some e → e.t < n) :
    ∃ D dist, bfs g s t = some dist ∧ BInv n g s t D dist [] := by
  unfold bfs
  obtain ⟨d0, w1, w2⟩ := (Rep.replicate n IINF).wr hs 0
  have hset : d0 = (List.replicate n IINF).set s 0 := by
    unfold wr at w1
    rw [if_pos (by simpa using hs)] at w1
    exact (Option.some.inj w1).symm
  have hz : (0 : Nat) ≠ IINF := by decide
  have hcnt : d0.count IINF + 1 = n := by
    rw [hset, count_set_inf (by rw [List.getElem?_replicate, if_pos hs]) hz]; simp
  have hD : ∀ v, upd (fun _ => IINF) s 0 v ≠ IINF → v = s := by
    intro v h
    by_contra c
    exact h (upd_ne _ _ c)
  rw [hg, w1, Option.bind_some]
  refine bfsLoop_ok hs hn hg ht (n+1) (upd (fun _ => IINF) s 0) d0 [s] ?_ (by simp; omega)
  refine ⟨w2, upd_same _ _ _, ?_, ?_, by simp, ?_, ?_, ?_⟩
  · intro v hv
    by_cases c : v = s
    · right; rw [c, upd_same]; omega
    · left; exact upd_ne _ _ c
  · intro v hv
    rw [List.mem_singleton] at hv
    subst hv
    exact ⟨hs, hst, by rw [upd_same]; exact hz⟩
  · intro u hu v hv hvI
    rw [hD v hvI, upd_same]; omega
  · intro v _ hvs hvI
    exact absurd (hD v hvI) hvs
  · intro v _ hvI _ hvq
    exact absurd (by rw [hD v hvI]; simp) hvq

end Verif.MaxFlow
