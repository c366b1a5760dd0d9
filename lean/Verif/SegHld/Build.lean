import Verif.SegHld.Shape
/-!
The construction loop of `SegmentHldBase`.
-/
namespace Verif.SegHld

variable {M A : Type} [One M] [Mul M]

/-- Rounds still needed for a node. -/
def cost (nd : Node M A) : Nat := 2 * (nd.s.r - nd.s.l) - 1

/-- State of the construction before round `K`. -/
structure BI (S : Acts M A) (n K N : Nat) (sh : Nat → Shp) (st : List (Node M A) × List Nat) : Prop where
  rep : Rep st.1 N (fun i => ⟨sh i, 1, 1, S.ida⟩)
  wf : WFk n N K sh
  tgl : st.2.length = n
  tg : ∀ i, i < K → Leaf (sh i) → st.2[(sh i).l]? = some i

theorem drop_cost {t : List (Node M A)} {K : Nat} {nd : Node M A} (h : t[K]? = some nd) : ((t.drop K).map cost).sum = cost nd + ((t.drop (K+1)).map cost).sum := by
  obtain ⟨hK, rfl⟩ := List.getElem?_eq_some_iff.1 h
  rw [List.drop_eq_getElem_cons hK, List.map_cons, List.sum_cons]

/-- The shape after a split of node `K` at `m`. -/
def splitSh (sh : Nat → Shp) (K N m : Nat) : Nat → Shp :=
  upd (upd (upd sh K { sh K with lc := some N, rc := some (N+1) }) N ⟨(sh K).l, m, some K, none, none⟩) (N+1) ⟨m, (sh K).r, some K, none, none⟩

theorem splitSh_K {sh : Nat → Shp} {K N m : Nat} (h : K < N) : splitSh sh K N m K = { sh K with lc := some N, rc := some (N+1) } := by
  unfold splitSh
  rw [upd_ne _ _ (by omega), upd_ne _ _ (by omega), upd_same]
theorem splitSh_N {sh : Nat → Shp} {K N m : Nat} : splitSh sh K N m N = ⟨(sh K).l, m, some K, none, none⟩ := by
  unfold splitSh
  rw [upd_ne _ _ (by omega), upd_same]
theorem splitSh_N1 {sh : Nat → Shp} {K N m : Nat} : splitSh sh K N m (N+1) = ⟨m, (sh K).r, some K, none, none⟩ := by
  unfold splitSh
  rw [upd_same]
theorem splitSh_old {sh : Nat → Shp} {K N m i : Nat} (h : i < N) (hi : i ≠ K) : splitSh sh K N m i = sh i := by
  unfold splitSh
  rw [upd_ne _ _ (by omega), upd_ne _ _ (by omega), upd_ne _ _ hi]

theorem split_wf {n N K m : Nat} {sh : Nat → Shp} (w : WFk n N K sh) (hK : K < N) (h1 : (sh K).l < m) (h2 : m < (sh K).r) : WFk n (N+2) (K+1) (splitSh sh K N m) := by
  have hr : ∀ i, i < N → (splitSh sh K N m i).l = (sh i).l ∧ (splitSh sh K N m i).r = (sh i).r ∧ (splitSh sh K N m i).p = (sh i).p := by
    intro i hi
    by_cases e : i = K
    · subst e; rw [splitSh_K hK]; exact ⟨rfl, rfl, rfl⟩
    · rw [splitSh_old hi e]; exact ⟨rfl, rfl, rfl⟩
  have hI : ∀ {i a b}, Inner N sh i a b → i ≠ K → Inner (N+2) (splitSh sh K N m) i a b := by
    intro i a b hi e
    have h3 := hi.ia; have h4 := hi.ab; have h5 := hi.bN
    have hA := hr a (by omega)
    have hB := hr b (by omega)
    have hS := splitSh_old (sh := sh) (K := K) (N := N) (m := m) (i := i) (by omega) e
    exact ⟨by rw [hS]; exact hi.lc, by rw [hS]; exact hi.rc, h3, h4, by omega, by rw [hA.1, hS]; exact hi.al, by rw [hA.2.1, hB.1]; exact hi.am,
      by rw [hB.2.1, hS]; exact hi.br, by rw [hA.2.2]; exact hi.ap, by rw [hB.2.2]; exact hi.bp⟩
  refine ⟨by omega, ?_, ?_, by omega, ?_, ?_, ?_⟩
  · rw [(hr 0 w.pos).1, (hr 0 w.pos).2.1, (hr 0 w.pos).2.2]; exact w.root
  · intro i hi
    have hk := w.rng K hK
    by_cases e1 : i = N
    · subst e1; rw [splitSh_N]; dsimp only; omega
    · by_cases e2 : i = N + 1
      · subst e2; rw [splitSh_N1]; dsimp only; omega
      · rw [(hr i (by omega)).1, (hr i (by omega)).2.1]; exact w.rng i (by omega)
  · intro i hi
    by_cases e : i = K
    · subst e
      right
      refine ⟨N, N+1, ?_⟩
      constructor <;> (try simp only [splitSh_K hK, splitSh_N, splitSh_N1]) <;> omega
    · rcases w.fin i (by omega) with hl | ⟨a, b, hin⟩
      · left; rw [splitSh_old (by omega) e]; exact hl
      · exact Or.inr ⟨a, b, hI hin e⟩
  · intro i h3 h4
    by_cases e1 : i = N
    · subst e1; rw [splitSh_N]; exact ⟨rfl, rfl⟩
    · by_cases e2 : i = N + 1
      · subst e2; rw [splitSh_N1]; exact ⟨rfl, rfl⟩
      · rw [splitSh_old (by omega) (by omega)]; exact w.fresh i (by omega) (by omega)
  · intro i h3 h4
    by_cases e1 : i = N
    · subst e1
      exact ⟨K, hK, by omega, by rw [splitSh_N], Or.inl (by rw [splitSh_K hK])⟩
    · by_cases e2 : i = N + 1
      · subst e2
        exact ⟨K, by omega, by omega, by rw [splitSh_N1], Or.inr (by rw [splitSh_K hK])⟩
      · obtain ⟨q, a1, a2, a3, a4⟩ := w.par i (by omega) h4
        refine ⟨q, a1, by omega, by rw [(hr i (by omega)).2.2]; exact a3, ?_⟩
        rw [splitSh_old (by omega) (by omega)]; exact a4

theorem rep_push {α : Type} {v : List α} {n : Nat} {g : Nat → α} (h : Rep v n g) (x : α) : Rep (v ++ [x]) (n+1) (upd g n x) := by
  refine ⟨by simp [h.len], ?_⟩
  intro i hi
  by_cases e : i = n
  · subst e; rw [upd_same, ← h.len]; simp
  · rw [upd_ne _ _ e, List.getElem?_append_left (by rw [h.len]; omega)]; exact h.val i (by omega)

theorem buildStep_ok (S : Acts M A) {cw : List Nat} {n K N : Nat} {c : Nat → Nat} {sh : Nat → Shp} {st : List (Node M A) × List Nat} (hc : Inc cw n c) (b : BI S n K N sh st) (hK : K < N) :
    ∃ st' N' sh', buildStep S cw K st = some st' ∧ BI S n (K+1) N' sh' st' ∧ ((st'.1.drop (K+1)).map cost).sum + 1 = ((st.1.drop K).map cost).sum := by
  have hv := b.rep.val K hK
  have hrng := b.wf.rng K hK
  have hfr := b.wf.fresh K (Nat.le_refl _) hK
  unfold buildStep
  rw [hv, Option.bind_some]
  dsimp only
  have hdc := drop_cost hv
  by_cases h1 : (sh K).r - (sh K).l = 1
  · rw [if_pos h1]
    have hleaf : Leaf (sh K) := ⟨by omega, hfr⟩
    have hlt : (sh K).l < st.2.length := by rw [b.tgl]; omega
    refine ⟨(st.1, st.2.set (sh K).l K), N, sh, by unfold wr; rw [if_pos hlt]; rfl, ⟨b.rep, ?_, by simp [b.tgl], ?_⟩, ?_⟩
    · exact ⟨b.wf.pos, b.wf.root, b.wf.rng, hK, fun i hi => by
        by_cases e : i = K
        · subst e; exact Or.inl hleaf
        · exact b.wf.fin i (by omega), fun i h2 h3 => b.wf.fresh i (by omega) h3, fun i h2 h3 => by
        obtain ⟨q, a1, a2, a3⟩ := b.wf.par i h2 h3
        exact ⟨q, a1, by omega, a3⟩⟩
    · intro i hi hl
      by_cases e : i = K
      · subst e; rw [List.getElem?_set_self hlt]
      · have hne : (sh K).l ≠ (sh i).l := fun e' => e (b.wf.leaf_unique (by omega) hK hl hleaf e'.symm)
        rw [List.getElem?_set_ne hne]
        exact b.tg i (by omega) hl
    · rw [hdc]; simp only [cost]; omega
  · rw [if_neg h1]
    obtain ⟨m, hm, hm1, hm2⟩ := splitPt_ok hc (l := (sh K).l) (r := (sh K).r) (by omega) hrng.2
    rw [hm, Option.bind_some]
    unfold addLeft
    rw [if_pos hm1, hv, Option.bind_some]
    dsimp only
    obtain ⟨t1, w1, r1⟩ := b.rep.wr hK (⟨⟨(sh K).l, (sh K).r, (sh K).p, some st.1.length, (sh K).rc⟩, 1, 1, S.ida⟩ : Node M A)
    rw [w1, Option.map_some, Option.bind_some]
    have r2 := rep_push r1 (mk S (sh K).l m K)
    unfold addRight
    rw [if_pos hm2, r2.val K (by omega), Option.bind_some]
    obtain ⟨t3, w3, r3⟩ := r2.wr (i := K) (by omega) (⟨⟨(sh K).l, (sh K).r, (sh K).p, some N, some (N+1)⟩, 1, 1, S.ida⟩ : Node M A)
    have hl2 := r2.len
    rw [upd_ne _ _ (show K ≠ N by omega), upd_same]
    dsimp only
    rw [hl2, b.rep.len, w3, Option.map_some, Option.map_some]
    have r4 := rep_push r3 (mk S m (sh K).r K)
    refine ⟨_, N+2, splitSh sh K N m, rfl, ⟨r4.congr ?_, split_wf b.wf hK hm1 hm2, b.tgl, ?_⟩, ?_⟩
    · intro i hi
      by_cases e2 : i = N + 1
      · subst e2; rw [upd_same, splitSh_N1]; rfl
      · rw [upd_ne _ _ e2]
        by_cases e3 : i = K
        · subst e3; rw [upd_same, splitSh_K hK]
        · rw [upd_ne _ _ e3]
          by_cases e1 : i = N
          · subst e1; rw [upd_same, splitSh_N]; rfl
          · rw [upd_ne _ _ e1, upd_ne _ _ e3, splitSh_old (by omega) e3]
    · intro i hi hl
      by_cases e : i = K
      · subst e; have := hl.2.1; rw [splitSh_K hK] at this; cases this
      · rw [splitSh_old (by omega) e] at hl ⊢
        exact b.tg i (by omega) hl
    · dsimp only
      have hwr : ∀ {v v' : List (Node M A)} {x : Node M A}, wr v K x = some v' → v'.drop (K+1) = v.drop (K+1) := by
        intro v v' x h
        unfold wr at h
        split_ifs at h
        cases h
        rw [List.drop_set_of_lt (by omega)]
      rw [List.drop_append_of_le_length (by rw [r3.len]; omega), hwr w3, List.drop_append_of_le_length (by rw [r1.len]; omega), hwr w1, hdc]
      simp only [List.map_append, List.sum_append, List.map_cons, List.map_nil, List.sum_cons, List.sum_nil, cost, mk]
      omega

theorem buildLoop_ok (S : Acts M A) {cw : List Nat} {n : Nat} {c : Nat → Nat} (hc : Inc cw n c) : ∀ (f K N : Nat) (sh : Nat → Shp) (st : List (Node M A) × List Nat), BI S n K N sh st →
    ((st.1.drop K).map cost).sum ≤ f → ∃ st' N' sh', buildLoop S cw f K st = some st' ∧ BI S n N' N' sh' st' := by
  intro f
  induction f with
  | zero =>
    intro K N sh st b h
    by_cases hK : K < N
    · obtain ⟨st', N', sh', -, -, h3⟩ := buildStep_ok S hc b hK
      omega
    · have : K = N := by have := b.wf.kn; omega
      subst this
      exact ⟨st, K, sh, by unfold buildLoop; rw [if_neg (by rw [b.rep.len]; omega)], b⟩
  | succ f ih =>
    intro K N sh st b h
    by_cases hK : K < N
    · obtain ⟨st', N', sh', h1, h2, h3⟩ := buildStep_ok S hc b hK
      obtain ⟨st2, N2, sh2, h4, h5⟩ := ih (K+1) N' sh' st' h2 (by omega)
      exact ⟨st2, N2, sh2, by unfold buildLoop; rw [if_pos (by rw [b.rep.len]; omega), h1, Option.bind_some, h4], h5⟩
    · have : K = N := by have := b.wf.kn; omega
      subst this
      exact ⟨st, K, sh, by unfold buildLoop; rw [if_neg (by rw [b.rep.len]; omega)], b⟩

/-- What the constructor gives: a well-formed tree with the right targets, all values neutral. -/
theorem build_ok (S : Acts M A) (ws : List Nat) (h0 : ws ≠ []) (hw : ∀ w ∈ ws, 0 < w) :
    ∃ o N sh, build S ws = some o ∧ o.n = ws.length ∧ Rep o.tree N (fun i => ⟨sh i, 1, 1, S.ida⟩) ∧ WF ws.length N sh ∧
      ∀ j, j < ws.length → ∃ k, o.target[j]? = some k ∧ k < N ∧ Leaf (sh k) ∧ (sh k).l = j := by
  obtain ⟨c, hc, -⟩ := prefixSums_inc ws 0 hw
  have hpos : 0 < ws.length := List.length_pos_iff.2 h0
  have b0 : BI S ws.length 0 1 (fun _ => ⟨0, ws.length, none, none, none⟩) ([⟨⟨0, ws.length, none, none, none⟩, 1, 1, S.ida⟩], List.replicate ws.length 0) := by
    refine ⟨⟨rfl, ?_⟩, ⟨by omega, ⟨rfl, rfl, rfl⟩, fun i _ => ⟨hpos, Nat.le_refl _⟩, by omega, fun i hi => by omega, fun i _ _ => ⟨rfl, rfl⟩, fun i h1 h2 => by omega⟩, by simp, fun i hi => by omega⟩
    intro i hi
    have : i = 0 := by omega
    subst this; rfl
  obtain ⟨st, N, sh, h1, h2⟩ := buildLoop_ok S hc (2 * ws.length) 0 1 _ _ b0 (by simp [cost])
  refine ⟨⟨ws.length, st.1, st.2⟩, N, sh, by unfold build; rw [h1]; rfl, rfl, h2.rep, h2.wf, ?_⟩
  intro j hj
  obtain ⟨k, k1, k2, k3⟩ := leaf_exists h2.wf hj
  exact ⟨k, by rw [← k3]; exact h2.tg k k1 k2, k1, k2, k3⟩

end Verif.SegHld
