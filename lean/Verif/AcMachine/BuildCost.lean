import Verif.AcMachine.Cost
import Mathlib.Algebra.Order.BigOperators.Group.List
import Mathlib.Data.List.Nodup
/-!
The steps of `build`: the functions of `Model.lean` that also count, and an amortised bound.
-/
namespace Verif.AcMachine

variable {α T : Type} [DecidableEq α]

/-- `kidLoop`, with the number of calls of `_go` (lines 110-111). -/
def kidLoopC (id : Nat) : List (α × Nat) → List Nat → List (Nd α) → Option ((List Nat × List (Nd α)) × Nat)
  | [], q, nodes => some ((q, nodes), 0)
  | p :: l, q, nodes => (nodes[id]?).bind (fun nd => nd.fail.bind (fun st => (chaseC nodes p.1 nodes.length st).bind (fun t =>
      (setFail nodes p.2 t.1).bind (fun n1 => (kidLoopC id l (q ++ [p.2]) n1).map (fun r => (r.1, t.2 + r.2))))))

/-- `bfs`, with the number of calls of `_go`. -/
def bfsC (ord : List (α × Nat) → List (α × Nat)) : Nat → List Nat → List (Nd α) → Option (List (Nd α) × Nat)
  | _, [], nodes => some (nodes, 0)
  | 0, _ :: _, _ => none
  | n+1, u :: q, nodes => (nodes[u]?).bind (fun nd => (kidLoopC u (ord nd.e) q nodes).bind (fun r => (bfsC ord n r.1.1 r.1.2).map (fun b => (b.1, r.2 + b.2))))

/-- `build`, with the number of calls of `_go`. -/
def buildC (ord : List (α × Nat) → List (α × Nat)) (s : Ac α T) : Option (Ac α T × Nat) :=
  (s.nodes[0]?).bind (fun r => (rootLoop (ord r.e) [] s.nodes).bind (fun q => (bfsC ord s.nodes.length q.1 q.2).map (fun n => (⟨s.cont, n.1⟩, n.2))))

/-! ### The counts do not change the results -/

theorem kidLoopC_fst (id : Nat) : ∀ (l : List (α × Nat)) (q : List Nat) (nodes : List (Nd α)), (kidLoopC id l q nodes).map Prod.fst = kidLoop id l q nodes
  | [], _, _ => rfl
  | p :: l, q, nodes => by
      rw [kidLoopC, kidLoop]
      cases nodes[id]? with
      | none => rfl
      | some nd =>
        rw [Option.bind_some, Option.bind_some]
        cases nd.fail with
        | none => rfl
        | some st =>
          rw [Option.bind_some, Option.bind_some, ← chaseC_fst]
          cases chaseC nodes p.1 nodes.length st with
          | none => rfl
          | some t =>
            rw [Option.bind_some, Option.map_some, Option.bind_some]
            cases setFail nodes p.2 t.1 with
            | none => rfl
            | some n1 =>
              rw [Option.bind_some, Option.bind_some, ← kidLoopC_fst id l (q ++ [p.2]) n1]
              cases kidLoopC id l (q ++ [p.2]) n1 <;> rfl

theorem bfsC_fst (ord : List (α × Nat) → List (α × Nat)) : ∀ (n : Nat) (q : List Nat) (nodes : List (Nd α)), (bfsC ord n q nodes).map Prod.fst = bfs ord n q nodes
  | n, [], nodes => by cases n <;> rfl
  | 0, _ :: _, _ => rfl
  | n+1, u :: q, nodes => by
      rw [bfsC, bfs]
      cases nodes[u]? with
      | none => rfl
      | some nd =>
        rw [Option.bind_some, Option.bind_some, ← kidLoopC_fst]
        cases kidLoopC u (ord nd.e) q nodes with
        | none => rfl
        | some r =>
          rw [Option.bind_some, Option.map_some, Option.bind_some, ← bfsC_fst ord n r.1.1 r.1.2]
          cases bfsC ord n r.1.1 r.1.2 <;> rfl

theorem buildC_fst (ord : List (α × Nat) → List (α × Nat)) (s : Ac α T) : (buildC ord s).map Prod.fst = build ord s := by
  unfold buildC build
  cases s.nodes[0]? with
  | none => rfl
  | some r =>
    rw [Option.bind_some, Option.bind_some]
    cases rootLoop (ord r.e) [] s.nodes with
    | none => rfl
    | some q =>
      rw [Option.bind_some, Option.bind_some, ← bfsC_fst]
      cases bfsC ord s.nodes.length q.1 q.2 <;> rfl

/-! ### Cost of a child -/

/-- What the children cost: `τ x` pays for the node of `x`. -/
def Pays (N : Nat) (lab : Nat → List α) (τ : List α → Nat) : Prop :=
  ∀ h v c x y, h < N → h ≠ 0 → v < N → lab v = lab h ++ [c] → IsLong N lab (lab h).tail x → IsLong N lab (lab v).tail y → (lab x).length + 2 ≤ τ (lab v) + (lab y).length

theorem chaseC_len' {N : Nat} {g : Nat → Nd α} {lab : Nat → List α} (t : Tr N g lab) {F : Nat → Option Nat} {nodes : List (Nd α)} (R : Rep nodes N (wf g F)) (c : α) (d : Nat)
    (hF : ∀ v, v < N → v ≠ 0 → (lab v).length ≤ d → OKF N lab (F v) v) : ∀ n u v k, u < N → (lab u).length ≤ d → chaseC nodes c n u = some (v, k) →
    k + (lab v).length ≤ (lab u).length + 2
  | 0, _, _, _, _, _, h => by cases h
  | n+1, u, v, k, hu, hd, h => by
      rw [chaseC, go, R.val u hu, Option.map_some, Option.bind_some] at h
      have hee : (wf g F u).e = (g u).e := rfl
      rw [hee] at h
      cases ha : assoc (g u).e c with
      | some x =>
        rw [ha] at h
        cases h
        rw [(t.assoc_some hu ha).2, List.length_append, List.length_singleton]
        omega
      | none =>
        rw [ha] at h
        by_cases h0 : u = 0
        · subst h0
          cases h
          omega
        · have : goRes u (none : Option Nat) = none := if_neg h0
          rw [this] at h
          obtain ⟨f, f1, f2, f3, f4⟩ := hF u hu h0 hd
          have hff : (wf g F u).fail = some f := f1
          have hlen : (lab f).length < (lab u).length := by
            have := f3.length_le
            rw [List.length_tail] at this
            have : 0 < (lab u).length := List.length_pos_iff.2 (t.ne_nil hu h0)
            omega
          dsimp only at h
          rw [Option.bind_some, hff, Option.bind_some] at h
          cases e : chaseC nodes c n f with
          | none => rw [e] at h; cases h
          | some p =>
            rw [e] at h
            cases h
            have := chaseC_len' t R c d hF n f p.1 p.2 f2 (by omega) e
            omega

theorem kidLoopC_cost {N : Nat} {g : Nat → Nd α} {lab : Nat → List α} (t : Tr N g lab) {τ : List α → Nat} (hτ : Pays N lab τ) {h : Nat} (hh : h < N) (hh0 : h ≠ 0) :
    ∀ (l : List (α × Nat)) (q : List Nat) {F : Nat → Option Nat} {nodes : List (Nd α)} (_ : Rep nodes N (wf g F)),
    (∀ v, v < N → v ≠ 0 → (lab v).length ≤ (lab h).length → OKF N lab (F v) v) → (∀ p ∈ l, p.2 < N ∧ lab p.2 = lab h ++ [p.1]) →
    ∃ n1 F1 k, kidLoopC h l q nodes = some ((q ++ l.map Prod.snd, n1), k) ∧ Rep n1 N (wf g F1) ∧ (∀ p ∈ l, OKF N lab (F1 p.2) p.2) ∧ (∀ x, x ∉ l.map Prod.snd → F1 x = F x) ∧
      k ≤ ((l.map Prod.snd).map (fun v => τ (lab v))).sum := by
  intro l
  induction l with
  | nil => intro q F nodes R _ _; exact ⟨nodes, F, 0, by simp [kidLoopC], R, by simp, by simp, Nat.zero_le _⟩
  | cons p l ih =>
    intro q F nodes R hF hl
    obtain ⟨p1, p2⟩ := hl p (List.mem_cons_self ..)
    obtain ⟨f, f1, f2, f3, f4⟩ := hF h hh hh0 (Nat.le_refl _)
    have hne := t.ne_nil hh hh0
    have hlen : (lab f).length < (lab h).length := by
      have := f3.length_le
      rw [List.length_tail] at this
      have : 0 < (lab h).length := List.length_pos_iff.2 hne
      omega
    have hdep := t.depth f f2
    obtain ⟨u, u1, u2⟩ := chase_ok t R p.1 (lab h).tail (lab h).length hF N f (by omega) f2 (by omega) f3 (by
      intro v hv x hx hxw
      obtain ⟨y, y1, y2⟩ := t.init hv hx
      rw [← y2]
      exact f4 y y1 (by rw [y2]; exact hxw))
    have htl : (lab h).tail ++ [p.1] = (lab p.2).tail := by
      rw [p2, List.tail_append_of_ne_nil hne]
    rw [htl] at u2
    obtain ⟨k0, e0, c0⟩ : ∃ k0, chaseC nodes p.1 N f = some (u, k0) ∧ k0 ≤ τ (lab p.2) := by
      rw [← chaseC_fst] at u1
      cases e : chaseC nodes p.1 N f with
      | none => rw [e] at u1; cases u1
      | some r =>
        rw [e] at u1
        cases u1
        have h1 := chaseC_len' t R p.1 (lab h).length hF N f r.1 r.2 f2 (by omega) e
        have h2 := hτ h p.2 p.1 f r.1 hh hh0 p1 p2 ⟨f2, f3, f4⟩ u2
        exact ⟨r.2, rfl, by omega⟩
    obtain ⟨n1, w1, r1⟩ := setFail_ok R p1 u
    have hpl : (lab p.2).length = (lab h).length + 1 := by rw [p2, List.length_append]; rfl
    obtain ⟨n2, F2, k2', w2, r2, k1, k2, c2⟩ := ih (q ++ [p.2]) r1 (fun v hv h0 hd => by
      rw [upd_ne _ _ (by rintro rfl; omega)]; exact hF v hv h0 hd) (fun p' hp' => hl p' (List.mem_cons_of_mem _ hp'))
    refine ⟨n2, F2, k0 + k2', ?_, r2, ?_, ?_, ?_⟩
    · unfold kidLoopC
      rw [R.val h hh, Option.bind_some]
      have hff : (wf g F h).fail = some f := f1
      rw [hff, Option.bind_some, R.len, e0, Option.bind_some, w1, Option.bind_some, w2]
      simp
    · intro p' hp'
      rcases List.mem_cons.1 hp' with h1 | h1
      · subst h1
        by_cases hm : p'.2 ∈ l.map Prod.snd
        · obtain ⟨q', q1, q2⟩ := List.mem_map.1 hm
          rw [← q2]; exact k1 q' q1
        · rw [k2 _ hm, upd_same]; exact ⟨u, rfl, u2⟩
      · exact k1 p' h1
    · intro x hx
      rw [List.map_cons, List.mem_cons] at hx
      rw [k2 x (fun h => hx (Or.inr h)), upd_ne _ _ (fun h => hx (Or.inl h))]
    · rw [List.map_cons, List.map_cons, List.sum_cons]
      exact Nat.add_le_add c0 c2

theorem bfsC_cost {N : Nat} {g : Nat → Nd α} {lab : Nat → List α} (t : Tr N g lab) {τ : List α → Nat} (hτ : Pays N lab τ) {ord : List (α × Nat) → List (α × Nat)} (hord : ∀ l, (ord l).Perm l) :
    ∀ n (D Q : List Nat) {F : Nat → Option Nat} {nodes : List (Nd α)} (_ : Rep nodes N (wf g F)) (_ : BI N lab F D Q), N ≤ n + D.length →
      ∃ (n1 : List (Nd α)) (k : Nat) (D' : List Nat), bfsC ord n Q nodes = some (n1, k) ∧ D'.Nodup ∧ (∀ v ∈ D', v < N) ∧ k + ((D ++ Q).map (fun v => τ (lab v))).sum ≤ (D'.map (fun v => τ (lab v))).sum := by
  intro n
  induction n with
  | zero =>
    intro D Q F nodes R B hn
    cases Q with
    | nil => exact ⟨nodes, 0, D ++ [], rfl, B.nodup, fun v hv => (B.lt v hv).1, by rw [Nat.zero_add]⟩
    | cons h Q =>
      exfalso
      have := nodup_len B.nodup (fun v hv => (B.lt v hv).1)
      rw [List.length_append, List.length_cons] at this
      omega
  | succ n ih =>
    intro D Q F nodes R B hn
    cases Q with
    | nil => exact ⟨nodes, 0, D ++ [], rfl, B.nodup, fun v hv => (B.lt v hv).1, by rw [Nat.zero_add]⟩
    | cons h Q =>
      obtain ⟨hh, hh0⟩ := B.lt h (List.mem_append_right _ (List.mem_cons_self ..))
      obtain ⟨n1, F1, k0, w1, r1, k1, k2, c1⟩ := kidLoopC_cost t hτ hh hh0 (ord (g h).e) Q R (fun v hv h0 hd => B.ok v (B.before t v hv h0 hd))
        (fun p hp => (t.edge h hh p.1 p.2).1 ((hord _).mem_iff.1 hp))
      obtain ⟨n2, k3, D', w2, d1, d2, c2⟩ := ih (D ++ [h]) (Q ++ (ord (g h).e).map Prod.snd) r1 (B.step t (hord _) k1 k2) (by rw [List.length_append, List.length_singleton]; omega)
      refine ⟨n2, k0 + k3, D', ?_, d1, d2, ?_⟩
      · unfold bfsC
        rw [R.val h hh, Option.bind_some]
        have hee : (wf g F h).e = (g h).e := rfl
        rw [hee, w1, Option.bind_some, w2]; rfl
      · simp only [List.map_append, List.map_cons, List.map_nil, List.sum_append, List.sum_cons, List.sum_nil] at c2 ⊢
        omega

theorem buildC_cost {s : Ac α T} {N : Nat} {g : Nat → Nd α} {lab : Nat → List α} (R : Rep s.nodes N g) (t : Tr N g lab) {τ : List α → Nat} (hτ : Pays N lab τ)
    {ord : List (α × Nat) → List (α × Nat)} (hord : ∀ l, (ord l).Perm l) :
    ∃ (s' : Ac α T) (k : Nat) (D' : List Nat), buildC ord s = some (s', k) ∧ D'.Nodup ∧ (∀ v ∈ D', v < N) ∧ k ≤ (D'.map (fun v => τ (lab v))).sum := by
  have R0 : Rep s.nodes N (wf g (fun v => (g v).fail)) := R.congr (fun i hi => rfl)
  have hle : ∀ p ∈ ord (g 0).e, p.2 < N ∧ lab p.2 = [] ++ [p.1] := fun p hp => by
    have := (t.edge 0 t.pos p.1 p.2).1 ((hord _).mem_iff.1 hp)
    rwa [t.root] at this
  obtain ⟨n1, F1, w1, r1, k1, k2⟩ := rootLoop_ok t (ord (g 0).e) [] R0 (fun p hp => by simpa using hle p hp)
  have hlen : ∀ x ∈ (ord (g 0).e).map Prod.snd, (lab x).length = 1 := by
    intro x hx
    obtain ⟨p, p1, p2⟩ := List.mem_map.1 hx
    subst p2
    rw [(hle p p1).2]; rfl
  have B : BI N lab F1 [] ((ord (g 0).e).map Prod.snd) := by
    refine ⟨?_, ?_, ?_, ?_, ?_, ?_, ?_⟩
    · exact map_snd_nodup ((hord _).nodup_iff.2 (t.nd 0 t.pos)) (fun p hp => (hle p hp).2)
    · intro v hv
      obtain ⟨p, p1, p2⟩ := List.mem_map.1 hv
      refine ⟨p2 ▸ (hle p p1).1, fun h0 => ?_⟩
      have := hlen v hv
      rw [h0, t.root] at this
      simp at this
    · intro v hv
      obtain ⟨p, p1, p2⟩ := List.mem_map.1 hv
      rw [← p2]; exact k1 p p1
    · rintro v hv q c hq hlab (h | h)
      · subst h
        exact List.mem_map.2 ⟨(c, v), (hord _).mem_iff.2 ((t.edge 0 hq c v).2 ⟨hv, hlab⟩), rfl⟩
      · cases h
    · intro v hv q c hq hlab
      left
      have := hlen v hv
      rw [hlab, List.length_append, List.length_singleton] at this
      exact t.inj q 0 hq t.pos (by rw [t.root]; exact List.eq_nil_of_length_eq_zero (by omega))
    · exact pairwise_of_mem (fun a ha b hb => Nat.le_of_eq (by rw [hlen a ha, hlen b hb]))
    · intro a ha b hb
      rw [hlen a ha, hlen b hb]; omega
  obtain ⟨n2, k, D', w2, d1, d2, c⟩ := bfsC_cost t hτ hord N [] _ r1 B (by simp)
  refine ⟨⟨s.cont, n2⟩, k, D', ?_, d1, d2, by omega⟩
  unfold buildC
  rw [R.val 0 t.pos, Option.bind_some, w1, Option.bind_some, R.len]
  dsimp only
  rw [List.nil_append, w2]; rfl

/-! ### The total -/

open Classical in
/-- The length of the longest proper suffix of `w` in the trie. -/
noncomputable def ls (N : Nat) (lab : Nat → List α) (w : List α) : Nat := if h : ∃ u, IsLong N lab w.tail u then (lab h.choose).length else 0

theorem ls_eq {N : Nat} {lab : Nat → List α} {w : List α} {u : Nat} (h : IsLong N lab w.tail u) : ls N lab w = (lab u).length := by
  have he : ∃ u, IsLong N lab w.tail u := ⟨u, h⟩
  unfold ls
  rw [dif_pos he]
  have h2 := he.choose_spec
  exact Nat.le_antisymm (h.2.2 _ h2.1 h2.2.1) (h2.2.2 u h.1 h.2.1)

open Classical in
/-- What the node of `w` pays. -/
noncomputable def pay (N : Nat) (lab : Nat → List α) (w : List α) : Nat := if w.dropLast = [] then 0 else ls N lab w.dropLast + 2 - ls N lab w

theorem pays {N : Nat} {g : Nat → Nd α} {lab : Nat → List α} (t : Tr N g lab) : Pays N lab (pay N lab) := by
  intro h v c x y hh hh0 hv hl hx hy
  unfold pay
  have hd : (lab v).dropLast = lab h := by rw [hl]; simp
  rw [hd, if_neg (t.ne_nil hh hh0), ls_eq hx, ls_eq hy]
  omega

theorem sum_take {s : Ac α T} {N : Nat} {g : Nat → Nd α} {lab : Nat → List α} (B : Built s N g lab) {w : List α} (hw : ∃ u, u < N ∧ lab u = w) : ∀ i, i ≤ w.length →
    ((List.range (i + 1)).map (fun j => pay N lab (w.take j))).sum + ls N lab (w.take i) ≤ 2 * i := by
  have t := B.keys.tr
  -- every prefix is a node, with its link
  have hnode : ∀ i, ∃ u, u < N ∧ lab u = w.take i := by
    intro i
    obtain ⟨u, u1, u2⟩ := hw
    exact t.prefix u u1 _ (by rw [u2]; exact List.take_prefix i w)
  have hlong : ∀ i, ∃ x, IsLong N lab (w.take i).tail x := by
    intro i
    obtain ⟨u, u1, u2⟩ := hnode i
    rw [← u2]
    by_cases h0 : u = 0
    · rw [h0, t.root]
      exact ⟨0, root_long B⟩
    · obtain ⟨f, _, f2, _⟩ := B.link u1 h0
      exact ⟨f, f2⟩
  have hz : ∀ v : List α, v.length ≤ 1 → ls N lab v = 0 := by
    intro v hv
    have : v.tail = [] := List.eq_nil_of_length_eq_zero (by rw [List.length_tail]; omega)
    have h0 : IsLong N lab v.tail 0 := by rw [this]; exact root_long B
    rw [ls_eq h0, t.root]; rfl
  intro i
  induction i with
  | zero =>
    intro _
    have : ls N lab (w.take 0) = 0 := hz _ (by simp)
    rw [this]
    simp [pay]
  | succ i ih =>
    intro hi
    have ih := ih (by omega)
    rw [List.range_succ, List.map_append, List.sum_append, List.map_singleton, List.sum_singleton]
    have hd : (w.take (i + 1)).dropLast = w.take i := by
      rw [List.dropLast_eq_take, List.length_take, List.take_take]
      congr 1
      omega
    by_cases h0 : w.take i = []
    · have hi0 : i = 0 := by
        have := congrArg List.length h0
        rw [List.length_take, List.length_nil] at this
        omega
      have h1 : pay N lab (w.take (i + 1)) = 0 := by unfold pay; rw [hd, if_pos h0]
      have h2 : ls N lab (w.take (i + 1)) = 0 := hz _ (by rw [List.length_take]; omega)
      rw [h1, h2]
      omega
    · have h1 : pay N lab (w.take (i + 1)) = ls N lab (w.take i) + 2 - ls N lab (w.take (i + 1)) := by unfold pay; rw [hd, if_neg h0]
      obtain ⟨x, hx⟩ := hlong i
      obtain ⟨y, hy⟩ := hlong (i + 1)
      have h2 : ls N lab (w.take (i + 1)) ≤ ls N lab (w.take i) + 2 := by
        rw [ls_eq hx, ls_eq hy]
        by_cases y0 : y = 0
        · rw [y0, t.root]; exact Nat.zero_le _
        · obtain ⟨q, c, q1, q2⟩ := t.par y hy.1 (by omega)
          have h3 := hy.2.1
          rw [List.take_succ_eq_append_getElem (by omega), List.tail_append_of_ne_nil h0, q2] at h3
          have h4 := hx.2.2 q (by have := hy.1; omega) (by
            have := suffix_snoc_last h3
            rw [this] at h3
            exact suffix_snoc h3)
          rw [q2, List.length_append, List.length_singleton]
          omega
      rw [h1]
      omega

theorem sum_le_of_subperm {β : Type} (f : β → Nat) {l₁ l₂ : List β} (h : l₁.Subperm l₂) : (l₁.map f).sum ≤ (l₂.map f).sum := by
  obtain ⟨l, h1, h2⟩ := h
  rw [← (h1.map f).sum_eq]
  exact (h2.map f).sum_le_sum (fun _ _ => Nat.zero_le _)

/-- All nodes are prefixes of keys. -/
theorem sum_nodes {s : Ac α T} {N : Nat} {g : Nat → Nd α} {lab : Nat → List α} (K : Keys s N g lab) (f : List α → Nat) {D : List Nat} (hD : D.Nodup) (hlt : ∀ v ∈ D, v < N) :
    (D.map (fun v => f (lab v))).sum ≤ f [] + (s.cont.map (fun p => ((List.range (p.1.length + 1)).map (fun j => f (p.1.take j))).sum)).sum := by
  have hsub : (D.map lab).Subperm ([] :: s.cont.flatMap (fun p => (List.range (p.1.length + 1)).map (fun j => p.1.take j))) := by
    refine List.subperm_of_subset ?_ ?_
    · rw [List.nodup_map_iff_inj_on hD]
      intro x hx y hy h
      exact K.tr.inj x y (hlt x hx) (hlt y hy) h
    · intro x hx
      obtain ⟨v, v1, v2⟩ := List.mem_map.1 hx
      rcases (K.labs x).mp ⟨v, hlt v v1, v2⟩ with h | ⟨p, hp, h⟩
      · rw [h]; exact List.mem_cons_self
      · refine List.mem_cons_of_mem _ (List.mem_flatMap.mpr ⟨p, hp, List.mem_map.mpr ⟨x.length, ?_, ?_⟩⟩)
        · rw [List.mem_range]; have := h.length_le; omega
        · exact (List.prefix_iff_eq_take.mp h).symm
  have := sum_le_of_subperm f hsub
  rw [List.map_map, List.map_cons, List.sum_cons] at this
  refine Nat.le_trans this (Nat.le_of_eq ?_)
  congr 1
  clear this hsub
  induction s.cont with
  | nil => rfl
  | cons p l ih =>
    rw [List.flatMap_cons, List.map_append, List.sum_append, ih, List.map_cons, List.sum_cons, List.map_map]
    rfl

end Verif.AcMachine
