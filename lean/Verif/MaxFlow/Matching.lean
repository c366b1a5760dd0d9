import Verif.MaxFlow.Props
import Mathlib.Data.List.Perm.Subperm
/-!
C61: `Matching` (max_flow.hpp:133-159), bipartite matching on top of `Dinic`.
-/
namespace Verif.MaxFlow
open Finset

/-! ### Model -/

/-- max_flow.hpp:136-141 (constructor): vertices `0..n-1` on the left, `n..n+m-1` on the right, source `n+m`, sink `n+m+1`. -/
def mkMatching (n m : Nat) : List Op :=
  (List.range n).map (fun i => Op.add (n + m) i 1) ++ (List.range m).map (fun i => Op.add (i + n) (n + m + 1) 1)

/-- :142-144 (`add_edge`) -/
def matchEdge (n : Nat) (p : Nat × Nat) : Op := Op.add p.1 (p.2 + n) 1

/-- :151-155: the matched edges of one left vertex. -/
def matchRow (n s i : Nat) (row : List FlowPath) : List (Nat × Nat) :=
  (row.filter (fun e => decide (n ≤ e.t ∧ e.t < s ∧ e.cap = 0))).map (fun e => (i, e.t - n))

/-- :148-158 (`matches`): the loop over the left vertices. -/
def matchesFrom (n s : Nat) (g : G) : Nat → Nat → Option (List (Nat × Nat))
  | 0, _ => some []
  | k+1, i => (g[i]?).bind (fun row => (matchesFrom n s g k (i+1)).map (fun l => matchRow n s i row ++ l))

/-- A client: construct, add the edges, call `flow()` (:145-147) and `matches()`. -/
def matching (fuel n m : Nat) (E : List (Nat × Nat)) : Option (List Nat × List (Nat × Nat)) :=
  (run dFlow fuel (n + m) (n + m + 1) (List.replicate (n + m + 2) []) (mkMatching n m ++ E.map (matchEdge n) ++ [.flow (2^63 - 1)])).bind (fun p =>
    (matchesFrom n (n + m) p.1 n 0).map (fun l => (p.2, l)))

/-! ### Specification -/

/-- `M` is a matching in the bipartite graph with edges `E`. -/
def IsMatching (E M : List (Nat × Nat)) : Prop := (∀ p ∈ M, p ∈ E) ∧ (M.map Prod.fst).Nodup ∧ (M.map Prod.snd).Nodup

/-! ### Proofs -/

theorem sum_arc (es : List Arc) (f : Arc → Nat) : ∑ k ∈ range es.length, f (arc es k) = (es.map f).sum := by
  induction es using List.reverseRecOn with
  | nil => simp
  | append_singleton es e ih =>
    rw [List.length_append, List.length_singleton, Finset.sum_range_succ, arc_append_eq, List.map_append, List.sum_append, ← ih]
    simp only [List.map_cons, List.map_nil, List.sum_singleton]
    congr 1
    exact Finset.sum_congr rfl (fun k hk => by rw [arc_append_lt _ _ (Finset.mem_range.1 hk)])

theorem countP_card {α : Type} (P : α → Bool) (l : List α) : l.countP P = ((range l.length).filter (fun j => (l[j]?).any P)).card := by
  induction l using List.reverseRecOn with
  | nil => simp
  | append_singleton l e ih =>
    rw [List.countP_append, List.length_append, List.length_singleton, Finset.range_add_one, Finset.filter_insert, ih]
    have h : (range l.length).filter (fun j => ((l ++ [e])[j]?).any P) = (range l.length).filter (fun j => (l[j]?).any P) := by
      refine Finset.filter_congr (fun j hj => ?_)
      rw [List.getElem?_append_left (Finset.mem_range.1 hj)]
    rw [h]
    have he : (l ++ [e])[l.length]? = some e := by simp
    rw [he]
    cases hP : P e with
    | true => simp [hP]
    | false => simp [hP]

/-- Counting the arcs of a vertex. -/
theorem Rp.countP {n : Nat} {es : List Arc} {pf pr φ : Nat → Nat} {g : G} (R : Rp n es pf pr φ g) {u : Nat} {row : List FlowPath} (hrow : g[u]? = some row)
    (P : FlowPath → Bool) : row.countP P = ((range es.length).filter (fun k => (arc es k).a = u ∧ P ⟨(arc es k).b, (arc es k).c - φ k, pr k⟩ = true)).card +
      ((range es.length).filter (fun k => (arc es k).b = u ∧ P ⟨(arc es k).a, φ k, pf k⟩ = true)).card := by
  have hget : ∀ j, getE g u j = row[j]? := by intro j; unfold getE rd2; rw [hrow, Option.bind_some]
  rw [countP_card]
  rw [← Finset.card_image_of_injOn (f := pf) (s := (range es.length).filter (fun k => (arc es k).a = u ∧ P ⟨(arc es k).b, (arc es k).c - φ k, pr k⟩ = true)),
    ← Finset.card_image_of_injOn (f := pr) (s := (range es.length).filter (fun k => (arc es k).b = u ∧ P ⟨(arc es k).a, φ k, pf k⟩ = true)),
    ← Finset.card_union_of_disjoint]
  · congr 1
    ext j
    simp only [Finset.mem_union, Finset.mem_image, Finset.mem_filter, Finset.mem_range]
    constructor
    · rintro ⟨hj, hP⟩
      rw [List.getElem?_eq_getElem hj] at hP
      have hE : getE g u j = some row[j] := by rw [hget, List.getElem?_eq_getElem hj]
      obtain ⟨k, hk, ⟨h1, h2⟩ | ⟨h1, h2⟩⟩ := R.all u j _ hE
      · left
        refine ⟨k, ⟨hk, h1.symm, ?_⟩, h2.symm⟩
        have := R.fw k hk
        rw [← h1, ← h2, hE] at this
        rw [← Option.some.inj this]; simpa using hP
      · right
        refine ⟨k, ⟨hk, h1.symm, ?_⟩, h2.symm⟩
        have := R.bw k hk
        rw [← h1, ← h2, hE] at this
        rw [← Option.some.inj this]; simpa using hP
    · rintro (⟨k, ⟨hk, h1, hP⟩, rfl⟩ | ⟨k, ⟨hk, h1, hP⟩, rfl⟩)
      · have := R.fw k hk
        rw [h1, hget] at this
        refine ⟨(List.getElem?_eq_some_iff.1 this).1, ?_⟩
        rw [this]; simpa using hP
      · have := R.bw k hk
        rw [h1, hget] at this
        refine ⟨(List.getElem?_eq_some_iff.1 this).1, ?_⟩
        rw [this]; simpa using hP
  · rw [Finset.disjoint_left]
    intro j h1 h2
    simp only [Finset.mem_image, Finset.mem_filter, Finset.mem_range] at h1 h2
    obtain ⟨k, ⟨hk, ha, _⟩, rfl⟩ := h1
    obtain ⟨l, ⟨hl, hb, _⟩, h⟩ := h2
    exact R.ifr k hk l hl (ha.trans hb.symm) h.symm
  · intro k hk l hl h
    simp only [Finset.coe_filter, Set.mem_setOf_eq, Finset.mem_range] at hk hl
    exact R.irr k hk.1 l hl.1 (hk.2.1.trans hl.2.1.symm) h
  · intro k hk l hl h
    simp only [Finset.coe_filter, Set.mem_setOf_eq, Finset.mem_range] at hk hl
    exact R.iff k hk.1 l hl.1 (hk.2.1.trans hl.2.1.symm) h


/-- The network of a bipartite graph. -/
def mes (n m : Nat) (E : List (Nat × Nat)) : List Arc :=
  (List.range n).map (fun i => ⟨n + m, i, 1⟩) ++ (List.range m).map (fun i => ⟨i + n, n + m + 1, 1⟩) ++ E.map (fun p => ⟨p.1, p.2 + n, 1⟩)

theorem mes_adds (n m : Nat) (E : List (Nat × Nat)) : adds (mes n m E) = mkMatching n m ++ E.map (matchEdge n) := by
  simp [adds, mes, mkMatching, matchEdge, Function.comp_def]

theorem mes_length (n m : Nat) (E : List (Nat × Nat)) : (mes n m E).length = n + m + E.length := by simp [mes, Nat.add_assoc]

theorem mes_left {n m : Nat} (E : List (Nat × Nat)) {k : Nat} (h : k < n) : arc (mes n m E) k = ⟨n + m, k, 1⟩ := by
  unfold arc mes
  rw [List.getD_eq_getElem?_getD, List.append_assoc, List.getElem?_append_left (by simpa using h)]
  simp [h]

theorem mes_right {n m : Nat} (E : List (Nat × Nat)) {k : Nat} (h : k < m) : arc (mes n m E) (k + n) = ⟨k + n, n + m + 1, 1⟩ := by
  unfold arc mes
  rw [List.getD_eq_getElem?_getD, List.append_assoc, List.getElem?_append_right (by simp), List.getElem?_append_left (by simpa using h)]
  simp [h]

theorem mes_user {n m : Nat} (E : List (Nat × Nat)) {k : Nat} {p : Nat × Nat} (h : E[k]? = some p) : arc (mes n m E) (k + n + m) = ⟨p.1, p.2 + n, 1⟩ := by
  unfold arc mes
  rw [List.getD_eq_getElem?_getD, List.getElem?_append_right (by simp [Nat.add_assoc])]
  have : k + n + m - ((List.range n).map (fun i => (⟨n + m, i, 1⟩ : Arc)) ++ (List.range m).map (fun i => (⟨i + n, n + m + 1, 1⟩ : Arc))).length = k := by simp; omega
  rw [this, List.getElem?_map, h]
  rfl

/-- The three kinds of edges. -/
theorem mes_cases {n m : Nat} {E : List (Nat × Nat)} {k : Nat} (h : k < (mes n m E).length) :
    (k < n ∧ arc (mes n m E) k = ⟨n + m, k, 1⟩) ∨ (n ≤ k ∧ k < n + m ∧ arc (mes n m E) k = ⟨k, n + m + 1, 1⟩) ∨
      ∃ p ∈ E, n + m ≤ k ∧ arc (mes n m E) k = ⟨p.1, p.2 + n, 1⟩ := by
  rw [mes_length] at h
  by_cases h1 : k < n
  · exact Or.inl ⟨h1, mes_left E h1⟩
  · by_cases h2 : k < n + m
    · right; left
      have := mes_right (n := n) (m := m) E (k := k - n) (by omega)
      rw [show k - n + n = k by omega] at this
      exact ⟨by omega, h2, this⟩
    · right; right
      have hk : k - (n + m) < E.length := by omega
      have := mes_user (n := n) (m := m) E (k := k - (n + m)) (List.getElem?_eq_getElem hk)
      rw [show k - (n + m) + n + m = k by omega] at this
      exact ⟨_, List.getElem_mem hk, by omega, this⟩

theorem mes_c {n m : Nat} {E : List (Nat × Nat)} {k : Nat} (h : k < (mes n m E).length) : (arc (mes n m E) k).c = 1 := by
  rcases mes_cases h with ⟨_, e⟩ | ⟨_, _, e⟩ | ⟨p, _, _, e⟩ <;> rw [e]

theorem list_sum_range (f : Nat → Nat) (n : Nat) : ((List.range n).map f).sum = ∑ i ∈ range n, f i := by
  induction n with
  | zero => simp
  | succ n ih => rw [List.range_succ, List.map_append, List.sum_append, ih, Finset.sum_range_succ]; simp

theorem matchesFrom_eq {n s : Nat} {g : G} : ∀ k i, i + k ≤ g.length →
    matchesFrom n s g k i = some ((List.range' i k).flatMap (fun i => matchRow n s i (g.getD i []))) := by
  intro k
  induction k with
  | zero => intro i _; rfl
  | succ k ih =>
    intro i h
    unfold matchesFrom
    have hi : i < g.length := by omega
    rw [List.getElem?_eq_getElem hi, Option.bind_some, ih (i+1) (by omega), List.range'_succ, List.flatMap_cons]
    simp [List.getD_eq_getElem?_getD, List.getElem?_eq_getElem hi]

section
variable {n m r : Nat} {E : List (Nat × Nat)} {pf pr φ : Nat → Nat} {g : G}

/-- The matched edges. -/
def mlist (n m : Nat) (g : G) : List (Nat × Nat) := (List.range n).flatMap (fun i => matchRow n (n + m) i (g.getD i []))

theorem phi_le (h : IsFlow (mes n m E) (n + m) (n + m + 1) φ r) {k : Nat} (hk : k < (mes n m E).length) : φ k ≤ 1 := by
  have := h.cap k hk
  rwa [mes_c hk] at this

/-- Counting matched edges at a left vertex. -/
theorem row_count (hE : ∀ p ∈ E, p.1 < n ∧ p.2 < m) (R : Rp (n + m + 2) (mes n m E) pf pr φ g) (h : IsFlow (mes n m E) (n + m) (n + m + 1) φ r) {i : Nat} (hi : i < n)
    (q : Nat → Bool) : (g.getD i []).countP (fun e => decide (n ≤ e.t ∧ e.t < n + m ∧ e.cap = 0) && q e.t) =
      ∑ k ∈ range (mes n m E).length, if (arc (mes n m E) k).a = i ∧ q (arc (mes n m E) k).b = true then φ k else 0 := by
  have hig : i < g.length := by rw [R.len]; omega
  have hrow : g[i]? = some (g.getD i []) := by simp [List.getD_eq_getElem?_getD, List.getElem?_eq_getElem hig]
  rw [R.countP hrow, Finset.card_filter, Finset.card_filter]
  have h2 : (∑ k ∈ range (mes n m E).length, if (arc (mes n m E) k).b = i ∧
      (decide (n ≤ (arc (mes n m E) k).a ∧ (arc (mes n m E) k).a < n + m ∧ φ k = 0) && q (arc (mes n m E) k).a) = true then 1 else 0) = 0 := by
    refine Finset.sum_eq_zero (fun k hk => ?_)
    rw [if_neg]
    rintro ⟨h1, h2⟩
    rcases mes_cases (Finset.mem_range.1 hk) with ⟨_, e⟩ | ⟨_, _, e⟩ | ⟨p, hp, _, e⟩ <;> rw [e] at h1 h2 <;> simp at h1 h2
    all_goals omega
  dsimp only
  rw [h2, Nat.add_zero]
  refine Finset.sum_congr rfl (fun k hk => ?_)
  have hk := Finset.mem_range.1 hk
  have hphi := phi_le h hk
  rw [mes_c hk]
  by_cases ha : (arc (mes n m E) k).a = i
  · have hb : n ≤ (arc (mes n m E) k).b ∧ (arc (mes n m E) k).b < n + m := by
      rcases mes_cases hk with ⟨_, e⟩ | ⟨_, _, e⟩ | ⟨p, hp, _, e⟩ <;> rw [e] at ha ⊢ <;> dsimp only at ha ⊢
      · omega
      · omega
      · have := hE p hp; omega
    cases hq : q (arc (mes n m E) k).b with
    | false => simp
    | true =>
      simp only [ha, hb, true_and, Bool.and_true, decide_eq_true_eq]
      split_ifs <;> omega
  · simp [ha]

theorem net_eq (h : IsFlow (mes n m E) (n + m) (n + m + 1) φ r) {u : Nat} (h1 : u ≠ n + m) (h2 : u ≠ n + m + 1) :
    (∑ k ∈ range (mes n m E).length, if (arc (mes n m E) k).a = u then φ k else 0) =
      ∑ k ∈ range (mes n m E).length, if (arc (mes n m E) k).b = u then φ k else 0 := by
  have := h.cons u h1 h2
  unfold net at this
  rw [sub_eq_zero] at this
  exact_mod_cast this

/-- Flow out of a left vertex. -/
theorem out_left (hE : ∀ p ∈ E, p.1 < n ∧ p.2 < m) (h : IsFlow (mes n m E) (n + m) (n + m + 1) φ r) {i : Nat} (hi : i < n) :
    (∑ k ∈ range (mes n m E).length, if (arc (mes n m E) k).a = i then φ k else 0) = φ i := by
  rw [net_eq h (by omega) (by omega), Finset.sum_eq_single i]
  · rw [mes_left E hi, if_pos rfl]
  · intro k hk hki
    rw [if_neg]
    rcases mes_cases (Finset.mem_range.1 hk) with ⟨_, e⟩ | ⟨_, _, e⟩ | ⟨p, hp, _, e⟩ <;> rw [e] <;> dsimp only
    all_goals omega
  · intro hn
    exact absurd (Finset.mem_range.2 (by rw [mes_length]; omega)) hn

/-- Flow into a right vertex. -/
theorem in_right (hE : ∀ p ∈ E, p.1 < n ∧ p.2 < m) (h : IsFlow (mes n m E) (n + m) (n + m + 1) φ r) {j : Nat} (hj : j < m) :
    (∑ k ∈ range (mes n m E).length, if (arc (mes n m E) k).b = j + n then φ k else 0) = φ (j + n) := by
  rw [← net_eq h (by omega) (by omega), Finset.sum_eq_single (j + n)]
  · rw [mes_right E hj, if_pos rfl]
  · intro k hk hki
    rw [if_neg]
    rcases mes_cases (Finset.mem_range.1 hk) with ⟨_, e⟩ | ⟨_, _, e⟩ | ⟨p, hp, _, e⟩ <;> rw [e] <;> dsimp only
    · omega
    · omega
    · have := hE p hp; omega
  · intro hn
    exact absurd (Finset.mem_range.2 (by rw [mes_length]; omega)) hn

theorem flow_val (hE : ∀ p ∈ E, p.1 < n ∧ p.2 < m) (h : IsFlow (mes n m E) (n + m) (n + m + 1) φ r) : r = ∑ i ∈ range n, φ i := by
  have hv := h.val
  unfold net at hv
  have h0 : (∑ k ∈ range (mes n m E).length, if (arc (mes n m E) k).b = n + m then (φ k : Int) else 0) = 0 := by
    refine Finset.sum_eq_zero (fun k hk => ?_)
    rw [if_neg]
    rcases mes_cases (Finset.mem_range.1 hk) with ⟨_, e⟩ | ⟨_, _, e⟩ | ⟨p, hp, _, e⟩ <;> rw [e] <;> dsimp only
    · omega
    · omega
    · have := hE p hp; omega
  have h1 : (∑ k ∈ range (mes n m E).length, if (arc (mes n m E) k).a = n + m then (φ k : Int) else 0) = ∑ i ∈ range n, (φ i : Int) := by
    rw [← Finset.sum_subset (s₁ := range n)]
    · refine Finset.sum_congr rfl (fun k hk => ?_)
      rw [mes_left E (Finset.mem_range.1 hk), if_pos rfl]
    · intro k hk
      have := Finset.mem_range.1 hk
      exact Finset.mem_range.2 (by rw [mes_length]; omega)
    · intro k hk hkn
      rw [Finset.mem_range] at hkn
      rw [if_neg]
      rcases mes_cases (Finset.mem_range.1 hk) with ⟨_, e⟩ | ⟨_, _, e⟩ | ⟨p, hp, _, e⟩ <;> rw [e] <;> dsimp only
      · omega
      · omega
      · have := hE p hp; omega
  rw [h0, h1, sub_zero] at hv
  exact_mod_cast hv.symm

theorem row_len (hE : ∀ p ∈ E, p.1 < n ∧ p.2 < m) (R : Rp (n + m + 2) (mes n m E) pf pr φ g) (h : IsFlow (mes n m E) (n + m) (n + m + 1) φ r) {i : Nat} (hi : i < n) :
    (matchRow n (n + m) i (g.getD i [])).length = φ i := by
  unfold matchRow
  rw [List.length_map, ← List.countP_eq_length_filter]
  have := row_count hE R h hi (fun _ => true)
  simp only [Bool.and_true, and_true] at this
  rw [this, out_left hE h hi]

theorem mlist_length (hE : ∀ p ∈ E, p.1 < n ∧ p.2 < m) (R : Rp (n + m + 2) (mes n m E) pf pr φ g) (h : IsFlow (mes n m E) (n + m) (n + m + 1) φ r) :
    (mlist n m g).length = r := by
  unfold mlist
  rw [List.length_flatMap, flow_val hE h, ← list_sum_range]
  congr 1
  refine List.map_congr_left (fun i hi => ?_)
  exact row_len hE R h (List.mem_range.1 hi)

theorem count_fst (i x : Nat) (row : List FlowPath) (s : Nat) : ((matchRow n s i row).map Prod.fst).count x = if i = x then (matchRow n s i row).length else 0 := by
  have : (matchRow n s i row).map Prod.fst = List.replicate (matchRow n s i row).length i := by
    unfold matchRow
    rw [List.map_map, List.length_map]
    exact List.map_const'
  rw [this, List.count_replicate]
  simp

theorem mlist_fst (hE : ∀ p ∈ E, p.1 < n ∧ p.2 < m) (R : Rp (n + m + 2) (mes n m E) pf pr φ g) (h : IsFlow (mes n m E) (n + m) (n + m + 1) φ r) :
    ((mlist n m g).map Prod.fst).Nodup := by
  rw [List.nodup_iff_count_le_one]
  intro x
  unfold mlist
  rw [List.map_flatMap, List.count_flatMap, Function.comp_def, list_sum_range]
  simp only [count_fst]
  by_cases hx : x < n
  · rw [Finset.sum_ite_eq' (range n) x, if_pos (Finset.mem_range.2 hx), row_len hE R h hx]
    exact phi_le h (by rw [mes_length]; omega)
  · rw [Finset.sum_eq_zero]
    · omega
    · intro i hi
      have := Finset.mem_range.1 hi
      rw [if_neg (by omega)]

theorem count_snd (hE : ∀ p ∈ E, p.1 < n ∧ p.2 < m) (R : Rp (n + m + 2) (mes n m E) pf pr φ g) (h : IsFlow (mes n m E) (n + m) (n + m + 1) φ r) {i : Nat} (hi : i < n)
    (y : Nat) : ((matchRow n (n + m) i (g.getD i [])).map Prod.snd).count y =
      ∑ k ∈ range (mes n m E).length, if (arc (mes n m E) k).a = i ∧ (arc (mes n m E) k).b - n = y then φ k else 0 := by
  have := row_count hE R h hi (fun t => decide (t - n = y))
  simp only [decide_eq_true_eq] at this
  rw [← this]
  unfold matchRow
  rw [List.map_map, List.count, List.countP_map, List.countP_filter]
  apply List.countP_congr
  intro e _
  simp [and_comm]

theorem mlist_snd (hE : ∀ p ∈ E, p.1 < n ∧ p.2 < m) (R : Rp (n + m + 2) (mes n m E) pf pr φ g) (h : IsFlow (mes n m E) (n + m) (n + m + 1) φ r) :
    ((mlist n m g).map Prod.snd).Nodup := by
  rw [List.nodup_iff_count_le_one]
  intro y
  unfold mlist
  rw [List.map_flatMap, List.count_flatMap, Function.comp_def, list_sum_range]
  rw [Finset.sum_congr rfl (fun i hi => count_snd hE R h (Finset.mem_range.1 hi) y), Finset.sum_comm]
  have hb : ∀ k ∈ range (mes n m E).length, (∑ i ∈ range n, if (arc (mes n m E) k).a = i ∧ (arc (mes n m E) k).b - n = y then φ k else 0) ≤
      if (arc (mes n m E) k).b = y + n ∧ y < m then φ k else 0 := by
    intro k hk
    have hk := Finset.mem_range.1 hk
    by_cases hy : (arc (mes n m E) k).b - n = y
    · simp only [hy, and_true]
      rw [Finset.sum_ite_eq]
      by_cases ha : (arc (mes n m E) k).a ∈ range n
      · rw [if_pos ha]
        have ha := Finset.mem_range.1 ha
        rw [if_pos]
        rcases mes_cases hk with ⟨_, e⟩ | ⟨_, _, e⟩ | ⟨p, hp, _, e⟩ <;> rw [e] at ha hy ⊢ <;> dsimp only at ha hy ⊢
        · omega
        · omega
        · have := hE p hp; omega
      · rw [if_neg ha]; exact Nat.zero_le _
    · simp only [hy, and_false, if_false, Finset.sum_const_zero]
      exact Nat.zero_le _
  refine (Finset.sum_le_sum hb).trans ?_
  by_cases hy : y < m
  · simp only [hy, and_true]
    rw [in_right hE h hy]
    exact phi_le h (by rw [mes_length]; omega)
  · simp [hy]

theorem mlist_mem (hE : ∀ p ∈ E, p.1 < n ∧ p.2 < m) (R : Rp (n + m + 2) (mes n m E) pf pr φ g) : ∀ p ∈ mlist n m g, p ∈ E := by
  intro p hp
  unfold mlist at hp
  obtain ⟨i, hi, hp⟩ := List.mem_flatMap.1 hp
  have hi := List.mem_range.1 hi
  unfold matchRow at hp
  obtain ⟨e, he, rfl⟩ := List.mem_map.1 hp
  obtain ⟨he, hP⟩ := List.mem_filter.1 he
  rw [decide_eq_true_eq] at hP
  obtain ⟨j, hj⟩ := List.mem_iff_getElem?.1 he
  have hig : i < g.length := by rw [R.len]; omega
  have hget : getE g i j = some e := by
    unfold getE rd2
    rw [List.getElem?_eq_getElem hig, Option.bind_some]
    simpa [List.getD_eq_getElem?_getD, List.getElem?_eq_getElem hig] using hj
  obtain ⟨k, hk, ⟨h1, h2⟩ | ⟨h1, h2⟩⟩ := R.all i j e hget
  · have := R.fw k hk
    rw [← h1, ← h2, hget] at this
    have := Option.some.inj this
    rcases mes_cases hk with ⟨_, e'⟩ | ⟨_, _, e'⟩ | ⟨p, hp, _, e'⟩ <;> rw [e'] at this h1 <;> dsimp only at this h1
    · omega
    · omega
    · rw [this, h1]
      simpa using hp
  · have := R.bw k hk
    rw [← h1, ← h2, hget] at this
    have := Option.some.inj this
    rw [this] at hP
    rcases mes_cases hk with ⟨_, e'⟩ | ⟨_, _, e'⟩ | ⟨p, hp, _, e'⟩ <;> rw [e'] at hP h1 <;> dsimp only at hP h1
    all_goals omega

end

theorem sum_le_of_subperm {α : Type} {l k : List α} (h : l.Subperm k) (f : α → Nat) : (l.map f).sum ≤ (k.map f).sum := by
  obtain ⟨l', hp, hs⟩ := h
  rw [← (hp.map f).sum_eq]
  exact (hs.map f).sum_le_sum (fun _ _ => Nat.zero_le _)

/-- Every matching is at most as large as every cut. -/
theorem matching_le_cut {n m : Nat} {E M : List (Nat × Nat)} (hE : ∀ p ∈ E, p.1 < n ∧ p.2 < m) (hM : IsMatching E M) (X : Nat → Bool) (hs : X (n + m) = true)
    (ht : X (n + m + 1) = false) : M.length ≤ cutCap (mes n m E) (fun v => X v = true) := by
  unfold cutCap
  have hsplit := sum_arc (mes n m E) (fun e => if X e.a = true ∧ ¬ X e.b = true then e.c else 0)
  rw [hsplit]
  unfold mes
  rw [List.map_append, List.map_append, List.sum_append, List.sum_append, List.map_map, List.map_map, List.map_map]
  have h1 : (M.map (fun p => if X p.1 = true then 0 else 1)).sum ≤ ((List.range n).map ((fun e => if X e.a = true ∧ ¬ X e.b = true then e.c else 0) ∘ fun i => (⟨n + m, i, 1⟩ : Arc))).sum := by
    have := sum_le_of_subperm (List.subperm_of_subset hM.2.1 (l₂ := List.range n) (fun x hx => by
      obtain ⟨p, hp, rfl⟩ := List.mem_map.1 hx
      exact List.mem_range.2 (hE p (hM.1 p hp)).1)) (fun i => if X i = true then 0 else 1)
    rw [List.map_map] at this
    refine le_trans (le_of_eq rfl) (this.trans (le_of_eq ?_))
    congr 1
    refine List.map_congr_left (fun i _ => ?_)
    simp only [Function.comp, hs, true_and]
    cases X i <;> simp
  have h2 : (M.map (fun p => if X (p.2 + n) = true then 1 else 0)).sum ≤
      ((List.range m).map ((fun e => if X e.a = true ∧ ¬ X e.b = true then e.c else 0) ∘ fun i => (⟨i + n, n + m + 1, 1⟩ : Arc))).sum := by
    have := sum_le_of_subperm (List.subperm_of_subset hM.2.2 (l₂ := List.range m) (fun x hx => by
      obtain ⟨p, hp, rfl⟩ := List.mem_map.1 hx
      exact List.mem_range.2 (hE p (hM.1 p hp)).2)) (fun i => if X (i + n) = true then 1 else 0)
    rw [List.map_map] at this
    refine le_trans (le_of_eq rfl) (this.trans (le_of_eq ?_))
    congr 1
    refine List.map_congr_left (fun i _ => ?_)
    simp [ht]
  have h3 : (M.map (fun p => if X p.1 = true ∧ ¬ X (p.2 + n) = true then 1 else 0)).sum ≤
      (E.map ((fun e => if X e.a = true ∧ ¬ X e.b = true then e.c else 0) ∘ fun p => (⟨p.1, p.2 + n, 1⟩ : Arc))).sum := by
    have hnd : M.Nodup := List.Nodup.of_map _ hM.2.1
    exact sum_le_of_subperm (List.subperm_of_subset hnd hM.1) (fun p => if X p.1 = true ∧ ¬ X (p.2 + n) = true then 1 else 0)
  refine le_trans ?_ (Nat.add_le_add (Nat.add_le_add h1 h2) h3)
  clear h1 h2 h3 hM hsplit
  induction M with
  | nil => simp
  | cons p M ih =>
    simp only [List.map_cons, List.sum_cons, List.length_cons]
    have : 1 ≤ (if X p.1 = true then 0 else 1) + (if X (p.2 + n) = true then 1 else 0) + (if X p.1 = true ∧ ¬ X (p.2 + n) = true then 1 else 0) := by
      by_cases a : X p.1 = true <;> by_cases b : X (p.2 + n) = true <;> simp [a, b]
    omega

theorem mes_total (n m : Nat) (E : List (Nat × Nat)) : total (mes n m E) = n + m + E.length := by
  unfold total
  rw [Finset.sum_congr rfl (fun k hk => mes_c (Finset.mem_range.1 hk)), Finset.sum_const, Finset.card_range, mes_length]
  simp

/-- **C61**: for every bipartite graph, `flow()` returns the size of a maximum matching and `matches()` afterwards lists the pairs of one. -/
theorem C61 {n m fuel : Nat} (E : List (Nat × Nat)) (hE : ∀ p ∈ E, p.1 < n ∧ p.2 < m) (hn : n + m + 2 < 2^31 - 1) (hI : n + m + E.length ≤ 2^63 - 1)
    (hf : n + m + E.length < fuel) :
    ∃ r M, matching fuel n m E = some ([r], M) ∧ IsMatching E M ∧ M.length = r ∧ ∀ M', IsMatching E M' → M'.length ≤ r := by
  have hv : Valid (n + m + 2) (mes n m E) := by
    intro e he
    unfold mes at he
    rw [List.mem_append, List.mem_append] at he
    rcases he with (he | he) | he
    · obtain ⟨i, hi, rfl⟩ := List.mem_map.1 he
      have := List.mem_range.1 hi
      refine ⟨?_, ?_, ?_⟩ <;> dsimp only <;> omega
    · obtain ⟨i, hi, rfl⟩ := List.mem_map.1 he
      have := List.mem_range.1 hi
      refine ⟨?_, ?_, ?_⟩ <;> dsimp only <;> omega
    · obtain ⟨p, hp, rfl⟩ := List.mem_map.1 he
      have := hE p hp
      refine ⟨?_, ?_, ?_⟩ <;> dsimp only <;> omega
  obtain ⟨g, r, φ, h1, ⟨pf, pr, R⟩, h3, h4, X, x1, x2, x3⟩ := C36_dinic (n := n + m + 2) (s := n + m) (t := n + m + 1) (fuel := fuel) (mes n m E) (by omega) (by omega) (by omega)
    hn hv (by rw [mes_total]; exact hI) (by rw [mes_total]; exact hf)
  rw [mes_adds] at h1
  refine ⟨r, mlist n m g, ?_, ⟨mlist_mem hE R, mlist_fst hE R h3, mlist_snd hE R h3⟩, mlist_length hE R h3, ?_⟩
  · unfold matching
    rw [h1, Option.bind_some]
    dsimp only
    rw [matchesFrom_eq n 0 (by rw [R.len]; omega), ← List.range_eq_range']
    rfl
  · intro M' hM'
    rw [x3]
    exact matching_le_cut hE hM' X x1 x2

example : matching 20 3 3 [(0, 0), (0, 1), (1, 0), (2, 1), (2, 2)] = some ([3], [(0, 1), (1, 0), (2, 2)]) := by decide +kernel
example : ∀ p ∈ [(0, 0), (0, 1), (1, 0), (2, 1), (2, 2)], p.1 < 3 ∧ p.2 < 3 := by decide

end Verif.MaxFlow
