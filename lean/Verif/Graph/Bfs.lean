import Verif.Graph.Basic
/-!
# C34: breadth-first search
-/
namespace Verif.Graph
open Finset

/-- Value stored in `dist`. -/
def enc (inf : Int) : Option Nat → Int
  | none => inf
  | some k => k

/-- Vertices not reached yet. -/
def unseen (n : Nat) (D : Nat → Option Nat) : Finset Nat := (range n).filter (fun v => D v = none)

/-- Invariant while the neighbours of `c` at distance `d` are scanned; `q` is the rest of the queue. -/
structure Scan (n : Nat) (E : List (Nat × Nat)) (s : Nat) (D : Nat → Option Nat) (q : List Nat) (c d : Nat) : Prop where
  src : D s = some 0
  walk : ∀ v k, D v = some k → v < n ∧ Walk E s v k
  level : ∀ v k, D v = some k → ∀ i, i ≤ k → ∃ u, u < n ∧ D u = some i
  cur : D c = some d
  bound : ∀ v k, D v = some k → k ≤ d + 1
  queue : ∀ v ∈ q, ∃ k, D v = some k ∧ d ≤ k
  sorted : q.Pairwise (fun a b => ∀ i j, D a = some i → D b = some j → i ≤ j)
  closed : ∀ v k, D v = some k → v ∉ q → v ≠ c → ∀ w, (v, w) ∈ E → ∃ j, D w = some j ∧ j ≤ k + 1

theorem level_bound {n : Nat} {D : Nat → Option Nat} {k t : Nat} (hl : ∀ i, i ≤ k → ∃ u, u < n ∧ D u = some i) (ht : t < n) (hD : D t = none) : k + 2 ≤ n := by
  have hsub : insert none ((range (k+1)).image some) ⊆ (range n).image D := by
    intro x hx
    rw [Finset.mem_insert, Finset.mem_image] at hx
    rw [Finset.mem_image]
    rcases hx with rfl | ⟨i, hi, rfl⟩
    · exact ⟨t, Finset.mem_range.2 ht, hD⟩
    · obtain ⟨u, hu, h⟩ := hl i (by have := Finset.mem_range.1 hi; omega)
      exact ⟨u, Finset.mem_range.2 hu, h⟩
  have h1 := Finset.card_le_card hsub
  have h2 := Finset.card_image_le (s := range n) (f := D)
  rw [Finset.card_insert_of_notMem (by simp), Finset.card_image_of_injective _ (fun a b h => Option.some.inj h), Finset.card_range] at h1
  rw [Finset.card_range] at h2
  omega

theorem relax_ok {n : Nat} {E : List (Nat × Nat)} {s : Nat} {inf : Int} (hinf : (n : Int) ≤ inf) {D : Nat → Option Nat} {q : List Nat} {c d : Nat}
    {L : List Int} (hL : Rep L n (fun v => enc inf (D v))) (h : Scan n E s D q c d) {t : Nat} (ht : t < n) (hct : (c, t) ∈ E) :
    ∃ L' q' D', relax d t (L, q) = some (L', q') ∧ Rep L' n (fun v => enc inf (D' v)) ∧ Scan n E s D' q' c d ∧
      (∀ v k, D v = some k → D' v = some k) ∧ (∃ j, D' t = some j ∧ j ≤ d + 1) ∧ q'.length + (unseen n D').card = q.length + (unseen n D).card := by
  unfold relax
  dsimp only
  rw [hL.val t ht, Option.bind_some]
  cases hDt : D t with
  | some j =>
    have hj := h.bound t j hDt
    refine ⟨L, q, D, ?_, hL, h, fun _ _ h => h, ⟨j, hDt, hj⟩, rfl⟩
    rw [if_pos (by unfold enc; dsimp only; omega)]
  | none =>
    have hlb := level_bound (h.level c d h.cur) ht hDt
    obtain ⟨L', e, hL'⟩ := hL.wr ht ((d : Int) + 1)
    have htq : t ∉ q := fun hm => by obtain ⟨k, hk, _⟩ := h.queue t hm; rw [hDt] at hk; cases hk
    have htc : t ≠ c := fun hh => by rw [hh, h.cur] at hDt; cases hDt
    have hmono : ∀ v k, D v = some k → upd D t (some (d+1)) v = some k := by
      intro v k hv
      have : v ≠ t := by rintro rfl; rw [hDt] at hv; cases hv
      rw [upd_ne _ _ this, hv]
    have hcase : ∀ v k, upd D t (some (d+1)) v = some k → (v = t ∧ k = d + 1) ∨ (v ≠ t ∧ D v = some k) := by
      intro v k hv
      by_cases hvt : v = t
      · subst hvt; rw [upd_same] at hv; cases hv; exact Or.inl ⟨rfl, rfl⟩
      · rw [upd_ne _ _ hvt] at hv; exact Or.inr ⟨hvt, hv⟩
    refine ⟨L', q ++ [t], upd D t (some (d+1)), ?_, hL'.congr ?_, ?_, hmono, ⟨d+1, upd_same _ _ _, Nat.le_refl _⟩, ?_⟩
    · rw [if_neg (by unfold enc; dsimp only; omega), e]; rfl
    · intro v _
      by_cases hvt : v = t
      · subst hvt; rw [upd_same, upd_same]; unfold enc; push_cast; rfl
      · rw [upd_ne _ _ hvt, upd_ne _ _ hvt]
    · refine ⟨hmono _ _ h.src, ?_, ?_, hmono _ _ h.cur, ?_, ?_, ?_, ?_⟩
      · intro v k hv
        rcases hcase v k hv with ⟨rfl, rfl⟩ | ⟨_, hv⟩
        · exact ⟨ht, Walk.snoc (h.walk c d h.cur).2 hct⟩
        · exact h.walk v k hv
      · intro v k hv i hi
        rcases hcase v k hv with ⟨rfl, rfl⟩ | ⟨_, hv⟩
        · by_cases hid : i = d + 1
          · subst hid; exact ⟨v, ht, upd_same _ _ _⟩
          · obtain ⟨u, hu, hui⟩ := h.level c d h.cur i (by omega)
            exact ⟨u, hu, hmono u i hui⟩
        · obtain ⟨u, hu, hui⟩ := h.level v k hv i hi
          exact ⟨u, hu, hmono u i hui⟩
      · intro v k hv
        rcases hcase v k hv with ⟨rfl, rfl⟩ | ⟨_, hv⟩
        · exact Nat.le_refl _
        · exact h.bound v k hv
      · intro v hv
        rw [List.mem_append, List.mem_singleton] at hv
        rcases hv with hv | rfl
        · obtain ⟨k, hk, hd⟩ := h.queue v hv
          exact ⟨k, hmono v k hk, hd⟩
        · exact ⟨d+1, upd_same _ _ _, by omega⟩
      · rw [List.pairwise_append]
        refine ⟨h.sorted.imp_of_mem ?_, List.pairwise_singleton _ _, ?_⟩
        · intro a b ha hb hab i j hi hj
          have ha' : a ≠ t := fun hh => htq (hh ▸ ha)
          have hb' : b ≠ t := fun hh => htq (hh ▸ hb)
          rw [upd_ne _ _ ha'] at hi
          rw [upd_ne _ _ hb'] at hj
          exact hab i j hi hj
        · intro a ha b hb i j hi hj
          rw [List.mem_singleton] at hb
          subst hb
          rw [upd_same] at hj
          cases hj
          have ha' : a ≠ b := fun hh => htq (hh ▸ ha)
          rw [upd_ne _ _ ha'] at hi
          exact h.bound a i hi
      · intro v k hv hvq hvc w hw
        rw [List.mem_append, List.mem_singleton, not_or] at hvq
        rw [upd_ne _ _ hvq.2] at hv
        obtain ⟨j, hj, hjk⟩ := h.closed v k hv hvq.1 hvc w hw
        exact ⟨j, hmono w j hj, hjk⟩
    · have : unseen n D = insert t (unseen n (upd D t (some (d+1)))) := by
        ext v
        unfold unseen
        rw [Finset.mem_insert, Finset.mem_filter, Finset.mem_filter, Finset.mem_range]
        by_cases hvt : v = t
        · subst hvt; simp [ht, hDt]
        · rw [upd_ne _ _ hvt]; simp [hvt]
      rw [this, Finset.card_insert_of_notMem, List.length_append, List.length_singleton]
      · omega
      · unfold unseen
        rw [Finset.mem_filter, upd_same]; simp

theorem relaxAll_ok {n : Nat} {E : List (Nat × Nat)} {s : Nat} {inf : Int} (hinf : (n : Int) ≤ inf) {c d : Nat} :
    ∀ (row : List Nat) (D : Nat → Option Nat) (q : List Nat) (L : List Int), Rep L n (fun v => enc inf (D v)) → Scan n E s D q c d →
      (∀ t ∈ row, t < n ∧ (c, t) ∈ E) →
      ∃ L' q' D', relaxAll d row (L, q) = some (L', q') ∧ Rep L' n (fun v => enc inf (D' v)) ∧ Scan n E s D' q' c d ∧
        (∀ v k, D v = some k → D' v = some k) ∧ (∀ t ∈ row, ∃ j, D' t = some j ∧ j ≤ d + 1) ∧
        q'.length + (unseen n D').card = q.length + (unseen n D).card := by
  intro row
  induction row with
  | nil => intro D q L hL h _; exact ⟨L, q, D, rfl, hL, h, fun _ _ h => h, fun t ht => absurd ht List.not_mem_nil, rfl⟩
  | cons t row ih =>
    intro D q L hL h hrow
    obtain ⟨ht, hct⟩ := hrow t List.mem_cons_self
    obtain ⟨L1, q1, D1, e1, r1, s1, m1, ⟨j, hj1, hj2⟩, c1⟩ := relax_ok hinf hL h ht hct
    obtain ⟨L2, q2, D2, e2, r2, s2, m2, t2, c2⟩ := ih D1 q1 L1 r1 s1 (fun x hx => hrow x (List.mem_cons_of_mem t hx))
    refine ⟨L2, q2, D2, by rw [relaxAll, e1, Option.bind_some, e2], r2, s2, fun v k hv => m2 v k (m1 v k hv), ?_, by omega⟩
    intro x hx
    rw [List.mem_cons] at hx
    rcases hx with rfl | hx
    · exact ⟨j, m2 _ _ hj1, hj2⟩
    · exact t2 x hx

/-- The result: least number of edges of a walk, `none` if there is none. -/
def Shortest (E : List (Nat × Nat)) (s v : Nat) : Option Nat → Prop
  | none => ∀ k, ¬ Walk E s v k
  | some k => Walk E s v k ∧ ∀ j, Walk E s v j → k ≤ j

theorem finish {n : Nat} {E : List (Nat × Nat)} {s : Nat} {D : Nat → Option Nat} (h0 : D s = some 0)
    (hw : ∀ v k, D v = some k → v < n ∧ Walk E s v k) (hc : ∀ v k, D v = some k → ∀ w, (v, w) ∈ E → ∃ j, D w = some j ∧ j ≤ k + 1) (v : Nat) :
    Shortest E s v (D v) := by
  have key : ∀ v k, Walk E s v k → ∃ j, D v = some j ∧ j ≤ k := by
    intro v k h
    induction h with
    | nil => exact ⟨0, h0, Nat.le_refl _⟩
    | snoc _ he ih =>
      obtain ⟨j, hj, hjk⟩ := ih
      obtain ⟨i, hi, hij⟩ := hc _ j hj _ he
      exact ⟨i, hi, by omega⟩
  cases hD : D v with
  | none =>
    intro k hk
    obtain ⟨j, hj, _⟩ := key v k hk
    rw [hD] at hj; cases hj
  | some k =>
    refine ⟨(hw v k hD).2, fun j hj => ?_⟩
    obtain ⟨i, hi, hij⟩ := key v j hj
    rw [hD] at hi; cases hi; exact hij

/-- Invariant of the outer loop. -/
structure Loop (n : Nat) (E : List (Nat × Nat)) (s : Nat) (D : Nat → Option Nat) (q : List Nat) : Prop where
  src : D s = some 0
  walk : ∀ v k, D v = some k → v < n ∧ Walk E s v k
  level : ∀ v k, D v = some k → ∀ i, i ≤ k → ∃ u, u < n ∧ D u = some i
  queue : ∀ v ∈ q, ∃ k, D v = some k
  bound : ∀ v k c d, q.head? = some c → D c = some d → D v = some k → k ≤ d + 1
  sorted : q.Pairwise (fun a b => ∀ i j, D a = some i → D b = some j → i ≤ j)
  closed : ∀ v k, D v = some k → v ∉ q → ∀ w, (v, w) ∈ E → ∃ j, D w = some j ∧ j ≤ k + 1

theorem bfsLoop_ok {n : Nat} {E : List (Nat × Nat)} (hE : InRange n E) {s : Nat} {inf : Int} (hinf : (n : Int) ≤ inf) {g : List (List Nat)} (hg : Rep g n (outs E)) :
    ∀ (f : Nat) (D : Nat → Option Nat) (q : List Nat) (L : List Int), Rep L n (fun v => enc inf (D v)) → Loop n E s D q →
      q.length + (unseen n D).card ≤ f → ∃ (L' : List Int) (D' : Nat → Option Nat), bfsLoop g f (L, q) = some L' ∧ Rep L' n (fun v => enc inf (D' v)) ∧ ∀ v, Shortest E s v (D' v) := by
  intro f
  induction f with
  | zero =>
    intro D q L hL h hf
    have : q = [] := List.length_eq_zero_iff.1 (by omega)
    subst this
    exact ⟨L, D, by rw [bfsLoop], hL, finish h.src h.walk (fun v k hv => h.closed v k hv List.not_mem_nil)⟩
  | succ f ih =>
    intro D q L hL h hf
    cases q with
    | nil => exact ⟨L, D, by rw [bfsLoop], hL, finish h.src h.walk (fun v k hv => h.closed v k hv List.not_mem_nil)⟩
    | cons c q =>
      obtain ⟨d, hd⟩ := h.queue c List.mem_cons_self
      have hcn := (h.walk c d hd).1
      have hsort := List.pairwise_cons.1 h.sorted
      have hscan : Scan n E s D q c d := by
        refine ⟨h.src, h.walk, h.level, hd, fun v k hv => h.bound v k c d rfl hd hv, ?_, hsort.2, ?_⟩
        · intro v hv
          obtain ⟨k, hk⟩ := h.queue v (List.mem_cons_of_mem c hv)
          exact ⟨k, hk, hsort.1 v hv d k hd hk⟩
        · intro v k hv hvq hvc w hw
          refine h.closed v k hv ?_ w hw
          rw [List.mem_cons, not_or]; exact ⟨hvc, hvq⟩
      obtain ⟨L1, q1, D1, e1, r1, s1, m1, t1, c1⟩ := relaxAll_ok hinf (outs E c) D q L hL hscan (fun t ht => by
        have := mem_outs.1 ht
        exact ⟨(hE _ this).2, this⟩)
      have hloop : Loop n E s D1 q1 := by
        refine ⟨s1.src, s1.walk, s1.level, ?_, ?_, s1.sorted, ?_⟩
        · intro v hv
          obtain ⟨k, hk, _⟩ := s1.queue v hv
          exact ⟨k, hk⟩
        · intro v k c' d' hh hd' hv
          have hm : c' ∈ q1 := List.mem_of_mem_head? hh
          obtain ⟨k', hk', hle⟩ := s1.queue c' hm
          rw [hd'] at hk'; cases hk'
          have := s1.bound v k hv
          omega
        · intro v k hv hvq w hw
          by_cases hvc : v = c
          · subst hvc
            have := m1 v d hd
            rw [this] at hv; cases hv
            obtain ⟨j, hj, hjd⟩ := t1 w (mem_outs.2 hw)
            exact ⟨j, hj, hjd⟩
          · exact s1.closed v k hv hvq hvc w hw
      obtain ⟨L2, D2, e2, r2, h2⟩ := ih D1 q1 L1 r1 hloop (by rw [List.length_cons] at hf; omega)
      refine ⟨L2, D2, ?_, r2, h2⟩
      rw [bfsLoop, hL.val c hcn, Option.bind_some, hg.val c hcn, Option.bind_some, hd]
      unfold enc; dsimp only
      rw [e1, Option.bind_some, e2]

/-- **C34.** For every graph built from an edge list, every source and every `INF ≥ n`: `dist[v]` is the least number of edges of a walk from
`s` to `v`, and `INF` if there is none. -/
theorem C34_bfs {n : Nat} {E : List (Nat × Nat)} (hE : InRange n E) {s : Nat} (hs : s < n) {inf : Int} (hinf : (n : Int) ≤ inf) :
    ∃ G dist, build n E = some G ∧ G.bfs s inf = some dist ∧ dist.length = n ∧
      ∀ v, v < n → (∃ k : Nat, dist[v]? = some (k : Int) ∧ Walk E s v k ∧ ∀ j, Walk E s v j → k ≤ j) ∨ (dist[v]? = some inf ∧ ∀ k, ¬ Walk E s v k) := by
  obtain ⟨G, e, hG⟩ := build_ok hE
  obtain ⟨L, e1, h1⟩ := (Rep.replicate n inf).wr hs 0
  have hrep : Rep L n (fun v => enc inf (upd (fun _ => none) s (some 0) v)) := h1.congr (fun v _ => by
    by_cases hv : v = s
    · subst hv; rw [upd_same, upd_same]; rfl
    · rw [upd_ne _ _ hv, upd_ne _ _ hv]; rfl)
  have hcase : ∀ v k, upd (fun _ => none) s (some 0) v = some k → v = s ∧ k = 0 := by
    intro v k hv
    by_cases h : v = s
    · subst h; rw [upd_same] at hv; cases hv; exact ⟨rfl, rfl⟩
    · rw [upd_ne _ _ h] at hv; cases hv
  have hloop : Loop n E s (upd (fun _ => none) s (some 0)) [s] := by
    refine ⟨upd_same _ _ _, ?_, ?_, ?_, ?_, List.pairwise_singleton _ _, ?_⟩
    · intro v k hv
      obtain ⟨rfl, rfl⟩ := hcase v k hv
      exact ⟨hs, Walk.nil _⟩
    · intro v k hv i hi
      obtain ⟨rfl, rfl⟩ := hcase v k hv
      have : i = 0 := by omega
      subst this
      exact ⟨v, hs, upd_same _ _ _⟩
    · intro v hv
      rw [List.mem_singleton] at hv
      subst hv; exact ⟨0, upd_same _ _ _⟩
    · intro v k c d _ _ hv
      obtain ⟨rfl, rfl⟩ := hcase v k hv
      omega
    · intro v k hv hvq
      obtain ⟨rfl, rfl⟩ := hcase v k hv
      exact absurd List.mem_cons_self hvq
  have hcard : (unseen n (upd (fun _ => none) s (some 0))).card ≤ n := by
    have := Finset.card_filter_le (range n) (fun v => upd (fun _ => none) s (some 0) v = none)
    rwa [Finset.card_range] at this
  obtain ⟨dist, D, e2, r2, h2⟩ := bfsLoop_ok hE hinf hG.adj (n+1) _ [s] L hrep hloop (by rw [List.length_singleton]; omega)
  refine ⟨G, dist, e, by rw [Graph.bfs, hG.size, e1, Option.bind_some, e2], r2.len, fun v hv => ?_⟩
  rw [r2.val v hv]
  have := h2 v
  cases hD : D v with
  | none => rw [hD] at this; exact Or.inr ⟨rfl, this⟩
  | some k => rw [hD] at this; exact Or.inl ⟨k, rfl, this.1, this.2⟩

/-- With `INF` below the number of vertices the result is wrong: here -1 leaves a neighbour unreached. -/
theorem C34_small_inf : ((build 2 [(0, 1)]).bind (fun G => G.bfs 0 (-1))) = some [0, -1] ∧ Walk [(0, 1)] 0 1 1 :=
  ⟨by decide, Walk.single (by simp)⟩

example : ((build 5 [(0, 1), (1, 2), (0, 3), (3, 2), (2, 0)]).bind (fun G => G.bfs 0 100)) = some [0, 1, 2, 1, 100] := by decide
example : InRange 5 [(0, 1), (1, 2), (0, 3), (3, 2), (2, 0)] := by unfold InRange; decide

end Verif.Graph
