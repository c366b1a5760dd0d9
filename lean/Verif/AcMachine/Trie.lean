import Verif.AcMachine.Model
/-!
The trie: labels of the nodes, and insertion.
-/
namespace Verif.AcMachine

variable {α T : Type} [DecidableEq α]

/-- `lab u` is the string of node `u`; the edges are exactly the one-letter extensions. -/
structure Tr (N : Nat) (g : Nat → Nd α) (lab : Nat → List α) : Prop where
  pos : 0 < N
  root : lab 0 = []
  edge : ∀ u, u < N → ∀ c v, (c, v) ∈ (g u).e ↔ v < N ∧ lab v = lab u ++ [c]
  inj : ∀ u v, u < N → v < N → lab u = lab v → u = v
  par : ∀ u, u < N → 0 < u → ∃ q c, q < u ∧ lab u = lab q ++ [c]
  nd : ∀ u, u < N → (g u).e.Nodup

theorem assoc_some : ∀ (l : List (α × Nat)) (c : α) (v : Nat), assoc l c = some v → (c, v) ∈ l := by
  intro l
  induction l with
  | nil => intro c v h; cases h
  | cons p l ih =>
    intro c v h
    obtain ⟨d, w⟩ := p
    unfold assoc at h
    by_cases e : d = c
    · rw [if_pos e] at h
      cases h; subst e
      exact List.mem_cons_self ..
    · rw [if_neg e] at h
      exact List.mem_cons_of_mem _ (ih c v h)

theorem assoc_none : ∀ (l : List (α × Nat)) (c : α), assoc l c = none → ∀ v, (c, v) ∉ l := by
  intro l
  induction l with
  | nil => intro c h v; simp
  | cons p l ih =>
    intro c h v hm
    obtain ⟨d, w⟩ := p
    unfold assoc at h
    by_cases e : d = c
    · rw [if_pos e] at h; cases h
    · rw [if_neg e] at h
      rcases List.mem_cons.1 hm with h1 | h1
      · cases h1; exact e rfl
      · exact ih c h v h1

theorem Tr.assoc_some {N : Nat} {g : Nat → Nd α} {lab : Nat → List α} (t : Tr N g lab) {u : Nat} (hu : u < N) {c : α} {v : Nat} (h : assoc (g u).e c = some v) : v < N ∧ lab v = lab u ++ [c] :=
  (t.edge u hu c v).1 (AcMachine.assoc_some _ _ _ h)

theorem Tr.assoc_none {N : Nat} {g : Nat → Nd α} {lab : Nat → List α} (t : Tr N g lab) {u : Nat} (hu : u < N) {c : α} (h : assoc (g u).e c = none) : ∀ v, v < N → lab v ≠ lab u ++ [c] :=
  fun v hv e => AcMachine.assoc_none _ _ h v ((t.edge u hu c v).2 ⟨hv, e⟩)

theorem Tr.depth {N : Nat} {g : Nat → Nd α} {lab : Nat → List α} (t : Tr N g lab) : ∀ u, u < N → (lab u).length ≤ u := by
  intro u
  induction u using Nat.strongRecOn with
  | ind u ih =>
    intro hu
    rcases Nat.eq_zero_or_pos u with h | h
    · subst h; rw [t.root]; exact Nat.le_refl _
    · obtain ⟨q, c, h1, h2⟩ := t.par u hu h
      have := ih q h1 (by omega)
      rw [h2, List.length_append, List.length_singleton]
      omega

theorem Tr.ne_nil {N : Nat} {g : Nat → Nd α} {lab : Nat → List α} (t : Tr N g lab) {u : Nat} (hu : u < N) (h0 : u ≠ 0) : lab u ≠ [] := by
  obtain ⟨q, c, h1, h2⟩ := t.par u hu (by omega)
  rw [h2]; simp

/-- The labels are closed under prefixes. -/
theorem Tr.prefix {N : Nat} {g : Nat → Nd α} {lab : Nat → List α} (t : Tr N g lab) : ∀ u, u < N → ∀ x, x <+: lab u → ∃ v, v < N ∧ lab v = x := by
  intro u
  induction u using Nat.strongRecOn with
  | ind u ih =>
    intro hu x hx
    rcases Nat.eq_zero_or_pos u with h | h
    · subst h
      rw [t.root, List.prefix_nil] at hx
      exact ⟨0, hu, by rw [t.root, hx]⟩
    · obtain ⟨q, c, h1, h2⟩ := t.par u hu h
      by_cases e : x = lab u
      · exact ⟨u, hu, e.symm⟩
      · refine ih q h1 (by omega) x ?_
        rw [h2] at hx e
        rcases List.prefix_concat_iff.1 hx with h | h
        · exact absurd h e
        · exact h

/-- The parent of a label. -/
theorem Tr.init {N : Nat} {g : Nat → Nd α} {lab : Nat → List α} (t : Tr N g lab) {v : Nat} (hv : v < N) {x : List α} {c : α} (h : lab v = x ++ [c]) : ∃ u, u < N ∧ lab u = x :=
  t.prefix v hv x (by rw [h]; exact List.prefix_append ..)

/-! ### Insertion -/

theorem walk_ok {N : Nat} {g : Nat → Nd α} {lab : Nat → List α} (t : Tr N g lab) {nodes : List (Nd α)} (R : Rep nodes N g) :
    ∀ (k : List α) (u : Nat), u < N → ∃ v p r, walk nodes u k = some (v, r) ∧ v < N ∧ k = p ++ r ∧ lab v = lab u ++ p ∧ ∀ c r', r = c :: r' → ∀ x, x < N → lab x ≠ lab v ++ [c] := by
  intro k
  induction k with
  | nil => intro u hu; exact ⟨u, [], [], rfl, hu, rfl, by simp, by intro c r' h; cases h⟩
  | cons c k ih =>
    intro u hu
    unfold walk
    rw [R.val u hu, Option.bind_some]
    cases ha : assoc (g u).e c with
    | none => exact ⟨u, [], c :: k, rfl, hu, rfl, by simp, by intro c' r' h; cases h; exact t.assoc_none hu ha⟩
    | some v =>
      obtain ⟨h1, h2⟩ := t.assoc_some hu ha
      obtain ⟨w, p, r, k1, k2, k3, k4, k5⟩ := ih v h1
      exact ⟨w, c :: p, r, k1, k2, by rw [k3]; rfl, by rw [k4, h2]; simp, k5⟩

theorem rep_push {β : Type} {xs : List β} {n : Nat} {f : Nat → β} (R : Rep xs n f) (y : β) : Rep (xs ++ [y]) (n+1) (upd f n y) := by
  constructor
  · rw [List.length_append, R.len]; rfl
  · intro i hi
    by_cases e : i = n
    · subst e
      rw [upd_same, List.getElem?_append_right (by rw [R.len]; exact Nat.le_refl _), R.len, Nat.sub_self]; rfl
    · rw [upd_ne _ _ e, List.getElem?_append_left (by rw [R.len]; omega), R.val i (by omega)]

/-- A new node `N` below `u`. -/
theorem extend_step {N : Nat} {g : Nat → Nd α} {lab : Nat → List α} (t : Tr N g lab) {nodes : List (Nd α)} (R : Rep nodes N g) {u : Nat} (hu : u < N) {c : α} (hc : ∀ x, x < N → lab x ≠ lab u ++ [c]) :
    ∃ n1 g1, addEdge (nodes ++ [Nd.new]) u c nodes.length = some n1 ∧ Rep n1 (N+1) g1 ∧ Tr (N+1) g1 (upd lab N (lab u ++ [c])) ∧ (∀ x, x < N → (g1 x).id = (g x).id) ∧ (g1 N).id = none ∧
      (∀ x, x < N → (g1 x).fail = (g x).fail) ∧ (g1 N).fail = none := by
  have R1 := rep_push R (Nd.new (α := α))
  have hun : u ≠ N := by omega
  have hfil : (g u).e.filter (fun p => decide (p.1 ≠ c)) = (g u).e := by
    rw [List.filter_eq_self]
    rintro ⟨d, w⟩ hm
    obtain ⟨h1, h2⟩ := (t.edge u hu d w).1 hm
    apply decide_eq_true
    intro e
    exact hc w h1 (by rw [h2, show d = c from e])
  obtain ⟨n1, w1, r1⟩ := R1.wr (show u < N + 1 by omega) { (upd g N Nd.new u) with e := assocSet (upd g N Nd.new u).e c nodes.length }
  refine ⟨n1, _, ?_, r1, ?_, ?_, ?_, ?_, ?_⟩
  · unfold addEdge
    rw [R1.val u (by omega), Option.bind_some, w1]
  · rw [upd_ne _ _ hun, R.len]
    have hg : ∀ x, x < N → x ≠ u → upd (upd g N Nd.new) u { g u with e := assocSet (g u).e c N } x = g x := by
      intro x hx hxu
      rw [upd_ne _ _ hxu, upd_ne _ _ (by omega)]
    have hlab : ∀ x, x < N → upd lab N (lab u ++ [c]) x = lab x := fun x hx => upd_ne _ _ (by omega)
    refine ⟨by omega, ?_, ?_, ?_, ?_, ?_⟩
    · rw [hlab 0 t.pos, t.root]
    · intro x hx d v
      rcases Nat.lt_or_ge x N with hxN | hxN
      · rw [hlab x hxN]
        by_cases hxu : x = u
        · subst hxu
          rw [upd_same]
          show (d, v) ∈ assocSet (g x).e c N ↔ _
          unfold assocSet
          rw [hfil, List.mem_append, t.edge x hxN, List.mem_singleton, Prod.mk.injEq]
          constructor
          · rintro (⟨h1, h2⟩ | ⟨h1, h2⟩)
            · exact ⟨by omega, by rw [hlab v h1, h2]⟩
            · subst h1; subst h2; exact ⟨by omega, upd_same _ _ _⟩
          · rintro ⟨h1, h2⟩
            by_cases hvN : v = N
            · subst hvN
              rw [upd_same] at h2
              have := List.append_cancel_left h2
              exact Or.inr ⟨(List.cons.inj this).1.symm, rfl⟩
            · rw [hlab v (by omega)] at h2
              exact Or.inl ⟨by omega, h2⟩
        · rw [hg x hxN hxu, t.edge x hxN]
          constructor
          · rintro ⟨h1, h2⟩; exact ⟨by omega, by rw [hlab v h1, h2]⟩
          · rintro ⟨h1, h2⟩
            by_cases hvN : v = N
            · subst hvN
              rw [upd_same] at h2
              have := List.append_inj_left' h2 rfl
              exact absurd (t.inj u x hu hxN this).symm hxu
            · rw [hlab v (by omega)] at h2
              exact ⟨by omega, h2⟩
      · have : x = N := by omega
        subst this
        rw [upd_ne _ _ (Ne.symm hun), upd_same, upd_same]
        constructor
        · intro h; cases h
        · rintro ⟨h1, h2⟩
          exfalso
          by_cases hvN : v = x
          · subst hvN
            rw [upd_same] at h2
            have := congrArg List.length h2
            simp at this
          · rw [hlab v (by omega)] at h2
            obtain ⟨y, y1, y2⟩ := t.init (show v < x by omega) h2
            exact hc y y1 y2
    · intro x y hx hy h
      by_cases h1 : x = N
      · by_cases h2 : y = N
        · omega
        · rw [h1, upd_same, hlab y (by omega)] at h
          exact absurd h.symm (hc y (by omega))
      · by_cases h2 : y = N
        · rw [h2, upd_same, hlab x (by omega)] at h
          exact absurd h (hc x (by omega))
        · rw [hlab x (by omega), hlab y (by omega)] at h
          exact t.inj x y (by omega) (by omega) h
    · intro x hx h0
      by_cases h1 : x = N
      · subst h1
        exact ⟨u, c, hu, by rw [upd_same, hlab u hu]⟩
      · obtain ⟨q, d, q1, q2⟩ := t.par x (by omega) h0
        exact ⟨q, d, q1, by rw [hlab x (by omega), hlab q (by omega), q2]⟩
    · intro x hx
      by_cases h1 : x = N
      · subst h1
        rw [upd_ne _ _ (Ne.symm hun), upd_same]
        exact List.nodup_nil
      · by_cases hxu : x = u
        · subst hxu
          rw [upd_same]
          show (assocSet (g x).e c N).Nodup
          unfold assocSet
          rw [hfil, List.nodup_append]
          refine ⟨t.nd x hu, by simp, ?_⟩
          rintro p hp q hq rfl
          rw [List.mem_singleton] at hq
          subst hq
          have := ((t.edge x hu c N).1 hp).1
          omega
        · rw [hg x (by omega) hxu]; exact t.nd x (by omega)
  · intro x hx
    by_cases hxu : x = u
    · subst hxu
      rw [upd_same, upd_ne _ _ hun]
    · rw [upd_ne _ _ hxu, upd_ne _ _ (by omega)]
  · rw [upd_ne _ _ (Ne.symm hun), upd_same]; rfl
  · intro x hx
    by_cases hxu : x = u
    · subst hxu
      rw [upd_same, upd_ne _ _ hun]
    · rw [upd_ne _ _ hxu, upd_ne _ _ (by omega)]
  · rw [upd_ne _ _ (Ne.symm hun), upd_same]; rfl

theorem extend_ok : ∀ (k : List α) {N : Nat} {g : Nat → Nd α} {lab : Nat → List α} (_ : Tr N g lab) {nodes : List (Nd α)} (_ : Rep nodes N g) {u : Nat} (_ : u < N)
      (_ : ∀ c k', k = c :: k' → ∀ x, x < N → lab x ≠ lab u ++ [c]),
    ∃ v n1 N1 g1 lab1, extend k u nodes = some (v, n1) ∧ N1 = N + k.length ∧ Rep n1 N1 g1 ∧ Tr N1 g1 lab1 ∧ v < N1 ∧ lab1 v = lab u ++ k ∧ (k ≠ [] → N ≤ v) ∧
      (∀ x, x < N → lab1 x = lab x ∧ (g1 x).id = (g x).id ∧ (g1 x).fail = (g x).fail) ∧
      (∀ x, x < N1 → N ≤ x → (g1 x).id = none ∧ (g1 x).fail = none ∧ lab1 x = lab u ++ k.take (x - N + 1)) := by
  intro k
  induction k with
  | nil =>
    intro N g lab t nodes R u hu hc
    exact ⟨u, nodes, N, g, lab, rfl, rfl, R, t, hu, by simp, by simp, fun x hx => ⟨rfl, rfl, rfl⟩, fun x h1 h2 => by omega⟩
  | cons c k ih =>
    intro N g lab t nodes R u hu hc
    obtain ⟨n1, g1, w1, r1, t1, i1, i2, i3, i4⟩ := extend_step t R hu (hc c k rfl)
    have hlab : ∀ x, x < N → upd lab N (lab u ++ [c]) x = lab x := fun x hx => upd_ne _ _ (by omega)
    obtain ⟨v, n2, N2, g2, lab2, w2, e2, r2, t2, v2, v3, v5, v4, v6⟩ := ih t1 r1 (u := N) (by omega) (by
      intro d k' _ x hx h
      rw [upd_same] at h
      obtain ⟨y, y1, y2⟩ := t1.init hx h
      by_cases hyN : y = N
      · have hxy : x = N ∨ x < N := by omega
        rcases hxy with h1 | h1
        · subst h1; rw [upd_same] at h
          have := congrArg List.length h
          simp at this
        · rw [hlab x h1] at h
          obtain ⟨z, z1, z2⟩ := t.init h1 h
          exact hc c k rfl z z1 z2
      · rw [hlab y (by omega)] at y2
        exact hc c k rfl y (by omega) y2)
    refine ⟨v, n2, N2, g2, lab2, ?_, by rw [e2, List.length_cons]; omega, r2, t2, v2, by rw [v3, upd_same]; simp, ?_, fun x hx => ?_, fun x h1 h2 => ?_⟩
    · unfold extend
      rw [w1, Option.bind_some, R.len, w2]
    · intro _
      cases k with
      | nil =>
        rw [extend] at w2; cases w2; exact Nat.le_refl _
      | cons d k => have := v5 (by simp); omega
    · obtain ⟨a, b, b'⟩ := v4 x (by omega)
      exact ⟨by rw [a, hlab x hx], by rw [b, i1 x hx], by rw [b', i3 x hx]⟩
    · by_cases hxN : x = N
      · subst hxN
        obtain ⟨a, b, b'⟩ := v4 x (by omega)
        exact ⟨by rw [b, i2], by rw [b', i4], by rw [a, upd_same]; simp⟩
      · obtain ⟨a, a', p2⟩ := v6 x h1 (by omega)
        refine ⟨a, a', ?_⟩
        rw [p2, upd_same, List.append_assoc, show x - N + 1 = (x - (N+1) + 1) + 1 by omega, List.take_succ_cons]
        rfl

/-- The trie holds exactly the keys of the container. -/
structure Keys (s : Ac α T) (N : Nat) (g : Nat → Nd α) (lab : Nat → List α) : Prop where
  rep : Rep s.nodes N g
  tr : Tr N g lab
  idc : ∀ u, u < N → ∀ k, (g u).id = some k → ∃ t, s.cont[k]? = some (lab u, t)
  cid : ∀ k x t, s.cont[k]? = some (x, t) → ∃ u, u < N ∧ lab u = x ∧ (g u).id = some k
  labs : ∀ x, (∃ u, u < N ∧ lab u = x) ↔ x = [] ∨ ∃ p ∈ s.cont, x <+: p.1
  ne : ∀ p ∈ s.cont, p.1 ≠ []

/-- What an insertion does to the container. -/
def keep (C : List (List α × T)) (key : List α) (v : T) : List (List α × T) :=
  if key = [] ∨ C.any (fun p => key.isPrefixOf p.1) then C else C ++ [(key, v)]

theorem insert_ext {s : Ac α T} {N : Nat} {g : Nat → Nd α} {lab : Nat → List α} (K : Keys s N g lab) (key : List α) (v : T) (hs : s.nodes ≠ []) :
    ∃ s' N' g' lab', insert s key v = some s' ∧ Keys s' N' g' lab' ∧ s'.cont = keep s.cont key v ∧
      ∃ u p r, walk s.nodes 0 key = some (u, r) ∧ u < N ∧ key = p ++ r ∧ lab u = p ∧ N' = N + r.length ∧ (∀ x, x < N → lab' x = lab x ∧ (g' x).fail = (g x).fail) ∧
        (∀ x, x < N' → N ≤ x → lab' x = p ++ r.take (x - N + 1) ∧ (g' x).fail = none) := by
  have hroot : withRoot s.nodes = s.nodes := by
    unfold withRoot
    rw [if_neg (by simpa using hs)]
  obtain ⟨u, p, r, w1, u1, hk, hlu, hnc⟩ := walk_ok K.tr K.rep key 0 K.tr.pos
  rw [K.tr.root, List.nil_append] at hlu
  have hkl : (∃ u, u < N ∧ lab u = key) ↔ (key = [] ∨ s.cont.any (fun p => key.isPrefixOf p.1) = true) := by
    rw [K.labs]
    simp only [List.any_eq_true, List.isPrefixOf_iff_prefix]
  unfold insert
  rw [hroot, w1, Option.bind_some]
  cases r with
  | nil =>
    refine ⟨s, N, g, lab, rfl, K, ?_, u, p, [], rfl, u1, hk, hlu, rfl, fun x hx => ⟨rfl, rfl⟩, fun x h1 h2 => by omega⟩
    unfold keep
    rw [if_pos (hkl.1 ⟨u, u1, by rw [hlu, hk]; simp⟩)]
  | cons c r =>
    obtain ⟨x, n1, N1, g1, lab1, w2, e1, r1, t1, x1, x2, x5, x3, x4⟩ := extend_ok (c :: r) K.tr K.rep u1 (by
      intro c' k' h x hx; exact hnc c' k' h x hx)
    have hx2 : lab1 x = key := by rw [x2, hlu, hk]
    have hnew : ¬ (∃ u, u < N ∧ lab u = key) := by
      rintro ⟨y, y1, y2⟩
      obtain ⟨z, z1, z2⟩ := K.tr.prefix y y1 (lab u ++ [c]) (by rw [y2, hk, hlu]; simp)
      exact hnc c r rfl z z1 z2
    have hxN : N ≤ x := x5 (by simp)
    have hkeep : keep s.cont key v = s.cont ++ [(key, v)] := by
      unfold keep
      rw [if_neg (fun h => hnew (hkl.2 h))]
    obtain ⟨n2, w3, r2⟩ := r1.wr x1 { g1 x with id := some s.cont.length }
    have hset : setId n1 x s.cont.length = some n2 := by
      unfold setId
      rw [r1.val x x1, Option.bind_some, w3]
    refine ⟨⟨s.cont ++ [(key, v)], n2⟩, N1, upd g1 x { g1 x with id := some s.cont.length }, lab1, ?_, ?_, by rw [hkeep], u, p, c :: r, rfl, u1, hk, hlu, e1, ?_, ?_⟩
    · unfold insertFrom
      dsimp only
      rw [w2, Option.bind_some]
      dsimp only
      rw [hset]; rfl
    · have hge : ∀ y, (upd g1 x { g1 x with id := some s.cont.length } y).e = (g1 y).e := by
        intro y
        by_cases e : y = x
        · subst e; rw [upd_same]
        · rw [upd_ne _ _ e]
      refine ⟨r2, ⟨t1.pos, t1.root, fun y hy c' v' => by rw [hge]; exact t1.edge y hy c' v', t1.inj, t1.par, fun y hy => by rw [hge]; exact t1.nd y hy⟩, ?_, ?_, ?_, ?_⟩
      · intro y hy k hk'
        by_cases e : y = x
        · subst e
          rw [upd_same] at hk'
          have : s.cont.length = k := Option.some.inj hk'
          subst this
          exact ⟨v, by rw [hx2]; simp⟩
        · rw [upd_ne _ _ e] at hk'
          rcases Nat.lt_or_ge y N with h | h
          · rw [(x3 y h).2.1] at hk'
            obtain ⟨t, ht⟩ := K.idc y h k hk'
            have hlt : k < s.cont.length := by
              rw [List.getElem?_eq_some_iff] at ht
              exact ht.1
            exact ⟨t, by rw [(x3 y h).1]; show (s.cont ++ [(key, v)])[k]? = _; rw [List.getElem?_append_left hlt, ht]⟩
          · rw [(x4 y hy h).1] at hk'; cases hk'
      · intro k y t hk'
        have hk'' : (s.cont ++ [(key, v)])[k]? = some (y, t) := hk'
        rcases Nat.lt_or_ge k s.cont.length with h | h
        · rw [List.getElem?_append_left h] at hk''
          obtain ⟨w, w1, w2, w3⟩ := K.cid k y t hk''
          exact ⟨w, by omega, by rw [(x3 w w1).1, w2], by rw [upd_ne _ _ (by omega), (x3 w w1).2.1, w3]⟩
        · rw [List.getElem?_append_right h] at hk''
          have : k - s.cont.length = 0 := by
            rcases Nat.eq_zero_or_pos (k - s.cont.length) with h1 | h1
            · exact h1
            · rw [List.getElem?_eq_none (by simp; omega)] at hk''; cases hk''
          rw [this] at hk''
          cases hk''
          exact ⟨x, x1, hx2, by rw [upd_same]; simp; omega⟩
      · intro y
        constructor
        · rintro ⟨w, w1, w2⟩
          rcases Nat.lt_or_ge w N with h | h
          · rw [(x3 w h).1] at w2
            rcases (K.labs y).1 ⟨w, h, w2⟩ with h1 | ⟨q, q1, q2⟩
            · exact Or.inl h1
            · exact Or.inr ⟨q, List.mem_append_left _ q1, q2⟩
          · obtain ⟨-, -, q2⟩ := x4 w w1 h
            refine Or.inr ⟨(key, v), List.mem_append_right _ (by simp), ?_⟩
            rw [← w2, q2, hlu]
            show p ++ _ <+: key
            rw [hk]
            exact (List.prefix_append_right_inj p).2 (List.take_prefix ..)
        · rintro (h | ⟨q, q1, q2⟩)
          · exact ⟨0, t1.pos, by rw [t1.root, h]⟩
          · rcases List.mem_append.1 q1 with h | h
            · obtain ⟨w, w1, w2⟩ := (K.labs y).2 (Or.inr ⟨q, h, q2⟩)
              exact ⟨w, by omega, by rw [(x3 w w1).1, w2]⟩
            · rw [List.mem_singleton] at h
              subst h
              exact t1.prefix x x1 y (by rw [hx2]; exact q2)
      · intro q hq
        rcases List.mem_append.1 hq with h | h
        · exact K.ne q h
        · rw [List.mem_singleton] at h
          subst h
          show key ≠ []
          rw [hk]; simp
    · intro y hy
      refine ⟨(x3 y hy).1, ?_⟩
      rw [upd_ne _ _ (by omega), (x3 y hy).2.2]
    · intro y h1 h2
      refine ⟨by rw [(x4 y h1 h2).2.2, hlu], ?_⟩
      by_cases e : y = x
      · subst e; rw [upd_same]; exact (x4 y h1 h2).2.1
      · rw [upd_ne _ _ e]; exact (x4 y h1 h2).2.1

theorem insert_keys {s : Ac α T} {N : Nat} {g : Nat → Nd α} {lab : Nat → List α} (K : Keys s N g lab) (key : List α) (v : T) (hs : s.nodes ≠ []) :
    ∃ s' N' g' lab', insert s key v = some s' ∧ Keys s' N' g' lab' ∧ s'.cont = keep s.cont key v := by
  obtain ⟨s', N', g', lab', h1, h2, h3, -⟩ := insert_ext K key v hs
  exact ⟨s', N', g', lab', h1, h2, h3⟩

theorem new_keys : Keys (α := α) (T := T) ⟨[], [Nd.new]⟩ 1 (fun _ => Nd.new) (fun _ => []) := by
  refine ⟨⟨rfl, fun i hi => ?_⟩, ⟨by omega, rfl, ?_, fun u v hu hv _ => by omega, fun u hu h => by omega, fun u hu => List.nodup_nil⟩, ?_, ?_, ?_, ?_⟩
  · have : i = 0 := by omega
    subst this; rfl
  · intro u hu c v
    constructor
    · intro h; cases h
    · rintro ⟨-, h⟩; simp at h
  · intro u hu k h; cases h
  · intro k x t h; simp at h
  · intro x
    constructor
    · rintro ⟨u, -, h⟩; exact Or.inl h.symm
    · rintro (h | ⟨p, h, -⟩)
      · exact ⟨0, by omega, h.symm⟩
      · cases h
  · intro p h; cases h

end Verif.AcMachine
