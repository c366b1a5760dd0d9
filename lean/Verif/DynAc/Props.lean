import Verif.DynAc.Insert
/-!
**C121.** Searching with a `DynamicAcMachine` after any insertions.
-/
namespace Verif.DynAc
open Verif.AcMachine

variable {α T : Type} [DecidableEq α]

/-! ### Searching along links that are only proper suffixes -/

/-- The links point to proper suffixes. -/
structure Weak (s : Ac α T) (N : Nat) (g : Nat → Nd α) (lab : Nat → List α) : Prop where
  keys : Keys s N g lab
  fail : ∀ v, v < N → v ≠ 0 → ∃ f, (g v).fail = some f ∧ f < N ∧ lab f <:+ (lab v).tail

theorem Weak.lt {s : Ac α T} {N : Nat} {g : Nat → Nd α} {lab : Nat → List α} (B : Weak s N g lab) {v : Nat} (hv : v < N) : (lab v).length < N := by
  have := B.keys.tr.depth v hv; omega

theorem Weak.link {s : Ac α T} {N : Nat} {g : Nat → Nd α} {lab : Nat → List α} (B : Weak s N g lab) {v : Nat} (hv : v < N) (h0 : v ≠ 0) :
    ∃ f, (g v).fail = some f ∧ f < N ∧ lab f <:+ (lab v).tail ∧ (lab f).length < (lab v).length := by
  obtain ⟨f, f1, f2, f3⟩ := B.fail v hv h0
  refine ⟨f, f1, f2, f3, ?_⟩
  have := f3.length_le
  rw [List.length_tail] at this
  have : 0 < (lab v).length := List.length_pos_iff.2 (B.keys.tr.ne_nil hv h0)
  omega

theorem push_weak {s : Ac α T} {N : Nat} {g : Nat → Nd α} {lab : Nat → List α} (B : Weak s N g lab) {w : List α} {u : Nat} (hu : u < N) (h : lab u <:+ w) (c : α) :
    ∃ v, push s u c = some v ∧ v < N ∧ lab v <:+ w ++ [c] := by
  have R : Rep s.nodes N (wf g (fun v => (g v).fail)) := B.keys.rep.congr (fun i hi => rfl)
  unfold push
  rw [R.len]
  exact chase_weak B.keys.tr R c w N (fun v hv h0 _ => B.fail v hv h0) N u (B.lt hu) hu (Nat.le_of_lt (B.lt hu)) h

theorem toExact_weak {s : Ac α T} {N : Nat} {g : Nat → Nd α} {lab : Nat → List α} (B : Weak s N g lab) : ∀ n u, (lab u).length < n → u < N →
    ∃ x, toExact s.nodes n u = some x ∧ x < N ∧ (x = 0 ∨ (g x).id ≠ none) ∧ lab x <:+ lab u := by
  intro n
  induction n with
  | zero => intro u h; omega
  | succ n ih =>
    intro u hn hu
    unfold toExact
    by_cases h0 : u = 0
    · rw [if_pos h0]
      subst h0
      exact ⟨0, rfl, hu, Or.inl rfl, List.suffix_refl _⟩
    · rw [if_neg h0, B.keys.rep.val u hu, Option.bind_some]
      by_cases hid : (g u).id = none
      · rw [if_pos hid]
        obtain ⟨f, f1, f2, f3, f5⟩ := B.link hu h0
        obtain ⟨x, x1, x2, x3, x4⟩ := ih f (by omega) f2
        exact ⟨x, by rw [f1]; exact x1, x2, x3, x4.trans (tail_suffix f3)⟩
      · rw [if_neg hid]
        exact ⟨u, rfl, hu, Or.inr hid, List.suffix_refl _⟩

theorem occ_mono (C : List (List α × T)) : ∀ {y w : List α}, y <:+ w → (occ C y).Sublist (occ C w) := by
  intro y w
  induction w with
  | nil => intro h; rw [List.suffix_nil.1 h]
  | cons a w ih =>
    intro h
    rcases List.suffix_cons_iff.1 h with h1 | h1
    · rw [h1]
    · refine (ih h1).trans ?_
      unfold occ
      rw [List.tails_cons]
      exact (List.sublist_cons_self _ _).filterMap _

theorem collect_weak {s : Ac α T} {N : Nat} {g : Nat → Nd α} {lab : Nat → List α} (B : Weak s N g lab) : ∀ n x, (lab x).length < n → x < N → (x = 0 ∨ (g x).id ≠ none) →
    ∃ L, collect s n x = some L ∧ L.Sublist (occ s.cont (lab x)) ∧ (x ≠ 0 → L ≠ []) := by
  intro n
  induction n with
  | zero => intro x h; omega
  | succ n ih =>
    intro x hn hx hid
    have K := B.keys
    unfold collect
    by_cases h0 : x = 0
    · rw [if_pos h0]
      exact ⟨[], rfl, List.nil_sublist _, fun h => absurd h0 h⟩
    · rw [if_neg h0]
      have hid' : (g x).id ≠ none := by
        rcases hid with h | h
        · exact absurd h h0
        · exact h
      obtain ⟨p, p1, p2⟩ := entry K hx hid'
      obtain ⟨f, f1, f2, f3, f5⟩ := B.link hx h0
      obtain ⟨y, y1, y2, y3, y4⟩ := toExact_weak B N f (B.lt f2) f2
      have hy := y4.length_le
      have hnext : next s x = some y := by
        unfold next
        rw [K.rep.val x hx, Option.bind_some, f1, Option.bind_some, K.rep.len, y1]
      obtain ⟨L, l1, l2, -⟩ := ih y (by omega) y2 y3
      refine ⟨p :: L, by rw [p1, Option.bind_some, hnext, Option.bind_some, l1]; rfl, ?_, fun _ => by simp⟩
      have hocc : occ s.cont (lab x) = p :: occ s.cont (lab x).tail := by
        obtain ⟨a, l, hl⟩ : ∃ a l, lab x = a :: l := List.exists_cons_of_ne_nil (K.tr.ne_nil hx h0)
        rw [hl] at p2
        rw [hl]
        unfold occ
        rw [List.tails_cons, List.filterMap_cons, p2]; rfl
      rw [hocc]
      exact (l2.trans (occ_mono s.cont (y4.trans f3))).cons_cons p

theorem findAllFrom_weak {s : Ac α T} {N : Nat} {g : Nat → Nd α} {lab : Nat → List α} (B : Weak s N g lab) : ∀ (t w : List α) (u : Nat), u < N → lab u <:+ w →
    ∃ L R, findAllFrom s w.length u t = some L ∧ gather s L = some R ∧ (R.map Prod.fst).Pairwise (· < ·) ∧
      ∀ p ∈ R, w.length < p.1 ∧ p.1 ≤ w.length + t.length ∧ p.2 ≠ [] ∧ p.2.Sublist (occ s.cont ((w ++ t).take p.1)) := by
  intro t
  induction t with
  | nil => intro w u _ _; exact ⟨[], [], rfl, rfl, List.Pairwise.nil, fun p hp => by cases hp⟩
  | cons c t ih =>
    intro w u hu hw
    obtain ⟨v, v1, v2, v3⟩ := push_weak B hu hw c
    obtain ⟨x, x1, x2, x3, x4⟩ := toExact_weak B N v (B.lt v2) v2
    obtain ⟨L, R, l1, l2, l3, l4⟩ := ih (w ++ [c]) v v2 v3
    rw [List.length_append, List.length_singleton] at l1
    have l4' : ∀ p ∈ R, w.length + 1 < p.1 ∧ p.1 ≤ w.length + (c :: t).length ∧ p.2 ≠ [] ∧ p.2.Sublist (occ s.cont ((w ++ c :: t).take p.1)) := by
      intro p hp
      obtain ⟨a1, a2, a3, a4⟩ := l4 p hp
      rw [List.length_append, List.length_singleton] at a1 a2
      rw [List.append_assoc] at a4
      exact ⟨a1, by rw [List.length_cons]; omega, a3, a4⟩
    unfold findAllFrom
    rw [v1, Option.bind_some, B.keys.rep.len, x1, Option.bind_some, l1, Option.map_some]
    by_cases h0 : x = 0
    · refine ⟨L, R, by rw [if_neg (by simpa using h0)], l2, l3, fun p hp => ?_⟩
      obtain ⟨a1, a2⟩ := l4' p hp
      exact ⟨by omega, a2⟩
    · obtain ⟨o, o1, o2, o3⟩ := collect_weak B N x (B.lt x2) x2 x3
      refine ⟨(w.length + 1, x) :: L, (w.length + 1, o) :: R, by rw [if_pos h0], ?_, ?_, ?_⟩
      · unfold gather
        dsimp only
        rw [B.keys.rep.len, o1, Option.bind_some, l2, Option.map_some]
      · rw [List.map_cons, List.pairwise_cons]
        refine ⟨fun i hi => ?_, l3⟩
        obtain ⟨p, p1, rfl⟩ := List.mem_map.1 hi
        exact (l4' p p1).1
      · intro p hp
        rcases List.mem_cons.1 hp with h | h
        · subst h
          refine ⟨by dsimp only; omega, by dsimp only; rw [List.length_cons]; omega, o3 h0, ?_⟩
          have : (w ++ c :: t).take (w.length + 1) = w ++ [c] := by
            rw [List.take_append, List.take_of_length_le (by omega)]
            simp
          dsimp only
          rw [this]
          exact o2.trans (occ_mono s.cont (x4.trans v3))
        · obtain ⟨a1, a2⟩ := l4' p h
          exact ⟨by omega, a2⟩

/-! ### The condition, on the inserted keys -/

/-- Specification: whenever a beginning of a key occurs inside an earlier key, it is also a beginning of an earlier key. -/
def FreshOrder (l : List (List α × T)) : Prop := ∀ pre p post, l = pre ++ p :: post → ∀ q, q <+: p.1 → q ≠ [] → ∀ a ∈ pre, q <:+: a.1 → ∃ r ∈ pre, q <+: r.1

theorem kept_cover (pre : List (List α × T)) : (∀ a ∈ kept pre, a ∈ pre) ∧ ∀ a ∈ pre, a.1 = [] ∨ ∃ r ∈ kept pre, a.1 <+: r.1 := by
  induction pre using List.reverseRecOn with
  | nil => exact ⟨fun a ha => ha, fun a ha => by cases ha⟩
  | append_singleton pre p ih =>
    have e : kept (pre ++ [p]) = keep (kept pre) p.1 p.2 := by
      unfold kept
      rw [List.foldl_append]; rfl
    rw [e]
    unfold keep
    split
    · rename_i h
      refine ⟨fun a ha => List.mem_append_left _ (ih.1 a ha), fun a ha => ?_⟩
      rcases List.mem_append.1 ha with h1 | h1
      · exact ih.2 a h1
      · rw [List.mem_singleton.1 h1]
        rcases h with h | h
        · exact Or.inl h
        · rw [List.any_eq_true] at h
          obtain ⟨r, r1, r2⟩ := h
          exact Or.inr ⟨r, r1, List.isPrefixOf_iff_prefix.1 r2⟩
    · refine ⟨fun a ha => ?_, fun a ha => ?_⟩
      · rcases List.mem_append.1 ha with h1 | h1
        · exact List.mem_append_left _ (ih.1 a h1)
        · exact List.mem_append_right _ h1
      · rcases List.mem_append.1 ha with h1 | h1
        · rcases ih.2 a h1 with h2 | ⟨r, r1, r2⟩
          · exact Or.inl h2
          · exact Or.inr ⟨r, List.mem_append_left _ r1, r2⟩
        · rw [List.mem_singleton.1 h1]
          exact Or.inr ⟨_, List.mem_append_right _ List.mem_cons_self, List.prefix_refl _⟩

theorem allFresh_of {all : List (List α × T)} (h : FreshOrder all) : ∀ (l pre : List (List α × T)), all = pre ++ l → AllFresh (kept pre) l := by
  intro l
  induction l with
  | nil => intro pre _; trivial
  | cons p l ih =>
    intro pre he
    refine ⟨fun q hq hq0 a ha hin => ?_, ?_⟩
    · obtain ⟨r, r1, r2⟩ := h pre p l he q hq hq0 a ((kept_cover pre).1 a ha) hin
      rcases (kept_cover pre).2 r r1 with h0 | ⟨r', r3, r4⟩
      · rw [h0] at r2
        exact absurd (List.prefix_nil.1 r2) hq0
      · exact ⟨r', r3, r2.trans r4⟩
    · have := ih (pre ++ [p]) (by rw [he, List.append_assoc]; rfl)
      have e : kept (pre ++ [p]) = keep (kept pre) p.1 p.2 := by
        unfold kept
        rw [List.foldl_append]; rfl
      rwa [e] at this

theorem machine {ord : List Nat → List Nat} (hord : ∀ l, (ord l).Perm l) (k : List α) (v : T) (l : List (List α × T)) :
    ∃ m N g lab I, inserts ord newD ((k, v) :: l) = some m ∧ Good (AllFresh [] ((k, v) :: l)) m N g lab I ∧ m.ac.cont = kept ((k, v) :: l) := by
  obtain ⟨m, N, g, lab, I, h1, h2, h3⟩ := inserts_ok hord ((k, v) :: l) True ⟨⟨[], [Nd.new]⟩, [[]]⟩ new_good
  refine ⟨m, N, g, lab, I, ?_, good_congr (fun h => ⟨trivial, h⟩) h2, h3⟩
  unfold inserts at h1 ⊢
  rw [first_insertD]
  exact h1

/-! ### Theorems -/

/-- **C121, soundness.** After any insertions in any order a search does not fail, and everything it reports is true: at increasing positions, lists of
inserted pairs whose keys end there, the longest first. -/
theorem C121_sound {ord : List Nat → List Nat} (hord : ∀ l, (ord l).Perm l) (k : List α) (v : T) (l : List (List α × T)) (text : List α) :
    ∃ m L R, inserts ord newD ((k, v) :: l) = some m ∧ findAll m.ac text = some L ∧ gather m.ac L = some R ∧ (R.map Prod.fst).Pairwise (· < ·) ∧
      ∀ p ∈ R, p.1 ≤ text.length ∧ p.2 ≠ [] ∧ p.2.Sublist (occ (kept ((k, v) :: l)) (text.take p.1)) := by
  obtain ⟨m, N, g, lab, I, h1, G, h3⟩ := machine hord k v l
  have W : Weak m.ac N g lab := ⟨G.keys, fun x hx h0 => by
    obtain ⟨f, a1, a2, a3, _⟩ := G.si.link x hx h0
    exact ⟨f, a1, a2, a3⟩⟩
  obtain ⟨L, R, l1, l2, l3, l4⟩ := findAllFrom_weak W text [] 0 G.keys.tr.pos (by rw [G.keys.tr.root])
  refine ⟨m, L, R, h1, l1, l2, l3, fun p hp => ?_⟩
  obtain ⟨_, a2, a3, a4⟩ := l4 p hp
  rw [List.length_nil, Nat.zero_add] at a2
  rw [List.nil_append, h3] at a4
  exact ⟨a2, a3, a4⟩

/-- **C121, completeness (partial).** If a beginning of a key occurs inside an earlier key only when it is a beginning of an earlier key, the search also
misses nothing (of the pairs that are stored at all: as in `AcMachine`, a key that is a beginning of an earlier one is dropped). -/
theorem C121_complete_partial {ord : List Nat → List Nat} (hord : ∀ l, (ord l).Perm l) (k : List α) (v : T) (l : List (List α × T)) (text : List α) (hf : FreshOrder ((k, v) :: l)) :
    ∃ m L, inserts ord newD ((k, v) :: l) = some m ∧ findAll m.ac text = some L ∧ gather m.ac L = some (reports (kept ((k, v) :: l)) text) := by
  obtain ⟨m, N, g, lab, I, h1, G, h3⟩ := machine hord k v l
  have hF : AllFresh [] ((k, v) :: l) := allFresh_of hf ((k, v) :: l) [] rfl
  have B : Built m.ac N g lab := ⟨G.keys, fun x hx h0 => by
    obtain ⟨f, a1, _, _, a4⟩ := G.si.link x hx h0
    exact ⟨f, a1, a4 hF⟩⟩
  obtain ⟨L, l1, l2⟩ := findAllFrom_ok B text [] 0 (root_long B)
  refine ⟨m, L, h1, l1, ?_⟩
  rw [l2, reports_eq, h3]

/-- **C121.** With the condition, and keys none of which is a beginning of an earlier one: every occurrence of every key is reported, nothing else. -/
theorem C121_exact_partial {ord : List Nat → List Nat} (hord : ∀ l, (ord l).Perm l) (k : List α) (v : T) (l : List (List α × T)) (text : List α) (hf : FreshOrder ((k, v) :: l))
    (hne : ∀ p ∈ (k, v) :: l, p.1 ≠ []) (hp : ((k, v) :: l).Pairwise (fun a b => ¬ b.1 <+: a.1)) :
    ∃ m L, inserts ord newD ((k, v) :: l) = some m ∧ findAll m.ac text = some L ∧ gather m.ac L = some (reports ((k, v) :: l) text) := by
  have := C121_complete_partial hord k v l text hf
  rwa [kept_eq _ hne hp] at this

/-- **C121 is violated.** After `insert("abc")`, `insert("bc")`, `insert("c")` (of which none is a beginning of another) the text `abc` is reported to end with
`abc` and `c`, and not with `bc`: line 83 erases from a copy of the set. -/
theorem C121_violated : ¬ ∀ (k : List Nat) (v : Nat) (l : List (List Nat × Nat)) (text : List Nat), (∀ p ∈ (k, v) :: l, p.1 ≠ []) → ((k, v) :: l).Pairwise (fun a b => ¬ b.1 <+: a.1) →
    ∃ m L, inserts id newD ((k, v) :: l) = some m ∧ findAll m.ac text = some L ∧ gather m.ac L = some (reports ((k, v) :: l) text) := by
  intro h
  obtain ⟨m, L, h1, h2, h3⟩ := h [1, 2, 3] 1 [([2, 3], 2), ([3], 3)] [1, 2, 3] (by decide) (by decide)
  have e : (inserts id newD [([1, 2, 3], 1), ([2, 3], 2), ([3], 3)]).bind (fun m => (findAll m.ac [1, 2, 3]).bind (gather m.ac)) = some [(3, [([1, 2, 3], 1), ([3], 3)])] := by decide +kernel
  rw [h1, Option.bind_some, h2, Option.bind_some, h3] at e
  revert e
  decide

/-- **C121 is violated**: searching a machine without keys reads `nodes_[0]` of an empty vector. -/
theorem C121_violated_empty : findAll (newD : Dyn Nat Nat).ac [1] = none := rfl

/-! ### Concrete cases -/

/-- The same keys in the opposite order. -/
example : (inserts List.reverse newD [([3], 3), ([2, 3], 2), ([1, 2, 3], 1)]).bind (fun m => (findAll m.ac [1, 2, 3, 1, 3]).bind (gather m.ac)) =
    some [(3, [([1, 2, 3], 1), ([2, 3], 2), ([3], 3)]), (5, [([3], 3)])] := by decide +kernel

/-- Keys that meet the condition, with links of older nodes that lead to newer ones. -/
example : (inserts id newD [([1, 1], 5), ([1, 1, 1, 2], 6), ([2, 1], 7)]).bind (fun m => (findAll m.ac [1, 1, 1, 1, 2, 1]).bind (gather m.ac)) =
    some [(2, [([1, 1], 5)]), (3, [([1, 1], 5)]), (4, [([1, 1], 5)]), (5, [([1, 1, 1, 2], 6)]), (6, [([2, 1], 7)])] := by decide +kernel

theorem freshOrder_example : FreshOrder [([3], 3), ([2, 3], 2), ([1, 2, 3], 1)] := by
  intro pre p post h q hq hq0 a ha hin
  rcases pre with _ | ⟨a1, _ | ⟨a2, _ | ⟨a3, pre⟩⟩⟩
  · cases ha
  · simp only [List.cons_append, List.nil_append, List.cons.injEq] at h
    obtain ⟨rfl, rfl, -⟩ := h
    rw [List.mem_singleton] at ha
    subst ha
    obtain ⟨r, hr⟩ := hq
    rcases q with _ | ⟨x, q⟩
    · exact absurd rfl hq0
    · rw [List.cons_append, List.cons.injEq] at hr
      have : x ∈ [3] := hin.subset List.mem_cons_self
      rw [hr.1] at this
      exact absurd this (by decide)
  · simp only [List.cons_append, List.nil_append, List.cons.injEq] at h
    obtain ⟨rfl, rfl, rfl, -⟩ := h
    obtain ⟨r, hr⟩ := hq
    rcases q with _ | ⟨x, q⟩
    · exact absurd rfl hq0
    · rw [List.cons_append, List.cons.injEq] at hr
      have hx : x ∈ a.1 := hin.subset List.mem_cons_self
      rw [hr.1] at hx
      simp only [List.mem_cons, List.not_mem_nil, or_false] at ha
      rcases ha with rfl | rfl
      · exact absurd hx (by decide)
      · exact absurd hx (by decide)
  · have := congrArg List.length h
    simp at this

example (text : List Nat) : ∃ m L, inserts id newD [([3], 3), ([2, 3], 2), ([1, 2, 3], 1)] = some m ∧ findAll m.ac text = some L ∧
    gather m.ac L = some (reports [([3], 3), ([2, 3], 2), ([1, 2, 3], 1)] text) :=
  C121_exact_partial (fun _ => List.Perm.refl _) [3] 3 [([2, 3], 2), ([1, 2, 3], 1)] text freshOrder_example (by decide) (by decide)

end Verif.DynAc
