import Verif.AcMachine.Search
/-!
C50: the machine reports the occurrences of the keys.
-/
namespace Verif.AcMachine

variable {α T : Type} [DecidableEq α]

/-! ### Specification -/

/-- A call made before searching. -/
inductive Act (α T : Type) where
  | ins (key : List α) (v : T)
  | build

/-- The inserted pairs in order. -/
def inserted : List (Act α T) → List (List α × T)
  | [] => []
  | .ins k v :: l => (k, v) :: inserted l
  | .build :: l => inserted l

/-- The pairs that survive: one that is a prefix of an earlier one is dropped. -/
def kept (l : List (List α × T)) : List (List α × T) := l.foldl (fun C p => keep C p.1 p.2) []

/-- The positions where a key ends, with all keys ending there (the longest first). -/
def reports (C : List (List α × T)) (text : List α) : List (Nat × List (List α × T)) :=
  (List.range text.length).filterMap (fun i => if (occ C (text.take (i+1))).isEmpty then none else some (i+1, occ C (text.take (i+1))))

/-! ### The program -/

/-- One call. -/
def step (ord : List (α × Nat) → List (α × Nat)) (s : Ac α T) : Act α T → Option (Ac α T)
  | .ins k v => insert s k v
  | .build => build ord s

/-- A sequence of calls. -/
def runActs (ord : List (α × Nat) → List (α × Nat)) : Ac α T → List (Act α T) → Option (Ac α T)
  | s, [] => some s
  | s, a :: l => (step ord s a).bind (fun s' => runActs ord s' l)

/-- A new machine, some calls, `build`. -/
def setup (ord : List (α × Nat) → List (α × Nat)) (acts : List (Act α T)) : Option (Ac α T) := (runActs ord ⟨[], []⟩ acts).bind (build ord)

/-- The user's loops over the result of `find_all`. -/
def gather (s : Ac α T) : List (Nat × Nat) → Option (List (Nat × List (List α × T)))
  | [] => some []
  | p :: l => (collect s s.nodes.length p.2).bind (fun o => (gather s l).map (fun r => (p.1, o) :: r))

/-! ### Proofs -/

theorem keys_ne {s : Ac α T} {N : Nat} {g : Nat → Nd α} {lab : Nat → List α} (K : Keys s N g lab) : s.nodes ≠ [] := by
  intro h
  have h1 := K.rep.len
  have h2 := K.tr.pos
  rw [h] at h1
  simp at h1
  omega

theorem build_keys {s : Ac α T} {N : Nat} {g : Nat → Nd α} {lab : Nat → List α} (K : Keys s N g lab) {ord : List (α × Nat) → List (α × Nat)} (hord : ∀ l, (ord l).Perm l) :
    ∃ s' g', build ord s = some s' ∧ Built s' N g' lab ∧ s'.cont = s.cont := by
  obtain ⟨n1, F1, w1, r1, k1⟩ := build_ok K.rep K.tr hord
  have t' : Tr N (wf g F1) lab := ⟨K.tr.pos, K.tr.root, K.tr.edge, K.tr.inj, K.tr.par, K.tr.nd⟩
  exact ⟨⟨s.cont, n1⟩, wf g F1, w1, ⟨⟨r1, t', K.idc, K.cid, K.labs, K.ne⟩, k1⟩, rfl⟩

theorem runActs_keys {ord : List (α × Nat) → List (α × Nat)} (hord : ∀ l, (ord l).Perm l) : ∀ (acts : List (Act α T)) (s : Ac α T) {N : Nat} {g : Nat → Nd α} {lab : Nat → List α} (_ : Keys s N g lab),
    ∃ s' N' g' lab', runActs ord s acts = some s' ∧ Keys s' N' g' lab' ∧ s'.cont = (inserted acts).foldl (fun C p => keep C p.1 p.2) s.cont := by
  intro acts
  induction acts with
  | nil => intro s N g lab K; exact ⟨s, N, g, lab, rfl, K, rfl⟩
  | cons a acts ih =>
    intro s N g lab K
    unfold runActs
    cases a with
    | ins k v =>
      obtain ⟨s1, N1, g1, lab1, h1, h2, h3⟩ := insert_keys K k v (keys_ne K)
      obtain ⟨s2, N2, g2, lab2, k1, k2, k3⟩ := ih s1 h2
      refine ⟨s2, N2, g2, lab2, ?_, k2, by rw [k3, h3]; rfl⟩
      show (insert s k v).bind _ = _
      rw [h1, Option.bind_some, k1]
    | build =>
      obtain ⟨s1, g1, h1, h2, h3⟩ := build_keys K hord
      obtain ⟨s2, N2, g2, lab2, k1, k2, k3⟩ := ih s1 h2.keys
      refine ⟨s2, N2, g2, lab2, ?_, k2, by rw [k3, h3]; rfl⟩
      show (build ord s).bind _ = _
      rw [h1, Option.bind_some, k1]

theorem first_insert (k : List α) (v : T) : insert (⟨[], []⟩ : Ac α T) k v = insert ⟨[], [Nd.new]⟩ k v := rfl

theorem setup_built {ord : List (α × Nat) → List (α × Nat)} (hord : ∀ l, (ord l).Perm l) (k : List α) (v : T) (acts : List (Act α T)) :
    ∃ s N g lab, setup ord (.ins k v :: acts) = some s ∧ Built s N g lab ∧ s.cont = kept (inserted (.ins k v :: acts)) := by
  obtain ⟨s1, N1, g1, lab1, h1, h2, h3⟩ := insert_keys (new_keys (α := α) (T := T)) k v (by simp)
  obtain ⟨s2, N2, g2, lab2, k1, k2, k3⟩ := runActs_keys hord acts s1 h2
  obtain ⟨s3, g3, b1, b2, b3⟩ := build_keys k2 hord
  refine ⟨s3, N2, g3, lab2, ?_, b2, by rw [b3, k3, h3]; rfl⟩
  unfold setup runActs
  have : step ord (⟨[], []⟩ : Ac α T) (.ins k v) = some s1 := h1
  rw [this, Option.bind_some, k1, Option.bind_some, b1]

theorem root_long {s : Ac α T} {N : Nat} {g : Nat → Nd α} {lab : Nat → List α} (B : Built s N g lab) : IsLong N lab [] 0 :=
  ⟨B.keys.tr.pos, by rw [B.keys.tr.root], fun v _ h => by rw [List.suffix_nil.1 h]; exact Nat.zero_le _⟩

/-- The report for the text read so far. -/
def repAt (C : List (List α × T)) (w : List α) : Option (Nat × List (List α × T)) := if (occ C w).isEmpty then none else some (w.length, occ C w)

theorem findAllFrom_ok {s : Ac α T} {N : Nat} {g : Nat → Nd α} {lab : Nat → List α} (B : Built s N g lab) : ∀ (t w : List α) (u : Nat), IsLong N lab w u →
    ∃ L, findAllFrom s w.length u t = some L ∧ gather s L = some ((List.range t.length).filterMap (fun i => repAt s.cont (w ++ t.take (i+1)))) := by
  intro t
  induction t with
  | nil => intro w u _; exact ⟨[], rfl, rfl⟩
  | cons c t ih =>
    intro w u hu
    obtain ⟨v, v1, v2⟩ := push_ok B hu c
    obtain ⟨x, x1, x2, x3⟩ := report B v2
    obtain ⟨L, l1, l2⟩ := ih (w ++ [c]) v v2
    rw [show (w ++ [c]).length = w.length + 1 by simp] at l1
    have hrest : (List.range (c :: t).length).filterMap (fun i => repAt s.cont (w ++ (c :: t).take (i+1))) =
        (repAt s.cont (w ++ [c])).toList ++ (List.range t.length).filterMap (fun i => repAt s.cont (w ++ [c] ++ t.take (i+1))) := by
      rw [List.length_cons, List.range_succ_eq_map, List.filterMap_cons, List.filterMap_map]
      have : (fun i => repAt s.cont (w ++ (c :: t).take (i+1))) ∘ Nat.succ = fun i => repAt s.cont (w ++ [c] ++ t.take (i+1)) := by
        funext i
        simp [Function.comp]
      rw [this]
      have h0 : w ++ (c :: t).take (0+1) = w ++ [c] := by simp
      rw [h0]
      cases repAt s.cont (w ++ [c]) <;> rfl
    rw [hrest]
    unfold findAllFrom
    rw [v1, Option.bind_some, x1, Option.bind_some, l1]
    by_cases h0 : x = 0
    · refine ⟨L, by simp [h0], ?_⟩
      have : repAt s.cont (w ++ [c]) = none := by
        unfold repAt
        rw [x3.1 h0]; rfl
      rw [this, l2]; rfl
    · refine ⟨(w.length + 1, x) :: L, by simp [h0], ?_⟩
      have : repAt s.cont (w ++ [c]) = some (w.length + 1, occ s.cont (w ++ [c])) := by
        unfold repAt
        rw [if_neg (by rw [List.isEmpty_iff]; exact fun h => h0 (x3.2 h))]
        simp
      rw [this]
      unfold gather
      rw [x2, Option.bind_some, l2]; rfl

theorem reports_eq (C : List (List α × T)) (text : List α) : reports C text = (List.range text.length).filterMap (fun i => repAt C ([] ++ text.take (i+1))) := by
  unfold reports
  apply List.filterMap_congr
  intro i hi
  rw [List.mem_range] at hi
  unfold repAt
  rw [List.nil_append, List.length_take, show min (i+1) text.length = i+1 by omega]

theorem pushAll_ok {s : Ac α T} {N : Nat} {g : Nat → Nd α} {lab : Nat → List α} (B : Built s N g lab) : ∀ (t w : List α) (u : Nat), IsLong N lab w u → ∃ v, pushAll s u t = some v ∧ IsLong N lab (w ++ t) v := by
  intro t
  induction t with
  | nil => intro w u h; exact ⟨u, rfl, by simpa using h⟩
  | cons c t ih =>
    intro w u hu
    obtain ⟨v, v1, v2⟩ := push_ok B hu c
    obtain ⟨x, x1, x2⟩ := ih (w ++ [c]) v v2
    exact ⟨x, by unfold pushAll; rw [v1, Option.bind_some, x1], by simpa using x2⟩

theorem findFrom_ok {s : Ac α T} {N : Nat} {g : Nat → Nd α} {lab : Nat → List α} (B : Built s N g lab) : ∀ (t w : List α) (u : Nat), IsLong N lab w u →
    (findFrom s w.length u t = some none ∧ ∀ i, 0 < i → i ≤ t.length → occ s.cont (w ++ t.take i) = []) ∨
    ∃ i x, findFrom s w.length u t = some (some (w.length + i, x)) ∧ 0 < i ∧ i ≤ t.length ∧ collect s s.nodes.length x = some (occ s.cont (w ++ t.take i)) ∧ occ s.cont (w ++ t.take i) ≠ [] ∧
      ∀ j, 0 < j → j < i → occ s.cont (w ++ t.take j) = [] := by
  intro t
  induction t with
  | nil => intro w u _; exact Or.inl ⟨rfl, fun i h1 h2 => by simp at h2; omega⟩
  | cons c t ih =>
    intro w u hu
    obtain ⟨v, v1, v2⟩ := push_ok B hu c
    obtain ⟨x, x1, x2, x3⟩ := report B v2
    unfold findFrom
    rw [v1, Option.bind_some, x1, Option.bind_some]
    have hshift : ∀ i, w ++ (c :: t).take (i+1) = (w ++ [c]) ++ t.take i := by intro i; simp
    by_cases h0 : x = 0
    · rw [if_neg (by simpa using h0)]
      have hempty := x3.1 h0
      have hone : ∀ j, 0 < j → occ s.cont (w ++ [c] ++ t.take (j-1)) = [] → occ s.cont (w ++ (c :: t).take j) = [] := by
        intro j hj h
        rw [show j = (j - 1) + 1 by omega, hshift]; exact h
      rw [show w.length + 1 = (w ++ [c]).length by simp]
      rcases ih (w ++ [c]) v v2 with ⟨h1, h2⟩ | ⟨i, y, h1, h2, h3, h4, h5, h6⟩
      · refine Or.inl ⟨h1, fun i hi hi2 => ?_⟩
        apply hone i hi
        rcases Nat.eq_zero_or_pos (i-1) with h | h
        · rw [h]; simpa using hempty
        · exact h2 (i-1) h (by simp at hi2; omega)
      · refine Or.inr ⟨i+1, y, ?_, by omega, by simp; omega, by rw [hshift]; exact h4, by rw [hshift]; exact h5, fun j hj hj2 => ?_⟩
        · rw [h1]; simp; omega
        · apply hone j hj
          rcases Nat.eq_zero_or_pos (j-1) with h | h
          · rw [h]; simpa using hempty
          · exact h6 (j-1) h (by omega)
    · rw [if_pos h0]
      refine Or.inr ⟨1, x, rfl, by omega, by simp, by simpa using x2, ?_, fun j h1 h2 => by omega⟩
      intro h
      exact h0 (x3.2 (by simpa using h))

/-! ### Theorems -/

/-- Membership in `occ` for lists with different keys: the specification lists exactly the pairs whose key ends `w`. -/
theorem occ_mem (C : List (List α × T)) (hC : (C.map Prod.fst).Nodup) (w : List α) (p : List α × T) : p ∈ occ C w ↔ p ∈ C ∧ p.1 <:+ w := by
  unfold occ
  rw [List.mem_filterMap]
  constructor
  · rintro ⟨x, h1, h2⟩
    have := List.find?_some (p := fun p : List α × T => decide (p.1 = x)) h2
    refine ⟨List.mem_of_find?_eq_some h2, ?_⟩
    rw [of_decide_eq_true this]
    exact (List.mem_tails ..).1 h1
  · rintro ⟨h1, h2⟩
    refine ⟨p.1, (List.mem_tails ..).2 h2, ?_⟩
    clear h2
    induction C with
    | nil => cases h1
    | cons q C ih =>
      rw [List.map_cons, List.nodup_cons] at hC
      by_cases e : q.1 = p.1
      · rcases List.mem_cons.1 h1 with h | h
        · subst h; simp
        · exact absurd (List.mem_map.2 ⟨p, h, e.symm⟩) hC.1
      · rw [List.find?_cons_of_neg (by simpa using e)]
        rcases List.mem_cons.1 h1 with h | h
        · subst h; exact absurd rfl e
        · exact ih hC.2 h

/-- What the code does for every list of keys: `find_all` and the iterators report exactly the pairs that survive insertion. -/
theorem C50_kept {ord : List (α × Nat) → List (α × Nat)} (hord : ∀ l, (ord l).Perm l) (k : List α) (v : T) (acts : List (Act α T)) (text : List α) :
    ∃ s L, setup ord (.ins k v :: acts) = some s ∧ findAll s text = some L ∧ gather s L = some (reports (kept (inserted (.ins k v :: acts))) text) := by
  obtain ⟨s, N, g, lab, h1, B, h3⟩ := setup_built hord k v acts
  obtain ⟨L, l1, l2⟩ := findAllFrom_ok B text [] 0 (root_long B)
  refine ⟨s, L, h1, l1, ?_⟩
  rw [l2, reports_eq, h3]

/-- Keys of which none is a prefix of an earlier one all survive. -/
theorem kept_eq (l : List (List α × T)) (hne : ∀ p ∈ l, p.1 ≠ []) (hp : l.Pairwise (fun a b => ¬ b.1 <+: a.1)) : kept l = l := by
  have key : ∀ (l C : List (List α × T)), (∀ p ∈ l, p.1 ≠ []) → (C ++ l).Pairwise (fun a b => ¬ b.1 <+: a.1) → l.foldl (fun C p => keep C p.1 p.2) C = C ++ l := by
    intro l
    induction l with
    | nil => intro C _ _; simp
    | cons p l ih =>
      intro C h1 h2
      have : keep C p.1 p.2 = C ++ [p] := by
        unfold keep
        rw [if_neg]
        rintro (h | h)
        · exact h1 p (List.mem_cons_self ..) h
        · rw [List.any_eq_true] at h
          obtain ⟨q, q1, q2⟩ := h
          rw [List.isPrefixOf_iff_prefix] at q2
          exact (List.pairwise_append.1 h2).2.2 q q1 p (List.mem_cons_self ..) q2
      rw [List.foldl_cons, this, ih (C ++ [p]) (fun q hq => h1 q (List.mem_cons_of_mem _ hq)) (by simpa using h2)]
      simp
  have := key l [] hne (by simpa using hp)
  simpa [kept] using this

/-- C50, when no key is a prefix of an earlier one (for instance when they are inserted by increasing length): every occurrence of every key is reported, nothing else. -/
theorem C50_partial {ord : List (α × Nat) → List (α × Nat)} (hord : ∀ l, (ord l).Perm l) (k : List α) (v : T) (acts : List (Act α T)) (text : List α)
    (hne : ∀ p ∈ inserted (.ins k v :: acts), p.1 ≠ []) (hp : (inserted (.ins k v :: acts)).Pairwise (fun a b => ¬ b.1 <+: a.1)) :
    ∃ s L, setup ord (.ins k v :: acts) = some s ∧ findAll s text = some L ∧ gather s L = some (reports (inserted (.ins k v :: acts)) text) := by
  have := C50_kept hord k v acts text
  rwa [kept_eq _ hne hp] at this

/-- `find`: the first position where a key ends, or nothing if there is none. -/
theorem C50_find {ord : List (α × Nat) → List (α × Nat)} (hord : ∀ l, (ord l).Perm l) (k : List α) (v : T) (acts : List (Act α T)) (text : List α) :
    ∃ s, setup ord (.ins k v :: acts) = some s ∧
      ((find s text = some none ∧ reports (kept (inserted (.ins k v :: acts))) text = []) ∨
       ∃ i x o, find s text = some (some (i, x)) ∧ collect s s.nodes.length x = some o ∧ (reports (kept (inserted (.ins k v :: acts))) text).head? = some (i, o)) := by
  obtain ⟨s, N, g, lab, h1, B, h3⟩ := setup_built hord k v acts
  refine ⟨s, h1, ?_⟩
  rw [← h3]
  have hf := findFrom_ok B text [] 0 (root_long B)
  simp only [List.nil_append, List.length_nil, Nat.zero_add] at hf
  unfold reports
  rcases hf with ⟨e1, e2⟩ | ⟨i, x, e1, e2, e3, e4, e5, e6⟩
  · refine Or.inl ⟨e1, ?_⟩
    rw [List.filterMap_eq_nil_iff]
    intro j hj
    rw [List.mem_range] at hj
    rw [e2 (j+1) (by omega) (by omega)]; rfl
  · refine Or.inr ⟨i, x, occ s.cont (text.take i), e1, e4, ?_⟩
    rw [show text.length = (i - 1) + (1 + (text.length - i)) by omega, List.range_add, List.filterMap_append]
    have hz : (List.range (i-1)).filterMap (fun j => if (occ s.cont (text.take (j+1))).isEmpty then none else some (j+1, occ s.cont (text.take (j+1)))) = [] := by
      rw [List.filterMap_eq_nil_iff]
      intro j hj
      rw [List.mem_range] at hj
      rw [e6 (j+1) (by omega) (by omega)]; rfl
    rw [hz, List.nil_append, Nat.add_comm 1, List.range_succ_eq_map, List.map_cons, List.filterMap_cons, show i - 1 + 0 + 1 = i by omega, if_neg (by rw [List.isEmpty_iff]; exact e5)]
    rfl

/-- `find_suffix`: the keys that end the text. -/
theorem C50_find_suffix {ord : List (α × Nat) → List (α × Nat)} (hord : ∀ l, (ord l).Perm l) (k : List α) (v : T) (acts : List (Act α T)) (text : List α) :
    ∃ s x, setup ord (.ins k v :: acts) = some s ∧ findSuffix s text = some x ∧ collect s s.nodes.length x = some (occ (kept (inserted (.ins k v :: acts))) text) := by
  obtain ⟨s, N, g, lab, h1, B, h3⟩ := setup_built hord k v acts
  obtain ⟨u, u1, u2⟩ := pushAll_ok B text [] 0 (root_long B)
  obtain ⟨x, x1, x2, x3⟩ := report B u2
  refine ⟨s, x, h1, ?_, by rw [← h3]; exact x2⟩
  unfold findSuffix
  rw [u1, Option.bind_some, x1]

/-! ### Concrete cases and the defect -/

/-- Keys inserted by increasing length. -/
example : (setup id [.ins [1] 10, .ins [2, 1] 20, .build, .ins [1, 2, 1] 30]).bind (fun s => (findAll s [1, 2, 1, 3, 2, 1]).bind (gather s)) =
    some [(1, [([1], 10)]), (3, [([1, 2, 1], 30), ([2, 1], 20), ([1], 10)]), (6, [([2, 1], 20), ([1], 10)])] := by decide +kernel

example : ([([1], 10), ([2, 1], 20), ([1, 2, 1], 30)] : List (List Nat × Nat)).Pairwise (fun a b => ¬ b.1 <+: a.1) := by decide

/-- The full statement fails: after `insert("ab")`, `insert("a")` the occurrence of `a` in `a` is not reported (lines 77-78 drop a key that ends at an existing node). -/
theorem C50_violation : ¬ ∀ (acts : List (Act Nat Nat)) (k : List Nat) (v : Nat) (text : List Nat), (∀ p ∈ inserted (.ins k v :: acts), p.1 ≠ []) →
    ∃ s L, setup id (.ins k v :: acts) = some s ∧ findAll s text = some L ∧ gather s L = some (reports (inserted (.ins k v :: acts)) text) := by
  intro h
  obtain ⟨s, L, h1, h2, h3⟩ := h [.ins [1] 20] [1, 2] 10 [1] (by decide)
  have e : (setup id [.ins [1, 2] 10, .ins [1] 20]).bind (fun s => (findAll s [1]).bind (gather s)) = some [] := by decide +kernel
  rw [h1, Option.bind_some, h2, Option.bind_some, h3] at e
  revert e
  decide

/-- `build` of a machine without keys reads `nodes_[0]` of an empty vector. -/
theorem C50_empty : setup (α := Nat) (T := Nat) id [] = none := rfl

end Verif.AcMachine
