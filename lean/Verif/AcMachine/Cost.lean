import Verif.AcMachine.Props
import Mathlib.Tactic.Ring
/-!
The steps of a search: the functions of `Model.lean` that also count.
-/
namespace Verif.AcMachine

variable {α T : Type} [DecidableEq α]

/-- `chase`, with the number of calls of `_go` (lines 207-208). -/
def chaseC (nodes : List (Nd α)) (c : α) : Nat → Nat → Option (Nat × Nat)
  | 0, _ => none
  | n+1, u => (go nodes u c).bind (fun r => match r with
      | some t => some (t, 1)
      | none => (nodes[u]?).bind (fun nd => nd.fail.bind (fun f => (chaseC nodes c n f).map (fun p => (p.1, p.2 + 1)))))

/-- `toExact`, with the number of evaluations of the condition in line 181. -/
def toExactC (nodes : List (Nd α)) : Nat → Nat → Option (Nat × Nat)
  | 0, _ => none
  | n+1, u => if u = 0 then some (0, 1) else (nodes[u]?).bind (fun nd => if nd.id = none then nd.fail.bind (fun f => (toExactC nodes n f).map (fun p => (p.1, p.2 + 1))) else some (u, 1))

/-- `findAllFrom`, with the number of calls of `_go` and of evaluations of the condition in line 181. -/
def findAllFromC (s : Ac α T) : Nat → Nat → List α → Option (List (Nat × Nat) × Nat × Nat)
  | _, _, [] => some ([], 0, 0)
  | i, u, c :: t => (chaseC s.nodes c s.nodes.length u).bind (fun v => (toExactC s.nodes s.nodes.length v.1).bind (fun x =>
      (findAllFromC s (i+1) v.1 t).map (fun l => (if x.1 ≠ 0 then (i+1, x.1) :: l.1 else l.1, v.2 + l.2.1, x.2 + l.2.2))))

/-- `find_all` with its counts. -/
def findAllC (s : Ac α T) (text : List α) : Option (List (Nat × Nat) × Nat × Nat) := findAllFromC s 0 0 text

/-- `findFrom` with its counts. -/
def findFromC (s : Ac α T) : Nat → Nat → List α → Option (Option (Nat × Nat) × Nat × Nat)
  | _, _, [] => some (none, 0, 0)
  | i, u, c :: t => (chaseC s.nodes c s.nodes.length u).bind (fun v => (toExactC s.nodes s.nodes.length v.1).bind (fun x =>
      if x.1 ≠ 0 then some (some (i+1, x.1), v.2, x.2) else (findFromC s (i+1) v.1 t).map (fun l => (l.1, v.2 + l.2.1, x.2 + l.2.2))))

/-- `find` with its counts. -/
def findC (s : Ac α T) (text : List α) : Option (Option (Nat × Nat) × Nat × Nat) := findFromC s 0 0 text

/-- `pushAll` with its count. -/
def pushAllC (s : Ac α T) : Nat → List α → Option (Nat × Nat)
  | u, [] => some (u, 0)
  | u, c :: t => (chaseC s.nodes c s.nodes.length u).bind (fun v => (pushAllC s v.1 t).map (fun p => (p.1, v.2 + p.2)))

/-- `find_suffix` with its counts. -/
def findSuffixC (s : Ac α T) (text : List α) : Option (Nat × Nat × Nat) :=
  (pushAllC s 0 text).bind (fun p => (toExactC s.nodes s.nodes.length p.1).map (fun x => (x.1, p.2, x.2)))

/-! ### The counts do not change the results -/

theorem chaseC_fst (nodes : List (Nd α)) (c : α) : ∀ n u, (chaseC nodes c n u).map Prod.fst = chase nodes c n u
  | 0, _ => rfl
  | n+1, u => by
      rw [chaseC, chase]
      cases go nodes u c with
      | none => rfl
      | some r =>
        rw [Option.bind_some, Option.bind_some]
        cases r with
        | some t => rfl
        | none =>
          dsimp only
          cases nodes[u]? with
          | none => rfl
          | some nd =>
            rw [Option.bind_some, Option.bind_some]
            cases nd.fail with
            | none => rfl
            | some f =>
              rw [Option.bind_some, Option.bind_some, ← chaseC_fst nodes c n f]
              cases chaseC nodes c n f <;> rfl

theorem toExactC_fst (nodes : List (Nd α)) : ∀ n u, (toExactC nodes n u).map Prod.fst = toExact nodes n u
  | 0, _ => rfl
  | n+1, u => by
      rw [toExactC, toExact]
      by_cases h : u = 0
      · rw [if_pos h, if_pos h]; rfl
      · rw [if_neg h, if_neg h]
        cases nodes[u]? with
        | none => rfl
        | some nd =>
          rw [Option.bind_some, Option.bind_some]
          by_cases hi : nd.id = none
          · rw [if_pos hi, if_pos hi]
            cases nd.fail with
            | none => rfl
            | some f =>
              rw [Option.bind_some, Option.bind_some, ← toExactC_fst nodes n f]
              cases toExactC nodes n f <;> rfl
          · rw [if_neg hi, if_neg hi]; rfl

theorem findAllFromC_fst (s : Ac α T) : ∀ (t : List α) (i u : Nat), (findAllFromC s i u t).map Prod.fst = findAllFrom s i u t
  | [], _, _ => rfl
  | c :: t, i, u => by
      rw [findAllFromC, findAllFrom, push, ← chaseC_fst]
      cases chaseC s.nodes c s.nodes.length u with
      | none => rfl
      | some v =>
        rw [Option.bind_some, Option.map_some, Option.bind_some, ← toExactC_fst]
        cases toExactC s.nodes s.nodes.length v.1 with
        | none => rfl
        | some x =>
          rw [Option.bind_some, Option.map_some, Option.bind_some, ← findAllFromC_fst s t (i+1) v.1]
          cases findAllFromC s (i+1) v.1 t <;> rfl

theorem findFromC_fst (s : Ac α T) : ∀ (t : List α) (i u : Nat), (findFromC s i u t).map Prod.fst = findFrom s i u t
  | [], _, _ => rfl
  | c :: t, i, u => by
      rw [findFromC, findFrom, push, ← chaseC_fst]
      cases chaseC s.nodes c s.nodes.length u with
      | none => rfl
      | some v =>
        rw [Option.bind_some, Option.map_some, Option.bind_some, ← toExactC_fst]
        cases toExactC s.nodes s.nodes.length v.1 with
        | none => rfl
        | some x =>
          rw [Option.bind_some, Option.map_some, Option.bind_some, ← findFromC_fst s t (i+1) v.1]
          by_cases h : x.1 ≠ 0
          · rw [if_pos h, if_pos h]; rfl
          · rw [if_neg h, if_neg h]
            cases findFromC s (i+1) v.1 t <;> rfl

theorem pushAllC_fst (s : Ac α T) : ∀ (t : List α) (u : Nat), (pushAllC s u t).map Prod.fst = pushAll s u t
  | [], _ => rfl
  | c :: t, u => by
      rw [pushAllC, pushAll, push, ← chaseC_fst]
      cases chaseC s.nodes c s.nodes.length u with
      | none => rfl
      | some v =>
        rw [Option.bind_some, Option.map_some, Option.bind_some, ← pushAllC_fst s t v.1]
        cases pushAllC s v.1 t <;> rfl

theorem findSuffixC_fst (s : Ac α T) (t : List α) : (findSuffixC s t).map Prod.fst = findSuffix s t := by
  unfold findSuffixC findSuffix
  rw [← pushAllC_fst]
  cases pushAllC s 0 t with
  | none => rfl
  | some p =>
    rw [Option.bind_some, Option.map_some, Option.bind_some, ← toExactC_fst]
    cases toExactC s.nodes s.nodes.length p.1 <;> rfl

/-! ### Bounds -/

theorem chaseC_len {s : Ac α T} {N : Nat} {g : Nat → Nd α} {lab : Nat → List α} (B : Built s N g lab) (c : α) : ∀ n u v k, u < N → chaseC s.nodes c n u = some (v, k) →
    k + (lab v).length ≤ (lab u).length + 2
  | 0, _, _, _, _, h => by cases h
  | n+1, u, v, k, hu, h => by
      have t := B.keys.tr
      rw [chaseC, go, B.keys.rep.val u hu, Option.map_some, Option.bind_some] at h
      cases ha : assoc (g u).e c with
      | some x =>
        rw [ha] at h
        cases h
        rw [(t.assoc_some hu ha).2, List.length_append, List.length_singleton]
        omega
      | none =>
        rw [ha] at h
        by_cases h0 : u = 0
        · subst h0
          cases h
          omega
        · have : goRes u (none : Option Nat) = none := if_neg h0
          rw [this] at h
          obtain ⟨f, f1, f2, f3⟩ := B.link hu h0
          dsimp only at h
          rw [Option.bind_some, f1, Option.bind_some] at h
          cases e : chaseC s.nodes c n f with
          | none => rw [e] at h; cases h
          | some p =>
            rw [e] at h
            cases h
            have := chaseC_len B c n f p.1 p.2 f2.1 e
            omega

/-- `push` from the node of `w`. -/
theorem push_cost {s : Ac α T} {N : Nat} {g : Nat → Nd α} {lab : Nat → List α} (B : Built s N g lab) {w : List α} {u : Nat} (h : IsLong N lab w u) (c : α) :
    ∃ v k, chaseC s.nodes c s.nodes.length u = some (v, k) ∧ IsLong N lab (w ++ [c]) v ∧ k + (lab v).length ≤ (lab u).length + 2 := by
  obtain ⟨v, v1, v2⟩ := push_ok B h c
  unfold push at v1
  rw [← chaseC_fst] at v1
  cases e : chaseC s.nodes c s.nodes.length u with
  | none => rw [e] at v1; cases v1
  | some p =>
    rw [e] at v1
    cases v1
    exact ⟨p.1, p.2, rfl, v2, chaseC_len B c _ u p.1 p.2 h.1 e⟩

theorem toExactC_len {s : Ac α T} {N : Nat} {g : Nat → Nd α} {lab : Nat → List α} (B : Built s N g lab) : ∀ n u v k, u < N → toExactC s.nodes n u = some (v, k) →
    k ≤ (lab u).length + 1
  | 0, _, _, _, _, h => by cases h
  | n+1, u, v, k, hu, h => by
      rw [toExactC] at h
      by_cases h0 : u = 0
      · rw [if_pos h0] at h; cases h; omega
      · rw [if_neg h0, B.keys.rep.val u hu, Option.bind_some] at h
        by_cases hi : (g u).id = none
        · rw [if_pos hi] at h
          obtain ⟨f, f1, f2, f3⟩ := B.link hu h0
          rw [f1, Option.bind_some] at h
          cases e : toExactC s.nodes n f with
          | none => rw [e] at h; cases h
          | some p =>
            rw [e] at h
            cases h
            have := toExactC_len B n f p.1 p.2 f2.1 e
            omega
        · rw [if_neg hi] at h; cases h; omega

theorem exact_cost {s : Ac α T} {N : Nat} {g : Nat → Nd α} {lab : Nat → List α} (B : Built s N g lab) {u : Nat} (hu : u < N) :
    ∃ x k, toExactC s.nodes s.nodes.length u = some (x, k) ∧ k ≤ (lab u).length + 1 := by
  obtain ⟨x, x1, _⟩ := toExact_ok B s.nodes.length u (by rw [B.keys.rep.len]; exact B.lt hu) hu
  rw [← toExactC_fst] at x1
  cases e : toExactC s.nodes s.nodes.length u with
  | none => rw [e] at x1; cases x1
  | some p =>
    rw [e] at x1
    cases x1
    exact ⟨p.1, p.2, rfl, toExactC_len B _ u p.1 p.2 hu e⟩

/-- The labels are no longer than the keys. -/
theorem lab_le {s : Ac α T} {N : Nat} {g : Nat → Nd α} {lab : Nat → List α} (K : Keys s N g lab) {m : Nat} (hm : ∀ p ∈ s.cont, p.1.length ≤ m) {u : Nat} (hu : u < N) : (lab u).length ≤ m := by
  rcases (K.labs (lab u)).mp ⟨u, hu, rfl⟩ with h | ⟨p, hp, h⟩
  · rw [h]; exact Nat.zero_le _
  · exact Nat.le_trans h.length_le (hm p hp)

theorem findAllFromC_cost {s : Ac α T} {N : Nat} {g : Nat → Nd α} {lab : Nat → List α} (B : Built s N g lab) {m : Nat} (hm : ∀ u, u < N → (lab u).length ≤ m) :
    ∀ (t w : List α) (i u : Nat), IsLong N lab w u → ∃ L a b, findAllFromC s i u t = some (L, a, b) ∧ a ≤ (lab u).length + 2 * t.length ∧
      b ≤ (min m (w.length + t.length) + 1) * t.length := by
  intro t
  induction t with
  | nil => intro w i u _; exact ⟨[], 0, 0, rfl, Nat.zero_le _, Nat.zero_le _⟩
  | cons c t ih =>
    intro w i u hu
    obtain ⟨v, k, v1, v2, v3⟩ := push_cost B hu c
    obtain ⟨x, j, x1, x2⟩ := exact_cost B v2.1
    obtain ⟨L, a, b, l1, l2, l3⟩ := ih (w ++ [c]) (i+1) v v2
    refine ⟨_, _, _, by rw [findAllFromC, v1, Option.bind_some, x1, Option.bind_some, l1]; rfl, ?_, ?_⟩
    · dsimp only
      rw [List.length_cons]
      omega
    · dsimp only
      have h1 := hm v v2.1
      have h2 := v2.2.1.length_le
      rw [List.length_append, List.length_singleton] at h2 l3
      rw [List.length_cons, Nat.mul_add, Nat.mul_one, show w.length + (t.length + 1) = w.length + 1 + t.length by omega]
      omega

theorem findFromC_cost {s : Ac α T} {N : Nat} {g : Nat → Nd α} {lab : Nat → List α} (B : Built s N g lab) {m : Nat} (hm : ∀ u, u < N → (lab u).length ≤ m) :
    ∀ (t w : List α) (i u : Nat), IsLong N lab w u → ∃ L a b, findFromC s i u t = some (L, a, b) ∧ a ≤ (lab u).length + 2 * t.length ∧
      b ≤ (min m (w.length + t.length) + 1) * t.length := by
  intro t
  induction t with
  | nil => intro w i u _; exact ⟨none, 0, 0, rfl, Nat.zero_le _, Nat.zero_le _⟩
  | cons c t ih =>
    intro w i u hu
    obtain ⟨v, k, v1, v2, v3⟩ := push_cost B hu c
    obtain ⟨x, j, x1, x2⟩ := exact_cost B v2.1
    obtain ⟨L, a, b, l1, l2, l3⟩ := ih (w ++ [c]) (i+1) v v2
    have h1 := hm v v2.1
    have h2 := v2.2.1.length_le
    rw [List.length_append, List.length_singleton] at h2 l3
    rw [findFromC, v1, Option.bind_some, x1, Option.bind_some]
    dsimp only
    have h3 : (min m (w.length + 1 + t.length) + 1) * (t.length + 1) = (min m (w.length + 1 + t.length) + 1) * t.length + (min m (w.length + 1 + t.length) + 1) := Nat.mul_succ _ _
    rw [List.length_cons, show w.length + (t.length + 1) = w.length + 1 + t.length by omega, h3]
    by_cases h0 : x ≠ 0
    · rw [if_pos h0]
      exact ⟨_, _, _, rfl, by omega, by omega⟩
    · rw [if_neg h0, l1]
      exact ⟨_, _, _, rfl, by dsimp only; omega, by dsimp only; omega⟩

theorem pushAllC_cost {s : Ac α T} {N : Nat} {g : Nat → Nd α} {lab : Nat → List α} (B : Built s N g lab) :
    ∀ (t w : List α) (u : Nat), IsLong N lab w u → ∃ v a, pushAllC s u t = some (v, a) ∧ a ≤ (lab u).length + 2 * t.length ∧ IsLong N lab (w ++ t) v := by
  intro t
  induction t with
  | nil => intro w u h; exact ⟨u, 0, rfl, Nat.zero_le _, by rw [List.append_nil]; exact h⟩
  | cons c t ih =>
    intro w u hu
    obtain ⟨v, k, v1, v2, v3⟩ := push_cost B hu c
    obtain ⟨x, a, l1, l2, l3⟩ := ih (w ++ [c]) v v2
    refine ⟨x, k + a, by rw [pushAllC, v1, Option.bind_some, l1]; rfl, by rw [List.length_cons]; omega, ?_⟩
    rw [List.append_assoc] at l3
    exact l3

/-! ### A slow search -/

theorem long_eq {N : Nat} {lab : Nat → List α} {w : List α} {u : Nat} (h : IsLong N lab w u) (hw : ∃ x, x < N ∧ lab x = w) : lab u = w := by
  obtain ⟨x, x1, x2⟩ := hw
  refine h.2.1.eq_of_length (Nat.le_antisymm h.2.1.length_le ?_)
  have := h.2.2 x x1 (by rw [x2])
  rwa [x2] at this

/-- From a run of equal letters that ends no key, the links are followed one letter at a time. -/
theorem toExactC_run {s : Ac α T} {N : Nat} {g : Nat → Nd α} {lab : Nat → List α} (B : Built s N g lab) {a : α} {m : Nat} (hr : ∀ i, i ≤ m → ∃ x, x < N ∧ lab x = List.replicate i a)
    (hk : ∀ p ∈ s.cont, ∀ i, p.1 ≠ List.replicate i a) : ∀ n i u, i ≤ m → i < n → u < N → lab u = List.replicate i a → toExactC s.nodes n u = some (0, i + 1)
  | 0, _, _, _, h, _, _ => by omega
  | n+1, i, u, hi, hn, hu, hl => by
      rw [toExactC]
      by_cases h0 : u = 0
      · subst h0
        rw [B.keys.tr.root] at hl
        have : i = 0 := by
          have := congrArg List.length hl
          simp at this
          omega
        rw [if_pos rfl, this]
      · rw [if_neg h0, B.keys.rep.val u hu, Option.bind_some]
        have hid : (g u).id = none := by
          cases e : (g u).id with
          | none => rfl
          | some k =>
            obtain ⟨t, ht⟩ := B.keys.idc u hu k e
            exact absurd hl (hk _ (List.mem_of_getElem? ht) i)
        obtain ⟨f, f1, f2, f3⟩ := B.link hu h0
        cases i with
        | zero => exact absurd hl (B.keys.tr.ne_nil hu h0)
        | succ i =>
          rw [hl, List.replicate_succ, List.tail_cons] at f2
          have hf := long_eq f2 (hr i (by omega))
          rw [if_pos hid, f1, Option.bind_some, toExactC_run B hr hk n i f (by omega) (by omega) f2.1 hf]
          rfl

theorem findAll_run {s : Ac α T} {N : Nat} {g : Nat → Nd α} {lab : Nat → List α} (B : Built s N g lab) {a : α} {m : Nat} (hr : ∀ i, i ≤ m → ∃ x, x < N ∧ lab x = List.replicate i a)
    (hk : ∀ p ∈ s.cont, ∀ i, p.1 ≠ List.replicate i a) : ∀ (j i p u : Nat), IsLong N lab (List.replicate i a) u → i + j ≤ m →
    ∃ x b, findAllFromC s p u (List.replicate j a) = some ([], x, b) ∧ 2 * b = 2 * j * (i + 1) + j * (j + 1) := by
  intro j
  induction j with
  | zero => intro i p u _ _; exact ⟨0, 0, rfl, by simp⟩
  | succ j ih =>
    intro i p u hu hj
    obtain ⟨v, k, v1, v2, _⟩ := push_cost B hu a
    rw [← List.replicate_succ'] at v2
    have hl := long_eq v2 (hr (i+1) (by omega))
    have hlt := B.lt v2.1
    rw [hl, List.length_replicate] at hlt
    have hx := toExactC_run B hr hk s.nodes.length (i+1) v (by omega) (by rw [B.keys.rep.len]; exact hlt) v2.1 hl
    obtain ⟨x, b, e, eb⟩ := ih (i+1) (p+1) v v2 (by omega)
    refine ⟨_, _, by rw [List.replicate_succ, findAllFromC, v1, Option.bind_some, hx, Option.bind_some, e]; rfl, ?_⟩
    dsimp only
    rw [Nat.mul_add, eb]
    ring

end Verif.AcMachine
