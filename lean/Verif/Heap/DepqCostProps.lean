import Verif.Heap.DepqCost
import Verif.Heap.DepqProps
/-!
**C138.** The complexities documented in double_ended_priority_queue.hpp:8-16.
-/
namespace Verif.Depq

variable {α : Type} [LinearOrder α]

/-- A call with its number of comparisons and swaps of elements. -/
def stepC (a : List α) : Op α → Option ((List α × Out α) × Nat)
  | .push x => (pushC a x).map (fun p => ((p.1, .unit), p.2))
  | .popMin => (popMinC a).map (fun p => ((p.1, .unit), p.2))
  | .popMax => (popMaxC a).map (fun p => ((p.1, .unit), p.2))
  | op => (step a op).map (fun q => (q, 0))

/-- The outputs of a history, with the number of elements before each call and the work of the call. -/
def runC : List α → List (Op α) → Option (List (Out α × Nat × Nat))
  | _, [] => some []
  | a, op :: ops => (stepC a op).bind (fun q => (runC q.1.1 ops).map (fun os => (q.1.2, a.length, q.2) :: os))

theorem stepC_fst (a : List α) (op : Op α) : (stepC a op).map Prod.fst = step a op := by
  cases op with
  | push x => rw [step, ← pushC_fst, stepC, Option.map_map, Option.map_map]; rfl
  | popMin => rw [step, ← popMinC_fst, stepC, Option.map_map, Option.map_map]; rfl
  | popMax => rw [step, ← popMaxC_fst, stepC, Option.map_map, Option.map_map]; rfl
  | min => show ((step a Op.min).map (fun q => (q, 0))).map Prod.fst = _; cases step a Op.min <;> rfl
  | max => show ((step a Op.max).map (fun q => (q, 0))).map Prod.fst = _; cases step a Op.max <;> rfl
  | size => rfl
  | empty => rfl
  | clear => rfl

theorem log_pairs (n : Nat) (x : Nat) : Nat.log 2 (pairs n / (x+1)) ≤ Nat.log 2 n := by
  apply Nat.log_mono_right
  refine le_trans (Nat.div_le_self _ _) ?_
  unfold pairs
  omega

/-- What a call may cost with `n` elements. -/
def limit (n : Nat) : Op α → Nat
  | .push _ => 4 * Nat.log 2 (n + 1) + 6
  | .popMin => 7 * Nat.log 2 n + 7
  | .popMax => 7 * Nat.log 2 n + 7
  | _ => 0

theorem pop_bd (a b : List α) (i : Nat) (hb : b.length = a.length) : Bd (if i < b.dropLast.length then heapifyC b.dropLast i false else some (b.dropLast, 0)) (fun _ => True) (7 * Nat.log 2 a.length + 6) := by
  split
  · rename_i h
    refine (heapifyC_bd b.dropLast i false h).mono (fun _ _ => trivial) ?_
    have h1 := log_pairs b.dropLast.length (i/2)
    have h2 := log_pairs b.dropLast.length 0
    have h3 : Nat.log 2 b.dropLast.length ≤ Nat.log 2 a.length := Nat.log_mono_right (by rw [List.length_dropLast, hb]; omega)
    rw [if_neg (by decide)]
    simp only [Nat.zero_div] at h2 ⊢
    omega
  · exact Bd.pure trivial

theorem stepC_bd (a : List α) (op : Op α) : Bd (stepC a op) (fun _ => True) (limit a.length op) := by
  have lift : ∀ (x : Option (List α × Nat)) (t : Nat), Bd x (fun _ => True) t → Bd (x.map (fun p => ((p.1, (Out.unit : Out α)), p.2))) (fun _ => True) t := by
    intro x t h y c e
    rw [Option.map_eq_some_iff] at e
    obtain ⟨p, e1, e⟩ := e
    cases e
    exact ⟨trivial, (h p.1 p.2 e1).2⟩
  have zero : ∀ (x : Option (List α × Out α)), Bd (x.map (fun q => (q, 0))) (fun _ => True) 0 := by
    intro x y c e
    rw [Option.map_eq_some_iff] at e
    obtain ⟨p, e1, e⟩ := e
    cases e
    exact ⟨trivial, le_refl _⟩
  cases op with
  | push x =>
    apply lift
    unfold pushC
    refine (heapifyC_bd (a ++ [x]) a.length false (by rw [List.length_append, List.length_singleton]; omega)).mono (fun _ _ => trivial) ?_
    rw [List.length_append, List.length_singleton, if_neg (by decide)]
    have h1 : Nat.log 2 (pairs (a.length + 1) / (a.length / 2 + 1)) = 0 := Nat.log_of_lt (by
      rw [Nat.div_lt_iff_lt_mul (by omega)]; unfold pairs; omega)
    have h2 := log_pairs (a.length + 1) 0
    rw [h1]
    unfold limit
    simp only [Nat.zero_div] at h2 ⊢
    omega
  | popMin =>
    apply lift
    unfold popMinC limit
    split
    · intro y c e; cases e
    · split
      · exact Bd.pure trivial
      · exact ((Bd.tk (P := fun b => b.length = a.length) fun b hb => swap_length hb).bd fun b hb => pop_bd a b 1 hb).mono (fun _ _ => trivial) (by dsimp only; omega)
  | popMax =>
    apply lift
    unfold popMaxC limit
    split
    · intro y c e; cases e
    · exact ((Bd.tk (P := fun b => b.length = a.length) fun b hb => swap_length hb).bd fun b hb => pop_bd a b 0 hb).mono (fun _ _ => trivial) (by dsimp only; omega)
  | min => exact zero (step a Op.min)
  | max => exact zero (step a Op.max)
  | size => exact zero (step a Op.size)
  | empty => exact zero (step a Op.empty)
  | clear => exact zero (step a Op.clear)

theorem runC_ok : ∀ (ops : List (Op α)) (a : List α), (runC a ops).map (fun l => l.map Prod.fst) = run a ops ∧
    ∀ l, runC a ops = some l → ∀ (i : Nat) (op : Op α) (r : Out α × Nat × Nat), ops[i]? = some op → l[i]? = some r → r.2.2 ≤ limit r.2.1 op := by
  intro ops
  induction ops with
  | nil => intro a; exact ⟨rfl, fun l _ i op r h => by rw [List.getElem?_nil] at h; cases h⟩
  | cons op ops ih =>
    intro a
    have h1 := stepC_fst a op
    unfold runC run
    cases e : stepC a op with
    | none =>
      rw [e] at h1
      rw [← h1]
      exact ⟨rfl, fun l hl => by cases hl⟩
    | some q =>
      rw [e] at h1
      obtain ⟨i1, i2⟩ := ih q.1.1
      rw [← h1]
      refine ⟨?_, ?_⟩
      · show Option.map _ (Option.bind (some q) _) = Option.bind (some q.1) _
        rw [Option.bind_some, Option.bind_some, ← i1]
        cases runC q.1.1 ops <;> rfl
      · intro l hl i o r ho hr
        rw [Option.bind_some, Option.map_eq_some_iff] at hl
        obtain ⟨l', e', rfl⟩ := hl
        cases i with
        | zero =>
          rw [List.getElem?_cons_zero] at ho hr
          cases ho
          cases hr
          exact (stepC_bd a op q.1 q.2 e).2
        | succ i =>
          rw [List.getElem?_cons_succ] at ho hr
          exact i2 l' e' i o r ho hr

/-! ### Theorems -/

/-- **C138, the constructor: `O(n)`.** From `n` elements it makes at most `15n + 7` comparisons and swaps. -/
theorem C138_build (a : List α) : (buildC a).map Prod.fst = build a ∧ ∀ b t, buildC a = some (b, t) → t ≤ 15 * a.length + 7 := by
  refine ⟨buildC_fst a, fun b t h => ?_⟩
  unfold buildC at h
  by_cases h1 : a.length ≤ 1
  · rw [if_pos h1] at h
    cases h
    exact Nat.zero_le _
  · rw [if_neg h1] at h
    by_cases h2 : a.length = 2
    · rw [if_pos h2] at h
      have : Bd (bd (tk 1 (cmpAt true a 0 1)) (fun c => if c then tk 1 (swap a 0 1) else some (a, 0))) (fun _ => True) (1 + 1) := by
        refine (Bd.tk (P := fun _ => True) fun c _ => trivial).bd fun c _ => ?_
        cases c with
        | false =>
          rw [if_neg (by decide)]
          exact Bd.pure trivial
        | true =>
          rw [if_pos rfl]
          exact Bd.tk fun b hb => trivial
      have := (this b t h).2
      omega
    · rw [if_neg h2] at h
      have h3 := (buildLoopC_bd a.length a.length a rfl (le_refl _) b t h).2
      have h4 := heights_le (pairs a.length) ((a.length + 1)/2)
      have h5 := heights_le (pairs a.length) (a.length/2)
      have h6 : 2 * pairs a.length ≤ a.length + 1 := by unfold pairs; omega
      omega

/-- **C138, the calls.** In every history, on whatever vector it starts, a `push` with `n` elements in the queue makes at most `4 log₂ (n+1) + 6` comparisons and
swaps, a `pop_min` or `pop_max` at most `7 log₂ n + 7`, and the other calls none. -/
theorem C138_calls (a : List α) (ops : List (Op α)) : (runC a ops).map (fun l => l.map Prod.fst) = run a ops ∧
    ∀ l, runC a ops = some l → ∀ (i : Nat) (op : Op α) (r : Out α × Nat × Nat), ops[i]? = some op → l[i]? = some r → r.2.2 ≤ limit r.2.1 op := runC_ok ops a

/-- **C138 for a default-constructed queue**: the answers are those of the sorted list, at that price. -/
theorem C138_history (ops : List (Op α)) (os : List (Out α)) (h : srun [] ops = some os) : ∃ l, runC [] ops = some l ∧ l.map Prod.fst = os ∧
    ∀ (i : Nat) (op : Op α) (r : Out α × Nat × Nat), ops[i]? = some op → l[i]? = some r → r.2.2 ≤ limit r.2.1 op := by
  obtain ⟨h1, h2⟩ := runC_ok ops []
  rw [C38_history, h, Option.map_eq_some_iff] at h1
  obtain ⟨l, e, h3⟩ := h1
  exact ⟨l, e, h3, h2 l e⟩

/-! ### Concrete cases -/

example : runC ([] : List Int) [.push 3, .push 1, .push 2, .push 9, .push 7, .popMin, .min, .popMax, .max] =
    some [(.unit, 0, 0), (.unit, 1, 1), (.unit, 2, 2), (.unit, 3, 5), (.unit, 4, 2), (.unit, 5, 7), (.val 2, 4, 0), (.unit, 4, 5), (.val 7, 3, 0)] := by decide +kernel

example : (buildC [5, 2, 8, 1, 9, 3, 7, 4]).map Prod.snd = some 24 := by decide +kernel

end Verif.Depq
