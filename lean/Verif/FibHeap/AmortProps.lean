import Verif.FibHeap.Amort
import Mathlib.Data.Nat.Log
/-!
C132: the amortised cost of the operations of `FibonacciHeap`.
-/
namespace Verif.FibHeap

variable {α : Type} {lt : α → α → Bool}

/-- Operations on a heap. -/
inductive HOp (α : Type) where
  | push (k : Nat) (v : α)
  | pop
  | erase (k : Nat)

/-- A history of operations, with the total number of steps. -/
def runC (lt : α → α → Bool) : List (HOp α) → Hp α → Option (Hp α × Nat)
  | [], H => some (H, 0)
  | .push k v :: l, H => (pushC lt H k v).bind (fun r => (runC lt l r.1).map (fun s => (s.1, r.2 + s.2)))
  | .pop :: l, H => (popC lt H).bind (fun r => (runC lt l r.1).map (fun s => (s.1, r.2 + s.2)))
  | .erase k :: l, H => (eraseC lt H k).bind (fun r => (runC lt l r.1).map (fun s => (s.1, r.2 + s.2)))

/-- The preconditions: keys are less than `N`; `pop` needs a live key, `erase` a live key which is not on top (the latter is a defect, see `C39_violation`). -/
def Legal (lt : α → α → Bool) (N : Nat) : List (HOp α) → Hp α → Bool
  | [], _ => true
  | .push k v :: l, H => decide (k < N) && (push lt H k v).all (Legal lt N l)
  | .pop :: l, H => (top H).isSome && (pop lt H).all (Legal lt N l)
  | .erase k :: l, H => (get H k).isSome && decide ((top H).map (fun t => t.1) ≠ some k) && (erase lt H k).all (Legal lt N l)

/-- The number of calls of `push` and `update`. -/
def pushes : List (HOp α) → Nat
  | [] => 0
  | .push _ _ :: l => pushes l + 1
  | _ :: l => pushes l

/-- The number of calls of `pop` and `erase`. -/
def removals : List (HOp α) → Nat
  | [] => 0
  | .push _ _ :: l => removals l
  | _ :: l => removals l + 1

theorem fst_some {A : Type} {o : Option (A × Nat)} {p : Option A} {a : A} (h : o.map (fun r => r.1) = p) (e : p = some a) : ∃ c, o = some (a, c) := by
  subst h
  obtain ⟨⟨a', c⟩, h1, h2⟩ := Option.map_eq_some_iff.mp e
  cases h2
  exact ⟨c, h1⟩

theorem runC_ok [Inhabited α] (hlt : SWO lt) {N : Nat} : ∀ (l : List (HOp α)) (H : Hp α) (M : Nat → Option α), Wf lt N M H → Legal lt N l H = true →
    ∃ H' c, runC lt l H = some (H', c) ∧ c + pot H' ≤ pot H + 8 * pushes l + 4 * H.tab.length * removals l := by
  intro l
  induction l with
  | nil => intro H M W _; exact ⟨H, 0, rfl, by unfold pushes removals; omega⟩
  | cons a l ih =>
    intro H M W L
    cases a with
    | push k v =>
      rw [Legal, Bool.and_eq_true, decide_eq_true_iff] at L
      obtain ⟨L1, L2⟩ := L
      obtain ⟨H1, e1, W1⟩ := push_spec hlt W L1 v
      rw [e1, Option.all_some] at L2
      obtain ⟨c1, e⟩ := fst_some (pushC_fst lt H k v) e1
      obtain ⟨p1, p2⟩ := pushC_pot W e
      obtain ⟨H2, c2, e2, b2⟩ := ih H1 _ W1 L2
      refine ⟨H2, c1 + c2, by rw [runC, e, Option.bind_some]; dsimp only; rw [e2]; rfl, ?_⟩
      rw [p2] at b2
      unfold pushes removals
      omega
    | pop =>
      rw [Legal, Bool.and_eq_true] at L
      obtain ⟨L1, L2⟩ := L
      rcases W.top with ⟨h, _⟩ | ⟨k, v, _, h2, _⟩
      · rw [h] at L1; cases L1
      obtain ⟨H1, e1, W1⟩ := pop_spec hlt W h2
      rw [e1, Option.all_some] at L2
      obtain ⟨c1, e⟩ := fst_some (popC_fst lt H) e1
      obtain ⟨p1, p2⟩ := popC_pot W e
      obtain ⟨H2, c2, e2, b2⟩ := ih H1 _ W1 L2
      refine ⟨H2, c1 + c2, by rw [runC, e, Option.bind_some]; dsimp only; rw [e2]; rfl, ?_⟩
      rw [p2] at b2
      unfold pushes removals
      rw [Nat.mul_add]
      omega
    | erase k =>
      rw [Legal, Bool.and_eq_true, Bool.and_eq_true, decide_eq_true_iff] at L
      obtain ⟨⟨L1, L2'⟩, L3⟩ := L
      have L2 : ∀ v, top H ≠ some (k, v) := fun v h => L2' (by rw [h]; rfl)
      have hk : Sup M k := by
        rw [W.get k] at L1
        unfold Sup
        cases h : M k with
        | none => rw [h] at L1; cases L1
        | some v => rfl
      obtain ⟨H1, e1, W1⟩ := erase_spec W hk (W.root_ne L2)
      rw [e1, Option.all_some] at L3
      obtain ⟨c1, e⟩ := fst_some (eraseC_fst lt H k) e1
      obtain ⟨p1, p2⟩ := eraseC_pot W hk (W.root_ne L2) e
      obtain ⟨H2, c2, e2, b2⟩ := ih H1 _ W1 L3
      refine ⟨H2, c1 + c2, by rw [runC, e, Option.bind_some]; dsimp only; rw [e2]; rfl, ?_⟩
      rw [p2] at b2
      unfold pushes removals
      rw [Nat.mul_add]
      omega

theorem two_pow_le_fib (j : Nat) : 2 ^ j ≤ Nat.fib (2 * j + 1) := by
  induction j with
  | zero => decide
  | succ j ih =>
    have e : 2 * (j + 1) + 1 = (2 * j + 1) + 2 := by omega
    have := Nat.fib_le_fib_succ (n := 2 * j + 1)
    rw [e, Nat.fib_add_two, Nat.pow_succ]
    omega

theorem tabLoop_min (size : Nat) : ∀ (f k K : Nat), 2 ≤ k → (k = 2 ∨ Nat.fib (k - 1) < size) → tabLoop size f (Nat.fib (k-1)) (Nat.fib k) k = some K → K = 2 ∨ Nat.fib (K - 1) < size := by
  intro f
  induction f with
  | zero => intro k K _ _ h; cases h
  | succ f ih =>
    intro k K hk h0 h
    rw [tabLoop] at h
    split_ifs at h with hb
    · have e : Nat.fib (k - 1) + Nat.fib k = Nat.fib (k + 1) := by
        have : k + 1 = (k - 1) + 2 := by omega
        rw [this, Nat.fib_add_two, show k - 1 + 1 = k by omega]
      rw [e] at h
      exact ih (k + 1) K (by omega) (Or.inr hb) h
    · cases h
      exact h0

/-- The table of degrees is logarithmic in the number of keys. -/
theorem mk_tab {N : Nat} {H : Hp α} (h : mk N = some H) : H.tab.length ≤ 2 * Nat.log 2 N + 3 := by
  unfold mk at h
  obtain ⟨K, e, rfl⟩ := Option.map_eq_some_iff.mp h
  rw [List.length_replicate]
  rcases tabLoop_min N (N+2) 2 K (le_refl _) (Or.inl rfl) e with h | h
  · omega
  · by_contra c
    have c : 2 * Nat.log 2 N + 4 ≤ K := by omega
    have h1 := two_pow_le_fib (Nat.log 2 N + 1)
    have h2 : Nat.fib (2 * (Nat.log 2 N + 1) + 1) ≤ Nat.fib (K - 1) := Nat.fib_mono (by omega)
    have h3 := Nat.lt_pow_succ_log_self (b := 2) (by decide) N
    omega

/-- **C132**: from an empty heap for `N` keys, every history of `p` calls of `push`/`update` and `r` calls of `pop`/`erase` takes at most `8 p + (8 ⌊log₂ N⌋ + 12) r` steps. -/
theorem C132_history [Inhabited α] (hlt : SWO lt) {N : Nat} {H : Hp α} (h : mk N = some H) (l : List (HOp α)) (L : Legal lt N l H = true) :
    ∃ H' c, runC lt l H = some (H', c) ∧ c ≤ 8 * pushes l + (8 * Nat.log 2 N + 12) * removals l := by
  obtain ⟨H0, e0, W⟩ := mk_wf lt N
  rw [h] at e0
  cases e0
  obtain ⟨H', c, e, b⟩ := runC_ok hlt l H _ W L
  refine ⟨H', c, e, ?_⟩
  have h0 : pot H = 0 := by
    unfold mk at h
    obtain ⟨K, e, rfl⟩ := Option.map_eq_some_iff.mp h
    have t : ((List.replicate K ([] : List Nat)).map List.length).sum = 0 := by simp
    have m : (List.replicate N (none : Option (Nd α))).countP isMarked = 0 := by
      rw [List.countP_eq_zero]
      intro a ha
      rw [(List.mem_replicate.mp ha).2]
      exact Bool.false_ne_true
    unfold pot trees marks
    dsimp only
    rw [t, m]
  have h1 : 4 * H.tab.length * removals l ≤ (8 * Nat.log 2 N + 12) * removals l := Nat.mul_le_mul_right _ (by have := mk_tab h; omega)
  omega

/-- The same for a single operation in any reachable heap, up to the change of a potential: `push`/`update` cost a constant and `pop`/`erase` a logarithm of the number of keys. -/
theorem C132_amortised [Inhabited α] (hlt : SWO lt) {N : Nat} {H : Hp α} {M : Nat → Option α} (r : Reach lt N H M) :
    (∀ k v H', push lt H k v = some H' → ∃ c, pushC lt H k v = some (H', c) ∧ c + pot H' ≤ pot H + 8) ∧
    (∀ H', pop lt H = some H' → ∃ c, popC lt H = some (H', c) ∧ c + pot H' ≤ pot H + 4 * H.tab.length) ∧
    (∀ k H', get H k ≠ none → (∀ v, top H ≠ some (k, v)) → erase lt H k = some H' → ∃ c, eraseC lt H k = some (H', c) ∧ c + pot H' ≤ pot H + 4 * H.tab.length) := by
  have W := reach_wf hlt r
  refine ⟨fun k v H' e => ?_, fun H' e => ?_, fun k H' hk ht e => ?_⟩
  · obtain ⟨c, e'⟩ := fst_some (pushC_fst lt H k v) e
    exact ⟨c, e', (pushC_pot W e').1⟩
  · obtain ⟨c, e'⟩ := fst_some (popC_fst lt H) e
    exact ⟨c, e', (popC_pot W e').1⟩
  · obtain ⟨c, e'⟩ := fst_some (eraseC_fst lt H k) e
    have hk : Sup M k := by
      rw [W.get k] at hk
      unfold Sup
      cases h : M k with
      | none => rw [h] at hk; exact absurd rfl hk
      | some v => rfl
    exact ⟨c, e', (eraseC_pot W hk (W.root_ne ht) e').1⟩

/-- Eight keys are pushed; a `pop` melds the trees (14 steps); then a node is cut off, its parent is marked, and others are cut off and erased. -/
def exOps : List (HOp Nat) := [.push 0 1, .push 1 2, .push 2 3, .push 3 4, .push 4 5, .push 5 6, .push 6 7, .push 7 8, .pop, .push 0 9, .erase 3, .push 1 8, .pop]

example : ((mk 8).map (Legal ltN 8 exOps)) = some true := by decide +kernel
example : ((mk 8).bind (runC ltN (exOps.take 8))).map (fun r => r.2) = some 8 := by decide +kernel
example : ((mk 8).bind (runC ltN (exOps.take 9))).map (fun r => r.2) = some 22 := by decide +kernel
example : ((mk 8).bind (runC ltN exOps)).map (fun r => r.2) = some 38 := by decide +kernel

end Verif.FibHeap
