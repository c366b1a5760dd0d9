import Verif.FibHeap.Refine
/-!
C39: `FibonacciHeap` is a priority queue with keys.

The full property asks for every history of `push`/`update`, `pop` and `erase`.  It is proved for all histories that do not `erase` the key on top; for the other ones it is false
(`C39_violation`).
-/
namespace Verif.FibHeap

variable {α : Type}

/-- The heaps that a history of operations on keys below `N` leads to, together with the map from keys to values which they stand for. -/
inductive Reach (lt : α → α → Bool) (N : Nat) : Hp α → (Nat → Option α) → Prop where
  | new {H : Hp α} (e : mk N = some H) : Reach lt N H (fun _ => none)
  /-- `push(k, v)` on an absent key inserts it. -/
  | insert {H H' : Hp α} {M : Nat → Option α} {k : Nat} {v : α} (r : Reach lt N H M) (hk : k < N) (hM : M k = none) (e : push lt H k v = some H') : Reach lt N H' (upd M k (some v))
  /-- `push(k, v)` on a present key raises its value to `v`. -/
  | raise {H H' : Hp α} {M : Nat → Option α} {k : Nat} {u v : α} (r : Reach lt N H M) (hM : M k = some u) (hv : lt u v = true) (e : push lt H k v = some H') : Reach lt N H' (upd M k (some v))
  /-- `push(k, v)` does nothing if the value of the key is not less. -/
  | keep {H H' : Hp α} {M : Nat → Option α} {k : Nat} {u v : α} (r : Reach lt N H M) (hM : M k = some u) (hv : lt u v = false) (e : push lt H k v = some H') : Reach lt N H' M
  /-- `pop()` removes the key that `top()` shows. -/
  | pop {H H' : Hp α} {M : Nat → Option α} {k : Nat} {v : α} (r : Reach lt N H M) (ht : top H = some (k, v)) (e : pop lt H = some H') : Reach lt N H' (upd M k none)
  /-- `erase(k)` removes a key; here not the one that `top()` shows. -/
  | erase {H H' : Hp α} {M : Nat → Option α} {k : Nat} {u : α} (r : Reach lt N H M) (hM : M k = some u) (ht : ∀ v, top H ≠ some (k, v)) (e : erase lt H k = some H') : Reach lt N H' (upd M k none)

theorem Wf.root_ne {lt : α → α → Bool} {N : Nat} {M : Nat → Option α} {H : Hp α} (W : Wf lt N M H) {k : Nat} (ht : ∀ v, FibHeap.top H ≠ some (k, v)) : H.root ≠ some k := by
  rcases W.top with ⟨_, h⟩ | ⟨k', v, h1, h2, _⟩
  · intro hr
    obtain ⟨K, o, g, W⟩ := W
    have := (W.top.ok k hr).1
    unfold Sup at this
    rw [h k] at this
    cases this
  · intro hr
    rw [hr] at h2
    cases h2
    exact ht v h1

theorem reach_wf [Inhabited α] {lt : α → α → Bool} (hlt : SWO lt) {N : Nat} {H : Hp α} {M : Nat → Option α} (r : Reach lt N H M) : Wf lt N M H := by
  induction r with
  | new e =>
    obtain ⟨H', e', W⟩ := mk_wf lt N
    rw [e'] at e
    cases e
    exact W
  | @insert H H' M k v _ hk hM e W =>
    obtain ⟨H'', e', W'⟩ := push_spec hlt W hk v
    rw [e'] at e
    cases e
    unfold insertRaise at W'
    rw [hM] at W'
    exact W'
  | @raise H H' M k u v _ hM hv e W =>
    obtain ⟨H'', e', W'⟩ := push_spec hlt W (W.lt_N (k := k) (by unfold Sup; rw [hM]; rfl)) v
    rw [e'] at e
    cases e
    unfold insertRaise at W'
    rw [hM] at W'
    dsimp only at W'
    rw [if_pos hv] at W'
    exact W'
  | @keep H H' M k u v _ hM hv e W =>
    obtain ⟨H'', e', W'⟩ := push_spec hlt W (W.lt_N (k := k) (by unfold Sup; rw [hM]; rfl)) v
    rw [e'] at e
    cases e
    unfold insertRaise at W'
    rw [hM] at W'
    dsimp only at W'
    rw [if_neg (by simp [hv])] at W'
    exact W'
  | @pop H H' M k v _ ht e W =>
    rcases W.top with ⟨h, _⟩ | ⟨k', v', h1, h2, _⟩
    · rw [h] at ht; cases ht
    · rw [h1] at ht
      cases ht
      obtain ⟨H'', e', W'⟩ := pop_spec hlt W h2
      rw [e'] at e
      cases e
      exact W'
  | @erase H H' M k u _ hM ht e W =>
    obtain ⟨H'', e', W'⟩ := erase_spec W (k := k) (by unfold Sup; rw [hM]; rfl) (W.root_ne ht)
    rw [e'] at e
    cases e
    exact W'

/-- For every strict weak order, every number of keys and every history without `erase` of the top key: `get` and `size` agree with the map of live keys; `top` fails exactly if there is no
live key, and otherwise shows a live key with its value, which is not less than the value of any live key; and no operation within its preconditions runs into undefined behaviour,
a failed assertion or an endless loop. -/
theorem C39_partial [Inhabited α] {lt : α → α → Bool} (hlt : SWO lt) {N : Nat} {H : Hp α} {M : Nat → Option α} (r : Reach lt N H M) :
    (∀ k, get H k = (M k).map (fun v => (k, v))) ∧
    H.sz = ((Finset.range N).filter (fun k => (M k).isSome = true)).card ∧
    (∀ k, N ≤ k → M k = none) ∧
    (top H = none ↔ ∀ k, M k = none) ∧
    (∀ k v, top H = some (k, v) → M k = some v ∧ ∀ j w, M j = some w → lt v w = false) ∧
    (∀ k v, k < N → push lt H k v ≠ none) ∧
    ((∃ k, M k ≠ none) → pop lt H ≠ none) ∧
    (∀ k, M k ≠ none → (∀ v, top H ≠ some (k, v)) → erase lt H k ≠ none) := by
  have W := reach_wf hlt r
  refine ⟨fun k => W.get k, ?_, ?_, ?_, ?_, ?_, ?_, ?_⟩
  · obtain ⟨K, o, g, W⟩ := W
    exact W.sz
  · intro k hk
    cases h : M k with
    | none => rfl
    | some v => have := W.lt_N (k := k) (by unfold Sup; rw [h]; rfl); omega
  · rcases W.top with ⟨h1, h2⟩ | ⟨k, v, h1, _, h2, _⟩
    · exact ⟨fun _ => h2, fun _ => h1⟩
    · constructor
      · intro h; rw [h1] at h; cases h
      · intro h; rw [h k] at h2; cases h2
  · intro k v h
    rcases W.top with ⟨h1, h2⟩ | ⟨k', v', h1, _, h2, h3⟩
    · rw [h1] at h; cases h
    · rw [h1] at h; cases h; exact ⟨h2, h3⟩
  · intro k v hk
    obtain ⟨H', e, _⟩ := push_spec hlt W hk v
    rw [e]; simp
  · rintro ⟨k, hk⟩
    rcases W.top with ⟨_, h⟩ | ⟨k', v', _, h2, _⟩
    · exact absurd (h k) hk
    · obtain ⟨H', e, _⟩ := pop_spec hlt W h2
      rw [e]; simp
  · intro k hk ht
    obtain ⟨H', e, _⟩ := erase_spec W (k := k) (by unfold Sup; cases h : M k with | none => exact absurd h hk | some v => rfl) (W.root_ne ht)
    rw [e]; simp

/-- Every heap can be constructed. -/
theorem C39_new [Inhabited α] (N : Nat) : (mk N : Option (Hp α)) ≠ none := by
  obtain ⟨H, e, _⟩ := mk_wf (α := α) (fun _ _ => false) N
  rw [e]; simp

/-- The order of numbers. -/
def ltN (a b : Nat) : Bool := decide (a < b)

theorem ltN_swo : SWO ltN := by
  unfold ltN
  exact ⟨fun a => by simp, fun a b h => by simp at h ⊢; omega, fun a b c h h' => by simp at h h' ⊢; omega⟩

/-- Histories of operations. -/
inductive Op where
  | push (k v : Nat)
  | pop
  | erase (k : Nat)

def run : List Op → Hp Nat → Option (Hp Nat)
  | [], H => some H
  | .push k v :: l, H => (push ltN H k v).bind (run l)
  | .pop :: l, H => (pop ltN H).bind (run l)
  | .erase k :: l, H => (erase ltN H k).bind (run l)

-- trees are melded, cut and taken apart
example : (((mk 8).bind (run [.push 0 1, .push 1 2, .push 2 3, .push 3 4, .push 4 5, .push 5 6, .push 6 7, .push 7 8, .pop, .push 0 9, .erase 3, .push 1 8, .pop])).map
    (fun H => (top H, H.sz, get H 4, get H 3))) = some (some (1, 8), 5, some (4, 5), none) := by decide +kernel

example : ∃ H, Reach ltN 2 H (upd (upd (fun _ => none) 1 (some 7)) 1 none) := by
  obtain ⟨H0, e0⟩ : ∃ H, (mk 2 : Option (Hp Nat)) = some H := ⟨_, rfl⟩
  have r0 := Reach.new (lt := ltN) e0
  obtain ⟨H1, e1⟩ := Option.ne_none_iff_exists'.1 ((C39_partial ltN_swo r0).2.2.2.2.2.1 1 7 (by decide))
  have r1 := Reach.insert r0 (by decide) rfl e1
  have c1 := C39_partial ltN_swo r1
  obtain ⟨H2, e2⟩ := Option.ne_none_iff_exists'.1 (c1.2.2.2.2.2.2.1 ⟨1, by simp [upd]⟩)
  cases ht : top H1 with
  | none => have := c1.2.2.2.1.1 ht 1; simp [upd] at this
  | some kv =>
    obtain ⟨k, v⟩ := kv
    have := (c1.2.2.2.2.1 k v ht).1
    have hk : k = 1 := by
      by_contra h
      rw [upd_ne _ _ h] at this
      cases this
    subst hk
    exact ⟨H2, Reach.pop r1 ht e2⟩

/-- Erasing the key on top: the heap still holds the key 1, but `top` runs into its assertion, because the root is still the erased node. -/
theorem C39_violation : (((mk 2).bind (run [.push 0 5, .push 1 3, .erase 0])).map (fun H => (top H, get H 1, H.sz))) = some (none, some (1, 3), 1) := by decide +kernel

/-- Afterwards `pop` removes the erased node, which is on no list: the assertion of line 196 fails, although one key is live. -/
theorem C39_violation_pop : (((mk 2).bind (run [.push 0 5, .push 1 3, .erase 0])).bind (fun H => pop ltN H)) = none := by decide +kernel

end Verif.FibHeap
