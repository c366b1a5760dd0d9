import Verif.Heap.DepqModel
import Mathlib.Data.Nat.Log
/-!
The functions of `Verif.Heap.DepqModel` (`/repo/include/mtl/double_ended_priority_queue.hpp`) with a counter: one for every comparison of two elements and one for
every swap of two elements.  Each definition repeats the one without counter (`…_fst`).
-/
namespace Verif.Depq

variable {α : Type} [LT α] [DecidableLT α] {β γ : Type}

/-- One thing after the other: the counters are added. -/
def bd (x : Option (β × Nat)) (f : β → Option (γ × Nat)) : Option (γ × Nat) := x.bind (fun p => (f p.1).map (fun q => (q.1, p.2 + q.2)))

/-- Something that costs `n`. -/
def tk (n : Nat) (x : Option β) : Option (β × Nat) := x.map (fun y => (y, n))

/-- :46-59 (`heap_down`): line 53 compares when there is a right child, line 54 compares, line 55 swaps. -/
def heapDownC (mx : Bool) : Nat → List α → Nat → Option ((List α × Nat) × Nat)
  | 0, _, _ => none
  | f+1, a, i =>
    if left i < a.length then
      bd (tk (if right' a.length i < a.length then 1 else 0) (pick mx a (left i) (right' a.length i))) (fun k => bd (tk 1 (cmpAt mx a i k)) (fun c =>
        if c then bd (tk 1 (swap a i k)) (fun a => heapDownC mx f a k) else some ((a, i), 0)))
    else some ((a, i), 0)

/-- :69-75 (`heap_leaf`). -/
def heapLeafC (a : List α) (i : Nat) : Option ((List α × Nat) × Nat) :=
  if i / 2 * 2 + 1 < a.length then
    bd (tk 1 (cmpAt true a (i / 2 * 2) (i / 2 * 2 + 1))) (fun c =>
      if c then tk 1 ((swap a i (if i % 2 = 0 then i + 1 else i - 1)).map (fun a => (a, if i % 2 = 0 then i + 1 else i - 1))) else some ((a, i), 0))
  else some ((a, i), 0)

/-- :77-92 (`max_heap_up`, `min_heap_up`). -/
def heapUpC (mx : Bool) (root : Nat) : Nat → List α → Nat → Option (List α × Nat)
  | 0, _, _ => none
  | f+1, a, i =>
    if root / 2 < i / 2 ∧ root ≤ upTarget mx i then
      bd (tk 1 (cmpAt mx a (upTarget mx i) i)) (fun c => if c then bd (tk 1 (swap a (upTarget mx i) i)) (fun a => heapUpC mx root f a (upTarget mx i)) else some (a, 0))
    else some (a, 0)

/-- :94-100 (`heapify`). -/
def heapifyC (a : List α) (i : Nat) (limited : Bool) : Option (List α × Nat) :=
  bd (heapDownC (decide (i % 2 = 0)) (a.length + 1) a i) (fun j => bd (heapLeafC j.1 j.2) (fun k =>
    bd (heapUpC true (if limited then i else 0) (k.2 + 1) k.1 k.2) (fun b => heapUpC false (if limited then i else 0) (k.2 + 1) b k.2)))

/-- :39-43: the loop body of the constructor. -/
def buildStepC (a : List α) (i : Nat) : Option (List α × Nat) :=
  bd (if i % 2 = 1 then bd (tk 1 (cmpAt true a (i - 1) i)) (fun c => if c then tk 1 (swap a (i - 1) i) else some (a, 0)) else some (a, 0)) (fun a => heapifyC a i true)

/-- :39-43: `for (i = n-1; i >= 0; i--)`. -/
def buildLoopC : Nat → List α → Option (List α × Nat)
  | 0, a => some (a, 0)
  | i+1, a => bd (buildStepC a i) (fun a => buildLoopC i a)

/-- :28-44: the constructor from a range. -/
def buildC (a : List α) : Option (List α × Nat) :=
  if a.length ≤ 1 then some (a, 0)
  else if a.length = 2 then bd (tk 1 (cmpAt true a 0 1)) (fun c => if c then tk 1 (swap a 0 1) else some (a, 0))
  else buildLoopC a.length a

/-- :102-108 -/
def pushC (a : List α) (x : α) : Option (List α × Nat) := heapifyC (a ++ [x]) a.length false

/-- :109-115 -/
def popMaxC (a : List α) : Option (List α × Nat) :=
  if a.length = 0 then none else bd (tk 1 (swap a 0 (a.length - 1))) (fun a => if 0 < a.dropLast.length then heapifyC a.dropLast 0 false else some (a.dropLast, 0))

/-- :116-126 -/
def popMinC (a : List α) : Option (List α × Nat) :=
  if a.length = 0 then none else if a.length = 1 then some (a.dropLast, 0)
  else bd (tk 1 (swap a 1 (a.length - 1))) (fun a => if 1 < a.dropLast.length then heapifyC a.dropLast 1 false else some (a.dropLast, 0))

/-! ### Without the counter -/

theorem bd_fst (x : Option (β × Nat)) (f : β → Option (γ × Nat)) : (bd x f).map Prod.fst = (x.map Prod.fst).bind (fun y => (f y).map Prod.fst) := by
  unfold bd
  cases x with
  | none => rfl
  | some p =>
    rw [Option.bind_some, Option.map_some, Option.bind_some]
    cases f p.1 <;> rfl

theorem tk_fst (n : Nat) (x : Option β) : (tk n x).map Prod.fst = x := by
  unfold tk
  cases x <;> rfl

theorem heapDownC_fst (mx : Bool) : ∀ (f : Nat) (a : List α) (i : Nat), (heapDownC mx f a i).map Prod.fst = heapDown mx f a i := by
  intro f
  induction f with
  | zero => intro a i; rfl
  | succ f ih =>
    intro a i
    unfold heapDownC heapDown
    by_cases h : left i < a.length
    · rw [if_pos h, if_pos h, bd_fst, tk_fst]
      congr 1
      funext k
      rw [bd_fst, tk_fst]
      congr 1
      funext c
      cases c with
      | false => rfl
      | true =>
        rw [if_pos rfl, if_pos rfl, bd_fst, tk_fst]
        congr 1
        funext a
        exact ih a k
    · rw [if_neg h, if_neg h]; rfl

theorem heapLeafC_fst (a : List α) (i : Nat) : (heapLeafC a i).map Prod.fst = heapLeaf a i := by
  unfold heapLeafC heapLeaf
  by_cases h : i / 2 * 2 + 1 < a.length
  · rw [if_pos h, if_pos h, bd_fst, tk_fst]
    congr 1
    funext c
    cases c with
    | false => rfl
    | true => rw [if_pos rfl, if_pos rfl, tk_fst]
  · rw [if_neg h, if_neg h]; rfl

theorem heapUpC_fst (mx : Bool) (root : Nat) : ∀ (f : Nat) (a : List α) (i : Nat), (heapUpC mx root f a i).map Prod.fst = heapUp mx root f a i := by
  intro f
  induction f with
  | zero => intro a i; rfl
  | succ f ih =>
    intro a i
    unfold heapUpC heapUp
    by_cases h : root / 2 < i / 2 ∧ root ≤ upTarget mx i
    · rw [if_pos h, if_pos h, bd_fst, tk_fst]
      congr 1
      funext c
      cases c with
      | false => rfl
      | true =>
        rw [if_pos rfl, if_pos rfl, bd_fst, tk_fst]
        congr 1
        funext a
        exact ih a _
    · rw [if_neg h, if_neg h]; rfl

theorem heapifyC_fst (a : List α) (i : Nat) (limited : Bool) : (heapifyC a i limited).map Prod.fst = heapify a i limited := by
  unfold heapifyC heapify
  rw [bd_fst, heapDownC_fst]
  congr 1
  funext j
  rw [bd_fst, heapLeafC_fst]
  congr 1
  funext k
  rw [bd_fst, heapUpC_fst]
  congr 1
  funext b
  exact heapUpC_fst ..

theorem buildStepC_fst (a : List α) (i : Nat) : (buildStepC a i).map Prod.fst = buildStep a i := by
  unfold buildStepC buildStep
  rw [bd_fst]
  have : (if i % 2 = 1 then bd (tk 1 (cmpAt true a (i - 1) i)) (fun c => if c then tk 1 (swap a (i - 1) i) else some (a, 0)) else some (a, 0)).map Prod.fst =
      (if i % 2 = 1 then (cmpAt true a (i - 1) i).bind (fun c => if c then swap a (i - 1) i else some a) else some a) := by
    by_cases h : i % 2 = 1
    · rw [if_pos h, if_pos h, bd_fst, tk_fst]
      congr 1
      funext c
      cases c with
      | false => rfl
      | true => rw [if_pos rfl, if_pos rfl, tk_fst]
    · rw [if_neg h, if_neg h]; rfl
  rw [this]
  congr 1
  funext a
  exact heapifyC_fst ..

theorem buildLoopC_fst : ∀ (i : Nat) (a : List α), (buildLoopC i a).map Prod.fst = buildLoop i a := by
  intro i
  induction i with
  | zero => intro a; rfl
  | succ i ih =>
    intro a
    unfold buildLoopC buildLoop
    rw [bd_fst, buildStepC_fst]
    congr 1
    funext a
    exact ih a

theorem buildC_fst (a : List α) : (buildC a).map Prod.fst = build a := by
  unfold buildC build
  by_cases h1 : a.length ≤ 1
  · rw [if_pos h1, if_pos h1]; rfl
  · rw [if_neg h1, if_neg h1]
    by_cases h2 : a.length = 2
    · rw [if_pos h2, if_pos h2, bd_fst, tk_fst]
      congr 1
      funext c
      cases c with
      | false => rfl
      | true => rw [if_pos rfl, if_pos rfl, tk_fst]
    · rw [if_neg h2, if_neg h2, buildLoopC_fst]

theorem pushC_fst (a : List α) (x : α) : (pushC a x).map Prod.fst = push a x := heapifyC_fst ..

theorem popMaxC_fst (a : List α) : (popMaxC a).map Prod.fst = popMax a := by
  unfold popMaxC popMax
  by_cases h : a.length = 0
  · rw [if_pos h, if_pos h]; rfl
  · rw [if_neg h, if_neg h, bd_fst, tk_fst]
    congr 1
    funext a
    by_cases h : 0 < a.dropLast.length
    · rw [if_pos h, if_pos h, heapifyC_fst]
    · rw [if_neg h, if_neg h]; rfl

theorem popMinC_fst (a : List α) : (popMinC a).map Prod.fst = popMin a := by
  unfold popMinC popMin
  by_cases h : a.length = 0
  · rw [if_pos h, if_pos h]; rfl
  · rw [if_neg h, if_neg h]
    by_cases h1 : a.length = 1
    · rw [if_pos h1, if_pos h1]; rfl
    · rw [if_neg h1, if_neg h1, bd_fst, tk_fst]
      congr 1
      funext a
      by_cases h : 1 < a.dropLast.length
      · rw [if_pos h, if_pos h, heapifyC_fst]
      · rw [if_neg h, if_neg h]; rfl

/-! ### Bounds -/

/-- If there is a result, it has the property and the counter is at most `t`. -/
def Bd (x : Option (β × Nat)) (P : β → Prop) (t : Nat) : Prop := ∀ y c, x = some (y, c) → P y ∧ c ≤ t

theorem Bd.mono {x : Option (β × Nat)} {P Q : β → Prop} {t t' : Nat} (h : Bd x P t) (hp : ∀ y, P y → Q y) (ht : t ≤ t') : Bd x Q t' :=
  fun y c e => ⟨hp y (h y c e).1, le_trans (h y c e).2 ht⟩

theorem Bd.bd {x : Option (β × Nat)} {P : β → Prop} {t : Nat} {f : β → Option (γ × Nat)} {Q : γ → Prop} {t' : Nat} (h : Bd x P t) (hf : ∀ y, P y → Bd (f y) Q t') : Bd (bd x f) Q (t + t') := by
  intro z c e
  unfold Depq.bd at e
  rw [Option.bind_eq_some_iff] at e
  obtain ⟨⟨y, c1⟩, e1, e⟩ := e
  rw [Option.map_eq_some_iff] at e
  obtain ⟨⟨z', c2⟩, e2, e⟩ := e
  cases e
  obtain ⟨h1, h2⟩ := h y c1 e1
  obtain ⟨h3, h4⟩ := hf y h1 _ c2 e2
  exact ⟨h3, Nat.add_le_add h2 h4⟩

theorem Bd.pure {P : β → Prop} {y : β} {t : Nat} (h : P y) : Bd (some (y, 0)) P t := by
  intro z c e
  cases e
  exact ⟨h, Nat.zero_le _⟩

theorem Bd.tk {x : Option β} {P : β → Prop} {n : Nat} (h : ∀ y, x = Option.some y → P y) : Bd (tk n x) P n := by
  intro z c e
  unfold Depq.tk at e
  rw [Option.map_eq_some_iff] at e
  obtain ⟨y, e1, e⟩ := e
  cases e
  exact ⟨h _ e1, le_refl _⟩

theorem wr_length {a a' : List α} {i : Nat} {x : α} (h : wr a i x = some a') : a'.length = a.length := by
  unfold wr at h
  split at h
  · rw [← Option.some.inj h, List.length_set]
  · cases h

theorem swap_length {a a' : List α} {i j : Nat} (h : swap a i j = some a') : a'.length = a.length := by
  unfold swap at h
  rw [Option.bind_eq_some_iff] at h
  obtain ⟨x, -, h⟩ := h
  rw [Option.bind_eq_some_iff] at h
  obtain ⟨y, -, h⟩ := h
  rw [Option.bind_eq_some_iff] at h
  obtain ⟨b, hb, h⟩ := h
  rw [wr_length h, wr_length hb]

theorem swap_lt {a a' : List α} {i j : Nat} (h : swap a i j = some a') : j < a.length := by
  unfold swap at h
  rw [Option.bind_eq_some_iff] at h
  obtain ⟨x, -, h⟩ := h
  rw [Option.bind_eq_some_iff] at h
  obtain ⟨y, hy, h⟩ := h
  exact (List.getElem?_eq_some_iff.1 hy).1

theorem pick_cases {mx : Bool} {a : List α} {k r x : Nat} (h : pick mx a k r = some x) : x = k ∨ x = r ∧ r < a.length := by
  unfold pick at h
  split at h
  · rename_i hr
    rw [Option.bind_eq_some_iff] at h
    obtain ⟨y, -, h⟩ := h
    rw [Option.map_eq_some_iff] at h
    obtain ⟨z, -, h⟩ := h
    split at h
    · exact Or.inr ⟨h.symm, hr⟩
    · exact Or.inl h.symm
  · exact Or.inl (Option.some.inj h).symm

/-- The number of pairs. -/
def pairs (n : Nat) : Nat := (n + 1) / 2

theorem log_half {X x : Nat} (hx : 0 < x) (h : 2 * x ≤ X) : Nat.log 2 (X / x) = Nat.log 2 (X / (2 * x)) + 1 := by
  have h2 : 2 ≤ X / x := (Nat.le_div_iff_mul_le hx).2 (by omega)
  rw [Nat.log_of_one_lt_of_le (by omega) h2, Nat.div_div_eq_div_mul, Nat.mul_comm x 2]

theorem log_mono {X x y : Nat} (hx : 0 < x) (h : x ≤ y) : Nat.log 2 (X / y) ≤ Nat.log 2 (X / x) := Nat.log_mono_right (Nat.div_le_div_left h hx)

theorem heapDownC_bd (mx : Bool) : ∀ (f : Nat) (a : List α) (i : Nat), i < a.length →
    Bd (heapDownC mx f a i) (fun p => p.1.length = a.length ∧ p.2 < a.length) (3 * Nat.log 2 (pairs a.length / (i/2+1))) := by
  intro f
  induction f with
  | zero => intro a i _ y c e; cases e
  | succ f ih =>
    intro a i hi
    unfold heapDownC
    by_cases h : left i < a.length
    · rw [if_pos h]
      have hl : 2 * (i/2+1) ≤ pairs a.length := by
        unfold left at h
        unfold pairs
        omega
      rw [log_half (by omega) hl]
      refine ((Bd.tk (P := fun k => k < a.length ∧ 2 * (i/2+1) ≤ k/2+1) fun k hk => ?_).bd (t' := 3 * Nat.log 2 (pairs a.length / (2 * (i/2+1))) + 2) fun k hk => ?_).mono (fun y hy => hy) ?_
      · rcases pick_cases hk with rfl | ⟨rfl, hr⟩
        · exact ⟨h, by unfold left; omega⟩
        · refine ⟨hr, ?_⟩
          unfold right'
          split
          · unfold right; omega
          · unfold right; omega
      · refine ((Bd.tk (P := fun _ => True) fun c _ => trivial).bd (t' := 3 * Nat.log 2 (pairs a.length / (2 * (i/2+1))) + 1) fun c _ => ?_).mono (fun y hy => hy) (by omega)
        cases c with
        | false =>
          rw [if_neg (by decide)]
          exact Bd.pure ⟨rfl, hi⟩
        | true =>
          rw [if_pos rfl]
          refine ((Bd.tk (P := fun b => b.length = a.length) fun b hb => swap_length hb).bd (t' := 3 * Nat.log 2 (pairs a.length / (2 * (i/2+1)))) fun b hb => ?_).mono (fun y hy => hy) (by omega)
          have := ih b k (by rw [hb]; exact hk.1)
          rw [hb] at this
          exact this.mono (fun y hy => hy) (Nat.mul_le_mul_left 3 (log_mono (by omega) hk.2))
      · split <;> omega
    · rw [if_neg h]
      exact Bd.pure ⟨rfl, hi⟩

theorem heapLeafC_bd (a : List α) (i : Nat) (hi : i < a.length) : Bd (heapLeafC a i) (fun p => p.1.length = a.length ∧ p.2 < a.length) 2 := by
  unfold heapLeafC
  split
  · refine (Bd.tk (P := fun _ => True) fun c _ => trivial).bd (t' := 1) fun c _ => ?_
    cases c with
    | false =>
      rw [if_neg (by decide)]
      exact Bd.pure ⟨rfl, hi⟩
    | true =>
      rw [if_pos rfl]
      refine Bd.tk fun p hp => ?_
      rw [Option.map_eq_some_iff] at hp
      obtain ⟨b, hb, rfl⟩ := hp
      exact ⟨swap_length hb, swap_lt hb⟩
  · exact Bd.pure ⟨rfl, hi⟩

theorem up_half (mx : Bool) (i : Nat) (h : 0 < i / 2) : upTarget mx i / 2 + 1 = (i/2+1) / 2 := by
  unfold upTarget parent
  cases mx
  · rw [if_neg (by decide)]; omega
  · rw [if_pos rfl]; omega

theorem heapUpC_bd (mx : Bool) (root : Nat) : ∀ (f : Nat) (a : List α) (i : Nat),
    Bd (heapUpC mx root f a i) (fun b => b.length = a.length) (if root / 2 < i / 2 then 2 * (Nat.log 2 ((i/2+1) / (root/2+1)) + 1) else 0) := by
  intro f
  induction f with
  | zero => intro a i y c e; cases e
  | succ f ih =>
    intro a i
    unfold heapUpC
    by_cases h : root / 2 < i / 2 ∧ root ≤ upTarget mx i
    · rw [if_pos h, if_pos h.1]
      refine ((Bd.tk (P := fun _ => True) fun c _ => trivial).bd (t' := 2 * Nat.log 2 ((i/2+1) / (root/2+1)) + 1) fun c _ => ?_).mono (fun y hy => hy) (by omega)
      cases c with
      | false =>
        rw [if_neg (by decide)]
        exact Bd.pure rfl
      | true =>
        rw [if_pos rfl]
        refine ((Bd.tk (P := fun b => b.length = a.length) fun b hb => swap_length hb).bd (t' := 2 * Nat.log 2 ((i/2+1) / (root/2+1))) fun b hb => ?_).mono (fun y hy => hy) (by omega)
        refine (ih b (upTarget mx i)).mono (fun y hy => by rw [hy, hb]) ?_
        have hu := up_half mx i (by omega)
        by_cases h2 : root / 2 < upTarget mx i / 2
        · rw [if_pos h2, hu]
          have h3 : 2 ≤ (i/2+1) / (root/2+1) := (Nat.le_div_iff_mul_le (by omega)).2 (by omega)
          rw [Nat.log_of_one_lt_of_le (by omega) h3, Nat.div_div_eq_div_mul, Nat.div_div_eq_div_mul, Nat.mul_comm 2 (root/2+1)]
        · rw [if_neg h2]
          exact Nat.zero_le _
    · rw [if_neg h]
      exact Bd.pure rfl

theorem heapUpC_bd' (mx : Bool) (root : Nat) (f : Nat) (a : List α) (i : Nat) (hi : i < a.length) :
    Bd (heapUpC mx root f a i) (fun b => b.length = a.length) (2 * (Nat.log 2 (pairs a.length / (root/2+1)) + 1)) := by
  refine (heapUpC_bd mx root f a i).mono (fun y hy => hy) ?_
  have : Nat.log 2 ((i/2+1) / (root/2+1)) ≤ Nat.log 2 (pairs a.length / (root/2+1)) := Nat.log_mono_right (Nat.div_le_div_right (by unfold pairs; omega))
  split <;> omega

theorem heapifyC_bd (a : List α) (i : Nat) (limited : Bool) (hi : i < a.length) :
    Bd (heapifyC a i limited) (fun b => b.length = a.length) (3 * Nat.log 2 (pairs a.length / (i/2+1)) + 4 * Nat.log 2 (pairs a.length / ((if limited then i else 0)/2+1)) + 6) := by
  unfold heapifyC
  refine ((heapDownC_bd _ _ a i hi).bd (t' := 4 * Nat.log 2 (pairs a.length / ((if limited then i else 0)/2+1)) + 6) fun j hj => ?_).mono (fun y hy => hy) (by omega)
  refine ((heapLeafC_bd j.1 j.2 (by rw [hj.1]; exact hj.2)).bd (t' := 4 * Nat.log 2 (pairs a.length / ((if limited then i else 0)/2+1)) + 4) fun k hk => ?_).mono (fun y hy => hy) (by omega)
  rw [hj.1] at hk
  have h1 := heapUpC_bd' true (if limited then i else 0) (k.2+1) k.1 k.2 (by rw [hk.1]; exact hk.2)
  rw [hk.1] at h1
  refine (h1.bd (t' := 2 * (Nat.log 2 (pairs a.length / ((if limited then i else 0)/2+1)) + 1)) fun b hb => ?_).mono (fun y hy => hy) (by omega)
  have h2 := heapUpC_bd' false (if limited then i else 0) (k.2+1) b k.2 (by rw [hb]; exact hk.2)
  rw [hb] at h2
  exact h2

/-! ### The constructor -/

/-- `∑_{x=1}^{m} log₂ (X/x)`. -/
def heights (X : Nat) : Nat → Nat
  | 0 => 0
  | m+1 => Nat.log 2 (X / (m+1)) + heights X m

theorem heights_cut (X : Nat) : ∀ m, X / 2 ≤ m → heights X m = heights X (X/2) := by
  intro m h
  induction m, h using Nat.le_induction with
  | base => rfl
  | succ m h ih =>
    have : Nat.log 2 (X / (m+1)) = 0 := Nat.log_of_lt (by
      rw [Nat.div_lt_iff_lt_mul (by omega)]; omega)
    rw [heights, this, ih, Nat.zero_add]

theorem heights_low (X : Nat) : ∀ m, m ≤ X / 2 → heights X m = m + heights (X/2) m := by
  intro m
  induction m with
  | zero => intro _; rfl
  | succ m ih =>
    intro h
    rw [heights, heights, ih (by omega), log_half (by omega) (by omega), Nat.div_div_eq_div_mul]
    omega

theorem heights_le (X : Nat) : ∀ m, heights X m ≤ X := by
  induction X using Nat.strong_induction_on with
  | _ X ih =>
    intro m
    have key : heights X (X/2) ≤ X := by
      rw [heights_low X _ (le_refl _)]
      by_cases h : X = 0
      · subst h
        exact le_refl _
      · have := ih (X/2) (by omega) (X/2)
        omega
    rcases Nat.le_total m (X/2) with h | h
    · rw [heights_low X m h]
      by_cases h0 : X = 0
      · subst h0
        have : m = 0 := by omega
        subst this
        exact le_refl _
      · have := ih (X/2) (by omega) m
        omega
    · rw [heights_cut X m h]
      exact key

theorem buildStepC_bd (a : List α) (i : Nat) (hi : i < a.length) :
    Bd (buildStepC a i) (fun b => b.length = a.length) (7 * Nat.log 2 (pairs a.length / (i/2+1)) + 8) := by
  unfold buildStepC
  have h1 : Bd (if i % 2 = 1 then bd (tk 1 (cmpAt true a (i - 1) i)) (fun c => if c then tk 1 (swap a (i - 1) i) else some (a, 0)) else some (a, 0)) (fun b => b.length = a.length) 2 := by
    split
    · refine (Bd.tk (P := fun _ => True) fun c _ => trivial).bd (t' := 1) fun c _ => ?_
      cases c with
      | false =>
        rw [if_neg (by decide)]
        exact Bd.pure rfl
      | true =>
        rw [if_pos rfl]
        exact Bd.tk fun b hb => swap_length hb
    · exact Bd.pure rfl
  refine (h1.bd (t' := 7 * Nat.log 2 (pairs a.length / (i/2+1)) + 6) fun b hb => ?_).mono (fun y hy => hy) (by omega)
  have h2 := heapifyC_bd b i true (by rw [hb]; exact hi)
  rw [hb] at h2
  refine h2.mono (fun y hy => hy) ?_
  rw [if_pos rfl]
  omega

theorem buildLoopC_bd (n : Nat) : ∀ (i : Nat) (a : List α), a.length = n → i ≤ n →
    Bd (buildLoopC i a) (fun b => b.length = n) (7 * (heights (pairs n) ((i+1)/2) + heights (pairs n) (i/2)) + 8 * i) := by
  intro i
  induction i with
  | zero => intro a h _; exact Bd.pure h
  | succ i ih =>
    intro a h hi
    unfold buildLoopC
    have h1 := buildStepC_bd a i (by omega)
    rw [h] at h1
    refine (h1.bd (t' := 7 * (heights (pairs n) ((i+1)/2) + heights (pairs n) (i/2)) + 8 * i) fun b hb => ih b hb (by omega)).mono (fun y hy => hy) ?_
    have h3 : (i + 1 + 1) / 2 = i/2 + 1 := by omega
    rw [h3, heights]
    omega

end Verif.Depq
