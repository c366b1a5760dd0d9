import Verif.Trie.Model
import Mathlib.Data.Finset.Basic
import Mathlib.Data.Finset.Card
import Mathlib.Data.Finset.Insert
import Mathlib.Tactic.Ring
/-! Prefixes, neighbours in a finite set of keys, and the linked list of leaves. -/
namespace Verif.Trie
open Verif

variable {V : Type} {W x y z i j p : Nat}

/-! ### prefixes -/

theorem bit_lt (W x i : Nat) : bit W x i < 2 := Nat.mod_lt _ (by decide)

theorem pre_succ (hi : i < W) : pre W x (i+1) = 2 * pre W x i + bit W x i := by
  unfold pre bit
  have e : W - i = (W - i - 1) + 1 := by omega
  have e1 : W - (i+1) = W - i - 1 := by omega
  rw [e1]
  conv_rhs => rw [e, Nat.pow_succ, ← Nat.div_div_eq_div_mul]
  simp only [Nat.add_sub_cancel]
  omega

theorem pre_W : pre W x W = x := by unfold pre; simp

theorem pre_zero (h : x < 2 ^ W) : pre W x 0 = 0 := by unfold pre; exact Nat.div_eq_of_lt (by simpa using h)

theorem pre_mono (h : x ≤ y) : pre W x i ≤ pre W y i := Nat.div_le_div_right h

theorem lt_of_pre (h : pre W x i < pre W y i) : x < y := by
  by_contra hc
  have := pre_mono (W := W) (i := i) (Nat.le_of_not_lt hc)
  omega

theorem pre_half (hi : i < W) : pre W x (i+1) / 2 = pre W x i := by
  have := pre_succ (x := x) hi
  have := bit_lt W x i
  omega

theorem pre_eq_of_le (hij : i ≤ j) (hj : j ≤ W) (h : pre W x j = pre W y j) : pre W x i = pre W y i := by
  induction j with
  | zero => have : i = 0 := by omega
            subst this; exact h
  | succ j ih =>
    by_cases e : i = j + 1
    · subst e; exact h
    · refine ih (by omega) (by omega) ?_
      rw [← pre_half (by omega), ← pre_half (x := y) (by omega), h]

/-! ### keys under a prefix -/

variable {K : Finset Nat}

/-- Some key has prefix `p` of length `i`. -/
def Has (W : Nat) (K : Finset Nat) (i p : Nat) : Prop := ∃ z ∈ K, pre W z i = p

theorem Has.up (hij : i ≤ j) (hj : j ≤ W) (h : Has W K j (pre W x j)) : Has W K i (pre W x i) := by
  obtain ⟨z, hz, e⟩ := h
  exact ⟨z, hz, pre_eq_of_le hij hj e⟩

/-- The key furthest to side `b` (1: largest, 0: smallest) under a prefix. -/
def Ext (W : Nat) (K : Finset Nat) (b i p y : Nat) : Prop := y ∈ K ∧ pre W y i = p ∧ ∀ z ∈ K, pre W z i = p → (b = 1 → z ≤ y) ∧ (b = 0 → y ≤ z)

/-- What `jump` of the node with prefix `p` of length `i` must be. -/
structure JOk (W : Nat) (K : Finset Nat) (i p : Nat) (j : Option (Option Nat)) : Prop where
  one : ∀ b < 2, Has W K (i+1) (2 * p + (1 - b)) → ¬ Has W K (i+1) (2 * p + b) → ∃ y, j = some (some y) ∧ Ext W K b i p y
  two : Has W K (i+1) (2 * p) → Has W K (i+1) (2 * p + 1) → i ≠ 0 → j = none
  empty : K = ∅ → j = some none

/-- The child pointers of a node. -/
def Flags (W : Nat) (K : Finset Nat) (i p : Nat) (u : Nd) : Prop := ∀ b < 2, (child u b = true ↔ Has W K (i+1) (2 * p + b))

/-- The node with prefix `p` of length `i` is in the trie. -/
def Ex (W : Nat) (K : Finset Nat) (i p : Nat) : Prop := Has W K i p ∨ (i = 0 ∧ p = 0)

/-! ### neighbours -/

def IsMin (P : Nat → Prop) : Option Nat → Prop
  | some y => P y ∧ ∀ z, P z → y ≤ z
  | none => ∀ z, ¬ P z

def IsMax (P : Nat → Prop) : Option Nat → Prop
  | some y => P y ∧ ∀ z, P z → z ≤ y
  | none => ∀ z, ¬ P z

/-- `a < z`, where the pointer to `dummy_` is before everything. -/
def Above : Option Nat → Nat → Prop
  | some x, z => x < z
  | none, _ => True

/-- `z < a`, where the pointer to `dummy_` is behind everything. -/
def Below : Option Nat → Nat → Prop
  | some x, z => z < x
  | none, _ => True

def IsNext (K : Finset Nat) (a : Option Nat) (r : Option Nat) : Prop := IsMin (fun z => z ∈ K ∧ Above a z) r
def IsPrev (K : Finset Nat) (a : Option Nat) (r : Option Nat) : Prop := IsMax (fun z => z ∈ K ∧ Below a z) r

/-- A pointer to a leaf of the trie or to `dummy_`. -/
def Ptr (K : Finset Nat) : Option Nat → Prop
  | some x => x ∈ K
  | none => True

theorem IsMin.unique {P : Nat → Prop} {r r' : Option Nat} (h : IsMin P r) (h' : IsMin P r') : r = r' := by
  cases r with
  | none => cases r' with
    | none => rfl
    | some y => exact absurd h'.1 (h y)
  | some y => cases r' with
    | none => exact absurd h.1 (h' y)
    | some y' => rw [le_antisymm (h.2 _ h'.1) (h'.2 _ h.1)]

theorem IsMin.congr {P Q : Nat → Prop} {r : Option Nat} (h : IsMin P r) (e : ∀ z, P z ↔ Q z) : IsMin Q r := by
  have : P = Q := funext fun z => propext (e z)
  exact this ▸ h

theorem IsMax.congr {P Q : Nat → Prop} {r : Option Nat} (h : IsMax P r) (e : ∀ z, P z ↔ Q z) : IsMax Q r := by
  have : P = Q := funext fun z => propext (e z)
  exact this ▸ h

theorem IsNext.ptr {a r : Option Nat} (h : IsNext K a r) : Ptr K r := by
  cases r with
  | none => trivial
  | some y => exact h.1.1

theorem IsPrev.ptr {a r : Option Nat} (h : IsPrev K a r) : Ptr K r := by
  cases r with
  | none => trivial
  | some y => exact h.1.1

variable {a r n pr nx : Option Nat}

theorem above_of_prev (hx : x ∉ K) (h : IsPrev K (some x) pr) (hz : z ∈ K) : Above pr z ↔ x < z := by
  cases pr with
  | none =>
    have h1 := h z
    simp only [hz, true_and, Below] at h1
    have : z ≠ x := fun e => hx (e ▸ hz)
    simp only [Above, true_iff]; omega
  | some y =>
    have h1 := h.2 z
    have h2 : y < x := h.1.2
    simp only [hz, true_and, Below] at h1
    have : z ≠ x := fun e => hx (e ▸ hz)
    simp only [Above]
    constructor
    · intro h3
      by_contra h4
      have := h1 (by omega)
      omega
    · intro h3; omega

theorem below_of_next (hx : x ∉ K) (h : IsNext K (some x) nx) (hz : z ∈ K) : Below nx z ↔ z < x := by
  cases nx with
  | none =>
    have h1 := h z
    simp only [hz, true_and, Above] at h1
    have : z ≠ x := fun e => hx (e ▸ hz)
    simp only [Below, true_iff]; omega
  | some y =>
    have h1 := h.2 z
    have h2 : x < y := h.1.2
    simp only [hz, true_and, Above] at h1
    have : z ≠ x := fun e => hx (e ▸ hz)
    simp only [Below]
    constructor
    · intro h3
      by_contra h4
      have := h1 (by omega)
      omega
    · intro h3; omega

theorem next_of_prev (hx : x ∉ K) (h : IsPrev K (some x) pr) (hn : IsNext K pr n) : IsNext K (some x) n :=
  IsMin.congr hn fun z => ⟨fun a => ⟨a.1, (above_of_prev hx h a.1).1 a.2⟩, fun a => ⟨a.1, (above_of_prev hx h a.1).2 a.2⟩⟩

theorem prev_of_next (hx : x ∉ K) (h : IsNext K (some x) nx) (hn : IsPrev K nx n) : IsPrev K (some x) n :=
  IsMax.congr hn fun z => ⟨fun a => ⟨a.1, (below_of_next hx h a.1).1 a.2⟩, fun a => ⟨a.1, (below_of_next hx h a.1).2 a.2⟩⟩

/-! ### the list of leaves under insertion of a key (and, read backwards, removal) -/

theorem next_ins_pr (hx : x ∉ K) (h : IsPrev K (some x) pr) : IsNext (insert x K) pr (some x) := by
  refine ⟨⟨Finset.mem_insert_self _ _, ?_⟩, ?_⟩
  · cases pr with
    | none => trivial
    | some y => exact h.1.2
  · rintro z ⟨hz, ha⟩
    rcases Finset.mem_insert.1 hz with rfl | hz
    · exact le_refl _
    · exact le_of_lt ((above_of_prev hx h hz).1 ha)

theorem prev_ins_nx (hx : x ∉ K) (h : IsNext K (some x) nx) : IsPrev (insert x K) nx (some x) := by
  refine ⟨⟨Finset.mem_insert_self _ _, ?_⟩, ?_⟩
  · cases nx with
    | none => trivial
    | some y => exact h.1.2
  · rintro z ⟨hz, ha⟩
    rcases Finset.mem_insert.1 hz with rfl | hz
    · exact le_refl _
    · exact le_of_lt ((below_of_next hx h hz).1 ha)

theorem next_ins_x (h : IsNext K (some x) n) : IsNext (insert x K) (some x) n := by
  refine IsMin.congr h fun z => ?_
  simp only [Finset.mem_insert, Above]
  constructor
  · rintro ⟨a, b⟩; exact ⟨Or.inr a, b⟩
  · rintro ⟨a | a, b⟩
    · omega
    · exact ⟨a, b⟩

theorem prev_ins_x (h : IsPrev K (some x) n) : IsPrev (insert x K) (some x) n := by
  refine IsMax.congr h fun z => ?_
  simp only [Finset.mem_insert, Below]
  constructor
  · rintro ⟨a, b⟩; exact ⟨Or.inr a, b⟩
  · rintro ⟨a | a, b⟩
    · omega
    · exact ⟨a, b⟩

/-- Neighbours not touching `x` stay. -/
theorem next_ins_iff (hx : x ∉ K) (h : IsPrev K (some x) pr) (ha : Ptr K a) (hne : a ≠ pr) : IsNext (insert x K) a r ↔ IsNext K a r := by
  -- either `x` is not above `a`, or some key between them is
  have key : ¬ Above a x ∨ ∃ w ∈ K, Above a w ∧ w < x := by
    cases a with
    | none =>
      cases pr with
      | none => exact absurd rfl hne
      | some y => exact Or.inr ⟨y, h.1.1, trivial, h.1.2⟩
    | some v =>
      by_cases hv : v < x
      · refine Or.inr ?_
        cases pr with
        | none => exact absurd ⟨ha, hv⟩ (h v)
        | some y =>
          have h1 := h.2 v ⟨ha, hv⟩
          have : v ≠ y := fun e => hne (by rw [e])
          exact ⟨y, h.1.1, by simp only [Above]; omega, h.1.2⟩
      · exact Or.inl hv
  unfold IsNext
  cases r with
  | none =>
    constructor
    · intro h1 z hz; exact h1 z ⟨Finset.mem_insert_of_mem hz.1, hz.2⟩
    · rintro h1 z ⟨hz, hz2⟩
      rcases Finset.mem_insert.1 hz with rfl | hz
      · rcases key with k | ⟨w, hw, k, _⟩
        · exact k hz2
        · exact h1 w ⟨hw, k⟩
      · exact h1 z ⟨hz, hz2⟩
  | some q =>
    constructor
    · rintro ⟨⟨h1, h2⟩, h3⟩
      refine ⟨⟨?_, h2⟩, fun z hz => h3 z ⟨Finset.mem_insert_of_mem hz.1, hz.2⟩⟩
      rcases Finset.mem_insert.1 h1 with rfl | h1
      · rcases key with k | ⟨w, hw, k, hlt⟩
        · exact absurd h2 k
        · have := h3 w ⟨Finset.mem_insert_of_mem hw, k⟩
          omega
      · exact h1
    · rintro ⟨⟨h1, h2⟩, h3⟩
      refine ⟨⟨Finset.mem_insert_of_mem h1, h2⟩, ?_⟩
      rintro z ⟨hz, hz2⟩
      rcases Finset.mem_insert.1 hz with rfl | hz
      · rcases key with k | ⟨w, hw, k, hlt⟩
        · exact absurd hz2 k
        · have := h3 w ⟨hw, k⟩
          omega
      · exact h3 z ⟨hz, hz2⟩

theorem prev_ins_iff (hx : x ∉ K) (h : IsNext K (some x) nx) (ha : Ptr K a) (hne : a ≠ nx) : IsPrev (insert x K) a r ↔ IsPrev K a r := by
  have key : ¬ Below a x ∨ ∃ w ∈ K, Below a w ∧ x < w := by
    cases a with
    | none =>
      cases nx with
      | none => exact absurd rfl hne
      | some y => exact Or.inr ⟨y, h.1.1, trivial, h.1.2⟩
    | some v =>
      by_cases hv : x < v
      · refine Or.inr ?_
        cases nx with
        | none => exact absurd ⟨ha, hv⟩ (h v)
        | some y =>
          have h1 := h.2 v ⟨ha, hv⟩
          have : v ≠ y := fun e => hne (by rw [e])
          exact ⟨y, h.1.1, by simp only [Below]; omega, h.1.2⟩
      · exact Or.inl hv
  unfold IsPrev
  cases r with
  | none =>
    constructor
    · intro h1 z hz; exact h1 z ⟨Finset.mem_insert_of_mem hz.1, hz.2⟩
    · rintro h1 z ⟨hz, hz2⟩
      rcases Finset.mem_insert.1 hz with rfl | hz
      · rcases key with k | ⟨w, hw, k, _⟩
        · exact k hz2
        · exact h1 w ⟨hw, k⟩
      · exact h1 z ⟨hz, hz2⟩
  | some q =>
    constructor
    · rintro ⟨⟨h1, h2⟩, h3⟩
      refine ⟨⟨?_, h2⟩, fun z hz => h3 z ⟨Finset.mem_insert_of_mem hz.1, hz.2⟩⟩
      rcases Finset.mem_insert.1 h1 with rfl | h1
      · rcases key with k | ⟨w, hw, k, hlt⟩
        · exact absurd h2 k
        · have := h3 w ⟨Finset.mem_insert_of_mem hw, k⟩
          omega
      · exact h1
    · rintro ⟨⟨h1, h2⟩, h3⟩
      refine ⟨⟨Finset.mem_insert_of_mem h1, h2⟩, ?_⟩
      rintro z ⟨hz, hz2⟩
      rcases Finset.mem_insert.1 hz with rfl | hz
      · rcases key with k | ⟨w, hw, k, hlt⟩
        · exact absurd hz2 k
        · have := h3 w ⟨hw, k⟩
          omega
      · exact h3 z ⟨hz, hz2⟩

/-! ### the invariant -/

/-- The leaf record of a pointer. -/
def LOk (K : Finset Nat) (val : Nat → Option V) (a : Option Nat) (l : Lf V) : Prop := IsPrev K a l.prev ∧ IsNext K a l.next ∧ l.v = a.bind val

structure Inv (W : Nat) (rt : Bool) (s : St V) (K : Finset Nat) (val : Nat → Option V) : Prop where
  mem : ∀ x, x ∈ K ↔ (val x).isSome = true
  lt : ∀ x ∈ K, x < 2 ^ W
  node : ∀ i < W, ∀ p, Ex W K i p → ∃ u, s.node i p = some u ∧ Flags W K i p u ∧ JOk W K i p u.jump
  leaf : ∀ a, Ptr K a → ∃ l, s.leaf a = some l ∧ LOk K val a l
  size : s.size = K.card
  tb : ∀ i p, s.tb i p = true ↔ (1 ≤ i ∧ i ≤ W ∧ Has W K i p) ∨ (i = 0 ∧ p = 0 ∧ rt = true)

theorem init_inv (W : Nat) (rt : Bool) : Inv W rt (init rt : St V) ∅ (fun _ => none) := by
  have hh : ∀ i p, ¬ Has W ∅ i p := by rintro i p ⟨z, hz, _⟩; cases hz
  refine ⟨by simp, by simp, ?_, ?_, rfl, ?_⟩
  · rintro i hi p (h | ⟨rfl, rfl⟩)
    · exact absurd h (hh _ _)
    · refine ⟨⟨false, false, some none⟩, rfl, fun b hb => ⟨?_, fun h => absurd h (hh _ _)⟩, ⟨fun b _ h => absurd h (hh _ _), fun h => absurd h (hh _ _), fun _ => rfl⟩⟩
      intro h
      unfold child at h
      split at h <;> cases h
  · intro a ha
    cases a with
    | some x => cases ha
    | none => exact ⟨⟨none, none, none⟩, rfl, (fun z hz => absurd hz.1 (Finset.notMem_empty z)), (fun z hz => absurd hz.1 (Finset.notMem_empty z)), rfl⟩
  · intro i p
    simp only [init, Bool.and_eq_true, beq_iff_eq]
    constructor
    · rintro ⟨⟨a, b⟩, c⟩; exact Or.inr ⟨b, c, a⟩
    · rintro (⟨_, _, h⟩ | ⟨a, b, c⟩)
      · exact absurd h (hh _ _)
      · exact ⟨⟨c, a⟩, b⟩

end Verif.Trie
