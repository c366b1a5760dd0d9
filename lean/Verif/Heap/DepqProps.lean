import Verif.Heap.DepqOps
import Mathlib.Data.List.Sort
/-!
# C38: DoubleEndedPriorityQueue
-/
namespace Verif.Depq

variable {α : Type} [LinearOrder α]

inductive Op (α : Type)
  | push (x : α)
  | popMin
  | popMax
  | min
  | max
  | size
  | empty
  | clear

inductive Out (α : Type)
  | unit
  | val (x : α)
  | num (n : Nat)
  | bool (b : Bool)
deriving DecidableEq

/-- The calls on the vector; double_ended_priority_queue.hpp:102-139. -/
def step (a : List α) : Op α → Option (List α × Out α)
  | .push x => (push a x).map (fun a => (a, .unit))
  | .popMin => (popMin a).map (fun a => (a, .unit))
  | .popMax => (popMax a).map (fun a => (a, .unit))
  | .min => (getMin a).map (fun x => (a, .val x))
  | .max => (getMax a).map (fun x => (a, .val x))
  | .size => some (a, .num a.length)
  | .empty => some (a, .bool (a.length == 0))
  | .clear => some ([], .unit)

def run : List α → List (Op α) → Option (List (Out α))
  | _, [] => some []
  | a, op :: ops => (step a op).bind (fun q => (run q.1 ops).map (fun os => q.2 :: os))

/-! ### Specification: the multiset as a sorted list -/

def spec (l : List α) : Op α → Option (List α × Out α)
  | .push x => some (l.orderedInsert (· ≤ ·) x, .unit)
  | .popMin => if l = [] then none else some (l.tail, .unit)
  | .popMax => if l = [] then none else some (l.dropLast, .unit)
  | .min => l.head?.map (fun x => (l, .val x))
  | .max => l.getLast?.map (fun x => (l, .val x))
  | .size => some (l, .num l.length)
  | .empty => some (l, .bool l.isEmpty)
  | .clear => some ([], .unit)

def srun : List α → List (Op α) → Option (List (Out α))
  | _, [] => some []
  | l, op :: ops => (spec l op).bind (fun q => (srun q.1 ops).map (fun os => q.2 :: os))

/-! ### Simulation -/

structure Rel (a l : List α) : Prop where
  inv : Inv a
  perm : a.Perm l
  sorted : l.Pairwise (· ≤ ·)

theorem Rel.min_eq {a l : List α} (h : Rel a l) : getMin a = l.head? := by
  cases l with
  | nil => rw [List.Perm.eq_nil h.perm]; rfl
  | cons y l =>
    obtain ⟨x, e, h1, h2⟩ := getMin_ok h.inv (fun h0 => by have := h.perm; rw [h0] at this; simpa using this.length_eq)
    rw [e, List.head?_cons]
    congr 1
    have hy : y ∈ a := h.perm.mem_iff.mpr List.mem_cons_self
    apply le_antisymm (h2 y hy)
    have hx := h.perm.mem_iff.mp h1
    rw [List.mem_cons] at hx
    rcases hx with rfl | hx
    · exact le_refl _
    · exact (List.pairwise_cons.mp h.sorted).1 x hx

theorem Rel.max_eq {a l : List α} (h : Rel a l) : getMax a = l.getLast? := by
  by_cases hl : l = []
  · subst hl; rw [List.Perm.eq_nil h.perm]; rfl
  · obtain ⟨x, e, h1, h2⟩ := getMax_ok h.inv (fun h0 => by have := h.perm; rw [h0] at this; exact hl (List.Perm.eq_nil this.symm))
    rw [e, List.getLast?_eq_some_getLast hl]
    congr 1
    have hy : l.getLast hl ∈ a := h.perm.mem_iff.mpr (List.getLast_mem hl)
    apply le_antisymm _ (h2 _ hy)
    have hx := h.perm.mem_iff.mp h1
    have hd := List.dropLast_append_getLast hl
    rw [← hd, List.mem_append] at hx
    rcases hx with hx | hx
    · have hs := h.sorted
      rw [← hd, List.pairwise_append] at hs
      exact hs.2.2 x hx _ (List.mem_singleton.mpr rfl)
    · rw [List.mem_singleton] at hx; exact le_of_eq hx

theorem step_ok {a l : List α} (h : Rel a l) (op : Op α) :
    (step a op = none ∧ spec l op = none) ∨ ∃ a' l' o, step a op = some (a', o) ∧ spec l op = some (l', o) ∧ Rel a' l' := by
  have hnil : a = [] ↔ l = [] := by
    constructor
    · intro h0; have := h.perm; rw [h0] at this; exact List.Perm.eq_nil this.symm
    · intro h0; have := h.perm; rw [h0] at this; exact List.Perm.eq_nil this
  cases op with
  | push x =>
    obtain ⟨a', e, h1, h2⟩ := push_ok h.inv x
    refine Or.inr ⟨a', _, _, by rw [step, e]; rfl, rfl, h1, ?_, ?_⟩
    · exact (h2.trans (List.Perm.cons x h.perm)).trans (List.perm_orderedInsert _ _ _).symm
    · exact List.Pairwise.orderedInsert x l h.sorted
  | popMin =>
    by_cases ha : a = []
    · exact Or.inl ⟨by rw [step, ha]; rfl, by rw [spec, if_pos (hnil.mp ha)]⟩
    · have hl := fun h0 => ha (hnil.mpr h0)
      obtain ⟨x, a', e1, e2, e3, e4⟩ := popMin_ok h.inv ha
      refine Or.inr ⟨a', l.tail, _, by rw [step, e1]; rfl, by rw [spec, if_neg hl], e3, ?_, h.sorted.tail⟩
      rw [h.min_eq] at e2
      cases l with
      | nil => exact absurd rfl hl
      | cons y l =>
        cases e2
        exact List.Perm.cons_inv (e4.symm.trans h.perm)
  | popMax =>
    by_cases ha : a = []
    · exact Or.inl ⟨by rw [step, ha]; rfl, by rw [spec, if_pos (hnil.mp ha)]⟩
    · have hl := fun h0 => ha (hnil.mpr h0)
      obtain ⟨x, a', e1, e2, e3, e4⟩ := popMax_ok h.inv ha
      have hd := List.dropLast_append_getLast hl
      refine Or.inr ⟨a', l.dropLast, _, by rw [step, e1]; rfl, by rw [spec, if_neg hl], e3, ?_, ?_⟩
      · rw [h.max_eq, List.getLast?_eq_some_getLast hl] at e2
        have hx := Option.some.inj e2
        have h1 := e4.symm.trans h.perm
        rw [← hd, hx] at h1
        exact List.Perm.cons_inv (h1.trans List.perm_append_comm)
      · have := h.sorted
        rw [← hd, List.pairwise_append] at this
        exact this.1
  | min =>
    by_cases ha : a = []
    · exact Or.inl ⟨by rw [step, ha]; rfl, by rw [spec, hnil.mp ha]; rfl⟩
    · obtain ⟨x, e, _, _⟩ := getMin_ok h.inv ha
      exact Or.inr ⟨a, l, .val x, by rw [step, e]; rfl, by rw [spec, ← h.min_eq, e]; rfl, h⟩
  | max =>
    by_cases ha : a = []
    · exact Or.inl ⟨by rw [step, ha]; rfl, by rw [spec, hnil.mp ha]; rfl⟩
    · obtain ⟨x, e, _, _⟩ := getMax_ok h.inv ha
      exact Or.inr ⟨a, l, .val x, by rw [step, e]; rfl, by rw [spec, ← h.max_eq, e]; rfl, h⟩
  | size => exact Or.inr ⟨a, l, _, rfl, by rw [spec, h.perm.length_eq], h⟩
  | empty =>
    refine Or.inr ⟨a, l, _, rfl, ?_, h⟩
    rw [spec, h.perm.length_eq]
    cases l <;> rfl
  | clear => exact Or.inr ⟨[], [], _, rfl, rfl, Or.inl rfl, List.Perm.refl _, List.Pairwise.nil⟩

theorem run_ok : ∀ (ops : List (Op α)) (a l : List α), Rel a l → run a ops = srun l ops := by
  intro ops
  induction ops with
  | nil => intro a l _; rfl
  | cons op ops ih =>
    intro a l h
    rw [run, srun]
    rcases step_ok h op with ⟨e1, e2⟩ | ⟨a', l', o, e1, e2, h'⟩
    · rw [e1, e2]; rfl
    · rw [e1, e2, Option.bind_some, Option.bind_some, ih a' l' h']

/-- C38 for a default-constructed queue: every history of calls answers as the sorted list (and is undefined only where a call's own precondition,
a nonempty queue, fails). -/
theorem C38_history (ops : List (Op α)) : run ([] : List α) ops = srun [] ops :=
  run_ok ops [] [] ⟨Or.inl rfl, List.Perm.refl _, List.Pairwise.nil⟩

/-- C38 for a queue constructed from a range.
Missing: lengths congruent to 3 modulo 4, for which the constructor is wrong (`C38_violated`). -/
theorem C38_build_partial (init : List α) (hn : init.length % 4 ≠ 3) (ops : List (Op α)) :
    ∃ a, build init = some a ∧ run a ops = srun (init.insertionSort (· ≤ ·)) ops := by
  obtain ⟨a, e, h1, h2⟩ := build_ok hn
  exact ⟨a, e, run_ok ops a _ ⟨h1, h2.trans (List.perm_insertionSort _ _).symm, List.pairwise_insertionSort _ _⟩⟩

/-- The violation of C38: the queue constructed from `5, 3, 1` says its minimum is 3. -/
theorem C38_violated : (build [5, 3, 1]).bind (fun a => run a [.min]) = some [.val 3] ∧ srun (List.insertionSort (· ≤ ·) [5, 3, 1]) [Op.min] = some [Out.val 1] := by
  decide +kernel

/-- The wrong order persists: after `push` and `pop_min` on the queue constructed from `9, 8, 7` the minimum 7 is still there and 8 is gone. -/
theorem C38_violated_push : (build [9, 8, 7]).bind (fun a => run a [.push 10, .popMin, .min]) = some [.unit, .unit, .val 7] ∧
    srun (List.insertionSort (· ≤ ·) [9, 8, 7]) [Op.push 10, .popMin, .min] = some [.unit, .unit, .val 8] := by
  decide +kernel

example : run ([] : List Int) [.push 3, .push 1, .push 2, .min, .max, .popMin, .min, .popMax, .max, .size, .popMin, .empty] =
    some [.unit, .unit, .unit, .val 1, .val 3, .unit, .val 2, .unit, .val 2, .num 1, .unit, .bool true] := by decide +kernel

example : ∃ a, build [4, 9, 2, 7, 5] = some a ∧ run a [.min, .popMax, .max] = srun (List.insertionSort (· ≤ ·) [4, 9, 2, 7, 5]) [.min, .popMax, .max] :=
  C38_build_partial _ (by decide) _

end Verif.Depq
