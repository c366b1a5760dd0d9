import Mathlib.Order.Defs.LinearOrder
import Mathlib.Data.Finset.Card
import Mathlib.Data.Finset.Sort
import Mathlib.Data.List.Sort
/-!
C17: `Compressor<T>`, `/repo/include/mtl/compress_int.hpp`.

`T` is a type with a linear order.  The map container is an association list with the semantics of
`operator[]`/`find`; `std::sort` is a merge sort (for a linear order every sort returns the same list).
Indices are natural numbers: the C++ counter is an `int`, so fewer than `2^31` distinct values are assumed.
-/
namespace Verif.Compress

variable {T : Type} [LinearOrder T]

/-- `std::unique` + `erase`: drop every element equal to its predecessor. -/
def unique : List T → List T
  | [] => []
  | [x] => [x]
  | x :: y :: l => if x = y then unique (y :: l) else x :: unique (y :: l)

/-- `mp[x] = k`. -/
def put (mp : List (T × Nat)) (x : T) (k : Nat) : List (T × Nat) :=
  match mp with
  | [] => [(x, k)]
  | (y, j) :: mp => if y = x then (x, k) :: mp else (y, j) :: put mp x k

/-- `mp.find(x)`. -/
def find (mp : List (T × Nat)) (x : T) : Option Nat :=
  match mp with
  | [] => none
  | (y, j) :: mp => if y = x then some j else find mp x

/-- compress_int.hpp:30-31. -/
def number (mp : List (T × Nat)) (k : Nat) : List T → List (T × Nat)
  | [] => mp
  | v :: vs => number (put mp v k) (k+1) vs

/-- compress_int.hpp:25-33: the map and the new content of `vs`. -/
def release (vs : List T) : List (T × Nat) × List T :=
  let s := unique (vs.mergeSort (fun a b => decide (a ≤ b)))
  (number [] 0 s, s)

/-- compress_int.hpp:17-24: ways to change `vs`. -/
inductive Op (T : Type) where
  | add (x : T)
  | addRange (xs : List T)
  | clear
  | release

/-- compress_int.hpp:17-33, effect on `vs`. -/
def step (vs : List T) : Op T → List T
  | .add x => vs ++ [x]
  | .addRange xs => vs ++ xs
  | .clear => []
  | .release => (release vs).2

/-! ### Specification -/

/-- Set of values currently held. -/
def specStep (s : Finset T) : Op T → Finset T
  | .add x => insert x s
  | .addRange xs => s ∪ xs.toFinset
  | .clear => ∅
  | .release => s

/-- Number of distinct held values below `x`. -/
def rank (s : Finset T) (x : T) : Nat := (s.filter (· < x)).card

/-! ### Proofs -/

theorem mem_unique (x : T) : ∀ l : List T, x ∈ unique l ↔ x ∈ l
  | [] => by simp [unique]
  | [y] => by simp [unique]
  | y :: z :: l => by
    have ih := mem_unique x (z :: l)
    unfold unique
    split
    · rename_i h
      subst h
      rw [ih]; simp
    · rw [List.mem_cons, ih, List.mem_cons (a := x) (b := y)]

theorem unique_sorted : ∀ l : List T, l.Pairwise (· ≤ ·) → (unique l).Pairwise (· < ·)
  | [], _ => by simp [unique]
  | [y], _ => by simp [unique]
  | y :: z :: l, h => by
    rw [List.pairwise_cons] at h
    have ih := unique_sorted (z :: l) h.2
    unfold unique
    split
    · exact ih
    · rename_i hne
      rw [List.pairwise_cons]
      refine ⟨fun a ha => ?_, ih⟩
      rw [mem_unique] at ha
      rcases List.mem_cons.1 ha with rfl | ha'
      · exact lt_of_le_of_ne (h.1 a (by simp)) hne
      · exact lt_of_lt_of_le (lt_of_le_of_ne (h.1 z (by simp)) hne) ((List.pairwise_cons.1 h.2).1 a ha')

theorem find_put (mp : List (T × Nat)) (x y : T) (k : Nat) : find (put mp x k) y = if x = y then some k else find mp y := by
  induction mp with
  | nil => simp [put, find]
  | cons p mp ih =>
    obtain ⟨z, j⟩ := p
    simp only [put]
    split
    · rename_i h; subst h
      simp only [find]
      split <;> rfl
    · rename_i h
      simp only [find]
      split
      · rename_i h2; subst h2
        rw [if_neg (fun h3 => h h3.symm)]
      · exact ih

theorem find_number : ∀ (l : List T) (mp : List (T × Nat)) (k : Nat), l.Pairwise (· < ·) → ∀ x,
    (x ∉ l → find (number mp k l) x = find mp x) ∧ (∀ i : Nat, l[i]? = some x → find (number mp k l) x = some (k + i))
  | [], mp, k, _, x => by simp [number]
  | v :: l, mp, k, h, x => by
    rw [List.pairwise_cons] at h
    have ih := find_number l (put mp v k) (k+1) h.2 x
    constructor
    · intro hx
      simp only [List.mem_cons, not_or] at hx
      show find (number (put mp v k) (k+1) l) x = _
      rw [ih.1 hx.2, find_put, if_neg (fun h => hx.1 h.symm)]
    · intro i hi
      show find (number (put mp v k) (k+1) l) x = _
      cases i with
      | zero =>
        simp only [List.getElem?_cons_zero, Option.some.injEq] at hi
        subst hi
        rw [ih.1 (fun hm => absurd (h.1 v hm) (lt_irrefl v)), find_put, if_pos rfl]; rfl
      | succ i =>
        rw [List.getElem?_cons_succ] at hi
        rw [ih.2 i hi]
        congr 1; omega

theorem release_sorted (vs : List T) : (release vs).2.Pairwise (· < ·) := by
  apply unique_sorted
  have := List.pairwise_mergeSort (le := fun a b : T => decide (a ≤ b))
    (fun a b c h1 h2 => by simp only [decide_eq_true_eq] at *; exact le_trans h1 h2)
    (fun a b => by simp only [Bool.or_eq_true, decide_eq_true_eq]; exact le_total a b) vs
  simpa using this

theorem mem_release (vs : List T) (x : T) : x ∈ (release vs).2 ↔ x ∈ vs := by
  unfold release
  simp only
  rw [mem_unique, List.mem_mergeSort]

/-- In a strictly sorted list the index of an element is the number of smaller elements. -/
theorem index_eq_rank (l : List T) (h : l.Pairwise (· < ·)) (i : Nat) (x : T) (hi : l[i]? = some x) :
    rank l.toFinset x = i := by
  induction l generalizing i with
  | nil => simp at hi
  | cons v l ih =>
    rw [List.pairwise_cons] at h
    unfold rank
    cases i with
    | zero =>
      simp only [List.getElem?_cons_zero, Option.some.injEq] at hi
      subst hi
      rw [Finset.card_eq_zero, Finset.filter_eq_empty_iff]
      intro y hy
      rw [List.mem_toFinset, List.mem_cons] at hy
      rcases hy with rfl | hy
      · exact lt_irrefl y
      · exact not_lt.2 (le_of_lt (h.1 y hy))
    | succ i =>
      rw [List.getElem?_cons_succ] at hi
      have hx : x ∈ l := List.mem_of_getElem? hi
      have hv : v < x := h.1 x hx
      have := ih h.2 i hi
      unfold rank at this
      rw [List.toFinset_cons, Finset.filter_insert, if_pos hv, Finset.card_insert_of_notMem, this]
      simp only [Finset.mem_filter, List.mem_toFinset, not_and]
      intro hm
      exact absurd (h.1 v hm) (lt_irrefl v)

/-- C17: after any history of additions, clears and releases, `release` maps exactly the held values, each to
the number of distinct held values below it; the accompanying vector (from `release_tie`) is strictly increasing,
holds exactly those values, and has `x` at position `map[x]`. -/
theorem C17_release (ops : List (Op T)) :
    let held := ops.foldl specStep ∅
    let r := release (ops.foldl step [])
    (∀ x, x ∈ held → find r.1 x = some (rank held x)) ∧ (∀ x, x ∉ held → find r.1 x = none) ∧
    r.2.Pairwise (· < ·) ∧ (∀ x, x ∈ r.2 ↔ x ∈ held) ∧ (∀ x i, find r.1 x = some i ↔ r.2[i]? = some x) := by
  have hheld : ∀ (ops : List (Op T)) (vs : List T) (s : Finset T), (∀ x, x ∈ vs ↔ x ∈ s) →
      ∀ x, x ∈ ops.foldl step vs ↔ x ∈ ops.foldl specStep s := by
    intro ops
    induction ops with
    | nil => intro vs s h; exact h
    | cons o ops ih =>
      intro vs s h
      refine ih _ _ ?_
      intro x
      cases o with
      | add y => simp [step, specStep, h x, or_comm]
      | addRange xs => simp [step, specStep, h x]
      | clear => simp [step, specStep]
      | release => simp only [step, specStep, mem_release]; exact h x
  have hm := hheld ops [] ∅ (by simp)
  generalize ops.foldl step [] = vs at *
  generalize ops.foldl specStep ∅ = held at *
  intro held' r
  have hs := release_sorted vs
  have hmem : ∀ x, x ∈ (release vs).2 ↔ x ∈ held := fun x => by rw [mem_release]; exact hm x
  have hset : (release vs).2.toFinset = held := by ext x; rw [List.mem_toFinset]; exact hmem x
  have hnone : ∀ x, x ∉ held → find (release vs).1 x = none := by
    intro x hx
    exact (find_number _ [] 0 hs x).1 (fun h => hx ((hmem x).1 h))
  refine ⟨?_, hnone, hs, hmem, ?_⟩
  · intro x hx
    obtain ⟨i, hi⟩ := List.mem_iff_getElem?.1 ((hmem x).2 hx)
    have := (find_number _ [] 0 hs x).2 i hi
    rw [show find r.1 x = find (number [] 0 (release vs).2) x from rfl, this, show held' = (release vs).2.toFinset from hset.symm, index_eq_rank _ hs i x hi, Nat.zero_add]
  · intro x i
    constructor
    · intro h
      by_cases hx : x ∈ held
      · obtain ⟨j, hj⟩ := List.mem_iff_getElem?.1 ((hmem x).2 hx)
        have := (find_number _ [] 0 hs x).2 j hj
        rw [show find r.1 x = find (number [] 0 (release vs).2) x from rfl, this] at h
        simp only [Option.some.injEq] at h
        rw [← h, Nat.zero_add]; exact hj
      · rw [show find r.1 x = none from hnone x hx] at h; simp at h
    · intro h
      have := (find_number _ [] 0 hs x).2 i h
      rw [show find r.1 x = find (number [] 0 (release vs).2) x from rfl, this, Nat.zero_add]

/-- Order is preserved: on held values, the index is strictly monotone. -/
theorem C17_order (ops : List (Op T)) (x y : T) (i j : Nat)
    (hx : find (release (ops.foldl step [])).1 x = some i) (hy : find (release (ops.foldl step [])).1 y = some j) :
    (x < y ↔ i < j) ∧ (x = y ↔ i = j) := by
  obtain ⟨_, _, hs, _, hi⟩ := C17_release ops
  rw [hi] at hx hy
  obtain ⟨hil, hxe⟩ := List.getElem?_eq_some_iff.1 hx
  obtain ⟨hjl, hye⟩ := List.getElem?_eq_some_iff.1 hy
  rw [List.pairwise_iff_getElem] at hs
  rcases Nat.lt_trichotomy i j with h | h | h
  · have := hs i j hil hjl h
    rw [hxe, hye] at this
    exact ⟨⟨fun _ => h, fun _ => this⟩, ⟨fun h2 => absurd this (h2 ▸ lt_irrefl _), fun h2 => by omega⟩⟩
  · subst h
    have : x = y := by rw [← hxe, ← hye]
    subst this
    simp
  · have := hs j i hjl hil h
    rw [hxe, hye] at this
    exact ⟨⟨fun h2 => absurd this (not_lt.2 (le_of_lt h2)), fun h2 => by omega⟩,
      ⟨fun h2 => absurd this (h2 ▸ lt_irrefl _), fun h2 => by omega⟩⟩

example : [Op.addRange [30, 10, 30, 20], Op.release, Op.add 15].foldl specStep (∅ : Finset Nat) = {10, 15, 20, 30} := by decide
example : find (number [] 0 [10, 15, 20, 30]) 20 = some 2 ∧ unique [10, 20, 30, 30] = [10, 20, 30] := by decide

end Verif.Compress
