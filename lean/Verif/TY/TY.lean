/-!
C44: `TY<T, DiffType>`, `/repo/include/mtl/succinct/ty.hpp`.

`B` is `block_size = sizeof(T)*8`, `D` is `max_diff`.  Values are mathematical integers; a failed `assert` (or the
overflow of `v - head.back()` that it would hide) is `none`.  A difference in `[0, D]` fits `DiffType`.
-/
namespace Verif.TY

structure State where
  head : List Int
  diff : List Int

/-- ty.hpp:25. -/
def empty : State := ⟨[], []⟩

/-- ty.hpp:34-36. -/
def size (s : State) : Nat := s.head.length + s.diff.length

/-- ty.hpp:53-61 (and 43-52, 62-64: the rvalue overload does the same). -/
def pushBack (B D : Nat) (s : State) (v : Int) : Option State :=
  if size s % B = 0 then some { s with head := s.head ++ [v] }
  else do
    let h ← s.head.getLast?
    if v ≥ h then
      if v - h ≤ D then some { s with diff := s.diff ++ [v - h] } else none
    else none

/-- ty.hpp:26-33 without the initial `is_sorted` assertion; also any sequence of `push_back`. -/
def pushAll (B D : Nat) : State → List Int → Option State
  | s, [] => some s
  | s, v :: vs => (pushBack B D s v).bind (fun s => pushAll B D s vs)

/-- ty.hpp:65-71. -/
def get (B : Nat) (s : State) (i : Nat) : Option Int :=
  if i % B = 0 then s.head[i / B]?
  else do
    let h ← s.head[i / B]?
    let d ← s.diff[i / B * (B - 1) + i % B - 1]?
    some (h + d)

/-- Specification of admissible input: each value is at least the first value of its block of `B` and exceeds it by
at most `D`. -/
def Admissible (B D : Nat) (vs : List Int) : Prop :=
  ∀ i h v, vs[i / B * B]? = some h → vs[i]? = some v → h ≤ v ∧ v ≤ h + D

/-- The state after pushing `vs`. -/
structure Inv (B : Nat) (vs : List Int) (s : State) : Prop where
  hl : s.head.length = (vs.length + B - 1) / B
  sz : s.head.length + s.diff.length = vs.length
  ok : ∀ i, i < vs.length → get B s i = vs[i]?

theorem ceil_succ {n B : Nat} (hB : 0 < B) (h : n % B = 0) : (n + B - 1) / B = n / B ∧ (n + 1 + B - 1) / B = n / B + 1 := by
  obtain ⟨q, rfl⟩ := Nat.dvd_of_mod_eq_zero h
  rw [Nat.mul_div_cancel_left _ hB]
  constructor
  · apply Nat.div_eq_of_lt_le
    · rw [Nat.mul_comm]; omega
    · rw [Nat.add_mul, Nat.mul_comm]; omega
  · apply Nat.div_eq_of_lt_le
    · rw [Nat.add_mul, Nat.mul_comm]; omega
    · rw [Nat.add_mul, Nat.add_mul, Nat.mul_comm]; omega

theorem ceil_same {n B : Nat} (hB : 0 < B) (h : n % B ≠ 0) : (n + B - 1) / B = n / B + 1 ∧ (n + 1 + B - 1) / B = n / B + 1 := by
  have e := Nat.div_add_mod n B
  have hlt := Nat.mod_lt n hB
  constructor
  · apply Nat.div_eq_of_lt_le
    · rw [Nat.add_mul, Nat.mul_comm]; omega
    · rw [Nat.add_mul, Nat.add_mul, Nat.mul_comm]; omega
  · apply Nat.div_eq_of_lt_le
    · rw [Nat.add_mul, Nat.mul_comm]; omega
    · rw [Nat.add_mul, Nat.add_mul, Nat.mul_comm]; omega

theorem div_mul_pred {n B : Nat} (hB : 0 < B) (h : n % B ≠ 0) : n / B * (B - 1) + n % B - 1 = n - (n / B + 1) := by
  have e := Nat.div_add_mod n B
  have : n / B * (B - 1) + n / B = B * (n / B) := by
    rw [← Nat.mul_succ, show (B-1).succ = B by omega, Nat.mul_comm]
  omega

/-- One push. -/
theorem push_spec {B D : Nat} (hB : 0 < B) {vs : List Int} {s : State} (h : Inv B vs s) (v : Int)
    (hv : ∀ x, vs.length % B ≠ 0 → vs[vs.length / B * B]? = some x → x ≤ v ∧ v ≤ x + D) :
    ∃ s', pushBack B D s v = some s' ∧ Inv B (vs ++ [v]) s' := by
  unfold pushBack size
  rw [h.sz]
  have hq : vs.length / B * B ≤ vs.length := Nat.div_mul_le_self _ _
  by_cases hm : vs.length % B = 0
  · rw [if_pos hm]
    obtain ⟨c1, c2⟩ := ceil_succ hB hm
    refine ⟨_, rfl, by simp [h.hl, c1, ← c2], by simp [← h.sz]; omega, ?_⟩
    intro i hi
    simp only [List.length_append, List.length_singleton] at hi
    by_cases hlast : i = vs.length
    · subst hlast
      unfold get
      have hlen : s.head.length = vs.length / B := by rw [h.hl, c1]
      simp only [if_pos hm, ← hlen]
      simp
    · have hi' : i < vs.length := by omega
      rw [List.getElem?_append_left hi', ← h.ok i hi']
      have hlt : i / B < s.head.length := by
        rw [h.hl, c1]
        exact (Nat.div_lt_iff_lt_mul hB).2 (by rw [Nat.div_mul_cancel (Nat.dvd_of_mod_eq_zero hm)]; exact hi')
      unfold get
      simp only [List.getElem?_append_left hlt]
  · rw [if_neg hm]
    obtain ⟨c1, c2⟩ := ceil_same hB hm
    have hlen : s.head.length = vs.length / B + 1 := by rw [h.hl, c1]
    have hqlt : vs.length / B * B < vs.length := by
      have := Nat.div_add_mod vs.length B
      rw [Nat.mul_comm] at this; omega
    have hget := h.ok (vs.length / B * B) hqlt
    unfold get at hget
    rw [if_pos (Nat.mul_mod_left _ _), Nat.mul_div_cancel _ hB] at hget
    have hlast : s.head.getLast? = vs[vs.length / B * B]? := by
      rw [List.getLast?_eq_getElem?, hlen, ← hget]; rfl
    have hx := List.getElem?_eq_getElem hqlt
    obtain ⟨h1, h2⟩ := hv _ hm hx
    rw [hlast, hx]
    rw [hx] at hget
    simp only [Option.bind_eq_bind, Option.bind_some, if_pos h1, if_pos (show v - vs[vs.length / B * B] ≤ D by omega)]
    refine ⟨_, rfl, by rw [List.length_append, List.length_singleton, c2, hlen], by simp [← h.sz]; omega, ?_⟩
    intro i hi
    simp only [List.length_append, List.length_singleton] at hi
    by_cases hil : i = vs.length
    · subst hil
      unfold get
      have hd : s.diff.length = vs.length - (vs.length / B + 1) := by have := h.sz; omega
      simp only [if_neg hm, hget, Option.bind_eq_bind, Option.bind_some, div_mul_pred hB hm, ← hd]
      simp
      omega
    · have hi' : i < vs.length := by omega
      rw [List.getElem?_append_left hi', ← h.ok i hi']
      unfold get
      split
      · rfl
      · rename_i him
        have hdl : s.diff.length = vs.length - (vs.length / B + 1) := by have := h.sz; omega
        rw [div_mul_pred hB him, List.getElem?_append_left]
        rw [hdl]
        have h3 : i / B ≤ vs.length / B := Nat.div_le_div_right (Nat.le_of_lt hi')
        have e1 := Nat.div_add_mod i B
        have e2 := Nat.div_add_mod vs.length B
        have p1 : i / B * (B - 1) + i / B = B * (i / B) := by
          rw [← Nat.mul_succ, show (B-1).succ = B by omega, Nat.mul_comm]
        have p2 : vs.length / B * (B - 1) + vs.length / B = B * (vs.length / B) := by
          rw [← Nat.mul_succ, show (B-1).succ = B by omega, Nat.mul_comm]
        rcases Nat.lt_or_ge (i / B) (vs.length / B) with h4 | h4
        · have p3 : (i / B + 1) * (B - 1) ≤ vs.length / B * (B - 1) := Nat.mul_le_mul_right _ h4
          rw [Nat.add_mul] at p3
          have := Nat.mod_lt i hB
          omega
        · have : i / B = vs.length / B := by omega
          rw [this] at e1
          omega

theorem pushAll_spec {B D : Nat} (hB : 0 < B) : ∀ (ws vs : List Int) (s : State), Inv B vs s → Admissible B D (vs ++ ws) →
    ∃ s', pushAll B D s ws = some s' ∧ Inv B (vs ++ ws) s'
  | [], vs, s, h, _ => ⟨s, rfl, by simpa using h⟩
  | w :: ws, vs, s, h, ha => by
    obtain ⟨s1, e1, h1⟩ := push_spec (D := D) hB h w (by
      intro x hm hx
      have hqlt : vs.length / B * B < vs.length := by
        have := Nat.div_add_mod vs.length B
        rw [Nat.mul_comm] at this; omega
      exact ha vs.length x w (by rw [List.getElem?_append_left hqlt]; exact hx) (by simp))
    obtain ⟨s2, e2, h2⟩ := pushAll_spec hB ws (vs ++ [w]) s1 h1 (by simpa using ha)
    exact ⟨s2, by simp [pushAll, e1, e2], by simpa using h2⟩

/-- C44: pushing an admissible sequence never fails an assertion, and afterwards `size()` is its length and `get(i)`
is its `i`-th element. -/
theorem C44_get (B D : Nat) (hB : 0 < B) (vs : List Int) (hadm : Admissible B D vs) :
    ∃ s, pushAll B D empty vs = some s ∧ size s = vs.length ∧ ∀ i, i < vs.length → get B s i = vs[i]? := by
  obtain ⟨s, e, h⟩ := pushAll_spec (D := D) hB vs [] empty ⟨by simp [empty]; exact (Nat.div_eq_of_lt (by omega)).symm, rfl, by simp⟩
    (by simpa using hadm)
  exact ⟨s, e, h.sz, h.ok⟩

example : Admissible 2 10 [5, 9, 100, 110, 110] := by
  intro i h v h1 h2
  have hi : i < 5 := by
    have := (List.getElem?_eq_some_iff.1 h2).1
    simpa using this
  have : i = 0 ∨ i = 1 ∨ i = 2 ∨ i = 3 ∨ i = 4 := by omega
  rcases this with rfl | rfl | rfl | rfl | rfl <;> simp at h1 h2 <;> omega
example : (pushAll 2 10 empty [5, 9, 100, 110, 110]).bind (fun s => get 2 s 3) = some 110 := by decide

end Verif.TY
