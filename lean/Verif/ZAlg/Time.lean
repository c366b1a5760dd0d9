import Verif.ZAlg.ZAlg
/-!
C135: `z_algorithm` (`/repo/include/mtl/string/z_algorithm.hpp`) is linear.
-/
namespace Verif.ZAlg

variable {α : Type} [DecidableEq α]

/-- `extend` (lines 14-15) with the number of compared pairs. -/
def extendC (s : List α) (i : Nat) : Nat → Nat → Option (Nat × Nat)
  | 0, _ => none
  | f+1, j => if i + j < s.length then (eqAt s (i+j) j).bind (fun b => if b then (extendC s i f (j+1)).map (fun r => (r.1, r.2 + 1)) else some (j, 1)) else some (j, 0)

/-- `copy` (lines 21-25) with the number of tests of the loop condition. -/
def copyC (i j : Nat) : Nat → Nat → List Nat → Option ((Nat × List Nat) × Nat)
  | 0, _, _ => none
  | f+1, k, z => if k < j then (z[k]?).bind (fun zk =>
      if k + zk < j then (wr z (i+k) zk).bind (fun z => (copyC i j f (k+1) z).map (fun r => (r.1, r.2 + 1))) else some ((k, z), 1)) else some ((k, z), 1)

/-- The counters: compared pairs of elements, rounds of the main loop, tests of the copying loop. -/
structure Cnt where
  cmp : Nat
  rounds : Nat
  copies : Nat
  deriving DecidableEq

/-- `loop` (lines 13-28) with counters. -/
def loopC (s : List α) : Nat → Nat → Nat → List Nat → Option (List Nat × Cnt)
  | 0, _, _, _ => none
  | f+1, i, j, z => if i < s.length then
      (extendC s i (s.length + 1) j).bind (fun e =>
        if e.1 = 0 then (loopC s f (i+1) e.1 z).map (fun r => (r.1, ⟨r.2.cmp + e.2, r.2.rounds + 1, r.2.copies⟩))
        else (wr z i e.1).bind (fun z => (copyC i e.1 (e.1+1) 1 z).bind (fun p =>
          (loopC s f (i + p.1.1) (e.1 - p.1.1) p.1.2).map (fun r => (r.1, ⟨r.2.cmp + e.2, r.2.rounds + 1, r.2.copies + p.2⟩)))))
    else some (z, ⟨0, 0, 0⟩)

/-- `z_algorithm` with counters. -/
def zAlgorithmC (s : List α) : Option (List Nat × Cnt) :=
  (wr (List.replicate s.length 0) 0 s.length).bind (loopC s (s.length + 1) 1 0)

/-! ### The counters do not change the result -/

theorem extendC_fst (s : List α) (i : Nat) : ∀ f j, (extendC s i f j).map (fun r => r.1) = extend s i f j := by
  intro f
  induction f with
  | zero => intro j; rfl
  | succ f ih =>
    intro j
    rw [extendC, extend]
    by_cases h : i + j < s.length
    · rw [if_pos h, if_pos h]
      cases eqAt s (i+j) j with
      | none => rfl
      | some b =>
        cases b with
        | false => rfl
        | true =>
          rw [Option.bind_some, Option.bind_some, if_pos rfl, if_pos rfl, ← ih, Option.map_map]
          rfl
    · rw [if_neg h, if_neg h]; rfl

theorem copyC_fst (i j : Nat) : ∀ f k z, (copyC i j f k z).map (fun r => r.1) = copy i j f k z := by
  intro f
  induction f with
  | zero => intro k z; rfl
  | succ f ih =>
    intro k z
    rw [copyC, copy]
    by_cases h : k < j
    · rw [if_pos h, if_pos h]
      cases z[k]? with
      | none => rfl
      | some zk =>
        rw [Option.bind_some, Option.bind_some]
        by_cases h2 : k + zk < j
        · rw [if_pos h2, if_pos h2]
          cases wr z (i+k) zk with
          | none => rfl
          | some z' =>
            rw [Option.bind_some, Option.bind_some, ← ih, Option.map_map]
            rfl
        · rw [if_neg h2, if_neg h2]; rfl
    · rw [if_neg h, if_neg h]; rfl

theorem loopC_fst (s : List α) : ∀ f i j z, (loopC s f i j z).map (fun r => r.1) = loop s f i j z := by
  intro f
  induction f with
  | zero => intro i j z; rfl
  | succ f ih =>
    intro i j z
    rw [loopC, loop]
    by_cases h : i < s.length
    · rw [if_pos h, if_pos h, ← extendC_fst]
      cases extendC s i (s.length + 1) j with
      | none => rfl
      | some e =>
        rw [Option.bind_some, Option.map_some, Option.bind_some]
        by_cases h0 : e.1 = 0
        · rw [if_pos h0, if_pos h0, ← ih, Option.map_map]
          rfl
        · rw [if_neg h0, if_neg h0]
          cases wr z i e.1 with
          | none => rfl
          | some z' =>
            rw [Option.bind_some, Option.bind_some, ← copyC_fst]
            cases copyC i e.1 (e.1 + 1) 1 z' with
            | none => rfl
            | some p =>
              rw [Option.bind_some, Option.map_some, Option.bind_some, ← ih, Option.map_map]
              rfl
    · rw [if_neg h, if_neg h]; rfl

/-! ### The bounds -/

theorem extendC_cost (s : List α) (i : Nat) : ∀ f j r, extendC s i f j = some r → i + j ≤ s.length → r.2 + j ≤ r.1 + 1 ∧ i + r.1 ≤ s.length ∧ j ≤ r.1 := by
  intro f
  induction f with
  | zero => intro j r h; cases h
  | succ f ih =>
    intro j r h hj
    rw [extendC] at h
    by_cases hb : i + j < s.length
    · rw [if_pos hb] at h
      obtain ⟨b, _, h⟩ := Option.bind_eq_some_iff.mp h
      cases b with
      | false =>
        rw [if_neg Bool.false_ne_true] at h
        cases h
        dsimp only
        omega
      | true =>
        rw [if_pos rfl] at h
        obtain ⟨r', e, rfl⟩ := Option.map_eq_some_iff.mp h
        have := ih (j+1) r' e (by omega)
        dsimp only
        omega
    · rw [if_neg hb] at h
      cases h
      dsimp only
      omega

theorem copyC_cost (i j : Nat) : ∀ f k z r, copyC i j f k z = some r → k ≤ j → r.2 + k = r.1.1 + 1 ∧ k ≤ r.1.1 ∧ r.1.1 ≤ j := by
  intro f
  induction f with
  | zero => intro k z r h; cases h
  | succ f ih =>
    intro k z r h hk
    rw [copyC] at h
    by_cases hb : k < j
    · rw [if_pos hb] at h
      obtain ⟨zk, _, h⟩ := Option.bind_eq_some_iff.mp h
      by_cases h2 : k + zk < j
      · rw [if_pos h2] at h
        obtain ⟨z', _, h⟩ := Option.bind_eq_some_iff.mp h
        obtain ⟨r', e, rfl⟩ := Option.map_eq_some_iff.mp h
        have := ih (k+1) z' r' e hb
        dsimp only
        omega
      · rw [if_neg h2] at h
        cases h
        dsimp only
        omega
    · rw [if_neg hb] at h
      cases h
      dsimp only
      omega

theorem loopC_cost (s : List α) : ∀ f i j z r, loopC s f i j z = some r → i + j ≤ s.length → r.2.cmp + 2 * i + j ≤ 2 * s.length ∧ r.2.rounds + i ≤ s.length ∧ r.2.copies + i ≤ s.length := by
  intro f
  induction f with
  | zero => intro i j z r h; cases h
  | succ f ih =>
    intro i j z r h hj
    rw [loopC] at h
    by_cases hi : i < s.length
    · rw [if_pos hi] at h
      obtain ⟨e, he, h⟩ := Option.bind_eq_some_iff.mp h
      obtain ⟨b1, b2, b3⟩ := extendC_cost s i _ j e he hj
      by_cases h0 : e.1 = 0
      · rw [if_pos h0] at h
        obtain ⟨r', hr, rfl⟩ := Option.map_eq_some_iff.mp h
        have := ih (i+1) e.1 z r' hr (by omega)
        dsimp only
        omega
      · rw [if_neg h0] at h
        obtain ⟨z', _, h⟩ := Option.bind_eq_some_iff.mp h
        obtain ⟨p, hp, h⟩ := Option.bind_eq_some_iff.mp h
        obtain ⟨r', hr, rfl⟩ := Option.map_eq_some_iff.mp h
        obtain ⟨c1, c2, c3⟩ := copyC_cost i e.1 _ 1 z' p hp (by omega)
        have := ih _ _ _ r' hr (by omega)
        dsimp only
        omega
    · rw [if_neg hi] at h
      cases h
      dsimp only
      omega

/-- **C135.** On every non-empty sequence of length `n`, `z_algorithm` compares at most `2(n-1)` pairs of elements, and runs its main loop and the test of its copying loop at most `n-1` times each. -/
theorem C135_linear (s : List α) (hs : s ≠ []) :
    ∃ z c, zAlgorithmC s = some (z, c) ∧ zAlgorithm s = some z ∧ c.cmp ≤ 2 * (s.length - 1) ∧ c.rounds ≤ s.length - 1 ∧ c.copies ≤ s.length - 1 := by
  have hn : 0 < s.length := List.length_pos_iff.2 hs
  have h := C19_z_algorithm s hs
  unfold zAlgorithm at h
  obtain ⟨z1, e1, e2⟩ := Option.bind_eq_some_iff.mp h
  rw [← loopC_fst] at e2
  obtain ⟨r, er, e3⟩ := Option.map_eq_some_iff.mp e2
  have b := loopC_cost s _ 1 0 z1 r er (by omega)
  refine ⟨r.1, r.2, by unfold zAlgorithmC; rw [e1, Option.bind_some, er], ?_, by omega, by omega, by omega⟩
  rw [C19_z_algorithm s hs, e3]

-- nine elements: the bounds are 16, 8 and 8
example : (zAlgorithmC "aaaabaaab".toList).map (fun r => r.2) = some ⟨14, 8, 6⟩ := by decide
example : (zAlgorithmC "aabaabaacaabb".toList).map (fun r => r.2.cmp) = some 17 := by decide

end Verif.ZAlg
