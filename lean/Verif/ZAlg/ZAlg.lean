import Verif.Common.Vec
/-!
C19: `z_algorithm`, `/repo/include/mtl/string/z_algorithm.hpp`.

`int` indices are natural numbers (sequences shorter than `2^31`); `none` is an out-of-range access.  The `while` loops carry a
budget large enough for every run; running out of budget is `none`, so the theorem also shows termination.
-/
namespace Verif.ZAlg

variable {α : Type} [DecidableEq α]

/-- `*(begin + a) == *(begin + b)`. -/
def eqAt (s : List α) (a b : Nat) : Option Bool := (s[a]?).bind (fun x => (s[b]?).map (fun y => decide (x = y)))

/-- z_algorithm.hpp:14-15. -/
def extend (s : List α) (i : Nat) : Nat → Nat → Option Nat
  | 0, _ => none
  | f+1, j => if i + j < s.length then (eqAt s (i+j) j).bind (fun b => if b then extend s i f (j+1) else some j) else some j

/-- z_algorithm.hpp:21-25: the value of `k` and the table. -/
def copy (i j : Nat) : Nat → Nat → List Nat → Option (Nat × List Nat)
  | 0, _, _ => none
  | f+1, k, z => if k < j then (z[k]?).bind (fun zk =>
      if k + zk < j then (wr z (i+k) zk).bind (copy i j f (k+1)) else some (k, z)) else some (k, z)

/-- z_algorithm.hpp:13-28. -/
def loop (s : List α) : Nat → Nat → Nat → List Nat → Option (List Nat)
  | 0, _, _, _ => none
  | f+1, i, j, z => if i < s.length then
      (extend s i (s.length + 1) j).bind (fun j =>
        if j = 0 then loop s f (i+1) j z
        else (wr z i j).bind (fun z => (copy i j (j+1) 1 z).bind (fun p => loop s f (i + p.1) (j - p.1) p.2)))
    else some z

/-- z_algorithm.hpp:6-30. -/
def zAlgorithm (s : List α) : Option (List Nat) :=
  (wr (List.replicate s.length 0) 0 s.length).bind (loop s (s.length + 1) 1 0)

/-! ### Specification -/

/-- Length of the longest common prefix. -/
def lcp : List α → List α → Nat
  | a :: as, b :: bs => if a = b then lcp as bs + 1 else 0
  | _, _ => 0

/-! ### Proofs -/

/-- `m` is the Z-value at `i`. -/
structure IsZ (s : List α) (i m : Nat) : Prop where
  le : i + m ≤ s.length
  eq : ∀ q, q < m → s[i+q]? = s[q]?
  ne : i + m < s.length → s[i+m]? ≠ s[m]?

theorem lcp_eq : ∀ (m : Nat) (a b : List α), b.length ≤ a.length → m ≤ b.length → (∀ q, q < m → b[q]? = a[q]?) →
    (m < b.length → b[m]? ≠ a[m]?) → lcp a b = m := by
  intro m
  induction m with
  | zero =>
    intro a b hl _ _ hne
    match a, b with
    | [], _ => rfl
    | _ :: _, [] => rfl
    | x :: as, y :: bs =>
      have := hne (by simp)
      simp only [List.getElem?_cons_zero, ne_eq, Option.some.injEq] at this
      simp only [lcp, if_neg (fun h : x = y => this h.symm)]
  | succ m ih =>
    intro a b hl hm he hne
    match a, b with
    | [], [] => simp at hm
    | [], _ :: _ => simp at hl
    | _ :: _, [] => simp at hm
    | x :: as, y :: bs =>
      have h0 := he 0 (by omega)
      simp only [List.getElem?_cons_zero, Option.some.injEq] at h0
      simp only [lcp, if_pos h0.symm]
      rw [ih as bs (by simpa using hl) (by simpa using hm)]
      · intro q hq
        simpa using he (q+1) (by omega)
      · intro h
        simpa using hne (by simpa using h)

theorem IsZ.lcp {s : List α} {i m : Nat} (h : IsZ s i m) : lcp s (s.drop i) = m := by
  have := h.le
  apply lcp_eq m s (s.drop i)
  · simp
  · simp; omega
  · intro q hq
    rw [List.getElem?_drop]; exact h.eq q hq
  · intro hm
    rw [List.getElem?_drop]
    apply h.ne
    simp at hm; omega

theorem extend_spec {s : List α} {i : Nat} : ∀ f j, s.length < i + j + f → i + j ≤ s.length → (∀ q, q < j → s[i+q]? = s[q]?) →
    ∃ j', extend s i f j = some j' ∧ IsZ s i j' := by
  intro f
  induction f with
  | zero => intro j h1 h2; omega
  | succ f ih =>
    intro j h1 h2 he
    unfold extend
    by_cases h : i + j < s.length
    · rw [if_pos h]
      have hj : j < s.length := by omega
      simp only [eqAt, List.getElem?_eq_getElem h, List.getElem?_eq_getElem hj, Option.bind_some, Option.map_some]
      by_cases hd : s[i+j] = s[j]
      · simp only [hd, decide_true, if_true]
        apply ih (j+1) (by omega) (by omega)
        intro q hq
        rcases Nat.lt_succ_iff_lt_or_eq.1 hq with hq | rfl
        · exact he q hq
        · rw [List.getElem?_eq_getElem h, List.getElem?_eq_getElem hj, hd]
      · simp only [hd, decide_false, Bool.false_eq_true, if_false]
        refine ⟨j, rfl, h2, he, ?_⟩
        intro _
        rw [List.getElem?_eq_getElem h, List.getElem?_eq_getElem hj]
        simpa using hd
    · rw [if_neg h]
      exact ⟨j, rfl, h2, he, fun h' => absurd h' h⟩

/-- Entries below `i` are right, the others are still 0. -/
structure Good (s : List α) (i : Nat) (z : List Nat) : Prop where
  len : z.length = s.length
  done : ∀ q, q < i → q < s.length → ∃ m, z[q]? = some m ∧ IsZ s q m
  rest : ∀ q, i ≤ q → q < s.length → z[q]? = some 0

theorem Good.put {s : List α} {i m : Nat} {z : List Nat} (h : Good s i z) (hi : i < s.length) (hm : IsZ s i m) :
    ∃ z', wr z i m = some z' ∧ Good s (i+1) z' := by
  refine ⟨z.set i m, by unfold wr; rw [if_pos (by rw [h.len]; exact hi)], by simp [h.len], ?_, ?_⟩
  · intro q hq hqs
    by_cases hqi : q = i
    · subst hqi
      exact ⟨m, List.getElem?_set_self (by rw [h.len]; exact hi), hm⟩
    · obtain ⟨m', e, hm'⟩ := h.done q (by omega) hqs
      exact ⟨m', by rw [List.getElem?_set_ne (Ne.symm hqi)]; exact e, hm'⟩
  · intro q hq hqs
    rw [List.getElem?_set_ne (by omega)]
    exact h.rest q (by omega) hqs

theorem copy_spec {s : List α} {i j : Nat} (hi : 1 ≤ i) (hj : i + j ≤ s.length) (he : ∀ q, q < j → s[i+q]? = s[q]?) :
    ∀ f k z, j < k + f → 1 ≤ k → k ≤ j → Good s (i+k) z →
    ∃ k' z', copy i j f k z = some (k', z') ∧ 1 ≤ k' ∧ k' ≤ j ∧ Good s (i+k') z' ∧ (∀ q, q < j - k' → s[i+k'+q]? = s[q]?) := by
  intro f
  induction f with
  | zero => intro k z h1 h2 h3; omega
  | succ f ih =>
    intro k z h1 h2 h3 hg
    unfold copy
    by_cases hk : k < j
    · rw [if_pos hk]
      obtain ⟨m, em, hm⟩ := hg.done k (by omega) (by omega)
      rw [em, Option.bind_some]
      by_cases hkm : k + m < j
      · rw [if_pos hkm]
        have hz : IsZ s (i+k) m := by
          refine ⟨by omega, ?_, ?_⟩
          · intro q hq
            rw [Nat.add_assoc, he (k+q) (by omega)]
            exact hm.eq q hq
          · intro _
            rw [Nat.add_assoc, he (k+m) (by omega)]
            exact hm.ne (by omega)
        obtain ⟨z', e', hg'⟩ := hg.put (by omega) hz
        rw [e', Option.bind_some]
        exact ih (k+1) z' (by omega) (by omega) (by omega) hg'
      · rw [if_neg hkm]
        refine ⟨k, z, rfl, h2, h3, hg, ?_⟩
        intro q hq
        rw [Nat.add_assoc, he (k+q) (by omega)]
        exact hm.eq q (by omega)
    · rw [if_neg hk]
      refine ⟨k, z, rfl, h2, h3, hg, ?_⟩
      intro q hq; omega

theorem loop_spec {s : List α} : ∀ f i j z, s.length < i + f → 1 ≤ i → i + j ≤ s.length → (∀ q, q < j → s[i+q]? = s[q]?) →
    Good s i z → ∃ z', loop s f i j z = some z' ∧ Good s s.length z' := by
  intro f
  induction f with
  | zero => intro i j z h1 h2 h3; omega
  | succ f ih =>
    intro i j z h1 h2 h3 he hg
    unfold loop
    by_cases hi : i < s.length
    · rw [if_pos hi]
      obtain ⟨j', e', hz⟩ := extend_spec (s := s) (i := i) (s.length+1) j (by omega) h3 he
      rw [e', Option.bind_some]
      by_cases hj0 : j' = 0
      · subst hj0
        rw [if_pos rfl]
        apply ih (i+1) 0 z (by omega) (by omega) (by omega) (fun q hq => by omega)
        refine ⟨hg.len, ?_, fun q hq hqs => hg.rest q (by omega) hqs⟩
        intro q hq hqs
        by_cases hqi : q = i
        · subst hqi
          exact ⟨0, hg.rest q (Nat.le_refl _) hqs, hz⟩
        · exact hg.done q (by omega) hqs
      · rw [if_neg hj0]
        obtain ⟨z1, e1, hg1⟩ := hg.put hi hz
        rw [e1, Option.bind_some]
        obtain ⟨k, z2, e2, hk1, hkj, hg2, he2⟩ := copy_spec h2 hz.le hz.eq (j'+1) 1 z1 (by omega) (Nat.le_refl _) (by omega) hg1
        rw [e2, Option.bind_some]
        have := hz.le
        exact ih (i+k) (j'-k) z2 (by omega) (by omega) (by omega) he2 hg2
    · rw [if_neg hi]
      refine ⟨z, rfl, hg.len, fun q _ hq => hg.done q (by omega) hq, fun q h1 h2 => by omega⟩

/-- **C19.** For every non-empty sequence, `z_algorithm` returns at each index the length of the longest common prefix of the
sequence with its suffix there, without any access out of range. -/
theorem C19_z_algorithm (s : List α) (hs : s ≠ []) :
    zAlgorithm s = some ((List.range s.length).map (fun i => lcp s (s.drop i))) := by
  have hn : 0 < s.length := List.length_pos_iff.2 hs
  have hg0 : Good s 0 (List.replicate s.length 0) :=
    ⟨by simp, fun q hq => by omega, fun q _ hq => by simp [hq]⟩
  obtain ⟨z1, e1, hg1⟩ := hg0.put hn (m := s.length) ⟨by omega, fun q _ => by simp, fun h => by omega⟩
  obtain ⟨z2, e2, hg2⟩ := loop_spec (s.length+1) 1 0 z1 (by omega) (Nat.le_refl _) (by omega) (fun q hq => by omega) hg1
  unfold zAlgorithm
  rw [e1, Option.bind_some, e2]
  congr 1
  apply List.ext_getElem?
  intro i
  by_cases hi : i < s.length
  · obtain ⟨m, em, hm⟩ := hg2.done i hi hi
    rw [em]
    simp [hi, hm.lcp]
  · rw [List.getElem?_eq_none (by rw [hg2.len]; omega), List.getElem?_eq_none (by simpa using hi)]

/-- The overlapping case: the copied entries lie inside the block just found. -/
example : zAlgorithm "aabaaab".toList = some [7, 1, 0, 2, 3, 1, 0] := by decide

/-- The empty sequence is outside the contract: `z[0]` is written although the table is empty (z_algorithm.hpp:11). -/
theorem C19_empty_undefined : zAlgorithm ([] : List α) = none := rfl

end Verif.ZAlg
