import Verif.Fenwick.Props
/-!
# C149: the number of rounds of the loops of FenwickTree

The first argument of `addLoop` and `sumLoop` is a number of rounds (tests of the loop condition); the loop is `none` if it does not suffice.  Here it is shown that logarithmically many suffice.
-/
namespace Verif.Fenwick

/-- Adding or subtracting the lowest bit gives a multiple of a higher power of two. -/
theorem dvd_low : ∀ j i, 2^j ∣ i → 2^(j+1) ∣ i + low i ∧ 2^(j+1) ∣ i - low i
  | 0, i, _ => by
      rcases Nat.even_or_odd' i with ⟨m, rfl | rfl⟩
      · rw [low_even]
        exact ⟨⟨m + low m, by omega⟩, ⟨m - low m, by omega⟩⟩
      · rw [low_odd]
        exact ⟨⟨m + 1, by omega⟩, ⟨m, by omega⟩⟩
  | j+1, i, h => by
      obtain ⟨c, rfl⟩ := h
      have e : 2^(j+1) * c = 2 * (2^j * c) := by rw [Nat.pow_succ']; ac_rfl
      obtain ⟨⟨a, ha⟩, ⟨b, hb⟩⟩ := dvd_low j (2^j * c) ⟨c, rfl⟩
      have e2 : ∀ a, 2^(j+1+1) * a = 2 * (2^(j+1) * a) := fun a => by rw [Nat.pow_succ' (n := j+1)]; ac_rfl
      rw [e, low_even]
      exact ⟨⟨a, by rw [e2, ← ha]; omega⟩, ⟨b, by rw [e2, ← hb]; omega⟩⟩

variable {T : Type}

theorem addLoop_budget [Add T] (x : T) : ∀ k k' j (tree : List T) i, 0 < i → 2^j ∣ i → tree.length < 2^63 → tree.length ≤ 2^(j+k) → tree.length ≤ 2^(j+k') →
    addLoop (k+1) tree x i = addLoop (k'+1) tree x i := by
  have stop : ∀ k k' j (tree : List T) i, 0 < i → 2^j ∣ i → tree.length ≤ 2^j → addLoop (k+1) tree x i = addLoop (k'+1) tree x i := fun k k' j tree i h0 hd h => by
    have h1 := Nat.le_of_dvd h0 hd
    have h2 : ¬ i < tree.length := by omega
    rw [addLoop, if_neg h2, addLoop, if_neg h2]
  intro k
  induction k with
  | zero => exact fun k' j tree i h0 hd _ h _ => stop 0 k' j tree i h0 hd h
  | succ k ih =>
    intro k' j tree i h0 hd hl h h'
    cases k' with
    | zero => exact stop _ _ j tree i h0 hd h'
    | succ k' =>
      rw [addLoop, addLoop]
      by_cases hi : i < tree.length
      · rw [if_pos hi, if_pos hi]
        refine congrArg _ (funext fun y => ?_)
        have hlb : lowbit i = low i := lowbit_eq h0 (by omega)
        refine ih k' (j+1) _ _ (by omega) (by rw [hlb]; exact (dvd_low j i hd).1) (by rw [List.length_set]; exact hl) ?_ ?_
        · rw [List.length_set, Nat.add_assoc, Nat.add_comm 1 k]; exact h
        · rw [List.length_set, Nat.add_assoc, Nat.add_comm 1 k']; exact h'
      · rw [if_neg hi, if_neg hi]

theorem sumLoop_budget [Add T] (tree : List T) : ∀ k k' j (s : T) i, 2^j ∣ i → i < 2^64 → i < 2^(j+k) → i < 2^(j+k') → sumLoop tree (k+1) s i = sumLoop tree (k'+1) s i := by
  have stop : ∀ k k' j (s : T) i, 2^j ∣ i → i < 2^j → sumLoop tree (k+1) s i = sumLoop tree (k'+1) s i := fun k k' j s i hd h => by
    obtain rfl := Nat.eq_zero_of_dvd_of_lt hd h
    rfl
  intro k
  induction k with
  | zero => exact fun k' j s i hd _ h _ => stop 0 k' j s i hd h
  | succ k ih =>
    intro k' j s i hd hl h h'
    cases k' with
    | zero => exact stop _ _ j s i hd h'
    | succ k' =>
      rw [sumLoop, sumLoop]
      by_cases hi : i > 0
      · rw [if_pos hi, if_pos hi]
        refine congrArg _ (funext fun y => ?_)
        have hlb : lowbit i = low i := lowbit_eq hi hl
        refine ih k' (j+1) _ _ (by rw [hlb]; exact (dvd_low j i hd).2) (by omega) ?_ ?_
        · rw [Nat.add_assoc, Nat.add_comm 1 k]; exact Nat.lt_of_le_of_lt (Nat.sub_le _ _) h
        · rw [Nat.add_assoc, Nat.add_comm 1 k']; exact Nat.lt_of_le_of_lt (Nat.sub_le _ _) h'
      · rw [if_neg hi, if_neg hi]

/-- C149: on a tree of `n ≥ 1` elements reached by any history, `add` and `sum` make at most `⌊log2 n⌋ + 1` rounds.  (The budget counts one more, for the test that ends the loop.)  `lower_bound` makes
`⌊log2 n⌋ + 1` rounds by the bounds of its loop. -/
theorem C149_rounds [AddCommMonoid T] (st : Start T) (ops : List (Nat × T)) (hn : st.len + 1 < 2^63) (h1 : 1 ≤ st.len) :
    ∃ t, run st ops = some t ∧
      (∀ i x, i < st.len → ∃ t', add t i x = some t' ∧ addLoop (Nat.log2 st.len + 2) t x (i + 1) = some t') ∧
      (∀ i, i < st.len → ∃ s, sum t i = some s ∧ sumLoop t (Nat.log2 st.len + 2) 0 (i + 1) = some s) := by
  obtain ⟨t, e, _, h⟩ := run_inv st ops hn
  have hb : st.len < 2^(Nat.log2 st.len + 1) := Nat.lt_log2_self
  refine ⟨t, e, fun i x hi => ?_, fun i hi => ?_⟩
  · obtain ⟨t', e', _⟩ := add_spec hn h i x
    refine ⟨t', e', ?_⟩
    rw [← e']
    unfold add
    refine addLoop_budget x _ _ 0 t (i+1) (Nat.succ_pos i) (by rw [Nat.pow_zero]; exact Nat.one_dvd _) ?_ ?_ ?_
    · rw [h.len]; exact hn
    · rw [h.len, Nat.zero_add]; omega
    · rw [Nat.zero_add]; exact Nat.le_of_lt Nat.lt_two_pow_self
  · refine ⟨_, sum_spec hn h hi, ?_⟩
    rw [← sum_spec hn h hi]
    unfold sum
    refine sumLoop_budget t _ _ 0 0 (i+1) (by rw [Nat.pow_zero]; exact Nat.one_dvd _) ?_ ?_ ?_
    · have : (2:Nat)^63 < 2^64 := by decide
      omega
    · rw [Nat.zero_add]; omega
    · rw [Nat.zero_add]; exact Nat.lt_two_pow_self

/-- Five elements: `⌊log2 5⌋ + 2 = 4`. -/
example : ((run (Start.range [3, 1, 4, 1, 5]) [(2, 10)]).bind (fun t => sumLoop t 4 0 (3 + 1))) = some 19 := by decide
example : ((run (Start.range [3, 1, 4, 1, 5]) [(2, 10)]).bind (fun t => addLoop 4 t 7 (0 + 1))) = some [0, 10, 11, 14, 26, 5] := by decide

end Verif.Fenwick
