import Verif.LazySegTree.Search
import Verif.LazySegTree.Props
/-!
# C55: `LazySegmentTree::max_right` / `min_left` return the boundary of the predicate

`max_right b e f` should return the `r` with `f` true on the product of `[b, r)` and, unless `r = e`, false on `[b, r+1)`.
The code violates this once an operator is pending: the search looks at a node before the operators pending on the node's
ancestors have been pushed down (`C55_violated_max_right`, `C55_violated_min_left`).
The `_partial` theorems cover every history without `range_update`.
-/
namespace Verif.LazySegTree

variable {M A : Type}

/-- The tree after a history of `set` calls on a tree built from `xs`. -/
def afterSets [One M] [Mul M] (S : Acts M A) (xs : List M) (ops : List (Nat × M)) : Option (Tree M A) :=
  (ofRange S xs).bind (fun t => ops.foldlM (fun t op => set S t op.1 op.2) t)

/-- The plain list after the same history (with the padding up to the capacity). -/
def plainSets [One M] (xs : List M) (ops : List (Nat × M)) : List M :=
  ops.foldl (fun vs op => vs.set op.1 op.2) (xs ++ List.replicate (pow2 xs.length - xs.length) 1)

theorem afterSets_inv [Monoid M] {S : Acts M A} (L : Laws S) {xs : List M} (h0 : xs ≠ []) (hn : xs.length ≤ 2^62)
    (ops : List (Nat × M)) (hok : ∀ op ∈ ops, op.1 < pow2 xs.length) :
    ∃ t, afterSets S xs ops = some t ∧ Inv S (pow2 xs.length) true t (plainSets xs ops) := by
  obtain ⟨t, e, h⟩ := ofRange_inv L h0
  unfold afterSets plainSets
  rw [e, Option.bind_some]
  have hp := pow2_le hn
  have key : ∀ (ops : List (Nat × M)) (t : Tree M A) (vs : List M), (∀ op ∈ ops, op.1 < pow2 xs.length) →
      Inv S (pow2 xs.length) true t vs →
      ∃ t', ops.foldlM (fun t op => set S t op.1 op.2) t = some t' ∧
        Inv S (pow2 xs.length) true t' (ops.foldl (fun vs op => vs.set op.1 op.2) vs) := by
    intro ops
    induction ops with
    | nil => intro t vs _ h; exact ⟨t, rfl, h⟩
    | cons op ops ih =>
      intro t vs hok h
      obtain ⟨t1, e1, h1⟩ := set_spec L (by omega) h (hok op (by simp)) op.2
      obtain ⟨t2, e2, h2⟩ := ih t1 _ (fun o ho => hok o (by simp [ho])) h1
      exact ⟨t2, by simp [List.foldlM_cons, e1, e2], h2⟩
  exact key ops t _ hok h

/-- **C55** (`max_right`; partial: histories without `range_update`). -/
theorem C55_max_right_partial [Monoid M] {S : Acts M A} (L : Laws S) (xs : List M) (h0 : xs ≠ []) (hn : xs.length ≤ 2^62)
    (ops : List (Nat × M)) (hok : ∀ op ∈ ops, op.1 < pow2 xs.length) (f : M → Bool) (hf : f 1 = true) (b e : Nat) (hbe : b ≤ e)
    (he : e ≤ pow2 xs.length) :
    ∃ t t' r, afterSets S xs ops = some t ∧ maxRight S t b e f = some (t', r) ∧ b ≤ r ∧ r ≤ e ∧
      f (((plainSets xs ops).take r).drop b).prod = true ∧
      (r = e ∨ f (((plainSets xs ops).take (r+1)).drop b).prod = false) := by
  obtain ⟨t, e1, h⟩ := afterSets_inv L h0 hn ops hok
  have hp := pow2_le hn
  obtain ⟨t', r, e2, _, hr⟩ := maxRight_spec L (by omega) h f hbe he hf
  exact ⟨t, t', r, e1, e2, hr⟩

/-- **C55** (`min_left`; partial: histories without `range_update`). -/
theorem C55_min_left_partial [Monoid M] {S : Acts M A} (L : Laws S) (xs : List M) (h0 : xs ≠ []) (hn : xs.length ≤ 2^62)
    (ops : List (Nat × M)) (hok : ∀ op ∈ ops, op.1 < pow2 xs.length) (f : M → Bool) (hf : f 1 = true) (b e : Nat) (hbe : b ≤ e)
    (he : e ≤ pow2 xs.length) :
    ∃ t t' l, afterSets S xs ops = some t ∧ minLeft S t b e f = some (t', l) ∧ b ≤ l ∧ l ≤ e ∧
      f (((plainSets xs ops).take e).drop l).prod = true ∧
      (l = b ∨ f (((plainSets xs ops).take e).drop (l-1)).prod = false) := by
  obtain ⟨t, e1, h⟩ := afterSets_inv L h0 hn ops hok
  have hp := pow2_le hn
  obtain ⟨t', r, e2, _, hr⟩ := minLeft_spec L (by omega) h f hbe he hf
  exact ⟨t, t', r, e1, e2, hr⟩

/-- An instance meeting the hypotheses: maximum, one `set`, a search strictly inside. -/
example : ((@afterSets _ _ ⟨0⟩ ⟨max⟩ assign [1, 2, 3] [(1, 1)]).bind
    (fun t => @maxRight _ _ ⟨0⟩ ⟨max⟩ assign t 0 4 (fun x => x < 3))).map (·.2) = some 2 := by decide
example : ((@afterSets _ _ ⟨0⟩ ⟨max⟩ assign [1, 5, 3] [(1, 9)]).bind
    (fun t => @minLeft _ _ ⟨0⟩ ⟨max⟩ assign t 0 3 (fun x => x < 5))).map (·.2) = some 2 := by decide

/-- **C55 violated** (`max_right`): after assigning 0 to all four elements (which were 9), the largest prefix with maximum
below 5 is the whole range, but the code stops at 0. -/
theorem C55_violated_max_right :
    ((@ofRange _ _ ⟨0⟩ ⟨max⟩ assign [9, 9, 9, 9]).bind (fun t => (@rangeUpdate _ _ ⟨max⟩ assign t 0 4 (some 0)).bind
      (fun t => @maxRight _ _ ⟨0⟩ ⟨max⟩ assign t 0 4 (fun x => x < 5)))).map (·.2) = some 0 ∧
    demo [9, 9, 9, 9] [.update 0 4 (some 0), .query 0 4] = some [0] := by decide

/-- **C55 violated** (`min_left`), the mirror image: the code returns 4 instead of 0. -/
theorem C55_violated_min_left :
    ((@ofRange _ _ ⟨0⟩ ⟨max⟩ assign [9, 9, 9, 9]).bind (fun t => (@rangeUpdate _ _ ⟨max⟩ assign t 0 4 (some 0)).bind
      (fun t => @minLeft _ _ ⟨0⟩ ⟨max⟩ assign t 0 4 (fun x => x < 5)))).map (·.2) = some 4 ∧
    demo [9, 9, 9, 9] [.update 0 4 (some 0), .query 0 4] = some [0] := by decide

end Verif.LazySegTree
