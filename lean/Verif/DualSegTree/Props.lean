import Verif.DualSegTree.Proofs
/-!
# C07: `DualSegmentTree` returns at every index the composition of the updates that cover it, in call order

Specification: a plain list of `M`; `update l r e` multiplies the elements at positions `l, …, r-1` by `e` on the right,
`set` replaces an element, `get` reads one.  A call violating its `assert` has no specified result (`none`).
-/
namespace Verif.DualSegTree

/-- The calls a client can make. -/
inductive Op (M : Type) where
  | update (l r : Nat) (e : M)
  | set (i : Nat) (x : M)
  | get (i : Nat)

variable {M : Type}

/-- Run a history on the model; the answers of the `get` calls are collected in order. -/
def run [One M] [Mul M] : List (Op M) → Tree M → Option (List M)
  | [], _ => some []
  | .update l r e :: ops, t => (update t l r e).bind (run ops)
  | .set i x :: ops, t => (set t i x).bind (run ops)
  | .get i :: ops, t => (get t i).bind (fun p => (run ops p.1).map (p.2 :: ·))

/-- The same history on a plain list. -/
def spec [Mul M] : List (Op M) → List M → Option (List M)
  | [], _ => some []
  | .update l r e :: ops, vs =>
    if l ≤ r ∧ r ≤ vs.length then spec ops (vs.mapIdx (fun i v => if l ≤ i ∧ i < r then v * e else v)) else none
  | .set i x :: ops, vs => if i < vs.length then spec ops (vs.set i x) else none
  | .get i :: ops, vs => (vs[i]?).bind (fun v => (spec ops vs).map (v :: ·))

theorem run_spec [Monoid M] {n : Nat} (hn : 2 * n < 2^64) : ∀ (ops : List (Op M)) (t : Tree M) (vs : List M), Inv n t vs →
    run ops t = spec ops vs := by
  intro ops
  induction ops with
  | nil => intro t vs _; rfl
  | cons op ops ih =>
    intro t vs h
    cases op with
    | update l r e =>
      simp only [run, spec]
      by_cases hc : l ≤ r ∧ r ≤ vs.length
      · rw [if_pos hc]
        obtain ⟨t', e', h'⟩ := update_spec hn h hc.1 (by rw [← h.len]; exact hc.2) e
        rw [e', Option.bind_some]
        exact ih _ _ h'
      · rw [if_neg hc]
        unfold update
        rw [if_neg (by rw [h.sz, ← h.len]; exact hc)]
        rfl
    | set i x =>
      simp only [run, spec]
      by_cases hc : i < vs.length
      · rw [if_pos hc]
        obtain ⟨t', e', h'⟩ := set_spec hn h (by rw [← h.len]; exact hc) x
        rw [e', Option.bind_some]
        exact ih _ _ h'
      · rw [if_neg hc]
        unfold set
        rw [if_neg (by rw [h.sz, ← h.len]; exact hc)]
        rfl
    | get i =>
      simp only [run, spec]
      by_cases hc : i < vs.length
      · obtain ⟨t', v, e', hv, h'⟩ := get_spec hn h (i := i) (by rw [← h.len]; exact hc)
        rw [e', hv]
        simp only [Option.bind_some]
        rw [ih _ _ h']
      · rw [List.getElem?_eq_none (by omega)]
        unfold get
        rw [if_neg (by rw [h.sz, ← h.len]; exact hc)]
        rfl

/-- **C07** (constructor from a range). Every history of calls on a tree built from `xs` gives exactly the answers of the same history on the
plain list `xs`; in particular it never leaves the array, and it fails only where a call's own `assert` fails. -/
theorem C07_history [Monoid M] (xs : List M) (hn : 2 * xs.length < 2^64) (ops : List (Op M)) :
    run ops (ofRange xs) = spec ops xs :=
  run_spec hn ops _ _ (ofRange_inv xs)

/-- **C07** (constructor from a size). -/
theorem C07_history_size [Monoid M] (n : Nat) (hn : 2 * n < 2^64) (ops : List (Op M)) :
    run ops (ofSize n : Tree M) = spec ops (List.replicate n 1) :=
  run_spec hn ops _ _ (ofSize_inv n)

/-- Three elements of a non-commutative monoid (words), overlapping updates, a `set` in between. -/
example : @run (List Char) ⟨[]⟩ ⟨(· ++ ·)⟩
    [.update 0 2 ['a'], .update 1 3 ['b'], .get 1, .set 1 ['x'], .update 0 3 ['c'], .get 1, .get 0, .get 2]
    ⟨3, List.replicate 6 []⟩ = some [['a','b'], ['x','c'], ['a','c'], ['b','c']] := by decide

end Verif.DualSegTree
