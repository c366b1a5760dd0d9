import Verif.LazySegTree.Ops
/-!
# C06: `LazySegmentTree` applies range updates exactly once and in order

Specification: a plain list of `M` of the tree's capacity (`pow2 n`, the elements past the given ones being the default value);
`range_update l r e` lets `e` act on the elements at positions `l, …, r-1`, `set` replaces an element, `get` reads one, `query l r` is the
ordered product over `[l, r)`.

The code violates this: `set` overwrites the leaf without flushing the operator pending on it, and recomputes the ancestors
without the operators pending on the siblings (`C06_violated_set_get`, `C06_violated_set_query`).  `C06_history_partial` covers every
history in which no `set` comes after a `range_update`.
-/
namespace Verif.LazySegTree

/-- The calls a client can make. -/
inductive Op (M A : Type) where
  | update (l r : Nat) (e : A)
  | set (i : Nat) (x : M)
  | get (i : Nat)
  | query (l r : Nat)

variable {M A : Type}

/-- Run a history on the model; the answers of `get` and `query` are collected in order. -/
def run [One M] [Mul M] (S : Acts M A) : List (Op M A) → Tree M A → Option (List M)
  | [], _ => some []
  | .update l r e :: ops, t => (rangeUpdate S t l r e).bind (run S ops)
  | .set i x :: ops, t => (set S t i x).bind (run S ops)
  | .get i :: ops, t => (get S t i).bind (fun p => (run S ops p.1).map (p.2 :: ·))
  | .query l r :: ops, t => (query S t l r).bind (fun p => (run S ops p.1).map (p.2 :: ·))

/-- The same history on a plain list. -/
def spec [One M] [Mul M] (S : Acts M A) : List (Op M A) → List M → List M
  | [], _ => []
  | .update l r e :: ops, vs => spec S ops (vs.mapIdx (fun i v => if l ≤ i ∧ i < r then S.act e v else v))
  | .set i x :: ops, vs => spec S ops (vs.set i x)
  | .get i :: ops, vs => vs.getD i 1 :: spec S ops vs
  | .query l r :: ops, vs => ((vs.take r).drop l).prod :: spec S ops vs

/-- The arguments are within the tree's capacity `n`, as the calls require. -/
def Op.ok (n : Nat) : Op M A → Prop
  | .update l r _ => l ≤ r ∧ r ≤ n
  | .set i _ => i < n
  | .get i => i < n
  | .query l r => l ≤ r ∧ r ≤ n

/-- No `set` after a `range_update` (`cl`: no `range_update` so far). -/
def setsFirst : Bool → List (Op M A) → Prop
  | _, [] => True
  | _, .update _ _ _ :: ops => setsFirst false ops
  | cl, .set _ _ :: ops => cl = true ∧ setsFirst cl ops
  | cl, .get _ :: ops => setsFirst cl ops
  | cl, .query _ _ :: ops => setsFirst cl ops

theorem run_spec [Monoid M] {S : Acts M A} (L : Laws S) {n : Nat} (hn : 2 * n < 2^64) (hn0 : 0 < n) : ∀ (ops : List (Op M A)) (cl : Bool)
    (t : Tree M A) (vs : List M), Inv S n cl t vs → (∀ op ∈ ops, op.ok n) → setsFirst cl ops → run S ops t = some (spec S ops vs) := by
  intro ops
  induction ops with
  | nil => intros; rfl
  | cons op ops ih =>
    intro cl t vs h hok hsf
    have hok' : ∀ op ∈ ops, op.ok n := fun o ho => hok o (by simp [ho])
    have ho := hok op (by simp)
    cases op with
    | update l r e =>
      obtain ⟨t', e', h'⟩ := update_spec L hn h ho.1 ho.2 e
      simp only [run, spec, e', Option.bind_some]
      exact ih _ _ _ h' hok' hsf
    | set i x =>
      obtain ⟨hcl, hsf⟩ := hsf
      subst hcl
      obtain ⟨t', e', h'⟩ := set_spec L hn h ho x
      simp only [run, spec, e', Option.bind_some]
      exact ih _ _ _ h' hok' hsf
    | get i =>
      obtain ⟨t', v, e', hv, h'⟩ := get_spec L hn h (i := i) ho
      simp only [run, spec, e', Option.bind_some, ih _ _ _ h' hok' hsf, List.getD_eq_getElem?_getD, hv, Option.map_some,
        Option.getD_some]
    | query l r =>
      obtain ⟨t', e', h'⟩ := query_spec L hn hn0 h ho.1 ho.2
      simp only [run, spec, e', Option.bind_some, ih _ _ _ h' hok' hsf, Option.map_some]
      rfl

/-- **C06** (constructor from a range; partial: `set` only before the first `range_update`). -/
theorem C06_history_partial [Monoid M] {S : Acts M A} (L : Laws S) (xs : List M) (h0 : xs ≠ []) (hn : xs.length ≤ 2^62)
    (ops : List (Op M A)) (hok : ∀ op ∈ ops, op.ok (pow2 xs.length)) (hsf : setsFirst true ops) :
    (ofRange S xs).bind (run S ops) = some (spec S ops (xs ++ List.replicate (pow2 xs.length - xs.length) 1)) := by
  obtain ⟨t, e, h⟩ := ofRange_inv L h0
  rw [e, Option.bind_some]
  have := pow2_le hn
  exact run_spec L (by omega) (pow2_pos _) ops true t _ h hok hsf

/-- **C06** (constructor from a size; partial in the same way). -/
theorem C06_history_size_partial [Monoid M] {S : Acts M A} (L : Laws S) (n : Nat) (h0 : 0 < n) (hn : n ≤ 2^62)
    (ops : List (Op M A)) (hok : ∀ op ∈ ops, op.ok (pow2 n)) (hsf : setsFirst true ops) :
    (ofSize S n).bind (run S ops) = some (spec S ops (List.replicate (pow2 n) 1)) := by
  obtain ⟨t, e, h⟩ := ofSize_inv L h0
  rw [e, Option.bind_some]
  have := pow2_le hn
  exact run_spec L (by omega) (pow2_pos _) ops true t _ h hok hsf

/-- The capacity is the least power of two not below the requested size. -/
theorem C06_capacity (n : Nat) (h : 0 < n) : n ≤ pow2 n ∧ pow2 n < 2 * n ∧ ∃ k, pow2 n = 2^k := by
  refine ⟨le_pow2 n, ?_, ?_⟩
  · unfold pow2
    split
    · omega
    · have := Nat.log2_self_le (n := n-1) (by omega)
      rw [Nat.pow_succ]
      omega
  · unfold pow2
    split
    · exact ⟨0, rfl⟩
    · exact ⟨_, rfl⟩

/-! ### Concrete operators: maximum with range assignment -/

/-- `none` is the identity operator, `some c` assigns `c`. -/
def assign : Acts Nat (Option Nat) := ⟨none, fun a b => a.orElse (fun _ => b), fun a x => a.getD x⟩

/-- Maximum on `Nat`. -/
@[reducible] def maxMonoid : Monoid Nat where
  mul := max
  one := 0
  mul_assoc := Nat.max_assoc
  one_mul := Nat.zero_max
  mul_one := Nat.max_zero
  npow := fun n x => if n = 0 then 0 else x
  npow_zero := fun _ => rfl
  npow_succ := fun n x => by
    show (if n + 1 = 0 then 0 else x) = max (if n = 0 then 0 else x) x
    by_cases h : n = 0 <;> simp [h]

/-- The hypotheses of the theorems hold of this operator. -/
theorem assign_laws : @Laws Nat (Option Nat) maxMonoid assign := by
  refine @Laws.mk Nat (Option Nat) maxMonoid assign ?_ ?_ ?_
  · intro m; rfl
  · intro f g m; cases f <;> rfl
  · intro f a b
    cases f with
    | none => rfl
    | some c => exact (Nat.max_self c).symm

/-- Build from a list and run a history, maximum with assignment. -/
def demo (xs : List Nat) (ops : List (Op Nat (Option Nat))) : Option (List Nat) :=
  (@ofRange _ _ ⟨0⟩ ⟨max⟩ assign xs).bind (@run _ _ ⟨0⟩ ⟨max⟩ assign ops)

/-- A history to which the theorem applies: a `set`, two overlapping updates, queries in between. -/
example : demo [9, 1, 5] [.set 1 6, .update 0 2 (some 3), .query 0 3, .update 1 3 (some 2), .get 1, .query 0 2, .query 2 4] =
    some [5, 2, 3, 2] := by decide

/-- **C06 violated**: assign 0 to everything, set element 0 to 7, read it back: the code says 0. -/
theorem C06_violated_set_get : demo [9, 9, 9, 9] [.update 0 4 (some 0), .set 0 7, .get 0] = some [0] ∧
    @spec _ _ ⟨0⟩ ⟨max⟩ assign [.update 0 4 (some 0), .set 0 7, .get 0] [9, 9, 9, 9] = [7] := by decide

/-- **C06 violated**: the product is wrong as well, even for elements that were not set:
elements 1, 2, 3 are 0, element 0 was set to 3, but the code reports the maximum 9 of the overwritten values. -/
theorem C06_violated_set_query : demo [9, 9, 9, 9] [.update 0 4 (some 0), .set 0 3, .query 0 4] = some [9] ∧
    @spec _ _ ⟨0⟩ ⟨max⟩ assign [.update 0 4 (some 0), .set 0 3, .query 0 4] [9, 9, 9, 9] = [3] := by decide

end Verif.LazySegTree
