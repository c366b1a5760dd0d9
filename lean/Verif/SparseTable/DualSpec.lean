/-! Specification of the dual (range-apply, point-get) tables: a plain list updated element by element. -/
namespace Verif.SparseTable
variable {T : Type}

/-- How the table was constructed. -/
inductive DStart (T : Type) where
  | size (n : Nat)
  | range (xs : List T)

/-- Values right after construction. -/
def DStart.values (e : T) : DStart T → List T
  | .size n => List.replicate n e
  | .range xs => xs

/-- One `apply(l, r, a)` on a plain list. -/
def plainApply (op : T → T → T) (vs : List T) (o : Nat × Nat × T) : List T :=
  vs.mapIdx (fun i v => if o.1 ≤ i ∧ i < o.2.1 then op v o.2.2 else v)

/-- A history of `apply` calls on a plain list. -/
def plainAll (op : T → T → T) (vs : List T) (ops : List (Nat × Nat × T)) : List T := ops.foldl (plainApply op) vs

/-- An `apply` call is valid when the range is empty or inside the table. -/
def DValid (n : Nat) (o : Nat × Nat × T) : Prop := o.1 < o.2.1 → o.2.1 ≤ n

theorem plainAll_length (op : T → T → T) : ∀ (ops : List (Nat × Nat × T)) (vs : List T), (plainAll op vs ops).length = vs.length
  | [], _ => rfl
  | o :: ops, vs => by
    show (plainAll op (plainApply op vs o) ops).length = _
    rw [plainAll_length op ops]; simp [plainApply]

end Verif.SparseTable
