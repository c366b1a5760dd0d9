/-! Folding a non-empty slice with an associative operation without identity. -/
namespace Verif
variable {T : Type}

/-- Left fold of a non-empty list; `none` for the empty list. -/
def fold1 (op : T → T → T) : List T → Option T
  | [] => none
  | x :: xs => some (xs.foldl op x)

/-- Fold of `a l, ..., a (l+k)`. -/
def rng (op : T → T → T) (a : Nat → T) (l : Nat) : Nat → T
  | 0 => a l
  | k+1 => op (rng op a l k) (a (l+k+1))

theorem rng_append {op : T → T → T} (hassoc : ∀ x y z, op (op x y) z = op x (op y z)) (a : Nat → T) (l k : Nat) :
    ∀ m, op (rng op a l k) (rng op a (l+k+1) m) = rng op a l (k+m+1) := by
  intro m
  induction m with
  | zero => rfl
  | succ m ih =>
    show op _ (op _ _) = op _ _
    rw [← hassoc, ih, show l + k + 1 + m + 1 = l + (k + m + 1) + 1 by omega]
    rfl

theorem rng_append' {op : T → T → T} (hassoc : ∀ x y z, op (op x y) z = op x (op y z)) (a : Nat → T) {l k l' m n : Nat}
    (h1 : l' = l + k + 1) (h2 : n = k + m + 1) : op (rng op a l k) (rng op a l' m) = rng op a l n := by
  subst h1; subst h2; exact rng_append hassoc a l k m

theorem rng_cons {op : T → T → T} (hassoc : ∀ x y z, op (op x y) z = op x (op y z)) (a : Nat → T) (l k : Nat) :
    op (a l) (rng op a (l+1) k) = rng op a l (k+1) :=
  rng_append' hassoc a (k := 0) rfl (by omega)

theorem rng_congr {op : T → T → T} {a b : Nat → T} {l : Nat} : ∀ {k}, (∀ i, l ≤ i → i ≤ l + k → a i = b i) →
    rng op a l k = rng op b l k := by
  intro k
  induction k with
  | zero => intro h; exact h l (by omega) (by omega)
  | succ k ih =>
    intro h
    show op _ _ = op _ _
    rw [ih (fun i h1 h2 => h i h1 (by omega)), h (l+k+1) (by omega) (by omega)]

/-- overlapping blocks of an idempotent operation. -/
theorem rng_overlap {op : T → T → T} (hassoc : ∀ x y z, op (op x y) z = op x (op y z)) (hid : ∀ x, op x x = x)
    (a : Nat → T) {l k m j n : Nat} (h1 : l ≤ m) (h2 : m ≤ l + k + 1) (h3 : l + k ≤ m + j) (h4 : m + j = l + n) :
    op (rng op a l k) (rng op a m j) = rng op a l n := by
  rcases Nat.lt_or_ge (l+k) m with h | h
  · exact rng_append' hassoc a (by omega) (by omega)
  · -- A = [l,m), B = [m,l+k], C = (l+k, m+j]
    have key : op (rng op a m (l+k-m)) (rng op a m j) = rng op a m j := by
      rcases Nat.lt_or_ge (l+k) (m+j) with h5 | h5
      · rw [← rng_append' hassoc a (l := m) (k := l+k-m) (l' := l+k+1) (m := m+j-(l+k+1)) (n := j) (by omega) (by omega)]
        rw [← hassoc, hid]
      · have : j = l + k - m := by omega
        subst this; exact hid _
    rcases Nat.lt_or_ge l m with h6 | h6
    · rw [← rng_append' hassoc a (l := l) (k := m-l-1) (l' := m) (m := l+k-m) (n := k) (by omega) (by omega), hassoc, key]
      exact rng_append' hassoc a (by omega) (by omega)
    · have : l = m := by omega
      subst this
      rw [show l + k - l = k by omega] at key
      rw [key]; congr 1; omega

theorem rng_eq_fold1 {op : T → T → T} {vs : List T} {a : Nat → T} (ha : ∀ i, i < vs.length → vs[i]? = some (a i)) {l : Nat} :
    ∀ k, l + k < vs.length → fold1 op ((vs.take (l+k+1)).drop l) = some (rng op a l k) := by
  have hdrop : ∀ k, l + k < vs.length → (vs.take (l+k+1+0)).drop l = (vs.take (l+k)).drop l ++ [a (l+k)] := by
    intro k hk
    have := ha (l+k) hk
    obtain ⟨_, e⟩ := List.getElem?_eq_some_iff.1 this
    rw [Nat.add_zero, List.take_succ_eq_append_getElem hk, e, List.drop_append_of_le_length (by simp; omega)]
  intro k
  induction k with
  | zero =>
    intro hk
    have := hdrop 0 hk
    simp only [Nat.add_zero] at this ⊢
    rw [this, List.drop_eq_nil_of_le (by simp; omega)]
    rfl
  | succ k ih =>
    intro hk
    have h1 := hdrop (k+1) hk
    rw [Nat.add_zero] at h1
    have h2 := ih (by omega)
    rw [h1, show l + (k+1) = l + k + 1 by omega]
    generalize (vs.take (l+k+1)).drop l = w at h2
    cases w with
    | nil => simp [fold1] at h2
    | cons x xs =>
      simp only [fold1, List.cons_append, Option.some.injEq] at h2 ⊢
      rw [List.foldl_append, h2]
      rfl

end Verif
