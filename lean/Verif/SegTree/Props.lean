import Verif.SegTree.Search
/-! C04 and C05: SegmentTree against a plain list of monoid elements. -/
namespace Verif.SegTree
variable {M : Type} [Monoid M]

/-- How the tree was constructed. -/
inductive Start (M : Type) where
  | size (n : Nat)
  | range (xs : List M)

/-- The values right after construction. -/
def Start.values : Start M → List M
  | .size n => List.replicate n 1
  | .range xs => xs

/-- Model: construction followed by `set` calls. -/
def run : Start M → List (Nat × M) → Option (Tree M)
  | .size n, ops => setAll (ofSize n) ops
  | .range xs, ops => (ofRange xs).bind (fun t => setAll t ops)

/-- Specification: the plain list after the same history. -/
def plain (st : Start M) (ops : List (Nat × M)) : List M := ops.foldl (fun vs op => vs.set op.1 op.2) st.values

theorem setAll_inv : ∀ (ops : List (Nat × M)) (t : Tree M) (vs : List M), Inv t vs → (∀ op ∈ ops, op.1 < vs.length) →
    ∃ t', setAll t ops = some t' ∧ Inv t' (ops.foldl (fun vs op => vs.set op.1 op.2) vs)
  | [], t, vs, h, _ => ⟨t, rfl, h⟩
  | (i, x) :: ops, t, vs, h, hv => by
    obtain ⟨t1, e1, h1⟩ := set_inv h (hv (i, x) (by simp)) x
    obtain ⟨t2, e2, h2⟩ := setAll_inv ops t1 (vs.set i x) h1 (fun op ho => by
      simpa using hv op (by simp [ho]))
    exact ⟨t2, by simp [setAll, e1, e2], h2⟩

theorem run_inv (st : Start M) (ops : List (Nat × M)) (hv : ∀ op ∈ ops, op.1 < st.values.length) :
    ∃ t, run st ops = some t ∧ Inv t (plain st ops) := by
  cases st with
  | size n => exact setAll_inv ops _ _ (ofSize_inv n) hv
  | range xs =>
    obtain ⟨t, e, h⟩ := ofRange_inv xs
    obtain ⟨t', e', h'⟩ := setAll_inv ops t xs h hv
    exact ⟨t', by simp [run, e, e'], h'⟩

/-- C04: after construction (by size or range, any length) and any `set` calls with valid indices,
`query(l,r)` is the left-to-right product of the current values and `get(i)` the current value. -/
theorem C04_query_get (st : Start M) (ops : List (Nat × M)) (hv : ∀ op ∈ ops, op.1 < st.values.length) :
    ∃ t, run st ops = some t ∧ (plain st ops).length = st.values.length ∧
      (∀ l r, l ≤ r → r ≤ st.values.length → query t l r = some (((plain st ops).take r).drop l).prod) ∧
      (∀ i, i < st.values.length → get t i = (plain st ops)[i]?) := by
  obtain ⟨t, e, h⟩ := run_inv st ops hv
  have hl : (plain st ops).length = st.values.length := by
    unfold plain
    generalize st.values = vs
    clear e h hv
    induction ops generalizing vs with
    | nil => rfl
    | cons op ops ih => rw [List.foldl_cons, ih]; simp
  refine ⟨t, e, hl, fun l r hlr hr => query_spec h hlr (by omega), fun i hi => get_spec h (by omega)⟩

/-- C05 (`max_right`): the returned `r` is the boundary — `f` holds on the product of `[b,r)` and, unless `r = e`,
fails on `[b,r+1)`.  No monotonicity is needed for this. -/
theorem C05_max_right (st : Start M) (ops : List (Nat × M)) (hv : ∀ op ∈ ops, op.1 < st.values.length)
    (f : M → Bool) (hf : f 1 = true) (b e : Nat) (hbe : b ≤ e) (he : e ≤ (plain st ops).length) :
    ∃ t r, run st ops = some t ∧ maxRight t f b e = some r ∧ b ≤ r ∧ r ≤ e ∧
      f (((plain st ops).take r).drop b).prod = true ∧
      (r = e ∨ f (((plain st ops).take (r+1)).drop b).prod = false) := by
  obtain ⟨t, e1, h⟩ := run_inv st ops hv
  obtain ⟨r, h1⟩ := maxRight_spec h f hbe he hf
  exact ⟨t, r, e1, h1⟩

/-- C05 (`max_right`, monotone predicate): exactly the prefixes up to the result satisfy `f`. -/
theorem C05_max_right_maximal (st : Start M) (ops : List (Nat × M)) (hv : ∀ op ∈ ops, op.1 < st.values.length)
    (f : M → Bool) (hf : f 1 = true) (b e : Nat) (hbe : b ≤ e) (he : e ≤ (plain st ops).length)
    (hmono : ∀ i j, b ≤ i → i ≤ j → j ≤ e → f (((plain st ops).take j).drop b).prod = true →
      f (((plain st ops).take i).drop b).prod = true) :
    ∃ t r, run st ops = some t ∧ maxRight t f b e = some r ∧ b ≤ r ∧ r ≤ e ∧
      ∀ j, b ≤ j → j ≤ e → (f (((plain st ops).take j).drop b).prod = true ↔ j ≤ r) := by
  obtain ⟨t, r, e1, e2, h1, h2, h3, h4⟩ := C05_max_right st ops hv f hf b e hbe he
  refine ⟨t, r, e1, e2, h1, h2, fun j hj hje => ⟨fun hfj => ?_, fun hjr => hmono j r hj hjr h2 h3⟩⟩
  rcases h4 with h4 | h4
  · omega
  · apply Nat.le_of_not_lt
    intro hlt
    have := hmono (r+1) j (by omega) hlt hje hfj
    rw [h4] at this
    exact absurd this (by simp)

/-- C05 (`min_left`): mirror image. -/
theorem C05_min_left (st : Start M) (ops : List (Nat × M)) (hv : ∀ op ∈ ops, op.1 < st.values.length)
    (f : M → Bool) (hf : f 1 = true) (b e : Nat) (hbe : b ≤ e) (he : e ≤ (plain st ops).length) :
    ∃ t l, run st ops = some t ∧ minLeft t f b e = some l ∧ b ≤ l ∧ l ≤ e ∧
      f (((plain st ops).take e).drop l).prod = true ∧
      (l = b ∨ f (((plain st ops).take e).drop (l-1)).prod = false) := by
  obtain ⟨t, e1, h⟩ := run_inv st ops hv
  obtain ⟨r, h1⟩ := minLeft_spec h f hbe he hf
  exact ⟨t, r, e1, h1⟩

/-- C05 (`min_left`, monotone predicate): exactly the suffixes from the result on satisfy `f`. -/
theorem C05_min_left_maximal (st : Start M) (ops : List (Nat × M)) (hv : ∀ op ∈ ops, op.1 < st.values.length)
    (f : M → Bool) (hf : f 1 = true) (b e : Nat) (hbe : b ≤ e) (he : e ≤ (plain st ops).length)
    (hmono : ∀ i j, b ≤ i → i ≤ j → j ≤ e → f (((plain st ops).take e).drop i).prod = true →
      f (((plain st ops).take e).drop j).prod = true) :
    ∃ t l, run st ops = some t ∧ minLeft t f b e = some l ∧ b ≤ l ∧ l ≤ e ∧
      ∀ j, b ≤ j → j ≤ e → (f (((plain st ops).take e).drop j).prod = true ↔ l ≤ j) := by
  obtain ⟨t, r, e1, e2, h1, h2, h3, h4⟩ := C05_min_left st ops hv f hf b e hbe he
  refine ⟨t, r, e1, e2, h1, h2, fun j hj hje => ⟨fun hfj => ?_, fun hjr => hmono r j h1 hjr hje h3⟩⟩
  rcases h4 with h4 | h4
  · omega
  · apply Nat.le_of_not_lt
    intro hlt
    have := hmono j (r-1) hj (by omega) (by omega) hfj
    rw [h4] at this
    exact absurd this (by simp)

/-! Non-trivial instances: a non-commutative monoid (strings under concatenation) and a non-power-of-two size. -/
section examples

/-- Words under concatenation. -/
structure Word where
  w : List Nat
deriving DecidableEq

instance : Monoid Word where
  mul a b := ⟨a.w ++ b.w⟩
  one := ⟨[]⟩
  mul_assoc a b c := congrArg Word.mk (List.append_assoc a.w b.w c.w)
  one_mul a := rfl
  mul_one a := congrArg Word.mk (List.append_nil a.w)

private def ws : List Word := [⟨[0]⟩, ⟨[1]⟩, ⟨[2]⟩, ⟨[3]⟩, ⟨[4]⟩]

example : ∀ op ∈ [(3, (⟨[7,7]⟩ : Word))], op.1 < (Start.range ws).values.length := by decide
example : (run (Start.range ws) [(3, ⟨[7,7]⟩)]).bind (fun t => query t 1 5) = some ⟨[1,2,7,7,4]⟩ := by decide
example : (run (Start.range ws) [(3, ⟨[7,7]⟩)]).bind (fun t => maxRight t (fun w => w.w.length ≤ 3) 1 5) = some 3 := by
  decide
example : (run (Start.range ws) [(3, ⟨[7,7]⟩)]).bind (fun t => minLeft t (fun w => w.w.length ≤ 3) 1 5) = some 3 := by
  decide
example : (fun w : Word => decide (w.w.length ≤ 3)) 1 = true := by decide

end examples
end Verif.SegTree
