import Verif.Sais.Model
import Mathlib.Data.Finset.Card
import Mathlib.Data.Finset.Range
import Mathlib.Order.Defs.LinearOrder
/-! Counting, types and slots of the induced sort. -/
namespace Verif.Sais

/-- The number of positions below `n` with `p`. -/
noncomputable def num (n : Nat) (p : Nat → Prop) : Nat := by
  classical exact ((Finset.range n).filter p).card

theorem num_mono {n : Nat} {p q : Nat → Prop} (h : ∀ x, x < n → p x → q x) : num n p ≤ num n q := by
  classical
  unfold num
  apply Finset.card_le_card
  intro x hx
  rw [Finset.mem_filter, Finset.mem_range] at *
  exact ⟨hx.1, h x hx.1 hx.2⟩

theorem num_congr {n : Nat} {p q : Nat → Prop} (h : ∀ x, x < n → (p x ↔ q x)) : num n p = num n q :=
  Nat.le_antisymm (num_mono fun x hx => (h x hx).1) (num_mono fun x hx => (h x hx).2)

theorem num_none {n : Nat} {p : Nat → Prop} (h : ∀ x, x < n → ¬ p x) : num n p = 0 := by
  classical
  unfold num
  rw [Finset.card_eq_zero, Finset.filter_eq_empty_iff]
  intro x hx
  exact h x (Finset.mem_range.1 hx)

theorem num_add {n : Nat} {p q r : Nat → Prop} (h : ∀ x, x < n → (r x ↔ p x ∨ q x)) (hd : ∀ x, x < n → p x → q x → False) :
    num n r = num n p + num n q := by
  classical
  unfold num
  rw [← Finset.card_union_of_disjoint]
  · congr 1
    ext x
    simp only [Finset.mem_filter, Finset.mem_range, Finset.mem_union]
    constructor
    · rintro ⟨a, b⟩
      rcases (h x a).1 b with c | c
      · exact Or.inl ⟨a, c⟩
      · exact Or.inr ⟨a, c⟩
    · rintro (⟨a, b⟩ | ⟨a, b⟩)
      · exact ⟨a, (h x a).2 (Or.inl b)⟩
      · exact ⟨a, (h x a).2 (Or.inr b)⟩
  · rw [Finset.disjoint_left]
    intro x hx hy
    rw [Finset.mem_filter, Finset.mem_range] at hx hy
    exact hd x hx.1 hx.2 hy.2

theorem num_single {n : Nat} {p : Nat → Prop} {z : Nat} (hz : z < n) (h : ∀ x, x < n → (p x ↔ x = z)) : num n p = 1 := by
  classical
  unfold num
  rw [Finset.card_eq_one]
  refine ⟨z, ?_⟩
  ext x
  simp only [Finset.mem_filter, Finset.mem_range, Finset.mem_singleton]
  constructor
  · rintro ⟨a, b⟩; exact (h x a).1 b
  · rintro rfl; exact ⟨hz, (h _ hz).2 rfl⟩

/-- One more. -/
theorem num_succ {n : Nat} {p q : Nat → Prop} {z : Nat} (hz : z < n) (hp : ¬ p z) (h : ∀ x, x < n → (q x ↔ p x ∨ x = z)) :
    num n q = num n p + 1 := by
  rw [num_add h (fun x _ a b => hp (b ▸ a)), num_single (p := fun x => x = z) hz (fun x _ => Iff.rfl)]

theorem num_le {n : Nat} {p : Nat → Prop} : num n p ≤ n := by
  classical
  unfold num
  exact (Finset.card_filter_le _ _).trans (by rw [Finset.card_range])

theorem num_lt {n : Nat} {p q : Nat → Prop} {z : Nat} (hz : z < n) (hp : ¬ p z) (hq : q z) (h : ∀ x, x < n → p x → q x) :
    num n p < num n q := by
  have := num_succ (q := fun x => p x ∨ x = z) hz hp (fun x _ => Iff.rfl)
  have h2 : num n (fun x => p x ∨ x = z) ≤ num n q := num_mono (fun x hx h' => by
    rcases h' with h' | h'
    · exact h x hx h'
    · subst h'; exact hq)
  omega

/-- The string with its types: `ty x = true` for S-type. -/
structure Ctx (n : Nat) (S : Nat → Nat) (ty : Nat → Bool) : Prop where
  two : 2 ≤ n
  lt : ∀ x, x < n → S x < n
  last : S (n-1) = 0
  pos : ∀ x, x + 1 < n → 0 < S x
  tlast : ty (n-1) = true
  tstep : ∀ x, x + 1 < n → ty x = (decide (S x < S (x+1)) || (decide (S x = S (x+1)) && ty (x+1)))

/-- Leftmost S-type. -/
def lms (ty : Nat → Bool) (x : Nat) : Bool := decide (x ≠ 0) && ty x && !(ty (x-1))

theorem lms_ty {ty : Nat → Bool} {x : Nat} (h : lms ty x = true) : ty x = true := by
  simp [lms] at h; exact h.1.2

theorem lms_pos {ty : Nat → Bool} {x : Nat} (h : lms ty x = true) : 0 < x := by
  simp [lms] at h; omega

theorem lms_prev {ty : Nat → Bool} {x : Nat} (h : lms ty x = true) : ty (x-1) = false := by
  simp [lms] at h; exact h.2

theorem lms_succ {ty : Nat → Bool} {x : Nat} (h : ty x = false) : lms ty (x+1) = ty (x+1) := by simp [lms, h]
theorem not_lms_succ {ty : Nat → Bool} {x : Nat} (h : ty x = true) : lms ty (x+1) = false := by simp [lms, h]

variable {n : Nat} {S : Nat → Nat} {ty : Nat → Bool}

theorem Ctx.L_lt (C : Ctx n S ty) {x : Nat} (hx : x < n) (h : ty x = false) : x + 1 < n := by
  by_contra hc
  have : x = n - 1 := by omega
  rw [this, C.tlast] at h
  cases h

theorem Ctx.zero (C : Ctx n S ty) {x : Nat} (hx : x < n) (h : S x = 0) : x = n - 1 := by
  by_contra hc
  have := C.pos x (by omega)
  omega

/-- An L-type character is at least the next one; if equal, the next is L-type too. -/
theorem Ctx.L_step (C : Ctx n S ty) {x : Nat} (hx : x < n) (h : ty x = false) : S (x+1) < S x ∨ (S (x+1) = S x ∧ ty (x+1) = false) := by
  have h1 := C.L_lt hx h
  rw [C.tstep x h1] at h
  simp only [Bool.or_eq_false_iff, decide_eq_false_iff_not, Bool.and_eq_false_iff] at h
  rcases Nat.lt_trichotomy (S x) (S (x+1)) with e | e | e
  · exact absurd e h.1
  · right
    rcases h.2 with h2 | h2
    · exact absurd e h2
    · exact ⟨e.symm, h2⟩
  · exact Or.inl e

/-- An S-type character is at most the next one; if equal, the next is S-type too, and not the last. -/
theorem Ctx.S_step (C : Ctx n S ty) {x : Nat} (hx : x + 1 < n) (h : ty x = true) :
    x + 2 < n ∧ (S x < S (x+1) ∨ (S x = S (x+1) ∧ ty (x+1) = true)) := by
  have h0 := C.pos x hx
  rw [C.tstep x hx] at h
  simp only [Bool.or_eq_true, decide_eq_true_eq, Bool.and_eq_true] at h
  refine ⟨?_, h⟩
  by_contra hc
  have h2 := C.last
  rw [show n - 1 = x + 1 by omega] at h2
  omega

section Pos
variable {κ : Type} [LinearOrder κ]

/-- Members of the order: the L-type positions and the positions with `T`. -/
def Dom (n : Nat) (ty : Nat → Bool) (T : Nat → Prop) (x : Nat) : Prop := x < n ∧ (ty x = true → T x)

/-- Keys that sort by character, then L-type before S-type. -/
structure Key (n : Nat) (S : Nat → Nat) (ty : Nat → Bool) (T : Nat → Prop) (k : Nat → κ) : Prop where
  tt : ∀ x, x < n → T x → ty x = true
  chr : ∀ x y, Dom n ty T x → Dom n ty T y → S x < S y → k x < k y
  typ : ∀ x y, Dom n ty T x → Dom n ty T y → S x = S y → ty x = false → ty y = true → k x < k y
  inj : ∀ x y, Dom n ty T x → Dom n ty T y → k x = k y → x = y

/-- First slot of the bucket of `c`. -/
noncomputable def st (n : Nat) (S : Nat → Nat) (c : Nat) : Nat := num n (fun x => S x < c)

/-- The slot of `x`: L-type positions from the start of the bucket, the others from its end. -/
noncomputable def slot (n : Nat) (S : Nat → Nat) (ty : Nat → Bool) (T : Nat → Prop) (k : Nat → κ) (x : Nat) : Nat :=
  if ty x = true then st n S (S x + 1) - num n (fun y => T y ∧ S y = S x ∧ k x ≤ k y)
  else st n S (S x) + num n (fun y => ty y = false ∧ S y = S x ∧ k y < k x)

theorem st_mono {c d : Nat} (h : c ≤ d) : st n S c ≤ st n S d := num_mono (fun x _ (h' : S x < c) => show S x < d by omega)
theorem st_le {c : Nat} : st n S c ≤ n := num_le
theorem st_succ (c : Nat) : st n S (c+1) = st n S c + num n (fun x => S x = c) :=
  num_add (fun x _ => by show S x < c + 1 ↔ _; omega) (fun x _ (a : S x < c) b => by omega)

variable {T : Nat → Prop} {k : Nat → κ}

/-- The bucket is at least as large as its two parts. -/
theorem two_parts (K : Key n S ty T k) (c : Nat) :
    st n S c + num n (fun y => ty y = false ∧ S y = c) + num n (fun y => T y ∧ S y = c) ≤ st n S (c+1) := by
  rw [st_succ]
  have h := num_add (n := n) (p := fun y => ty y = false ∧ S y = c) (q := fun y => T y ∧ S y = c)
    (r := fun y => (ty y = false ∧ S y = c) ∨ (T y ∧ S y = c)) (fun x _ => Iff.rfl)
    (fun x hx a b => by have := K.tt x hx b.1; rw [a.1] at this; cases this)
  have h2 : num n (fun y => (ty y = false ∧ S y = c) ∨ (T y ∧ S y = c)) ≤ num n (fun y => S y = c) :=
    num_mono (fun x _ h => by rcases h with h | h <;> exact h.2)
  omega

theorem upper_le (K : Key n S ty T k) (c : Nat) : num n (fun y => T y ∧ S y = c) ≤ st n S (c+1) := by
  have := two_parts K c; omega

/-- L-type slots are in the lower part of the bucket. -/
theorem slot_L (K : Key n S ty T k) {x : Nat} (hx : Dom n ty T x) (h : ty x = false) :
    st n S (S x) ≤ slot n S ty T k x ∧ slot n S ty T k x < st n S (S x) + num n (fun y => ty y = false ∧ S y = S x) := by
  unfold slot
  rw [if_neg (by rw [h]; decide)]
  refine ⟨Nat.le_add_right _ _, Nat.add_lt_add_left ?_ _⟩
  exact num_lt hx.1 (fun hc => absurd hc.2.2 (lt_irrefl _)) ⟨h, rfl⟩ (fun y _ hy => ⟨hy.1, hy.2.1⟩)

theorem slot_S (K : Key n S ty T k) {x : Nat} (hx : Dom n ty T x) (h : ty x = true) :
    st n S (S x) + num n (fun y => ty y = false ∧ S y = S x) ≤ slot n S ty T k x ∧ slot n S ty T k x < st n S (S x + 1) ∧
    slot n S ty T k x + num n (fun y => T y ∧ S y = S x ∧ k x ≤ k y) = st n S (S x + 1) := by
  have h1 := two_parts K (S x)
  have h2 : num n (fun y => T y ∧ S y = S x ∧ k x ≤ k y) ≤ num n (fun y => T y ∧ S y = S x) := num_mono (fun y _ hy => ⟨hy.1, hy.2.1⟩)
  have h3 : 0 < num n (fun y => T y ∧ S y = S x ∧ k x ≤ k y) := by
    have := num_lt (n := n) (p := fun _ => False) (q := fun y => T y ∧ S y = S x ∧ k x ≤ k y) hx.1 id ⟨hx.2 h, rfl, le_refl _⟩ (fun _ _ h => h.elim)
    omega
  unfold slot
  rw [if_pos h]
  omega

theorem slot_bd (K : Key n S ty T k) {x : Nat} (hx : Dom n ty T x) : st n S (S x) ≤ slot n S ty T k x ∧ slot n S ty T k x < st n S (S x + 1) := by
  cases h : ty x with
  | false =>
    have h1 := slot_L K hx h
    have h2 := two_parts K (S x)
    omega
  | true =>
    have h1 := slot_S K hx h
    omega

theorem slot_lt_n (K : Key n S ty T k) {x : Nat} (hx : Dom n ty T x) : slot n S ty T k x < n :=
  lt_of_lt_of_le (slot_bd K hx).2 st_le

theorem slot_mono (K : Key n S ty T k) {x y : Nat} (hx : Dom n ty T x) (hy : Dom n ty T y) (h : k x < k y) :
    slot n S ty T k x < slot n S ty T k y := by
  rcases Nat.lt_trichotomy (S x) (S y) with hs | hs | hs
  · have h1 := slot_bd K hx
    have h2 := slot_bd K hy
    have h3 := st_mono (n := n) (S := S) (c := S x + 1) (d := S y) hs
    omega
  · cases tx : ty x with
    | false =>
      cases tyy : ty y with
      | false =>
        unfold slot
        rw [if_neg (by rw [tx]; decide), if_neg (by rw [tyy]; decide), hs]
        refine Nat.add_lt_add_left ?_ _
        exact num_lt hx.1 (fun hc => absurd hc.2.2 (lt_irrefl _)) ⟨tx, hs, h⟩ (fun z _ hz => ⟨hz.1, hz.2.1, lt_trans hz.2.2 h⟩)
      | true =>
        have h1 := slot_L K hx tx
        have h2 := slot_S K hy tyy
        rw [hs] at h1
        omega
    | true =>
      cases tyy : ty y with
      | false => exact absurd h (lt_asymm (K.typ y x hy hx hs.symm tyy tx))
      | true =>
        have h1 := slot_S K hx tx
        have h2 := slot_S K hy tyy
        rw [hs] at h1
        have h3 : num n (fun z => T z ∧ S z = S y ∧ k y ≤ k z) < num n (fun z => T z ∧ S z = S y ∧ k x ≤ k z) :=
          num_lt hx.1 (fun hc => absurd h (not_lt_of_ge hc.2.2)) ⟨hx.2 tx, hs, le_refl _⟩ (fun z _ hz => ⟨hz.1, hz.2.1, le_trans (le_of_lt h) hz.2.2⟩)
        omega
  · exact absurd h (lt_asymm (K.chr y x hy hx hs))

theorem slot_lt_iff (K : Key n S ty T k) {x y : Nat} (hx : Dom n ty T x) (hy : Dom n ty T y) :
    slot n S ty T k x < slot n S ty T k y ↔ k x < k y := by
  refine ⟨fun h => ?_, slot_mono K hx hy⟩
  rcases lt_trichotomy (k x) (k y) with e | e | e
  · exact e
  · have := K.inj x y hx hy e
    subst this; omega
  · have := slot_mono K hy hx e
    omega

theorem slot_inj (K : Key n S ty T k) {x y : Nat} (hx : Dom n ty T x) (hy : Dom n ty T y)
    (h : slot n S ty T k x = slot n S ty T k y) : x = y := by
  rcases lt_trichotomy (k x) (k y) with e | e | e
  · have := slot_mono K hx hy e; omega
  · exact K.inj x y hx hy e
  · have := slot_mono K hy hx e; omega

theorem slot_le_iff (K : Key n S ty T k) {x y : Nat} (hx : Dom n ty T x) (hy : Dom n ty T y) :
    slot n S ty T k x ≤ slot n S ty T k y ↔ k x ≤ k y := by
  rw [← not_lt, slot_lt_iff K hy hx, not_lt]

end Pos
end Verif.Sais
