import Verif.Sais.Induce
import Mathlib.Data.List.Lex
/-! The keys by which the induced sort orders the positions. -/
namespace Verif.Sais

variable (n : Nat) (S : Nat → Nat) (ty : Nat → Bool)

/-- Character and type in one number. -/
def tc (x : Nat) : Nat := 2 * S x + (if ty x = true then 1 else 0)

/-- The whole suffix. -/
def fk (x : Nat) : List Nat := if x < n then tc S ty x :: fk (x+1) else []
termination_by n - x

/-- L-type positions up to the next S-type one, then its position. -/
def k1 (x : Nat) : List Nat := if x < n then (if ty x = true then [tc S ty x, x] else tc S ty x :: k1 (x+1)) else []
termination_by n - x

/-- S-type positions, then `k1`. -/
def k2 (x : Nat) : List Nat := if x < n then (if ty x = true then tc S ty x :: k2 (x+1) else tc S ty x :: k1 n S ty (x+1)) else []
termination_by n - x

/-- `k1` without the final position. -/
def s1 (x : Nat) : List Nat := if x < n then (if ty x = true then [tc S ty x] else tc S ty x :: s1 (x+1)) else []
termination_by n - x

/-- `k2` without the final position: the LMS substring. -/
def s2 (x : Nat) : List Nat := if x < n then (if ty x = true then tc S ty x :: s2 (x+1) else tc S ty x :: s1 n S ty (x+1)) else []
termination_by n - x

/-- The next S-type position from `x` on. -/
def nx1 (x : Nat) : Nat := if x < n then (if ty x = true then x else nx1 (x+1)) else x
termination_by n - x

/-- The S-type position after the next L-type one. -/
def nx2 (x : Nat) : Nat := if x < n then (if ty x = true then nx2 (x+1) else nx1 n ty (x+1)) else x
termination_by n - x

variable {n S ty}

theorem fk_lt {x : Nat} (h : x < n) : fk n S ty x = tc S ty x :: fk n S ty (x+1) := by rw [fk, if_pos h]
theorem fk_ge {x : Nat} (h : ¬ x < n) : fk n S ty x = [] := by rw [fk, if_neg h]
theorem k1_L {x : Nat} (h : x < n) (t : ty x = false) : k1 n S ty x = tc S ty x :: k1 n S ty (x+1) := by rw [k1, if_pos h, if_neg (by rw [t]; decide)]
theorem k1_S {x : Nat} (h : x < n) (t : ty x = true) : k1 n S ty x = [tc S ty x, x] := by rw [k1, if_pos h, if_pos t]
theorem k1_ge {x : Nat} (h : ¬ x < n) : k1 n S ty x = [] := by rw [k1, if_neg h]
theorem k2_L {x : Nat} (h : x < n) (t : ty x = false) : k2 n S ty x = tc S ty x :: k1 n S ty (x+1) := by rw [k2, if_pos h, if_neg (by rw [t]; decide)]
theorem k2_S {x : Nat} (h : x < n) (t : ty x = true) : k2 n S ty x = tc S ty x :: k2 n S ty (x+1) := by rw [k2, if_pos h, if_pos t]
theorem k2_ge {x : Nat} (h : ¬ x < n) : k2 n S ty x = [] := by rw [k2, if_neg h]
theorem s1_L {x : Nat} (h : x < n) (t : ty x = false) : s1 n S ty x = tc S ty x :: s1 n S ty (x+1) := by rw [s1, if_pos h, if_neg (by rw [t]; decide)]
theorem s1_S {x : Nat} (h : x < n) (t : ty x = true) : s1 n S ty x = [tc S ty x] := by rw [s1, if_pos h, if_pos t]
theorem s1_ge {x : Nat} (h : ¬ x < n) : s1 n S ty x = [] := by rw [s1, if_neg h]
theorem s2_L {x : Nat} (h : x < n) (t : ty x = false) : s2 n S ty x = tc S ty x :: s1 n S ty (x+1) := by rw [s2, if_pos h, if_neg (by rw [t]; decide)]
theorem s2_S {x : Nat} (h : x < n) (t : ty x = true) : s2 n S ty x = tc S ty x :: s2 n S ty (x+1) := by rw [s2, if_pos h, if_pos t]
theorem s2_ge {x : Nat} (h : ¬ x < n) : s2 n S ty x = [] := by rw [s2, if_neg h]
theorem nx1_L {x : Nat} (h : x < n) (t : ty x = false) : nx1 n ty x = nx1 n ty (x+1) := by rw [nx1, if_pos h, if_neg (by rw [t]; decide)]
theorem nx1_S {x : Nat} (h : x < n) (t : ty x = true) : nx1 n ty x = x := by rw [nx1, if_pos h, if_pos t]
theorem nx1_ge {x : Nat} (h : ¬ x < n) : nx1 n ty x = x := by rw [nx1, if_neg h]
theorem nx2_L {x : Nat} (h : x < n) (t : ty x = false) : nx2 n ty x = nx1 n ty (x+1) := by rw [nx2, if_pos h, if_neg (by rw [t]; decide)]
theorem nx2_S {x : Nat} (h : x < n) (t : ty x = true) : nx2 n ty x = nx2 n ty (x+1) := by rw [nx2, if_pos h, if_pos t]
theorem nx2_ge {x : Nat} (h : ¬ x < n) : nx2 n ty x = x := by rw [nx2, if_neg h]

theorem tc_eq {x y : Nat} (h : tc S ty x = tc S ty y) : S x = S y ∧ ty x = ty y := by
  unfold tc at h
  cases h1 : ty x <;> cases h2 : ty y <;> simp [h1, h2] at h ⊢ <;> omega

theorem tc_congr {x y : Nat} (h : S x = S y) (h' : ty x = ty y) : tc S ty x = tc S ty y := by simp [tc, h, h']

theorem tc_lt {x y : Nat} (h : tc S ty x < tc S ty y) : S x < S y ∨ (S x = S y ∧ ty x = false ∧ ty y = true) := by
  unfold tc at h
  cases h1 : ty x <;> cases h2 : ty y <;> simp [h1, h2] at h ⊢ <;> omega

theorem tc_of_lt {x y : Nat} (h : S x < S y) : tc S ty x < tc S ty y := by
  unfold tc
  split <;> split <;> omega

theorem tc_of_typ {x y : Nat} (h : S x = S y) (hx : ty x = false) (hy : ty y = true) : tc S ty x < tc S ty y := by
  simp [tc, h, hx, hy]

theorem cons_lt {a b : Nat} {l m : List Nat} : a :: l < b :: m ↔ a < b ∨ a = b ∧ l < m := List.cons_lt_cons_iff

theorem head_lt {a b : Nat} {l m : List Nat} (h : a < b) : a :: l < b :: m := cons_lt.2 (Or.inl h)

theorem tail_lt {a b : Nat} {l m : List Nat} (h : a = b) : (a :: l < b :: m ↔ l < m) := by
  rw [cons_lt]
  constructor
  · rintro (h1 | h1)
    · omega
    · exact h1.2
  · intro h1; exact Or.inr ⟨h, h1⟩

/-- Keys with the character and the type in front. -/
theorem Key.of_head {T : Nat → Prop} {k : Nat → List Nat} (tt : ∀ x, x < n → T x → ty x = true)
    (hd : ∀ x, x < n → ∃ l, k x = tc S ty x :: l) (inj : ∀ x y, Dom n ty T x → Dom n ty T y → k x = k y → x = y) : Key n S ty T k := by
  refine ⟨tt, ?_, ?_, inj⟩
  · intro x y hx hy h
    obtain ⟨l, e⟩ := hd x hx.1
    obtain ⟨m, e'⟩ := hd y hy.1
    rw [e, e']
    exact head_lt (tc_of_lt h)
  · intro x y hx hy h tx ty'
    obtain ⟨l, e⟩ := hd x hx.1
    obtain ⟨m, e'⟩ := hd y hy.1
    rw [e, e']
    exact head_lt (tc_of_typ h tx ty')

theorem fk_len : ∀ (d x : Nat), n - x ≤ d → (fk n S ty x).length = n - x := by
  intro d
  induction d with
  | zero => intro x h; rw [fk_ge (by omega)]; simp; omega
  | succ d ih =>
    intro x h
    by_cases hx : x < n
    · rw [fk_lt hx, List.length_cons, ih (x+1) (by omega)]; omega
    · rw [fk_ge hx]; simp; omega

theorem fk_inj {x y : Nat} (hx : x < n) (hy : y < n) (h : fk n S ty x = fk n S ty y) : x = y := by
  have h1 := congrArg List.length h
  rw [fk_len n x (by omega), fk_len n y (by omega)] at h1
  omega

theorem fk_keyL : KeyL n S ty (fk n S ty) := by
  refine { Key.of_head (fun x _ h => lms_ty h) (fun x hx => ⟨_, fk_lt hx⟩) (fun x y hx hy h => fk_inj hx.1 hy.1 h) with ind := ?_ }
  intro x y hx hy tx ty' h
  rw [fk_lt hx, fk_lt hy, tail_lt (tc_congr h (tx.trans ty'.symm))]

theorem fk_keyS : KeyS n S ty (fk n S ty) := by
  refine { Key.of_head (fun x _ h => h) (fun x hx => ⟨_, fk_lt hx⟩) (fun x y hx hy h => fk_inj hx.1 hy.1 h) with ind := ?_ }
  intro x y hx hy tx ty' h
  rw [fk_lt (by omega : x < n), fk_lt (by omega : y < n), tail_lt (tc_congr h (tx.trans ty'.symm))]

theorem k1_inj : ∀ (d x y : Nat), n - x ≤ d → x < n → y < n → k1 n S ty x = k1 n S ty y → x = y := by
  intro d
  induction d with
  | zero => intro x y h hx; omega
  | succ d ih =>
    intro x y h hx hy e
    cases tx : ty x with
    | true =>
      cases t' : ty y with
      | true =>
        rw [k1_S hx tx, k1_S hy t'] at e
        injection e with _ e
        injection e
      | false =>
        rw [k1_S hx tx, k1_L hy t'] at e
        injection e with e _
        have := (tc_eq e).2
        rw [tx, t'] at this; cases this
    | false =>
      cases t' : ty y with
      | true =>
        rw [k1_L hx tx, k1_S hy t'] at e
        injection e with e _
        have := (tc_eq e).2
        rw [tx, t'] at this; cases this
      | false =>
        rw [k1_L hx tx, k1_L hy t'] at e
        injection e with _ e
        by_cases hx1 : x + 1 < n
        · by_cases hy1 : y + 1 < n
          · have := ih (x+1) (y+1) (by omega) hx1 hy1 e
            omega
          · exfalso
            rw [k1_ge hy1, k1, if_pos hx1] at e
            split at e <;> cases e
        · by_cases hy1 : y + 1 < n
          · exfalso
            rw [k1_ge hx1, k1, if_pos hy1] at e
            split at e <;> cases e
          · omega

theorem k2_inj : ∀ (d x y : Nat), n - x ≤ d → x < n → y < n → k2 n S ty x = k2 n S ty y → x = y := by
  intro d
  induction d with
  | zero => intro x y h hx; omega
  | succ d ih =>
    intro x y h hx hy e
    cases tx : ty x with
    | true =>
      cases t' : ty y with
      | true =>
        rw [k2_S hx tx, k2_S hy t'] at e
        injection e with _ e
        by_cases hx1 : x + 1 < n
        · by_cases hy1 : y + 1 < n
          · have := ih (x+1) (y+1) (by omega) hx1 hy1 e
            omega
          · exfalso
            rw [k2_ge hy1, k2, if_pos hx1] at e
            split at e <;> cases e
        · by_cases hy1 : y + 1 < n
          · exfalso
            rw [k2_ge hx1, k2, if_pos hy1] at e
            split at e <;> cases e
          · omega
      | false =>
        rw [k2_S hx tx, k2_L hy t'] at e
        injection e with e _
        have := (tc_eq e).2
        rw [tx, t'] at this; cases this
    | false =>
      cases t' : ty y with
      | true =>
        rw [k2_L hx tx, k2_S hy t'] at e
        injection e with e _
        have := (tc_eq e).2
        rw [tx, t'] at this; cases this
      | false =>
        rw [k2_L hx tx, k2_L hy t', ← k1_L hx tx, ← k1_L hy t'] at e
        exact k1_inj n x y (by omega) hx hy e

theorem k1_head {x : Nat} (hx : x < n) : ∃ l, k1 n S ty x = tc S ty x :: l := by
  cases t : ty x with
  | true => exact ⟨_, k1_S hx t⟩
  | false => exact ⟨_, k1_L hx t⟩

theorem k2_head {x : Nat} (hx : x < n) : ∃ l, k2 n S ty x = tc S ty x :: l := by
  cases t : ty x with
  | true => exact ⟨_, k2_S hx t⟩
  | false => exact ⟨_, k2_L hx t⟩

theorem k1_keyL : KeyL n S ty (k1 n S ty) := by
  refine { Key.of_head (fun x _ h => lms_ty h) (fun x hx => k1_head hx) (fun x y hx hy h => k1_inj n x y (by omega) hx.1 hy.1 h) with ind := ?_ }
  intro x y hx hy tx ty' h
  rw [k1_L hx tx, k1_L hy ty', tail_lt (tc_congr h (tx.trans ty'.symm))]

theorem k2_keyS : KeyS n S ty (k2 n S ty) := by
  refine { Key.of_head (fun x _ h => h) (fun x hx => k2_head hx) (fun x y hx hy h => k2_inj n x y (by omega) hx.1 hy.1 h) with ind := ?_ }
  intro x y hx hy tx ty' h
  rw [k2_S (by omega : x < n) tx, k2_S (by omega : y < n) ty', tail_lt (tc_congr h (tx.trans ty'.symm))]

theorem k12 (x y : Nat) (hx : x < n) (hy : y < n) (tx : ty x = false) (t' : ty y = false) :
    k1 n S ty x < k1 n S ty y ↔ k2 n S ty x < k2 n S ty y := by
  rw [k1_L hx tx, k1_L hy t', k2_L hx tx, k2_L hy t']

theorem not_lt_nil {l : List Nat} : ¬ l < [] := by simp
theorem nil_le {l : List Nat} : [] ≤ l := not_lt.1 not_lt_nil
theorem nil_lt {a : Nat} {l : List Nat} : [] < a :: l := by simp

/-- Order of the keys and of the substrings. -/
theorem s1_of_k1 : ∀ (d x y : Nat), n - x ≤ d → k1 n S ty x < k1 n S ty y → s1 n S ty x ≤ s1 n S ty y := by
  intro d
  induction d with
  | zero => intro x y h _; rw [s1_ge (by omega)]; exact nil_le
  | succ d ih =>
    intro x y h e
    by_cases hx : x < n
    · by_cases hy : y < n
      · cases tx : ty x with
        | true =>
          rw [s1_S hx tx]
          rw [k1_S hx tx] at e
          cases t' : ty y with
          | true =>
            rw [s1_S hy t']
            rw [k1_S hy t', cons_lt] at e
            rcases e with e | e
            · exact le_of_lt (head_lt e)
            · rw [e.1]
          | false =>
            rw [s1_L hy t']
            rw [k1_L hy t', cons_lt] at e
            rcases e with e | e
            · exact le_of_lt (head_lt e)
            · have := (tc_eq e.1).2; rw [tx, t'] at this; cases this
        | false =>
          rw [s1_L hx tx]
          rw [k1_L hx tx] at e
          cases t' : ty y with
          | true =>
            rw [s1_S hy t']
            rw [k1_S hy t', cons_lt] at e
            rcases e with e | e
            · exact le_of_lt (head_lt e)
            · have := (tc_eq e.1).2; rw [tx, t'] at this; cases this
          | false =>
            rw [s1_L hy t']
            rw [k1_L hy t', cons_lt] at e
            rcases e with e | e
            · exact le_of_lt (head_lt e)
            · have := ih (x+1) (y+1) (by omega) e.2
              rcases lt_or_eq_of_le this with h1 | h1
              · exact le_of_lt (cons_lt.2 (Or.inr ⟨e.1, h1⟩))
              · rw [h1, e.1]
      · rw [k1_ge hy] at e; exact absurd e not_lt_nil
    · rw [s1_ge hx]; exact nil_le

theorem s2_of_k2 : ∀ (d x y : Nat), n - x ≤ d → k2 n S ty x < k2 n S ty y → s2 n S ty x ≤ s2 n S ty y := by
  intro d
  induction d with
  | zero => intro x y h _; rw [s2_ge (by omega)]; exact nil_le
  | succ d ih =>
    intro x y h e
    by_cases hx : x < n
    · by_cases hy : y < n
      · cases tx : ty x with
        | true =>
          rw [s2_S hx tx]
          rw [k2_S hx tx] at e
          cases t' : ty y with
          | true =>
            rw [s2_S hy t']
            rw [k2_S hy t', cons_lt] at e
            rcases e with e | e
            · exact le_of_lt (head_lt e)
            · have := ih (x+1) (y+1) (by omega) e.2
              rcases lt_or_eq_of_le this with h1 | h1
              · exact le_of_lt (cons_lt.2 (Or.inr ⟨e.1, h1⟩))
              · rw [h1, e.1]
          | false =>
            rw [s2_L hy t']
            rw [k2_L hy t', cons_lt] at e
            rcases e with e | e
            · exact le_of_lt (head_lt e)
            · have := (tc_eq e.1).2; rw [tx, t'] at this; cases this
        | false =>
          rw [s2_L hx tx]
          rw [k2_L hx tx] at e
          cases t' : ty y with
          | true =>
            rw [s2_S hy t']
            rw [k2_S hy t', cons_lt] at e
            rcases e with e | e
            · exact le_of_lt (head_lt e)
            · have := (tc_eq e.1).2; rw [tx, t'] at this; cases this
          | false =>
            rw [s2_L hy t']
            rw [k2_L hy t', cons_lt] at e
            rcases e with e | e
            · exact le_of_lt (head_lt e)
            · have := s1_of_k1 n (x+1) (y+1) (by omega) e.2
              rcases lt_or_eq_of_le this with h1 | h1
              · exact le_of_lt (cons_lt.2 (Or.inr ⟨e.1, h1⟩))
              · rw [h1, e.1]
      · rw [k2_ge hy] at e; exact absurd e not_lt_nil
    · rw [s2_ge hx]; exact nil_le

theorem fk_of_s1 : ∀ (d x y : Nat), n - x ≤ d → s1 n S ty x < s1 n S ty y → fk n S ty x < fk n S ty y := by
  intro d
  induction d with
  | zero =>
    intro x y h e
    by_cases hy : y < n
    · rw [fk_ge (by omega), fk_lt hy]; exact nil_lt
    · rw [s1_ge hy] at e; exact absurd e not_lt_nil
  | succ d ih =>
    intro x y h e
    by_cases hy : y < n
    · by_cases hx : x < n
      · rw [fk_lt hx, fk_lt hy]
        cases tx : ty x with
        | true =>
          rw [s1_S hx tx] at e
          cases t' : ty y with
          | true =>
            rw [s1_S hy t', cons_lt] at e
            rcases e with e | e
            · exact head_lt e
            · exact absurd e.2 not_lt_nil
          | false =>
            rw [s1_L hy t', cons_lt] at e
            rcases e with e | e
            · exact head_lt e
            · have := (tc_eq e.1).2; rw [tx, t'] at this; cases this
        | false =>
          rw [s1_L hx tx] at e
          cases t' : ty y with
          | true =>
            rw [s1_S hy t', cons_lt] at e
            rcases e with e | e
            · exact head_lt e
            · exact absurd e.2 not_lt_nil
          | false =>
            rw [s1_L hy t', cons_lt] at e
            rcases e with e | e
            · exact head_lt e
            · exact cons_lt.2 (Or.inr ⟨e.1, ih _ _ (by omega) e.2⟩)
      · rw [fk_ge hx, fk_lt hy]; exact nil_lt
    · rw [s1_ge hy] at e; exact absurd e not_lt_nil

theorem fk_of_s2 : ∀ (d x y : Nat), n - x ≤ d → s2 n S ty x < s2 n S ty y → fk n S ty x < fk n S ty y := by
  intro d
  induction d with
  | zero =>
    intro x y h e
    by_cases hy : y < n
    · rw [fk_ge (by omega), fk_lt hy]; exact nil_lt
    · rw [s2_ge hy] at e; exact absurd e not_lt_nil
  | succ d ih =>
    intro x y h e
    by_cases hy : y < n
    · by_cases hx : x < n
      · rw [fk_lt hx, fk_lt hy]
        cases tx : ty x with
        | true =>
          rw [s2_S hx tx] at e
          cases t' : ty y with
          | true =>
            rw [s2_S hy t', cons_lt] at e
            rcases e with e | e
            · exact head_lt e
            · exact cons_lt.2 (Or.inr ⟨e.1, ih _ _ (by omega) e.2⟩)
          | false =>
            rw [s2_L hy t', cons_lt] at e
            rcases e with e | e
            · exact head_lt e
            · have := (tc_eq e.1).2; rw [tx, t'] at this; cases this
        | false =>
          rw [s2_L hx tx] at e
          cases t' : ty y with
          | true =>
            rw [s2_S hy t', cons_lt] at e
            rcases e with e | e
            · exact head_lt e
            · have := (tc_eq e.1).2; rw [tx, t'] at this; cases this
          | false =>
            rw [s2_L hy t', cons_lt] at e
            rcases e with e | e
            · exact head_lt e
            · exact cons_lt.2 (Or.inr ⟨e.1, fk_of_s1 n _ _ (by omega) e.2⟩)
      · rw [fk_ge hx, fk_lt hy]; exact nil_lt
    · rw [s2_ge hy] at e; exact absurd e not_lt_nil

theorem s1_ne {x : Nat} (hx : x < n) : s1 n S ty x ≠ [] := by
  rw [s1, if_pos hx]; split <;> exact List.cons_ne_nil _ _
theorem s2_ne {x : Nat} (hx : x < n) : s2 n S ty x ≠ [] := by
  rw [s2, if_pos hx]; split <;> exact List.cons_ne_nil _ _

/-- Suffixes with the same substring in front are ordered as the rest. -/
theorem fk_nx1 : ∀ (d x y : Nat), n - x ≤ d → s1 n S ty x = s1 n S ty y →
    (fk n S ty x < fk n S ty y ↔ fk n S ty (nx1 n ty x) < fk n S ty (nx1 n ty y)) := by
  intro d
  induction d with
  | zero =>
    intro x y h e
    have hx : ¬ x < n := by omega
    have hy : ¬ y < n := fun hy => s1_ne (S := S) (ty := ty) hy (by rw [← e, s1_ge hx])
    rw [nx1_ge hx, nx1_ge hy]
  | succ d ih =>
    intro x y h e
    by_cases hx : x < n
    · have hy : y < n := by
        by_contra hy
        exact s1_ne (S := S) (ty := ty) hx (by rw [e, s1_ge hy])
      cases tx : ty x with
      | true =>
        cases t' : ty y with
        | true => rw [nx1_S hx tx, nx1_S hy t']
        | false =>
          rw [s1_S hx tx, s1_L hy t'] at e
          injection e with e _
          have := (tc_eq e).2; rw [tx, t'] at this; cases this
      | false =>
        cases t' : ty y with
        | true =>
          rw [s1_L hx tx, s1_S hy t'] at e
          injection e with e _
          have := (tc_eq e).2; rw [tx, t'] at this; cases this
        | false =>
          rw [s1_L hx tx, s1_L hy t'] at e
          injection e with e1 e2
          rw [nx1_L hx tx, nx1_L hy t', fk_lt hx, fk_lt hy, tail_lt e1]
          exact ih _ _ (by omega) e2
    · have hy : ¬ y < n := fun hy => s1_ne (S := S) (ty := ty) hy (by rw [← e, s1_ge hx])
      rw [nx1_ge hx, nx1_ge hy]

theorem fk_nx2 : ∀ (d x y : Nat), n - x ≤ d → s2 n S ty x = s2 n S ty y →
    (fk n S ty x < fk n S ty y ↔ fk n S ty (nx2 n ty x) < fk n S ty (nx2 n ty y)) := by
  intro d
  induction d with
  | zero =>
    intro x y h e
    have hx : ¬ x < n := by omega
    have hy : ¬ y < n := fun hy => s2_ne (S := S) (ty := ty) hy (by rw [← e, s2_ge hx])
    rw [nx2_ge hx, nx2_ge hy]
  | succ d ih =>
    intro x y h e
    by_cases hx : x < n
    · have hy : y < n := by
        by_contra hy
        exact s2_ne (S := S) (ty := ty) hx (by rw [e, s2_ge hy])
      cases tx : ty x with
      | true =>
        cases t' : ty y with
        | true =>
          rw [s2_S hx tx, s2_S hy t'] at e
          injection e with e1 e2
          rw [nx2_S hx tx, nx2_S hy t', fk_lt hx, fk_lt hy, tail_lt e1]
          exact ih _ _ (by omega) e2
        | false =>
          rw [s2_S hx tx, s2_L hy t'] at e
          injection e with e _
          have := (tc_eq e).2; rw [tx, t'] at this; cases this
      | false =>
        cases t' : ty y with
        | true =>
          rw [s2_L hx tx, s2_S hy t'] at e
          injection e with e _
          have := (tc_eq e).2; rw [tx, t'] at this; cases this
        | false =>
          rw [s2_L hx tx, s2_L hy t'] at e
          injection e with e1 e2
          rw [nx2_L hx tx, nx2_L hy t', fk_lt hx, fk_lt hy, tail_lt e1]
          exact fk_nx1 n _ _ (by omega) e2
    · have hy : ¬ y < n := fun hy => s2_ne (S := S) (ty := ty) hy (by rw [← e, s2_ge hx])
      rw [nx2_ge hx, nx2_ge hy]

/-- `nx1` from an L-type position is the next LMS position. -/
theorem Ctx.nx1_spec (C : Ctx n S ty) : ∀ (d x : Nat), n - x ≤ d → x + 1 < n → ty x = false →
    nx1 n ty (x+1) < n ∧ x < nx1 n ty (x+1) ∧ lms ty (nx1 n ty (x+1)) = true ∧ ∀ z, x < z → z < nx1 n ty (x+1) → lms ty z = false := by
  intro d
  induction d with
  | zero => intro x h1 h2; omega
  | succ d ih =>
    intro x h hx hL
    cases t : ty (x+1) with
    | true =>
      rw [nx1_S hx t]
      refine ⟨hx, by omega, by rw [lms_succ hL]; exact t, ?_⟩
      intro z h1 h2; omega
    | false =>
      rw [nx1_L hx t]
      obtain ⟨h1, h2, h3, h4⟩ := ih (x+1) (by omega) (C.L_lt hx t) t
      refine ⟨h1, by omega, h3, ?_⟩
      intro z hz1 hz2
      by_cases hz : z = x + 1
      · rw [hz]
        unfold lms; rw [t]; simp
      · exact h4 z (by omega) hz2

/-- `nx2` from an S-type position is the next LMS position after it. -/
theorem Ctx.nx2_spec (C : Ctx n S ty) : ∀ (d x : Nat), n - x ≤ d → x + 1 < n → ty x = true →
    nx2 n ty x < n ∧ x < nx2 n ty x ∧ lms ty (nx2 n ty x) = true ∧ ∀ z, x < z → z < nx2 n ty x → lms ty z = false := by
  intro d
  induction d with
  | zero => intro x h1 h2; omega
  | succ d ih =>
    intro x h hx hS
    obtain ⟨h0, _⟩ := C.S_step hx hS
    rw [nx2_S (by omega) hS]
    have hl := not_lms_succ hS
    have key : nx2 n ty (x+1) < n ∧ x + 1 < nx2 n ty (x+1) ∧ lms ty (nx2 n ty (x+1)) = true ∧
        ∀ z, x + 1 < z → z < nx2 n ty (x+1) → lms ty z = false := by
      cases t : ty (x+1) with
      | true => exact ih (x+1) (by omega) h0 t
      | false =>
        rw [nx2_L hx t]
        exact C.nx1_spec n (x+1) (by omega) h0 t
    obtain ⟨h1, h2, h3, h4⟩ := key
    refine ⟨h1, by omega, h3, ?_⟩
    intro z hz1 hz2
    by_cases hz : z = x + 1
    · rw [hz]; exact hl
    · exact h4 z (by omega) hz2

/-- Characters up to the next LMS position. -/
def wd (n : Nat) (S : Nat → Nat) (ty : Nat → Bool) (x : Nat) : List Nat :=
  if x < n then (if lms ty x = true then [S x] else S x :: wd n S ty (x+1)) else []
termination_by n - x

theorem wd_lms {x : Nat} (h : x < n) (t : lms ty x = true) : wd n S ty x = [S x] := by rw [wd, if_pos h, if_pos t]
theorem wd_not {x : Nat} (h : x < n) (t : lms ty x = false) : wd n S ty x = S x :: wd n S ty (x+1) := by rw [wd, if_pos h, if_neg (by rw [t]; decide)]
theorem wd_ne {x : Nat} (h : x < n) : ∃ l, wd n S ty x = S x :: l := by
  cases t : lms ty x with
  | true => exact ⟨_, wd_lms h t⟩
  | false => exact ⟨_, wd_not h t⟩

theorem Ctx.lms_last (C : Ctx n S ty) : lms ty (n-1) = true := by
  have h2 := C.two
  have h := C.pos (n-2) (by omega)
  have ht := C.tstep (n-2) (by omega)
  rw [show n - 2 + 1 = n - 1 by omega, C.last] at ht
  have : ty (n-2) = false := by
    rw [ht]
    simp
    intro h'; omega
  have := lms_succ this
  rw [show n - 2 + 1 = n - 1 by omega] at this
  rw [this, C.tlast]

theorem Ctx.not_last (C : Ctx n S ty) {x : Nat} (hx : x < n) (h : lms ty x = false) : x + 1 < n := by
  by_contra hc
  have : x = n - 1 := by omega
  rw [this, C.lms_last] at h; cases h

/-- Equal words: both at an LMS position, or neither. -/
theorem Ctx.wd_eq (C : Ctx n S ty) {x y : Nat} (hx : x < n) (hy : y < n) (h : wd n S ty x = wd n S ty y) :
    S x = S y ∧ lms ty x = lms ty y ∧ (lms ty x = false → wd n S ty (x+1) = wd n S ty (y+1)) := by
  cases lx : lms ty x with
  | true =>
    cases ly : lms ty y with
    | true =>
      rw [wd_lms hx lx, wd_lms hy ly] at h
      injection h with h
      exact ⟨h, rfl, fun h => by cases h⟩
    | false =>
      exfalso
      rw [wd_lms hx lx, wd_not hy ly] at h
      injection h with _ h
      obtain ⟨l, e⟩ := wd_ne (S := S) (ty := ty) (C.not_last hy ly)
      rw [e] at h; cases h
  | false =>
    cases ly : lms ty y with
    | true =>
      exfalso
      rw [wd_not hx lx, wd_lms hy ly] at h
      injection h with _ h
      obtain ⟨l, e⟩ := wd_ne (S := S) (ty := ty) (C.not_last hx lx)
      rw [e] at h; cases h
    | false =>
      rw [wd_not hx lx, wd_not hy ly] at h
      injection h with h1 h2
      exact ⟨h1, rfl, fun _ => h2⟩

/-- Equal words have equal types. -/
theorem Ctx.wd_ty (C : Ctx n S ty) : ∀ (d x y : Nat), n - x ≤ d → x < n → y < n → wd n S ty x = wd n S ty y → ty x = ty y := by
  intro d
  induction d with
  | zero => intro x y h1 h2; omega
  | succ d ih =>
    intro x y h hx hy e
    obtain ⟨e1, e2, e3⟩ := C.wd_eq hx hy e
    cases lx : lms ty x with
    | true =>
      have ly : lms ty y = true := by rw [← e2]; exact lx
      rw [lms_ty lx, lms_ty ly]
    | false =>
      have hx1 := C.not_last hx lx
      have hy1 := C.not_last hy (by rw [← e2]; exact lx)
      have e4 := e3 lx
      have e5 := (C.wd_eq hx1 hy1 e4).1
      rw [C.tstep x hx1, C.tstep y hy1, e1, e5, ih (x+1) (y+1) (by omega) hx1 hy1 e4]

theorem Ctx.s1_of_wd (C : Ctx n S ty) : ∀ (d x y : Nat), n - x ≤ d → x + 1 < n → y + 1 < n → ty x = false → ty y = false →
    (wd n S ty (x+1) = wd n S ty (y+1) ↔ s1 n S ty (x+1) = s1 n S ty (y+1)) := by
  intro d
  induction d with
  | zero => intro x y h1 h2; omega
  | succ d ih =>
    intro x y h hx hy tx ty0
    have lx := lms_succ tx
    have ly := lms_succ ty0
    constructor
    · intro e
      obtain ⟨e1, e2, e3⟩ := C.wd_eq hx hy e
      have e4 := C.wd_ty n (x+1) (y+1) (by omega) hx hy e
      cases t : ty (x+1) with
      | true => rw [s1_S hx t, s1_S hy (by rw [← e4]; exact t), tc_congr e1 e4]
      | false =>
        have t' : ty (y+1) = false := by rw [← e4]; exact t
        rw [s1_L hx t, s1_L hy t', tc_congr e1 e4, (ih (x+1) (y+1) (by omega) (C.L_lt hx t) (C.L_lt hy t') t t').1 (e3 (by rw [lx]; exact t))]
    · intro e
      cases t : ty (x+1) with
      | true =>
        cases t' : ty (y+1) with
        | true =>
          rw [s1_S hx t, s1_S hy t'] at e
          injection e with e
          rw [wd_lms hx (by rw [lx]; exact t), wd_lms hy (by rw [ly]; exact t'), (tc_eq e).1]
        | false =>
          rw [s1_S hx t, s1_L hy t'] at e
          injection e with e
          have := (tc_eq e).2; rw [t, t'] at this; cases this
      | false =>
        cases t' : ty (y+1) with
        | true =>
          rw [s1_L hx t, s1_S hy t'] at e
          injection e with e
          have := (tc_eq e).2; rw [t, t'] at this; cases this
        | false =>
          rw [s1_L hx t, s1_L hy t'] at e
          injection e with e1 e2
          rw [wd_not hx (by rw [lx]; exact t), wd_not hy (by rw [ly]; exact t'), (tc_eq e1).1,
            (ih (x+1) (y+1) (by omega) (C.L_lt hx t) (C.L_lt hy t') t t').2 e2]

/-- The comparison of characters and LMS positions decides equality of LMS substrings. -/
theorem Ctx.s2_of_wd (C : Ctx n S ty) : ∀ (d x y : Nat), n - x ≤ d → x + 1 < n → y + 1 < n → ty x = true → ty y = true → S x = S y →
    (wd n S ty (x+1) = wd n S ty (y+1) ↔ s2 n S ty (x+1) = s2 n S ty (y+1)) := by
  intro d
  induction d with
  | zero => intro x y h1 h2; omega
  | succ d ih =>
    intro x y h hx hy tx ty0 hs
    have lx := not_lms_succ tx
    have ly := not_lms_succ ty0
    have hx2 := (C.S_step hx tx).1
    have hy2 := (C.S_step hy ty0).1
    constructor
    · intro e
      obtain ⟨e1, e2, e3⟩ := C.wd_eq hx hy e
      have e4 := C.wd_ty n (x+1) (y+1) (by omega) hx hy e
      have e5 := e3 lx
      cases t : ty (x+1) with
      | true =>
        have t' : ty (y+1) = true := by rw [← e4]; exact t
        rw [s2_S hx t, s2_S hy t', tc_congr e1 e4, (ih (x+1) (y+1) (by omega) hx2 hy2 t t' e1).1 e5]
      | false =>
        have t' : ty (y+1) = false := by rw [← e4]; exact t
        rw [s2_L hx t, s2_L hy t', tc_congr e1 e4, (C.s1_of_wd n (x+1) (y+1) (by omega) hx2 hy2 t t').1 e5]
    · intro e
      rw [wd_not hx lx, wd_not hy ly]
      cases t : ty (x+1) with
      | true =>
        cases t' : ty (y+1) with
        | true =>
          rw [s2_S hx t, s2_S hy t'] at e
          injection e with e1 e2
          rw [(tc_eq e1).1, (ih (x+1) (y+1) (by omega) hx2 hy2 t t' (tc_eq e1).1).2 e2]
        | false =>
          rw [s2_S hx t, s2_L hy t'] at e
          injection e with e
          have := (tc_eq e).2; rw [t, t'] at this; cases this
      | false =>
        cases t' : ty (y+1) with
        | true =>
          rw [s2_L hx t, s2_S hy t'] at e
          injection e with e
          have := (tc_eq e).2; rw [t, t'] at this; cases this
        | false =>
          rw [s2_L hx t, s2_L hy t'] at e
          injection e with e1 e2
          rw [(tc_eq e1).1, (C.s1_of_wd n (x+1) (y+1) (by omega) hx2 hy2 t t').2 e2]

/-- With the same first character, a suffix of L-type comes before one of S-type. -/
theorem Ctx.LS (C : Ctx n S ty) {Sl : List Nat} (hS : Rep Sl n S) : ∀ (d x y : Nat), n - x ≤ d → x < n → y < n → ty x = false → ty y = true →
    S x = S y → Sl.drop x < Sl.drop y := by
  have hd : ∀ x, x < n → Sl.drop x = S x :: Sl.drop (x+1) := by
    intro x hx
    have h1 : x < Sl.length := by rw [hS.len]; exact hx
    rw [List.drop_eq_getElem_cons h1]
    congr 1
    have := hS.val x hx
    rw [List.getElem?_eq_getElem h1] at this
    injection this
  intro d
  induction d with
  | zero => intro x y h1 h2; omega
  | succ d ih =>
    intro x y h hx hy tx ty0 hs
    have hx1 := C.L_lt hx tx
    have hy1 : y + 1 < n := by
      by_contra hc
      have h1 := C.pos x hx1
      have h2 := C.last
      rw [show n - 1 = y by omega] at h2
      omega
    rw [hd x hx, hd y hy, tail_lt hs]
    have h3 := C.L_step hx tx
    have h4 := (C.S_step hy1 ty0).2
    by_cases hc : S (x+1) < S (y+1)
    · rw [hd (x+1) hx1, hd (y+1) hy1]
      exact head_lt hc
    · have e1 : S (x+1) = S (y+1) := by omega
      have e2 : ty (x+1) = false := by
        rcases h3 with h3 | h3
        · omega
        · exact h3.2
      have e3 : ty (y+1) = true := by
        rcases h4 with h4 | h4
        · omega
        · exact h4.2
      exact ih (x+1) (y+1) (by omega) hx1 hy1 e2 e3 e1

theorem Ctx.drop_of_fk (C : Ctx n S ty) {Sl : List Nat} (hS : Rep Sl n S) : ∀ (d x y : Nat), n - x ≤ d →
    fk n S ty x < fk n S ty y → Sl.drop x < Sl.drop y := by
  have hd : ∀ x, x < n → Sl.drop x = S x :: Sl.drop (x+1) := by
    intro x hx
    have h1 : x < Sl.length := by rw [hS.len]; exact hx
    rw [List.drop_eq_getElem_cons h1]
    congr 1
    have := hS.val x hx
    rw [List.getElem?_eq_getElem h1] at this
    injection this
  have hnil : ∀ x y, ¬ x < n → fk n S ty x < fk n S ty y → Sl.drop x < Sl.drop y := by
    intro x y hx h
    by_cases hy : y < n
    · rw [hd y hy, List.drop_eq_nil_of_le (by rw [hS.len]; omega)]
      exact nil_lt
    · rw [fk_ge hy] at h; exact absurd h not_lt_nil
  intro d
  induction d with
  | zero => intro x y h; exact hnil x y (by omega)
  | succ d ih =>
    intro x y h e
    by_cases hx : x < n
    · by_cases hy : y < n
      · rw [fk_lt hx, fk_lt hy, cons_lt] at e
        rcases e with e | e
        · rcases tc_lt e with e1 | ⟨e1, e2, e3⟩
          · rw [hd x hx, hd y hy]; exact head_lt e1
          · exact C.LS hS n x y (by omega) hx hy e2 e3 e1
        · rw [hd x hx, hd y hy, tail_lt (tc_eq e.1).1]
          exact ih _ _ (by omega) e.2
      · rw [fk_ge hy] at e; exact absurd e not_lt_nil
    · exact hnil x y hx e

end Verif.Sais
