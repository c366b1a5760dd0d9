import Verif.Rmq.Word
/-! Cartesian trees and their parentheses: the range minimum of the values is the range minimum of the excess. -/
namespace Verif.Rmq
open Verif

/-- A binary tree of indices. -/
inductive CT
  | nil
  | node (l : CT) (v : Nat) (r : CT)

/-- The parentheses. -/
def bits : CT → List Bool
  | .nil => []
  | .node l _ r => true :: (bits l ++ false :: bits r)

/-- `t` is the Cartesian tree of `a` on `[lo, hi)`, ties to the left. -/
def Cart (a : Nat → Int) : Nat → Nat → CT → Prop
  | lo, hi, .nil => lo = hi
  | lo, hi, .node l v r => lo ≤ v ∧ v < hi ∧ Cart a lo v l ∧ Cart a (v+1) hi r ∧ (∀ i, lo ≤ i → i < v → a v < a i) ∧ ∀ i, v < i → i < hi → a v ≤ a i

/-- Excess of the first `k` parentheses. -/
def ex : List Bool → Nat → Int
  | [], _ => 0
  | _ :: _, 0 => 0
  | b :: l, k+1 => (if b then 1 else -1) + ex l k

@[simp] theorem ex_zero (l : List Bool) : ex l 0 = 0 := by cases l <;> rfl

theorem ex_app : ∀ (l m : List Bool) (k : Nat), ex (l ++ m) (l.length + k) = ex l l.length + ex m k := by
  intro l
  induction l with
  | nil => intro m k; simp [ex]
  | cons b l ih =>
    intro m k
    rw [List.cons_append, List.length_cons, show l.length + 1 + k = (l.length + k) + 1 from by omega]
    simp only [ex]
    rw [ih]; omega

theorem ex_app_left : ∀ (l m : List Bool) (k : Nat), k ≤ l.length → ex (l ++ m) k = ex l k := by
  intro l
  induction l with
  | nil => intro m k h; simp at h; subst h; simp
  | cons b l ih =>
    intro m k h
    cases k with
    | zero => simp
    | succ k => simp at h; simp only [List.cons_append, ex]; rw [ih _ _ h]

theorem bits_tot : ∀ t : CT, ex (bits t) (bits t).length = 0 := by
  intro t
  induction t with
  | nil => rfl
  | node l v r ihl ihr =>
    simp only [bits, List.length_cons, List.length_append, ex]
    rw [ex_app, ihl]
    simp only [ex]
    rw [ihr]; decide

/-- Within the left part of a node. -/
theorem ex_left (l : CT) (v : Nat) (r : CT) {i : Nat} (hi : i < (bits l).length) : ex (bits (.node l v r)) (1 + i + 1) = 1 + ex (bits l) (i+1) := by
  rw [show 1 + i + 1 = (i + 1) + 1 from by omega]
  simp only [bits, ex]
  rw [ex_app_left _ _ _ (by omega)]; rfl

theorem ex_mid (l : CT) (v : Nat) (r : CT) : ex (bits (.node l v r)) (1 + (bits l).length + 1) = 0 := by
  rw [show 1 + (bits l).length + 1 = ((bits l).length + 1) + 1 from by omega]
  simp only [bits, ex]
  rw [ex_app, bits_tot]; simp [ex]

theorem ex_right (l : CT) (v : Nat) (r : CT) (i : Nat) : ex (bits (.node l v r)) (2 + (bits l).length + i + 1) = ex (bits r) (i+1) := by
  rw [show 2 + (bits l).length + i + 1 = ((bits l).length + (i+1+1)) + 1 from by omega]
  simp only [bits, ex]
  rw [ex_app, bits_tot]
  simp only [ex]
  simp

theorem bits_nn : ∀ (t : CT) (k : Nat), k ≤ (bits t).length → 0 ≤ ex (bits t) k := by
  intro t
  induction t with
  | nil => intro k _; simp [bits, ex]
  | node l v r ihl ihr =>
    intro k hk
    simp only [bits, List.length_cons, List.length_append] at hk
    rcases Nat.eq_zero_or_pos k with h | h
    · subst h; simp
    obtain ⟨k, rfl⟩ := Nat.exists_eq_add_of_le' h
    rcases Nat.eq_zero_or_pos k with h | h
    · subst h; simp [bits, ex]
    obtain ⟨k, rfl⟩ := Nat.exists_eq_add_of_le h
    by_cases h1 : k < (bits l).length
    · rw [show 0 + 1 + k + 1 = 1 + k + 1 from by omega, ex_left l v r h1]
      have := ihl (k+1) (by omega); omega
    by_cases h2 : k = (bits l).length
    · subst h2
      rw [show 0 + 1 + (bits l).length + 1 = 1 + (bits l).length + 1 from by omega, ex_mid]
    · obtain ⟨i, hi⟩ := Nat.exists_eq_add_of_le (show (bits l).length + 1 ≤ k by omega)
      subst hi
      rw [show 0 + 1 + ((bits l).length + 1 + i) + 1 = 2 + (bits l).length + i + 1 from by omega, ex_right]
      exact ihr _ (by omega)

/-- The place of the closing parenthesis of `x`. -/
def cl : CT → Nat → Nat
  | .nil, _ => 0
  | .node l v r, x => if x < v then 1 + cl l x else if x = v then 1 + (bits l).length else 2 + (bits l).length + cl r x

theorem cl_left {l r : CT} {v x : Nat} (h : x < v) : cl (.node l v r) x = 1 + cl l x := by simp [cl, h]
theorem cl_mid {l r : CT} {v : Nat} : cl (.node l v r) v = 1 + (bits l).length := by simp [cl]
theorem cl_right {l r : CT} {v x : Nat} (h : v < x) : cl (.node l v r) x = 2 + (bits l).length + cl r x := by
  simp only [cl]; rw [if_neg (by omega), if_neg (by omega)]

theorem cl_lt {a : Nat → Int} : ∀ (t : CT) {lo hi : Nat}, Cart a lo hi t → ∀ x, lo ≤ x → x < hi → cl t x < (bits t).length := by
  intro t
  induction t with
  | nil => intro lo hi h x h1 h2; simp only [Cart] at h; omega
  | node l v r ihl ihr =>
    intro lo hi ⟨_, _, hl, hr, _, _⟩ x h1 h2
    simp only [bits, List.length_cons, List.length_append]
    rcases Nat.lt_trichotomy x v with h | h | h
    · rw [cl_left h]; have := ihl hl x h1 h; omega
    · subst h; rw [cl_mid]; omega
    · rw [cl_right h]; have := ihr hr x h h2; omega

/-- It closes, and there are as many closing ones before it as indices below `x`. -/
theorem cl_bit {a : Nat → Int} : ∀ (t : CT) {lo hi : Nat}, Cart a lo hi t → ∀ x, lo ≤ x → x < hi →
    (bits t)[cl t x]? = some false ∧ ((bits t).take (cl t x)).count false = x - lo := by
  have hfull : ∀ (t : CT) {lo hi : Nat}, Cart a lo hi t → (bits t).count false = hi - lo ∧ lo ≤ hi := by
    intro t
    induction t with
    | nil => intro lo hi h; simp only [Cart] at h; subst h; simp [bits]
    | node l v r ihl ihr =>
      intro lo hi ⟨h1, h2, hl, hr, _, _⟩
      have a1 := ihl hl
      have a2 := ihr hr
      refine ⟨?_, by omega⟩
      simp only [bits, List.count_cons, List.count_append]
      simp; omega
  intro t
  induction t with
  | nil => intro lo hi h x h1 h2; simp only [Cart] at h; omega
  | node l v r ihl ihr =>
    intro lo hi ⟨hv1, hv2, hl, hr, _, _⟩ x h1 h2
    rcases Nat.lt_trichotomy x v with h | h | h
    · rw [cl_left h]
      have hlt := cl_lt l hl x h1 h
      obtain ⟨g1, g2⟩ := ihl hl x h1 h
      rw [Nat.add_comm]
      simp only [bits]
      rw [List.getElem?_cons_succ, List.getElem?_append_left hlt, List.take_succ_cons, List.take_append_of_le_length (by omega)]
      exact ⟨g1, by simp [g2]⟩
    · subst h; rw [cl_mid, Nat.add_comm]
      simp only [bits]
      rw [List.getElem?_cons_succ, List.take_succ_cons]
      have := (hfull l hl).1
      simp [this]
    · rw [cl_right h]
      obtain ⟨g1, g2⟩ := ihr hr x h h2
      rw [show 2 + (bits l).length + cl r x = ((bits l).length + (cl r x + 1)) + 1 from by omega]
      simp only [bits]
      rw [List.getElem?_cons_succ, List.take_succ_cons, List.getElem?_append_right (by omega), List.take_append, List.take_of_length_le (by omega)]
      rw [show (bits l).length + (cl r x + 1) - (bits l).length = cl r x + 1 from by omega, List.getElem?_cons_succ, List.take_succ_cons]
      have := (hfull l hl).1
      refine ⟨g1, ?_⟩
      simp only [List.count_cons, List.count_append]
      simp [g2]; omega

theorem cl_mono {a : Nat → Int} : ∀ (t : CT) {lo hi : Nat}, Cart a lo hi t → ∀ x y, lo ≤ x → x < y → y < hi → cl t x < cl t y := by
  intro t
  induction t with
  | nil => intro lo hi h x y h1 h2 h3; simp only [Cart] at h; omega
  | node l v r ihl ihr =>
    intro lo hi ⟨_, _, hl, hr, _, _⟩ x y h1 h2 h3
    rcases Nat.lt_trichotomy x v with h | h | h
    · have := cl_lt l hl x h1 h
      rw [cl_left h]
      rcases Nat.lt_trichotomy y v with g | g | g
      · rw [cl_left g]; have := ihl hl x y h1 h2 g; omega
      · subst g; rw [cl_mid]; omega
      · rw [cl_right g]; omega
    · subst h; rw [cl_mid, cl_right h2]; omega
    · rw [cl_right h, cl_right (by omega)]; have := ihr hr x y h h2 h3; omega

/-- The leftmost minimum of the values is at the leftmost minimum of the excess between the closing parentheses. -/
theorem lca_min {a : Nat → Int} : ∀ (t : CT) {lo hi : Nat}, Cart a lo hi t → ∀ x y z, lo ≤ x → x ≤ y → y < hi → IsLM a x (y+1) z →
    IsLM (fun i => ex (bits t) (i+1)) (cl t x) (cl t y + 1) (cl t z) := by
  intro t
  induction t with
  | nil => intro lo hi h x y z h1 h2 h3; simp only [Cart] at h; omega
  | node l v r ihl ihr =>
    intro lo hi hc x y z h1 h2 h3 hz
    have hc' := hc
    obtain ⟨hv1, hv2, hl, hr, ha1, ha2⟩ := hc
    by_cases hyv : y < v
    · have hzy := hz.2.1
      have := isLM_shift (F := fun i => ex (bits (.node l v r)) (i+1)) (d := 1) (c := 1) (ihl hl x y z h1 h2 hyv hz) (by
        intro j _ hj
        have := cl_lt l hl y (by omega) hyv
        exact ex_left l v r (by omega))
      rw [cl_left (x := x) (by omega), cl_left (x := y) hyv, cl_left (x := z) (by omega)]
      exact this
    by_cases hxv : v < x
    · have hzx := hz.1
      have := isLM_shift (F := fun i => ex (bits (.node l v r)) (i+1)) (d := 2 + (bits l).length) (c := 0) (ihr hr x y z hxv h2 h3 hz) (by
        intro j _ hj
        show ex _ (2 + (bits l).length + j + 1) = _
        rw [ex_right]; omega)
      rw [cl_right (x := x) hxv, cl_right (x := y) (by omega), cl_right (x := z) (by omega)]
      exact this
    · have hzv : z = v := isLM_unique hz ⟨by omega, by omega, by
        intro j hj hj'
        rcases Nat.lt_trichotomy j v with h | h | h
        · have := ha1 j (by omega) h; omega
        · subst h; exact le_refl _
        · exact ha2 j h (by omega), fun j hj hj' => ha1 j (by omega) hj'⟩
      subst hzv
      have mid : ∀ y, z < y → y < hi → cl (.node l z r) z < cl (.node l z r) y := fun y h h' => cl_mono _ hc' z y hv1 h h'
      have mid' : ∀ x, lo ≤ x → x < z → cl (.node l z r) x < cl (.node l z r) z := fun x h h' => cl_mono _ hc' x z h h' hv2
      refine ⟨?_, ?_, ?_, ?_⟩
      · by_cases h : x = z
        · rw [h]
        · have := mid' x h1 (by omega); omega
      · by_cases h : y = z
        · rw [h]; omega
        · have := mid y (by omega) h3; omega
      · intro j _ hj
        have := cl_lt _ hc' y (by omega) h3
        show ex _ (cl _ z + 1) ≤ ex _ (j+1)
        rw [cl_mid, ex_mid]
        exact bits_nn _ _ (by omega)
      · intro j _ hj
        rw [cl_mid] at hj
        show ex _ (cl _ z + 1) < ex _ (j+1)
        rw [cl_mid, ex_mid]
        cases j with
        | zero => simp [bits, ex]
        | succ j =>
          rw [show j + 1 + 1 = 1 + j + 1 from by omega, ex_left l z r (by omega)]
          have := bits_nn l (j+1) (by omega); omega

end Verif.Rmq
