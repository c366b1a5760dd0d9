import Verif.ChtMap.Model
import Verif.Common.Vec
import Mathlib.Tactic.Linarith
import Mathlib.Tactic.Ring
/-! Helper lemmas for the map version of the convex hull trick. -/
namespace Verif.ChtMap
open Verif

/-! ### Normalised coordinates -/

/-- `1` for `std::less`, `-1` for `std::greater`. -/
def sg (up : Bool) : Int := if up then 1 else -1

def na (up : Bool) (l : Line) : Int := sg up * l.1
def nb (up : Bool) (l : Line) : Int := sg up * l.2
/-- The value of a line, so that larger is better. -/
def ev (up : Bool) (l : Line) (x : Int) : Int := na up l * x + nb up l

def Real (M : Int) (l : Line) : Prop := -M ≤ l.1 ∧ l.1 ≤ M ∧ -M ≤ l.2 ∧ l.2 ≤ M

/-- `h` is strictly above the segment from `g` to `i` (lines as points). -/
def cr (up : Bool) (g h i : Line) : Prop :=
  (nb up i - nb up h) * (na up h - na up g) < (nb up h - nb up g) * (na up i - na up h)

theorem lt_iff {up : Bool} {a b : Int} : lt up a b = true ↔ sg up * a < sg up * b := by
  cases up <;> simp [lt, sg]

theorem lt_na {up : Bool} {g h : Line} : lt up g.1 h.1 = true ↔ na up g < na up h := lt_iff
theorem lt_nb {up : Bool} {g h : Line} : lt up g.2 h.2 = true ↔ nb up g < nb up h := lt_iff

theorem lt_ev {up : Bool} {g h : Line} {x : Int} : lt up (g.1 * x + g.2) (h.1 * x + h.2) = true ↔ ev up g x < ev up h x := by
  rw [lt_iff]
  have e : ∀ l : Line, sg up * (l.1 * x + l.2) = ev up l x := by intro l; simp only [ev, na, nb]; ring
  rw [e, e]

theorem cr_iff {up : Bool} {g h i : Line} : cr up g h i ↔ (h.2 - g.2) * (h.1 - i.1) < (i.2 - h.2) * (g.1 - h.1) := by
  cases up <;> simp only [cr, na, nb, sg, if_true, Bool.false_eq_true, if_false] <;> constructor <;> intro h <;> nlinarith

theorem na_ne {up : Bool} {g h : Line} (hh : na up g < na up h) : g.1 ≠ h.1 := by
  intro e; rw [na, na, e] at hh; omega

/-! ### Geometry -/

theorem cr_peak {up : Bool} {g h i : Line} (h1 : na up g < na up h) (h2 : na up h < na up i) (hc : cr up g h i) {x : Int}
    (hx : ev up h x ≤ ev up g x) : ev up i x < ev up h x := by
  unfold cr at hc; unfold ev at *
  by_contra hn
  have p1 : 0 ≤ (na up i - na up h) * ((na up g * x + nb up g) - (na up h * x + nb up h)) := mul_nonneg (by omega) (by omega)
  have p2 : 0 ≤ (na up h - na up g) * ((na up i * x + nb up i) - (na up h * x + nb up h)) := mul_nonneg (by omega) (by omega)
  nlinarith

theorem cr_drop {up : Bool} {g h i : Line} (h1 : na up g < na up h) (h2 : na up h < na up i) (hc : ¬ cr up g h i) (x : Int) :
    ev up h x ≤ ev up g x ∨ ev up h x ≤ ev up i x := by
  unfold cr at hc; unfold ev at *
  by_contra hn
  rw [not_or] at hn
  have p1 : 0 < (na up i - na up h) * ((na up h * x + nb up h) - (na up g * x + nb up g)) := mul_pos (by omega) (by omega)
  have p2 : 0 < (na up h - na up g) * ((na up h * x + nb up h) - (na up i * x + nb up i)) := mul_pos (by omega) (by omega)
  nlinarith

theorem alg4 {p q r A B D : Int} (hp : 0 < p) (hq : 0 < q) (hr : 0 < r) (h1 : B * p < A * q) (h2 : D * q < B * r) : D * p < A * r := by
  have e1 : B * p * r < A * q * r := by nlinarith
  have e2 : D * q * p < B * r * p := by nlinarith
  have e3 : q * (D * p) < q * (A * r) := by nlinarith
  exact lt_of_mul_lt_mul_left e3 (by omega)

theorem cr_right {up : Bool} {g h i k : Line} (s1 : na up g < na up h) (s2 : na up h < na up i) (s3 : na up i < na up k)
    (h1 : cr up g h i) (h2 : cr up h i k) : cr up g h k := by
  unfold cr at *
  have := alg4 (p := na up h - na up g) (q := na up i - na up h) (r := na up k - na up i) (A := nb up h - nb up g) (B := nb up i - nb up h)
    (D := nb up k - nb up i) (by omega) (by omega) (by omega) h1 h2
  nlinarith

theorem cr_left {up : Bool} {g h i k : Line} (s1 : na up g < na up h) (s2 : na up h < na up i) (s3 : na up i < na up k)
    (h1 : cr up g h i) (h2 : cr up h i k) : cr up g i k := by
  unfold cr at *
  have := alg4 (p := na up h - na up g) (q := na up i - na up h) (r := na up k - na up i) (A := nb up h - nb up g) (B := nb up i - nb up h)
    (D := nb up k - nb up i) (by omega) (by omega) (by omega) h1 h2
  nlinarith

/-- `Q` above `PT` and `R` above `QT` give `R` above `PT`. -/
theorem cr_popl {up : Bool} {P Q R T : Line} (s1 : na up P < na up Q) (s2 : na up Q < na up R) (s3 : na up R < na up T)
    (h1 : cr up P Q T) (h2 : cr up Q R T) : cr up P R T := by
  unfold cr at *
  have e1 : (na up T - na up R) * ((nb up T - nb up Q) * (na up Q - na up P)) < (na up T - na up R) * ((nb up Q - nb up P) * (na up T - na up Q)) :=
    mul_lt_mul_of_pos_left h1 (by omega)
  have e2 : (na up T - na up P) * ((nb up T - nb up R) * (na up R - na up Q)) < (na up T - na up P) * ((nb up R - nb up Q) * (na up T - na up R)) :=
    mul_lt_mul_of_pos_left h2 (by omega)
  have e3 : (na up T - na up Q) * ((nb up T - nb up R) * (na up R - na up P)) < (na up T - na up Q) * ((nb up R - nb up P) * (na up T - na up R)) := by
    nlinarith
  exact lt_of_mul_lt_mul_left e3 (by omega)

/-- `R` above `QT` and `T` above `QU` give `R` above `QU`. -/
theorem cr_popr {up : Bool} {Q R T U : Line} (s1 : na up Q < na up R) (s2 : na up R < na up T) (s3 : na up T < na up U)
    (h1 : cr up Q R T) (h2 : cr up Q T U) : cr up Q R U := by
  unfold cr at *
  have e1 : (na up U - na up Q) * ((nb up T - nb up R) * (na up R - na up Q)) < (na up U - na up Q) * ((nb up R - nb up Q) * (na up T - na up R)) :=
    mul_lt_mul_of_pos_left h1 (by omega)
  have e2 : (na up R - na up Q) * ((nb up U - nb up T) * (na up T - na up Q)) < (na up R - na up Q) * ((nb up T - nb up Q) * (na up U - na up T)) :=
    mul_lt_mul_of_pos_left h2 (by omega)
  have e3 : (na up T - na up Q) * ((nb up U - nb up R) * (na up R - na up Q)) < (na up T - na up Q) * ((nb up R - nb up Q) * (na up U - na up R)) := by
    nlinarith
  exact lt_of_mul_lt_mul_left e3 (by omega)

/-! ### Hulls as functions of the position: `0` and `m + 1` are the sentinels -/

structure HF (up : Bool) (I M : Int) (m : Nat) (f : Nat → Line) : Prop where
  lo : f 0 = (axLo up I, 0)
  hi : f (m + 1) = (axHi up I, 0)
  real : ∀ i, 1 ≤ i → i ≤ m → Real M (f i)
  sl : ∀ i j, i < j → j ≤ m + 1 → na up (f i) < na up (f j)
  cv : ∀ i j k, 1 ≤ i → i < j → j < k → k ≤ m → cr up (f i) (f j) (f k)

theorem sl_of_step {up : Bool} {f : Nat → Line} {n : Nat} (h : ∀ i, i < n → na up (f i) < na up (f (i+1))) :
    ∀ i j, i < j → j ≤ n → na up (f i) < na up (f j) := by
  intro i j hij hj
  induction j with
  | zero => omega
  | succ j ih =>
    by_cases e : i = j
    · subst e; exact h i (by omega)
    · exact lt_trans (ih (by omega) (by omega)) (h j (by omega))

theorem cv_of_step {up : Bool} {f : Nat → Line} {m : Nat} (hs : ∀ i j, i < j → j ≤ m + 1 → na up (f i) < na up (f j))
    (h : ∀ i, 1 ≤ i → i + 2 ≤ m → cr up (f i) (f (i+1)) (f (i+2))) :
    ∀ d i j k, k - i ≤ d → 1 ≤ i → i < j → j < k → k ≤ m → cr up (f i) (f j) (f k) := by
  intro d
  induction d with
  | zero => intro i j k hd _ h1 h2 _; omega
  | succ d ih =>
    intro i j k hd hi h1 h2 hk
    by_cases e : i + 2 ≤ j
    · exact cr_left (hs i (i+1) (by omega) (by omega)) (hs (i+1) j (by omega) (by omega)) (hs j k (by omega) (by omega))
        (ih i (i+1) j (by omega) (by omega) (by omega) (by omega) (by omega)) (ih (i+1) j k (by omega) (by omega) (by omega) (by omega) (by omega))
    · by_cases e2 : j + 2 ≤ k
      · exact cr_right (hs i j (by omega) (by omega)) (hs j (j+1) (by omega) (by omega)) (hs (j+1) k (by omega) (by omega))
          (ih i j (j+1) (by omega) (by omega) (by omega) (by omega) (by omega)) (ih j (j+1) k (by omega) (by omega) (by omega) (by omega) (by omega))
      · have e3 : j = i + 1 := by omega
        have e4 : k = i + 2 := by omega
        subst e3; subst e4
        exact h i hi hk

/-! ### Arithmetic within the limits -/

theorem bnd {M x y : Int} (hM : 1 ≤ M) (hx : -(2*M) ≤ x ∧ x ≤ 2*M) (hy : -(2*M) ≤ y ∧ y ≤ 2*M) : -(4*M*M) ≤ x * y ∧ x * y ≤ 4*M*M := by
  have p1 := mul_nonneg (a := 2*M - x) (b := 2*M + y) (by omega) (by omega)
  have p2 := mul_nonneg (a := 2*M + x) (b := 2*M - y) (by omega) (by omega)
  have p3 := mul_nonneg (a := 2*M - x) (b := 2*M - y) (by omega) (by omega)
  have p4 := mul_nonneg (a := 2*M + x) (b := 2*M + y) (by omega) (by omega)
  constructor <;> nlinarith

theorem big {I M : Int} (hM : 1 ≤ M) (hI : 4*M*M < I) : 4*M < I := by nlinarith

theorem ck_ok {I v : Int} (h1 : mi I ≤ v) (h2 : v ≤ I) : ck I v = some v := if_pos ⟨h1, h2⟩
theorem ckS_ok {I v : Int} (h1 : mi I < v) (h2 : v < I) : ckS I v = some v := if_pos ⟨h1, h2⟩

theorem real_ne {up : Bool} {I M : Int} (hM : 1 ≤ M) (hI : 4*M*M < I) {l : Line} (hl : Real M l) : l.1 ≠ axLo up I ∧ l.1 ≠ axHi up I := by
  have := big hM hI
  obtain ⟨a, b, _, _⟩ := hl
  cases up <;> simp only [axLo, axHi, mi, if_true, Bool.false_eq_true, if_false] <;> omega

theorem ax_ne {up : Bool} {I M : Int} (hM : 1 ≤ M) (hI : 4*M*M < I) : axLo up I ≠ axHi up I := by
  have := big hM hI
  cases up <;> simp only [axLo, axHi, mi, if_true, Bool.false_eq_true, if_false] <;> omega

theorem f_eq {I M : Int} (hM : 1 ≤ M) (hI : 4*M*M < I) {l : Line} (hl : Real M l) {x : Int} (hx : -M ≤ x ∧ x ≤ M) : f I l x = some (l.1 * x + l.2) := by
  have hb := big hM hI
  obtain ⟨a, b, c, d⟩ := hl
  have p1 := mul_nonneg (a := M - l.1) (b := M + x) (by omega) (by omega)
  have p2 := mul_nonneg (a := M + l.1) (b := M - x) (by omega) (by omega)
  have p3 := mul_nonneg (a := M - l.1) (b := M - x) (by omega) (by omega)
  have p4 := mul_nonneg (a := M + l.1) (b := M + x) (by omega) (by omega)
  have q1 : l.1 * x ≤ M * M := by nlinarith
  have q2 : -(M * M) ≤ l.1 * x := by nlinarith
  have q3 : M ≤ M * M := by nlinarith
  have q4 : 4 * M * M = 4 * (M * M) := by ring
  rw [f, ck_ok (by rw [mi]; omega) (by omega)]
  exact ck_ok (by rw [mi]; omega) (by omega)

/-- `intersect_less` for three lines of increasing slope. -/
def X3 (up : Bool) (I : Int) (g h i : Line) : Prop := g.1 = axLo up I ∨ i.1 = axHi up I ∨ cr up g h i

instance {up : Bool} {g h i : Line} : Decidable (cr up g h i) := by unfold cr; infer_instance
instance {up : Bool} {I : Int} {g h i : Line} : Decidable (X3 up I g h i) := by unfold X3; infer_instance

theorem interLess_eq {up : Bool} {I M : Int} (hM : 1 ≤ M) (hI : 4*M*M < I) {g h i : Line} (s1 : na up g < na up h) (s2 : na up h < na up i)
    (rh : Real M h) (rg : g.1 = axLo up I ∨ Real M g) (ri : i.1 = axHi up I ∨ Real M i) : interLess up I g h i = some (decide (X3 up I g h i)) := by
  have hb := big hM hI
  unfold interLess
  rw [if_neg (na_ne s1), if_neg (na_ne s2)]
  by_cases e : g.1 = axLo up I ∨ i.1 = axHi up I
  · rw [if_pos e]
    have : X3 up I g h i := by
      rcases e with e | e
      · exact Or.inl e
      · exact Or.inr (Or.inl e)
    simp [this]
  · rw [if_neg e]
    rw [not_or] at e
    obtain ⟨g1, g2, g3, g4⟩ := rg.resolve_left e.1
    obtain ⟨i1, i2, i3, i4⟩ := ri.resolve_left e.2
    obtain ⟨h1, h2, h3, h4⟩ := rh
    rw [ck_ok (by rw [mi]; omega) (by omega), Option.bind_some, ck_ok (by rw [mi]; omega) (by omega), Option.bind_some,
      ck_ok (by rw [mi]; omega) (by omega), Option.bind_some, ck_ok (by rw [mi]; omega) (by omega), Option.bind_some]
    have b1 := bnd hM (x := h.2 - g.2) (y := h.1 - i.1) (by omega) (by omega)
    have b2 := bnd hM (x := i.2 - h.2) (y := g.1 - h.1) (by omega) (by omega)
    rw [ckS_ok (by rw [mi]; omega) (by omega), Option.bind_some, ck_ok (by rw [mi]; omega) (by omega), Option.bind_some, if_pos (by omega)]
    have : X3 up I g h i ↔ (h.2 - g.2) * (h.1 - i.1) < (i.2 - h.2) * (g.1 - h.1) := by
      rw [← cr_iff (up := up)]
      exact ⟨fun h => (h.resolve_left e.1).resolve_left e.2, fun h => Or.inr (Or.inr h)⟩
    congr 1
    exact (decide_eq_decide.2 this).symm

/-- The node between two lines of increasing slope. -/
def nd (up : Bool) (I : Int) (f g : Line) : Node :=
  if f.1 = axLo up I then (0, mi I) else if g.1 = axHi up I then (0, I) else (na up g - na up f, nb up f - nb up g)

theorem mkNode_eq {up : Bool} {I M : Int} (hM : 1 ≤ M) (hI : 4*M*M < I) {g h : Line} (s1 : na up g < na up h)
    (rg : g.1 = axLo up I ∨ Real M g) (rh : h.1 = axHi up I ∨ Real M h) : mkNode up I g h = some (nd up I g h) := by
  have hb := big hM hI
  unfold mkNode nd
  by_cases e1 : g.1 = axLo up I
  · rw [if_pos e1, if_pos e1]
  · rw [if_neg e1, if_neg e1]
    by_cases e2 : h.1 = axHi up I
    · rw [if_pos e2, if_pos e2]
    · rw [if_neg e2, if_neg e2]
      obtain ⟨g1, g2, g3, g4⟩ := rg.resolve_left e1
      obtain ⟨h1, h2, h3, h4⟩ := rh.resolve_left e2
      rw [ck_ok (by rw [mi]; omega) (by omega), Option.bind_some, ck_ok (by rw [mi]; omega) (by omega), Option.bind_some]
      rw [na, na, sg] at s1
      cases up
      · simp only [Bool.false_eq_true, if_false] at s1
        rw [if_neg (by omega)]
        simp only [na, nb, sg, Bool.false_eq_true, if_false]
        congr 2 <;> ring
      · simp only [if_true] at s1
        rw [if_pos (by omega), ck_ok (by rw [mi]; omega) (by omega), Option.bind_some, ck_ok (by rw [mi]; omega) (by omega)]
        simp only [na, nb, sg, if_true, Option.map_some]
        congr 2 <;> ring

/-! ### Nodes -/

def nlt (I : Int) (p q : Node) : Prop := ¬ (p.2 = I ∨ q.2 = mi I) ∧ (p.2 = mi I ∨ q.2 = I ∨ p.2 * q.1 < q.2 * p.1)

instance {I : Int} {p q : Node} : Decidable (nlt I p q) := by unfold nlt; infer_instance

def NB (I M : Int) (p : Node) : Prop := p.2 = mi I ∨ p.2 = I ∨ (0 < p.1 ∧ p.1 ≤ 2*M ∧ -(2*M) ≤ p.2 ∧ p.2 ≤ 2*M)

theorem nodeLt_eq {I M : Int} (hM : 1 ≤ M) (hI : 4*M*M < I) {p q : Node} (hp : NB I M p) (hq : NB I M q) : nodeLt I p q = some (decide (nlt I p q)) := by
  unfold nodeLt nlt
  by_cases e : p.2 = I ∨ q.2 = mi I
  · rw [if_pos e]; simp [e]
  · rw [if_neg e]
    by_cases e2 : p.2 = mi I ∨ q.2 = I
    · rw [if_pos e2]
      have : p.2 = mi I ∨ q.2 = I ∨ p.2 * q.1 < q.2 * p.1 := by tauto
      simp [e, this]
    · rw [if_neg e2]
      rw [not_or] at e e2
      obtain ⟨p1, p2, p3, p4⟩ := (hp.resolve_left e2.1).resolve_left e.1
      obtain ⟨q1, q2, q3, q4⟩ := (hq.resolve_left e.2).resolve_left e2.2
      have b1 := bnd hM (x := p.2) (y := q.1) (by omega) (by omega)
      have b2 := bnd hM (x := q.2) (y := p.1) (by omega) (by omega)
      rw [ckS_ok (by rw [mi]; omega) (by omega), Option.bind_some, ckS_ok (by rw [mi]; omega) (by omega)]
      simp [e, e2]

theorem nlt_asymm {I M : Int} (hM : 1 ≤ M) (hI : 4*M*M < I) {p q : Node} (h : nlt I p q) : ¬ nlt I q p := by
  have := big hM hI
  obtain ⟨h1, h2⟩ := h
  rintro ⟨h3, h4⟩
  rw [not_or] at h1 h3
  rcases h2 with h2 | h2 | h2
  · exact h3.2 h2
  · exact h3.1 h2
  · rcases h4 with h4 | h4 | h4
    · exact h1.2 h4
    · exact h1.1 h4
    · omega

theorem nlt_trans {I M : Int} (hM : 1 ≤ M) (hI : 4*M*M < I) {p q r : Node} (hp : NB I M p) (hq : NB I M q) (hr : NB I M r)
    (h1 : nlt I p q) (h2 : nlt I q r) : nlt I p r := by
  have hb := big hM hI
  obtain ⟨a1, a2⟩ := h1
  obtain ⟨b1, b2⟩ := h2
  rw [not_or] at a1 b1
  refine ⟨by rw [not_or]; exact ⟨a1.1, b1.2⟩, ?_⟩
  by_cases e1 : p.2 = mi I
  · exact Or.inl e1
  · by_cases e2 : r.2 = I
    · exact Or.inr (Or.inl e2)
    · refine Or.inr (Or.inr ?_)
      have a3 := (a2.resolve_left e1).resolve_left b1.1
      have b3 := (b2.resolve_left a1.2).resolve_left e2
      obtain ⟨p1, -⟩ := (hp.resolve_left e1).resolve_left a1.1
      obtain ⟨q1, -⟩ := (hq.resolve_left a1.2).resolve_left b1.1
      obtain ⟨r1, -⟩ := (hr.resolve_left b1.2).resolve_left e2
      have := alg4 (p := p.1) (q := q.1) (r := r.1) (A := -p.2) (B := -q.2) (D := -r.2) p1 q1 r1 (by linarith) (by linarith)
      linarith

section
variable {up : Bool} {I M : Int} {m : Nat} {f : Nat → Line}

theorem HF.lo_or (H : HF up I M m f) {i : Nat} (hi : i ≤ m) : (f i).1 = axLo up I ∨ Real M (f i) := by
  by_cases e : i = 0
  · subst e; rw [H.lo]; exact Or.inl rfl
  · exact Or.inr (H.real i (by omega) hi)

theorem HF.hi_or (H : HF up I M m f) {i : Nat} (h1 : 1 ≤ i) (hi : i ≤ m + 1) : (f i).1 = axHi up I ∨ Real M (f i) := by
  by_cases e : i = m + 1
  · subst e; rw [H.hi]; exact Or.inl rfl
  · exact Or.inr (H.real i h1 (by omega))

theorem HF.lo_iff (hM : 1 ≤ M) (hI : 4*M*M < I) (H : HF up I M m f) {i : Nat} (hi : i ≤ m + 1) : (f i).1 = axLo up I ↔ i = 0 := by
  constructor
  · intro e
    by_contra h0
    have := H.sl 0 i (by omega) hi
    rw [H.lo] at this
    exact na_ne this e.symm
  · rintro rfl; rw [H.lo]

theorem HF.hi_iff (hM : 1 ≤ M) (hI : 4*M*M < I) (H : HF up I M m f) {i : Nat} (hi : i ≤ m + 1) : (f i).1 = axHi up I ↔ i = m + 1 := by
  constructor
  · intro e
    by_contra h0
    have := H.sl i (m+1) (by omega) le_rfl
    rw [H.hi] at this
    exact na_ne this e
  · rintro rfl; rw [H.hi]

/-- The entries of `tr`. -/
def ent (up : Bool) (I : Int) (f : Nat → Line) (i : Nat) : Node × Line := (nd up I (f i) (f (i+1)), f i)

theorem HF.nd_eq (hM : 1 ≤ M) (hI : 4*M*M < I) (H : HF up I M m f) {i : Nat} (h1 : 1 ≤ i) (hi : i + 1 ≤ m) :
    nd up I (f i) (f (i+1)) = (na up (f (i+1)) - na up (f i), nb up (f i) - nb up (f (i+1))) := by
  unfold nd
  rw [if_neg (by rw [H.lo_iff hM hI (by omega)]; omega), if_neg (by rw [H.hi_iff hM hI (by omega)]; omega)]

theorem real_nab {M : Int} {l : Line} (h : Real M l) : -M ≤ na up l ∧ na up l ≤ M ∧ -M ≤ nb up l ∧ nb up l ≤ M := by
  obtain ⟨a, b, c, d⟩ := h
  cases up <;> simp only [na, nb, sg, if_true, Bool.false_eq_true, if_false] <;> omega

theorem nd_NB {up : Bool} {I M : Int} {g h : Line} (s1 : na up g < na up h)
    (rg : g.1 = axLo up I ∨ Real M g) (rh : h.1 = axHi up I ∨ Real M h) : NB I M (nd up I g h) := by
  unfold nd NB
  by_cases e1 : g.1 = axLo up I
  · rw [if_pos e1]; exact Or.inl rfl
  · rw [if_neg e1]
    by_cases e2 : h.1 = axHi up I
    · rw [if_pos e2]; exact Or.inr (Or.inl rfl)
    · rw [if_neg e2]
      have a := real_nab (up := up) (rg.resolve_left e1)
      have b := real_nab (up := up) (rh.resolve_left e2)
      refine Or.inr (Or.inr ?_)
      simp only
      omega

theorem HF.ent_NB (H : HF up I M m f) {i : Nat} (hi : i ≤ m) : NB I M (ent up I f i).1 :=
  nd_NB (H.sl i (i+1) (by omega) (by omega)) (H.lo_or hi) (H.hi_or (by omega) (by omega))

theorem HF.ent_step (hM : 1 ≤ M) (hI : 4*M*M < I) (H : HF up I M m f) {i : Nat} (hi : i + 1 ≤ m) : nlt I (ent up I f i).1 (ent up I f (i+1)).1 := by
  have hb := big hM hI
  have n1 : (f (i+1)).1 ≠ axLo up I := by rw [Ne, H.lo_iff hM hI (by omega)]; omega
  have n2 : (f (i+1)).1 ≠ axHi up I := by rw [Ne, H.hi_iff hM hI (by omega)]; omega
  by_cases e1 : i = 0
  · subst e1
    have a : (ent up I f 0).1 = (0, mi I) := by unfold ent nd; rw [H.lo]; simp
    have r1 := real_nab (up := up) (H.real 1 (by omega) hi)
    refine ⟨?_, Or.inl (by rw [a])⟩
    rw [a, not_or]
    refine ⟨by simp only [mi]; omega, ?_⟩
    unfold ent nd
    rw [if_neg n1]
    by_cases e2 : (f (0+1+1)).1 = axHi up I
    · rw [if_pos e2]; simp only [mi]; omega
    · rw [if_neg e2]
      have r2 := real_nab (up := up) ((H.hi_or (i := 0+1+1) (by omega) (by omega)).resolve_left e2)
      simp only [mi]
      simp only [zero_add] at *
      omega
  · have a : (ent up I f i).1 = (na up (f (i+1)) - na up (f i), nb up (f i) - nb up (f (i+1))) := H.nd_eq hM hI (by omega) hi
    have r1 := real_nab (up := up) (H.real (i+1) (by omega) hi)
    have r0 := real_nab (up := up) (H.real i (by omega) (by omega))
    by_cases e2 : i + 1 = m
    · have b : (ent up I f (i+1)).1 = (0, I) := by
        unfold ent nd
        rw [if_neg n1, if_pos (by rw [H.hi_iff hM hI (by omega)]; omega)]
      rw [a, b]
      refine ⟨?_, Or.inr (Or.inl rfl)⟩
      simp only [mi]
      omega
    · have b : (ent up I f (i+1)).1 = _ := H.nd_eq hM hI (i := i+1) (by omega) (by omega)
      have r2 := real_nab (up := up) (H.real (i+1+1) (by omega) (by omega))
      rw [a, b]
      refine ⟨?_, Or.inr (Or.inr ?_)⟩
      · simp only [mi]; omega
      · have := H.cv i (i+1) (i+1+1) (by omega) (by omega) (by omega) (by omega)
        unfold cr at this
        simp only
        nlinarith

theorem HF.ent_lt (hM : 1 ≤ M) (hI : 4*M*M < I) (H : HF up I M m f) {i j : Nat} (hij : i < j) (hj : j ≤ m) : nlt I (ent up I f i).1 (ent up I f j).1 := by
  induction j with
  | zero => omega
  | succ j ih =>
    by_cases e : i = j
    · subst e; exact H.ent_step hM hI hj
    · exact nlt_trans hM hI (H.ent_NB (by omega)) (H.ent_NB (by omega)) (H.ent_NB hj) (ih (by omega) (by omega)) (H.ent_step hM hI hj)

end

/-! ### The two maps -/

theorem lowerTr_eq {I : Int} {key : Node} : ∀ (tr : List (Node × Line)) (k : Nat), k ≤ tr.length →
    (∀ i, i < k → ∀ e, tr[i]? = some e → nodeLt I e.1 key = some true) → (∀ e, tr[k]? = some e → nodeLt I e.1 key = some false) →
    lowerTr I key tr = some k := by
  intro tr
  induction tr with
  | nil => intro k hk _ _; simp at hk; subst hk; rfl
  | cons a tr ih =>
    intro k hk h1 h2
    unfold lowerTr
    cases k with
    | zero => rw [h2 a rfl]; rfl
    | succ k =>
      rw [h1 0 (by omega) a rfl, Option.bind_some, if_pos rfl, ih k (by simpa using hk) (fun i hi e he => h1 (i+1) (by omega) e he)
        (fun e he => h2 e he)]
      rfl

theorem lowerL_eq {up : Bool} {a : Int} : ∀ (L : List Line) (k : Nat), k ≤ L.length →
    (∀ i, i < k → ∀ e, L[i]? = some e → lt up e.1 a = true) → (∀ e, L[k]? = some e → lt up e.1 a = false) → lowerL up a L = k := by
  intro L
  induction L with
  | nil => intro k hk _ _; simp at hk; subst hk; rfl
  | cons b L ih =>
    intro k hk h1 h2
    unfold lowerL
    cases k with
    | zero => rw [h2 b rfl]; rfl
    | succ k =>
      rw [h1 0 (by omega) b rfl, if_pos rfl, ih k (by simpa using hk) (fun i hi e he => h1 (i+1) (by omega) e he) (fun e he => h2 e he)]

theorem rep_insert {α : Type} {v : List α} {n k : Nat} {T : Nat → α} (h : Rep v n (fun i => if i < k then T i else T (i+1))) (hk : k ≤ n) :
    Rep (v.take k ++ T k :: v.drop k) (n+1) T := by
  constructor
  · simp [h.len]; omega
  · intro i hi
    rw [List.getElem?_append, List.length_take, h.len, Nat.min_eq_left hk]
    by_cases e : i < k
    · rw [if_pos e, List.getElem?_take_of_lt e, h.val i (by omega), if_pos e]
    · rw [if_neg e]
      by_cases e2 : i = k
      · subst e2; simp
      · obtain ⟨d, rfl⟩ : ∃ d, i = k + 1 + d := ⟨i - k - 1, by omega⟩
        rw [show k + 1 + d - k = d + 1 from by omega, List.getElem?_cons_succ, List.getElem?_drop, h.val (k + d) (by omega)]
        rw [if_neg (by omega), show k + d + 1 = k + 1 + d from by omega]

theorem emplaceTr_rep {I M : Int} (hM : 1 ≤ M) (hI : 4*M*M < I) {tr : List (Node × Line)} {n k : Nat} {T : Nat → Node × Line}
    (h : Rep tr n (fun i => if i < k then T i else T (i+1))) (hk : k ≤ n) (hN : ∀ i, i ≤ n → NB I M (T i).1)
    (hs : ∀ i j, i < j → j ≤ n → nlt I (T i).1 (T j).1) :
    ∃ tr', emplaceTr I (T k).1 (T k).2 tr = some (tr', k) ∧ Rep tr' (n+1) T := by
  have hl : lowerTr I (T k).1 tr = some k := by
    apply lowerTr_eq _ _ (by rw [h.len]; exact hk)
    · intro i hi e he
      rw [h.val i (by omega), if_pos hi] at he
      cases he
      rw [nodeLt_eq hM hI (hN i (by omega)) (hN k hk), decide_eq_true (hs i k hi hk)]
    · intro e he
      by_cases hkn : k < n
      · rw [h.val k hkn, if_neg (lt_irrefl _)] at he
        cases he
        rw [nodeLt_eq hM hI (hN (k+1) (by omega)) (hN k hk), decide_eq_false (nlt_asymm hM hI (hs k (k+1) (by omega) (by omega)))]
      · rw [List.getElem?_eq_none (by rw [h.len]; omega)] at he; cases he
  refine ⟨tr.take k ++ T k :: tr.drop k, ?_, rep_insert h hk⟩
  unfold emplaceTr
  rw [hl, Option.bind_some]
  by_cases hkn : k < n
  · rw [h.val k hkn, if_neg (lt_irrefl _)]
    show (nodeLt I (T k).1 (T (k+1)).1).map _ = _
    rw [nodeLt_eq hM hI (hN k hk) (hN (k+1) (by omega)), decide_eq_true (hs k (k+1) (by omega) (by omega))]
    rfl
  · rw [List.getElem?_eq_none (by rw [h.len]; omega), List.drop_eq_nil_of_le (by rw [h.len]; omega), List.take_of_length_le (by rw [h.len]; omega)]

theorem emplaceL_rep {up : Bool} {L : List Line} {n k : Nat} {T : Nat → Line}
    (h : Rep L n (fun i => if i < k then T i else T (i+1))) (hk : k ≤ n) (hs : ∀ i j, i < j → j ≤ n → na up (T i) < na up (T j)) :
    Rep (emplaceL up (T k) L) (n+1) T := by
  have hl : lowerL up (T k).1 L = k := by
    apply lowerL_eq _ _ (by rw [h.len]; exact hk)
    · intro i hi e he
      rw [h.val i (by omega), if_pos hi] at he
      cases he
      exact lt_na.2 (hs i k hi hk)
    · intro e he
      by_cases hkn : k < n
      · rw [h.val k hkn, if_neg (lt_irrefl _)] at he
        cases he
        have := hs k (k+1) (by omega) (by omega)
        rw [Bool.eq_false_iff, Ne, lt_na]
        omega
      · rw [List.getElem?_eq_none (by rw [h.len]; omega)] at he; cases he
  have e : emplaceL up (T k) L = L.take k ++ T k :: L.drop k := by
    unfold emplaceL
    rw [hl]
    by_cases hkn : k < n
    · simp only [h.val k hkn, if_neg (lt_irrefl _)]
      rw [if_pos (lt_na.2 (hs k (k+1) (by omega) (by omega)))]
    · rw [List.drop_eq_nil_of_le (by rw [h.len]; omega), List.take_of_length_le (by rw [h.len]; omega)]
      simp only [List.getElem?_eq_none (l := L) (i := k) (by rw [h.len]; omega)]
  rw [e]
  exact rep_insert h hk

theorem rep_erase {α : Type} {v : List α} {n a b : Nat} {g : Nat → α} (h : Rep v n g) (hab : a ≤ b) (hb : b ≤ n) :
    Rep (v.take a ++ v.drop b) (n - (b - a)) (fun i => if i < a then g i else g (i - a + b)) := by
  constructor
  · simp [h.len]; omega
  · intro i hi
    rw [List.getElem?_append, List.length_take, h.len, Nat.min_eq_left (by omega)]
    by_cases e : i < a
    · rw [if_pos e, List.getElem?_take_of_lt e, h.val i (by omega), if_pos e]
    · rw [if_neg e, if_neg e, List.getElem?_drop, h.val _ (by omega), Nat.add_comm]

end Verif.ChtMap
