import Verif.MatrixM.Model
import Mathlib.Data.Matrix.Mul
import Mathlib.Algebra.BigOperators.Intervals
import Mathlib.Algebra.BigOperators.Fin
import Mathlib.LinearAlgebra.Matrix.Notation
/-! C32: matrix arithmetic. -/
namespace Verif.MatrixM
open Verif

variable {T : Type}

/-- Specification: the list of rows `m` is the mathematical matrix `A`. -/
def Is (R C : Nat) (m : Mat T) (A : Matrix (Fin R) (Fin C) T) : Prop :=
  m.length = R ∧ ∀ i : Fin R, ∃ row, m[i.val]? = some row ∧ row.length = C ∧ ∀ j : Fin C, row[j.val]? = some (A i j)

/-- entries as a function on naturals -/
def ext [Zero T] {R C : Nat} (A : Matrix (Fin R) (Fin C) T) (i j : Nat) : T :=
  if h : i < R ∧ j < C then A ⟨i, h.1⟩ ⟨j, h.2⟩ else 0

theorem ext_eq [Zero T] {R C : Nat} (A : Matrix (Fin R) (Fin C) T) {i j : Nat} (hi : i < R) (hj : j < C) :
    ext A i j = A ⟨i, hi⟩ ⟨j, hj⟩ := by unfold ext; rw [dif_pos ⟨hi, hj⟩]

theorem Is.rep [Zero T] {R C : Nat} {m : Mat T} {A : Matrix (Fin R) (Fin C) T} (h : Is R C m A) : Rep2 m R C (ext A) := by
  refine ⟨h.1, fun i hi => ?_⟩
  obtain ⟨row, e, hl, hv⟩ := h.2 ⟨i, hi⟩
  refine ⟨row, e, hl, fun j hj => ?_⟩
  rw [ext_eq A hi hj]; exact hv ⟨j, hj⟩

theorem Is.of_rep {R C : Nat} {m : Mat T} {g : Nat → Nat → T} {A : Matrix (Fin R) (Fin C) T} (h : Rep2 m R C g)
    (hg : ∀ i j (hi : i < R) (hj : j < C), g i j = A ⟨i, hi⟩ ⟨j, hj⟩) : Is R C m A := by
  refine ⟨h.len, fun i => ?_⟩
  obtain ⟨row, e, hr⟩ := h.row i.val i.isLt
  exact ⟨row, e, hr.len, fun j => by rw [hr.val j.val j.isLt, hg]⟩

theorem fill_spec {R C R' C' : Nat} {f : Nat → Nat → Mat T → Option (Mat T)} {m : Mat T} {g : Nat → Nat → T}
    (G : Nat → Nat → T) (pos : Nat → Nat → Nat × Nat)
    (hpos : ∀ i j i' j', pos i j = pos i' j' → i = i' ∧ j = j')
    (hin : ∀ i j, i < R → j < C → (pos i j).1 < R' ∧ (pos i j).2 < C')
    (h : Rep2 m R' C' g)
    (hf : ∀ i j m g', i < R → j < C → Rep2 m R' C' g' → (g' (pos i j).1 (pos i j).2 = g (pos i j).1 (pos i j).2) →
      f i j m = wr2 m (pos i j).1 (pos i j).2 (G i j)) :
    ∃ m' g', fill R C f m = some m' ∧ Rep2 m' R' C' g' ∧ ∀ i j, i < R → j < C → g' (pos i j).1 (pos i j).2 = G i j := by
  unfold fill
  obtain ⟨m', e, g', r, hlo, _⟩ := forRange_inv (fun I m => ∃ g', Rep2 m R' C' g' ∧
      (∀ i j, i < I → i < R → j < C → g' (pos i j).1 (pos i j).2 = G i j) ∧
      (∀ i j, I ≤ i → i < R → j < C → g' (pos i j).1 (pos i j).2 = g (pos i j).1 (pos i j).2))
    (body := fun i ret => forRange 0 C (fun j ret => f i j ret) ret) (a := 0) (b := R) (s := m) (Nat.zero_le _)
    ⟨g, h, fun i j h => by omega, fun _ _ _ _ _ => rfl⟩ (by
    rintro I m _ hI ⟨g1, r1, lo1, hi1⟩
    obtain ⟨m', e, g', r, a1, a2, a3, a4⟩ := forRange_inv (fun J m => ∃ g', Rep2 m R' C' g' ∧
        (∀ i j, i < I → i < R → j < C → g' (pos i j).1 (pos i j).2 = G i j) ∧
        (∀ j, j < J → j < C → g' (pos I j).1 (pos I j).2 = G I j) ∧
        (∀ j, J ≤ j → j < C → g' (pos I j).1 (pos I j).2 = g (pos I j).1 (pos I j).2) ∧
        (∀ i j, I < i → i < R → j < C → g' (pos i j).1 (pos i j).2 = g (pos i j).1 (pos i j).2))
      (body := fun j ret => f I j ret) (a := 0) (b := C) (s := m) (Nat.zero_le _)
      ⟨g1, r1, lo1, fun j h => by omega, fun j _ h => hi1 I j (Nat.le_refl _) hI h, fun i j h h1 h2 => hi1 i j (by omega) h1 h2⟩ (by
      rintro J m _ hJ ⟨g2, r2, b1, b2, b3, b4⟩
      obtain ⟨p1, p2⟩ := hin I J hI hJ
      obtain ⟨m', e, r⟩ := r2.wr p1 p2 (G I J)
      have hne : ∀ i j, ¬ (i = I ∧ j = J) → ¬ ((pos i j).1 = (pos I J).1 ∧ (pos i j).2 = (pos I J).2) := by
        intro i j h h'
        exact h (hpos i j I J (Prod.ext h'.1 h'.2))
      refine ⟨m', by rw [hf I J m g2 hI hJ r2 (b3 J (Nat.le_refl _) hJ)]; exact e, _, r, ?_, ?_, ?_, ?_⟩
      · intro i j h1 h2 h3
        rw [upd2_ne _ _ (hne i j (by omega))]; exact b1 i j h1 h2 h3
      · intro j h1 h2
        by_cases hj : j = J
        · subst hj; rw [upd2_same]
        · rw [upd2_ne _ _ (hne I j (by omega))]; exact b2 j (by omega) h2
      · intro j h1 h2
        rw [upd2_ne _ _ (hne I j (by omega))]; exact b3 j (by omega) h2
      · intro i j h1 h2 h3
        rw [upd2_ne _ _ (hne i j (by omega))]; exact b4 i j h1 h2 h3)
    refine ⟨m', e, g', r, ?_, ?_⟩
    · intro i j h1 h2 h3
      by_cases hi : i = I
      · subst hi; exact a2 j h3 h3
      · exact a1 i j (by omega) h2 h3
    · intro i j h1 h2 h3
      exact a4 i j (by omega) h2 h3)
  exact ⟨m', g', e, r, fun i j h1 h2 => hlo i j h1 h1 h2⟩

variable {R C D : Nat}

/-- C32, transpose. -/
theorem C32_transpose [Zero T] {a : Mat T} {A : Matrix (Fin R) (Fin C) T} (ha : Is R C a A) :
    ∃ m, transpose R C a = some m ∧ Is C R m A.transpose := by
  obtain ⟨m, g, e, r, hg⟩ := fill_spec (f := fun i j ret => (rd2 a i j).bind (fun x => wr2 ret j i x))
    (fun i j => ext A i j) (fun i j => (j, i)) (by simp) (fun i j h1 h2 => ⟨h2, h1⟩)
    (Rep2.replicate C R (0 : T)) (by intro i j m g' hi hj _ _; simp [ha.rep.rd hi hj])
  exact ⟨m, e, Is.of_rep r (fun i j hi hj => by rw [hg j i hj hi, ext_eq A hj hi]; rfl)⟩

/-- C32, addition. -/
theorem C32_add [AddMonoid T] {a b : Mat T} {A B : Matrix (Fin R) (Fin C) T} (ha : Is R C a A) (hb : Is R C b B) :
    ∃ m, add R C a b = some m ∧ Is R C m (A + B) := by
  obtain ⟨m, g, e, r, hg⟩ := fill_spec (f := fun i j ret => (rd2 ret i j).bind (fun x => (rd2 b i j).bind (fun y => wr2 ret i j (x + y))))
    (fun i j => ext A i j + ext B i j) (fun i j => (i, j)) (by simp) (fun i j h1 h2 => ⟨h1, h2⟩)
    ha.rep (by intro i j m g' hi hj r h; simp only at h; simp [hb.rep.rd hi hj, r.rd hi hj, h])
  exact ⟨m, e, Is.of_rep r (fun i j hi hj => by rw [hg i j hi hj, ext_eq A hi hj, ext_eq B hi hj]; rfl)⟩

/-- C32, negation. -/
theorem C32_neg [AddGroup T] {a : Mat T} {A : Matrix (Fin R) (Fin C) T} (ha : Is R C a A) :
    ∃ m, neg R C a = some m ∧ Is R C m (-A) := by
  obtain ⟨m, g, e, r, hg⟩ := fill_spec (f := fun i j ret => (rd2 a i j).bind (fun x => wr2 ret i j (-x)))
    (fun i j => - ext A i j) (fun i j => (i, j)) (by simp) (fun i j h1 h2 => ⟨h1, h2⟩)
    (Rep2.replicate R C (0 : T)) (by intro i j m g' hi hj r h; simp [ha.rep.rd hi hj])
  exact ⟨m, e, Is.of_rep r (fun i j hi hj => by rw [hg i j hi hj, ext_eq A hi hj]; rfl)⟩

/-- C32, multiplication by a scalar from the left. -/
theorem C32_smul [NonUnitalNonAssocSemiring T] (l : T) {a : Mat T} {A : Matrix (Fin R) (Fin C) T} (ha : Is R C a A) :
    ∃ m, smul R C l a = some m ∧ Is R C m (l • A) := by
  obtain ⟨m, g, e, r, hg⟩ := fill_spec (f := fun i j ret => (rd2 a i j).bind (fun x => wr2 ret i j (l * x)))
    (fun i j => l * ext A i j) (fun i j => (i, j)) (by simp) (fun i j h1 h2 => ⟨h1, h2⟩)
    (Rep2.replicate R C (0 : T)) (by intro i j m g' hi hj r h; simp [ha.rep.rd hi hj])
  exact ⟨m, e, Is.of_rep r (fun i j hi hj => by rw [hg i j hi hj, ext_eq A hi hj]; rfl)⟩

/-- C32 is violated by `operator-=` / `operator-`: what they compute is `-B`; the left operand is lost. -/
theorem C32_sub_actual [AddGroup T] {a b : Mat T} {A B : Matrix (Fin R) (Fin C) T} (ha : Is R C a A) (hb : Is R C b B) :
    ∃ m, sub R C a b = some m ∧ Is R C m (-B) := by
  obtain ⟨m, g, e, r, hg⟩ := fill_spec (f := fun i j ret => (rd2 b i j).bind (fun y => wr2 ret i j (-y)))
    (fun i j => - ext B i j) (fun i j => (i, j)) (by simp) (fun i j h1 h2 => ⟨h1, h2⟩)
    ha.rep (by intro i j m g' hi hj r h; simp [hb.rep.rd hi hj])
  exact ⟨m, e, Is.of_rep r (fun i j hi hj => by rw [hg i j hi hj, ext_eq B hi hj]; rfl)⟩

/-- C32 is violated: the 1×1 matrices `5 - 3` give `-3`. -/
theorem C32_sub_violated : sub 1 1 [[(5 : Int)]] [[3]] = some [[-3]] := by decide

theorem mul_rep [NonUnitalNonAssocSemiring T] {a b : Mat T} {g h : Nat → Nat → T} (ha : Rep2 a R C g) (hb : Rep2 b C D h) :
    ∃ m f, mul R C D a b = some m ∧ Rep2 m R D f ∧ ∀ i j, i < R → j < D → f i j = ∑ k ∈ Finset.range C, g i k * h k j := by
  unfold mul
  obtain ⟨m, e, f, r, hlo, _⟩ := forRange_inv (fun I m => ∃ f, Rep2 m R D f ∧
      (∀ i j, i < I → j < D → f i j = ∑ k ∈ Finset.range C, g i k * h k j) ∧ (∀ i j, I ≤ i → f i j = 0))
    (body := fun i ret => forRange 0 C (fun k ret => (rd2 a i k).bind (fun mik =>
      forRange 0 D (fun j ret => (rd2 ret i j).bind (fun x => (rd2 b k j).bind (fun y => wr2 ret i j (x + mik * y)))) ret)) ret)
    (a := 0) (b := R) (s := zero R D) (Nat.zero_le _) ⟨_, Rep2.replicate R D 0, fun i j h => by omega, fun _ _ _ => rfl⟩ (by
    rintro I m _ hI ⟨f, r, lo, hi⟩
    obtain ⟨m', e, f', r', a1, a2, a3⟩ := forRange_inv (fun K m => ∃ f, Rep2 m R D f ∧
        (∀ i j, i < I → j < D → f i j = ∑ k ∈ Finset.range C, g i k * h k j) ∧
        (∀ j, j < D → f I j = ∑ k ∈ Finset.range K, g I k * h k j) ∧ (∀ i j, I < i → f i j = 0))
      (body := fun k ret => (rd2 a I k).bind (fun mik =>
        forRange 0 D (fun j ret => (rd2 ret I j).bind (fun x => (rd2 b k j).bind (fun y => wr2 ret I j (x + mik * y)))) ret))
      (a := 0) (b := C) (s := m) (Nat.zero_le _) ⟨f, r, lo, fun j _ => by rw [hi I j (by omega)]; simp, fun i j h => hi i j (by omega)⟩ (by
      rintro K m _ hK ⟨f, r, b1, b2, b3⟩
      obtain ⟨m', e, f', r', c1, c2, c3, c4⟩ := forRange_inv (fun J m => ∃ f, Rep2 m R D f ∧
          (∀ i j, i < I → j < D → f i j = ∑ k ∈ Finset.range C, g i k * h k j) ∧
          (∀ j, j < J → j < D → f I j = ∑ k ∈ Finset.range (K+1), g I k * h k j) ∧
          (∀ j, J ≤ j → j < D → f I j = ∑ k ∈ Finset.range K, g I k * h k j) ∧ (∀ i j, I < i → f i j = 0))
        (body := fun j ret => (rd2 ret I j).bind (fun x => (rd2 b K j).bind (fun y => wr2 ret I j (x + g I K * y))))
        (a := 0) (b := D) (s := m) (Nat.zero_le _) ⟨f, r, b1, fun j h => by omega, fun j _ h => b2 j h, b3⟩ (by
        rintro J m _ hJ ⟨f, r, d1, d2, d3, d4⟩
        obtain ⟨m', e, r'⟩ := r.wr hI hJ (f I J + g I K * h K J)
        refine ⟨m', ?_, _, r', ?_, ?_, ?_, ?_⟩
        · simp [r.rd hI hJ, hb.rd hK hJ, e]
        · intro i j h1 h2
          rw [upd2_ne _ _ (by omega)]; exact d1 i j h1 h2
        · intro j h1 h2
          by_cases hj : j = J
          · subst hj
            rw [upd2_same, d3 j (Nat.le_refl _) h2, Finset.sum_range_succ]
          · rw [upd2_ne _ _ (by omega)]; exact d2 j (by omega) h2
        · intro j h1 h2
          rw [upd2_ne _ _ (by omega)]; exact d3 j (by omega) h2
        · intro i j h1
          rw [upd2_ne _ _ (by omega)]; exact d4 i j h1)
      refine ⟨m', ?_, f', r', c1, fun j h => c2 j h h, c4⟩
      rw [ha.rd hI hK]; exact e)
    refine ⟨m', e, f', r', ?_, fun i j h => a3 i j (by omega)⟩
    intro i j h1 h2
    by_cases h3 : i = I
    · subst h3; exact a2 j h2
    · exact a1 i j (by omega) h2)
  exact ⟨m, f, e, r, hlo⟩

/-- C32, matrix product. -/
theorem C32_mul [NonUnitalNonAssocSemiring T] {a b : Mat T} {A : Matrix (Fin R) (Fin C) T} {B : Matrix (Fin C) (Fin D) T}
    (ha : Is R C a A) (hb : Is C D b B) : ∃ m, mul R C D a b = some m ∧ Is R D m (A * B) := by
  obtain ⟨m, f, e, r, hf⟩ := mul_rep ha.rep hb.rep
  refine ⟨m, e, Is.of_rep r (fun i j hi hj => ?_)⟩
  rw [hf i j hi hj, Matrix.mul_apply, Finset.sum_range]
  exact Finset.sum_congr rfl (fun k _ => by rw [ext_eq A hi k.isLt, ext_eq B k.isLt hj])

/-- C32, identity. -/
theorem C32_ident [Zero T] [One T] : ∃ m : Mat T, ident R R = some m ∧ Is R R m 1 := by
  unfold ident
  rw [Nat.min_self]
  obtain ⟨m, e, g, r, h1, h2⟩ := forRange_inv (fun I m => ∃ g : Nat → Nat → T, Rep2 m R R g ∧ (∀ i, i < I → g i i = 1) ∧
      (∀ i j, ¬ (i = j ∧ i < I) → g i j = 0)) (body := fun i ret => wr2 ret i i 1) (a := 0) (b := R) (s := zero R R) (Nat.zero_le _)
    ⟨_, Rep2.replicate R R 0, fun i h => by omega, fun _ _ _ => rfl⟩ (by
    rintro I m _ hI ⟨g, r, h1, h2⟩
    obtain ⟨m', e, r'⟩ := r.wr hI hI 1
    refine ⟨m', e, _, r', ?_, ?_⟩
    · intro i hi
      by_cases h : i = I
      · subst h; rw [upd2_same]
      · rw [upd2_ne _ _ (by omega)]; exact h1 i (by omega)
    · intro i j h
      rw [upd2_ne _ _ (by omega)]; exact h2 i j (by omega))
  refine ⟨m, e, Is.of_rep r (fun i j hi hj => ?_)⟩
  by_cases h : i = j
  · subst h; rw [h1 i hi, Matrix.one_apply_eq]
  · rw [h2 i j (by omega), Matrix.one_apply_ne (by simpa using h)]

theorem powLoop_spec [Semiring T] : ∀ (fuel k : Nat) (u t : Mat T) (U P : Matrix (Fin R) (Fin R) T), k < 2^fuel →
    Is R R u U → Is R R t P → ∃ m, powLoop R fuel k u t = some m ∧ Is R R m (P * U^k)
  | 0, k, u, t, U, P, hk, _, ht => by
    have : k = 0 := by omega
    subst this
    exact ⟨t, rfl, by simpa using ht⟩
  | fuel+1, k, u, t, U, P, hk, hu, ht => by
    unfold powLoop
    by_cases h0 : k = 0
    · subst h0
      exact ⟨t, rfl, by simpa using ht⟩
    · rw [if_neg h0]
      obtain ⟨u', eu, hu'⟩ := C32_mul hu hu
      have hk2 : k / 2 < 2^fuel := by rw [Nat.pow_succ] at hk; omega
      have hpow : k % 2 + 2 * (k / 2) = k := by omega
      by_cases h1 : k % 2 = 1
      · obtain ⟨t', et, ht'⟩ := C32_mul ht hu
        obtain ⟨m, e, hm⟩ := powLoop_spec fuel (k/2) u' t' _ _ hk2 hu' ht'
        refine ⟨m, by simp [h1, et, eu, e], ?_⟩
        have : P * U^k = P * U * (U * U)^(k/2) := by
          rw [← pow_two U, ← pow_mul, mul_assoc, ← pow_succ', show 2 * (k/2) + 1 = k by omega]
        rw [this]; exact hm
      · obtain ⟨m, e, hm⟩ := powLoop_spec fuel (k/2) u' t _ _ hk2 hu' ht
        refine ⟨m, by simp [h1, eu, e], ?_⟩
        have : P * U^k = P * (U * U)^(k/2) := by
          rw [← pow_two U, ← pow_mul, show 2 * (k/2) = k by omega]
        rw [this]; exact hm

/-- C32, power with any 64-bit exponent. -/
theorem C32_pow [Semiring T] {a : Mat T} {A : Matrix (Fin R) (Fin R) T} (ha : Is R R a A) (k : Nat) (hk : k < 2^64) :
    ∃ m, pow R a k = some m ∧ Is R R m (A^k) := by
  obtain ⟨t, et, ht⟩ := C32_ident (R := R) (T := T)
  obtain ⟨m, e, hm⟩ := powLoop_spec 64 k a t A 1 hk ha ht
  exact ⟨m, by simp [pow, et, e], by simpa using hm⟩

/-- C32, equality test. -/
theorem C32_eq [Zero T] [DecidableEq T] {a b : Mat T} {A B : Matrix (Fin R) (Fin C) T} (ha : Is R C a A) (hb : Is R C b B) :
    ∃ r, eqv R C a b = some r ∧ (r = true ↔ A = B) := by
  unfold eqv
  obtain ⟨s, e, h⟩ := forRange_inv (fun I (s : Bool) => s = true ↔ ∀ i j, i < I → j < C → ext A i j = ext B i j)
    (body := fun i acc => forRange 0 C (fun j acc => if acc = false then some acc else
      (rd2 a i j).bind (fun x => (rd2 b i j).bind (fun y => some (decide (x = y))))) acc) (a := 0) (b := R) (s := true) (Nat.zero_le _)
    (by simp) (by
    intro I s _ hI hs
    obtain ⟨s', e', h'⟩ := forRange_inv (fun J (s : Bool) => s = true ↔ (∀ i j, i < I → j < C → ext A i j = ext B i j) ∧
        ∀ j, j < J → ext A I j = ext B I j)
      (body := fun j acc => if acc = false then some acc else
        (rd2 a I j).bind (fun x => (rd2 b I j).bind (fun y => some (decide (x = y))))) (a := 0) (b := C) (s := s) (Nat.zero_le _)
      (by simpa using hs) (by
      intro J s _ hJ hs
      by_cases hf : s = false
      · subst hf
        refine ⟨false, by simp, ?_⟩
        constructor
        · intro h; simp at h
        · rintro ⟨h1, h2⟩
          exact hs.2 ⟨h1, fun j hj => h2 j (by omega)⟩
      · have ht : s = true := by simpa using hf
        refine ⟨decide (ext A I J = ext B I J), by simp [hf, ha.rep.rd hI hJ, hb.rep.rd hI hJ], ?_⟩
        have h0 := hs.1 ht
        rw [decide_eq_true_iff]
        constructor
        · intro h
          refine ⟨h0.1, fun j hj => ?_⟩
          by_cases h2 : j = J
          · subst h2; exact h
          · exact h0.2 j (by omega)
        · intro h; exact h.2 J (by omega))
    refine ⟨s', e', h'.trans ?_⟩
    constructor
    · rintro ⟨h1, h2⟩ i j hi hj
      by_cases h3 : i = I
      · subst h3; exact h2 j hj
      · exact h1 i j (by omega) hj
    · intro h
      exact ⟨fun i j hi hj => h i j (by omega) hj, fun j hj => h I j (by omega) hj⟩)
  refine ⟨s, e, h.trans ?_⟩
  constructor
  · intro h
    ext i j
    have := h i.val j.val i.isLt j.isLt
    rwa [ext_eq A i.isLt j.isLt, ext_eq B i.isLt j.isLt] at this
  · rintro rfl i j _ _; rfl

example : Is 2 2 [[1, 1], [1, (0 : Int)]] !![1, 1; 1, 0] := by
  refine ⟨rfl, fun i => ?_⟩
  match i with
  | 0 => exact ⟨_, rfl, rfl, fun j => by match j with | 0 => rfl | 1 => rfl⟩
  | 1 => exact ⟨_, rfl, rfl, fun j => by match j with | 0 => rfl | 1 => rfl⟩
example : pow 2 [[1, 1], [1, (0 : Int)]] 10 = some [[89, 55], [55, 34]] := by decide

end Verif.MatrixM
