import Verif.Gauss.Lin
import Mathlib.Data.Rat.Defs
import Mathlib.Algebra.Field.Rat
/-!
C80 determinant, C81 linear systems, C82 inverse, C83 elimination.

`Is R C m A` (C32): the list of rows `m` holds the `R × C` matrix `A`.
-/
namespace Verif.Gauss
open Verif Verif.MatrixM

variable {K : Type} [Field K] [DecidableEq K] {R C : Nat} {a b : Mat K}

theorem Is.of_fun {m : Mat K} {g : Nat → Nat → K} (h : Rep2 m R C g) : Is R C m (fun i j => g i j) :=
  Is.of_rep h (fun _ _ _ _ => rfl)

/-- **C80.** `det(n)` is the determinant of the leading `n × n` block, for every matrix over every field; no division by zero, no access out of range. -/
theorem C80_det {A : Matrix (Fin R) (Fin C) K} (ha : Is R C a A) {n : Nat} (hr : n ≤ R) (hc : n ≤ C) :
    det n a = some (A.submatrix (Fin.castLE hr) (Fin.castLE hc)).det := by
  rw [det_ok ha.rep hr hc, toM_ext hr hc]
  rfl

example : det 3 ([[0, 2, 1], [1, 1, 0], [3, 0, 2]] : Mat ℚ) = some (-7) := by decide +kernel
example : det 3 ([[1, 2, 3], [2, 4, 6], [0, 1, 5]] : Mat ℚ) = some 0 := by decide +kernel
example : det 2 ([[0, 1, 3], [1, 0, 6], [0, 1, 5]] : Mat ℚ) = some (-1) := by decide +kernel

/-! ### C81 -/

/-- The full claim fails: the result matrix has `R + 1` rows, and a system with more than `R` free unknowns has more basis vectors than rows to hold them.
One equation `0 x + 0 y = 0` in a `Matrix<T, 1, 2>`. -/
theorem C81_wide_out_of_range : solve 1 2 ([[0, 0]] : Mat ℚ) [[0]] 1 2 = none := by decide +kernel

/-- **C81** for systems with at most `R` free unknowns (in particular for `column ≤ R`).
`solve` returns the dimension of the kernel; the flag is set if and only if the system has a solution;
then row 0 is a solution, rows `1 … k` are linearly independent, and the solutions are exactly row 0 plus the combinations of rows `1 … k`. -/
theorem C81_solve_partial {A : Matrix (Fin R) (Fin C) K} {B : Matrix (Fin R) (Fin 1) K} (ha : Is R C a A) (hb : Is R 1 b B) {row l : Nat} (hr : row ≤ R) (hl : l ≤ C)
    {k : Nat} (hk : k = l - (A.submatrix (Fin.castLE hr) (Fin.castLE hl)).rank) (hkR : k ≤ R) :
    ∃ res ok F, solve R C a b row l = some (k, res, ok) ∧ Is (R+1) C res F ∧
      (ok = true ↔ ∃ y : Fin l → K, (A.submatrix (Fin.castLE hr) (Fin.castLE hl)).mulVec y = fun i => B (Fin.castLE hr i) 0) ∧
      (ok = true →
        LinearIndependent K (fun (t : Fin k) (j : Fin l) => F ⟨t+1, by omega⟩ (Fin.castLE hl j)) ∧
        ∀ y : Fin l → K, (A.submatrix (Fin.castLE hr) (Fin.castLE hl)).mulVec y = (fun i => B (Fin.castLE hr i) 0) ↔
          ∃ c : Fin k → K, ∀ j, y j = F 0 (Fin.castLE hl j) + ∑ t : Fin k, c t * F ⟨t+1, by omega⟩ (Fin.castLE hl j)) := by
  have hA : A.submatrix (Fin.castLE hr) (Fin.castLE hl) = lead hr hl A := rfl
  rw [hA] at hk ⊢
  have hcard : ∀ k' V, IsBasis row l (ext A) k' V → k' = k := by
    intro k' V h
    have := h.card hr hl
    omega
  obtain ⟨k', res, ok, F, e, h1, h2, h3⟩ := solve_ok ha.rep hb.rep hr hl (fun k' V h => by rw [hcard k' V h]; exact hkR)
  have hkk : k' = k := by
    cases ok with
    | true => exact hcard _ _ (h2 rfl).2
    | false => obtain ⟨V, hV⟩ := (h3 rfl).2; exact hcard _ _ hV
  subst hkk
  have hB : (fun i : Fin row => ext B i 0) = fun i => B (Fin.castLE hr i) 0 := by
    funext i
    rw [ext_eq B (by omega) (by omega)]
    rfl
  have hsol : ∀ y : Fin l → K, IsSol row l (ext A) (fun i => ext B i 0) (exv y) ↔ (lead hr hl A).mulVec y = fun i => B (Fin.castLE hr i) 0 := by
    intro y
    rw [isSol_exv hr hl, hB]
  refine ⟨res, ok, _, e, Is.of_fun h1, ⟨fun hok => ?_, fun ⟨y, hy⟩ => ?_⟩, fun hok => ⟨?_, fun y => ?_⟩⟩
  · refine ⟨fun j => F 0 j, ?_⟩
    have := (isSol_iff hr hl A _ _).1 (h2 hok).1
    rw [this, hB]
  · cases ok with
    | true => rfl
    | false => exact absurd ((hsol y).2 hy) ((h3 rfl).1 _)
  · exact ((h2 hok).2.lin hr hl).1
  · have hs0 : (lead hr hl A).mulVec (fun j => F 0 j) = fun i => B (Fin.castLE hr i) 0 := by
      rw [(isSol_iff hr hl A _ _).1 (h2 hok).1, hB]
    have hker := ((h2 hok).2.lin hr hl).2
    have hmem : (lead hr hl A).mulVec y = (fun i => B (Fin.castLE hr i) 0) ↔ y - (fun j : Fin l => F 0 j) ∈ LinearMap.ker (lead hr hl A).mulVecLin := by
      rw [LinearMap.mem_ker, Matrix.mulVecLin_apply, Matrix.mulVec_sub, hs0, sub_eq_zero]
    rw [hmem, ← hker, Submodule.mem_span_range_iff_exists_fun]
    refine exists_congr fun c => ?_
    constructor
    · intro h j
      have := congrFun h j
      rw [Finset.sum_apply, Pi.sub_apply] at this
      show y j = F 0 j + ∑ t : Fin k', c t * F (t+1) j
      rw [eq_comm, ← eq_sub_iff_add_eq', ← this]
      rfl
    · intro h
      funext j
      rw [Finset.sum_apply, Pi.sub_apply, h j]
      show _ = F 0 j + ∑ t : Fin k', c t * F (t+1) j - F 0 j
      rw [add_sub_cancel_left]
      rfl

example : solve 2 3 ([[1, 2, 3], [2, 4, 8]] : Mat ℚ) [[4], [10]] 2 3 = some (1, [[1, 0, 1], [-2, 1, 0], [0, 0, 0]], true) := by decide +kernel
example : solve 2 2 ([[1, 2], [2, 4]] : Mat ℚ) [[4], [9]] 2 2 = some (1, [[0, 0], [0, 0], [0, 0]], false) := by decide +kernel

/-- **C82.** `inv(n)` on an `R × C` matrix decides whether the leading `n × n` block is invertible; if so the leading block of the result is its two-sided inverse. -/
theorem C82_inv {A : Matrix (Fin R) (Fin C) K} (ha : Is R C a A) {n : Nat} (hr : n ≤ R) (hc : n ≤ C) :
    ∃ ret ok F, inv R C a n = some (ret, ok) ∧ Is R C ret F ∧ (ok = true ↔ IsUnit (A.submatrix (Fin.castLE hr) (Fin.castLE hc))) ∧
      (ok = true → A.submatrix (Fin.castLE hr) (Fin.castLE hc) * F.submatrix (Fin.castLE hr) (Fin.castLE hc) = 1 ∧
        F.submatrix (Fin.castLE hr) (Fin.castLE hc) * A.submatrix (Fin.castLE hr) (Fin.castLE hc) = 1) := by
  obtain ⟨ret, ok, F, e, h1, h2, h3⟩ := inv_ok ha.rep hr hc
  rw [toM_ext hr hc] at h2 h3
  refine ⟨ret, ok, _, e, Is.of_fun h1, ⟨fun h => ?_, fun h => ?_⟩, fun h => ⟨h2 h, mul_eq_one_comm.1 (h2 h)⟩⟩
  · exact IsUnit.of_mul_eq_one _ (h2 h)
  · cases ok with
    | true => rfl
    | false => exact absurd h (h3 rfl)

example : inv 2 2 ([[0, 2], [1, 1]] : Mat ℚ) 2 = some ([[-1/2, 1], [1/2, 0]], true) := by decide +kernel
example : inv 2 2 ([[1, 2], [2, 4]] : Mat ℚ) 2 = some ([[0, 0], [0, 0]], false) := by decide +kernel

/-- Specification: the first `l` columns of the first `row` rows of `G` are in reduced row echelon form with `rank` pivots in the columns `p`. -/
structure Echelon {m n : Nat} (row l rank : Nat) (p : Nat → Nat) (G : Matrix (Fin m) (Fin n) K) : Prop where
  mono : ∀ s t, s < t → t < rank → p s < p t
  lt : ∀ t < rank, p t < l
  col : ∀ t < rank, ∀ (i : Fin m) (j : Fin n), (i : Nat) < row → (j : Nat) = p t → G i j = if (i : Nat) = t then 1 else 0
  left : ∀ (i : Fin m) (j : Fin n), (i : Nat) < rank → (j : Nat) < p i → G i j = 0
  low : ∀ (i : Fin m) (j : Fin n), rank ≤ i → (i : Nat) < row → (j : Nat) < l → G i j = 0

/-- **C83.** `gaussian_elimination(row, l, r)` returns the rank of the left part, leaves the matrix in reduced row echelon form on the left part,
keeps the solutions of the homogeneous system of all `l + r` columns, and reports the pivot columns in `*principal` (padded with `l`). -/
theorem C83_gauss {A : Matrix (Fin R) (Fin C) K} (ha : Is R C a A) {row l r : Nat} (hr : row ≤ R) (hw : l + r ≤ C) (q : Option (List Nat)) (hq : q = none ∨ q = some []) :
    ∃ x' q' p G, gauss row l r a q = some (x', (A.submatrix (Fin.castLE hr) (Fin.castLE (show l ≤ C by omega))).rank, q') ∧ Is R C x' G ∧
      Echelon row l (A.submatrix (Fin.castLE hr) (Fin.castLE (show l ≤ C by omega))).rank p G ∧
      (∀ y, (G.submatrix (Fin.castLE hr) (Fin.castLE hw)).mulVec y = 0 ↔ (A.submatrix (Fin.castLE hr) (Fin.castLE hw)).mulVec y = 0) ∧
      q' = q.map (fun _ => (List.range (row+1)).map (fun t => if t < (A.submatrix (Fin.castLE hr) (Fin.castLE (show l ≤ C by omega))).rank then p t else l)) := by
  have hl : l ≤ C := by omega
  have hA : A.submatrix (Fin.castLE hr) (Fin.castLE (show l ≤ C by omega)) = lead hr hl A := rfl
  rw [hA]
  obtain ⟨x', rank, p, G, q', e, h1, h2, I, P⟩ := gauss_ok hr hw ha.rep q hq
  obtain ⟨V, hV⟩ := basis_ex I
  have hV' : IsBasis row l (ext A) (l - rank) V := hV.of_iff (fun y => I.ker_iff y)
  have hrank : (lead hr hl A).rank = rank := by
    have := hV'.card hr hl
    have := I.le
    omega
  rw [hrank]
  refine ⟨x', q', p, _, e, Is.of_fun h2, ⟨I.mono, I.lt, ?_, ?_, ?_⟩, fun y => ?_, ?_⟩
  · intro t ht i j hi hj
    rw [hj]
    by_cases hit : (i : Nat) = t
    · rw [if_pos hit, hit]; exact I.one t ht
    · rw [if_neg hit]; exact I.zero t ht i hi hit
  · intro i j hi hj
    exact I.left i hi j hj
  · intro i j h1 h2 h3
    exact I.low i h1 h2 j h3
  · have e1 := isSol_exv hr hw A (fun _ => 0) y
    have e2 := isSol_exv hr hw (fun (i : Fin R) (j : Fin C) => G i j) (fun _ => 0) y
    have e3 : IsSol row (l+r) (ext fun (i : Fin R) (j : Fin C) => G i j) (fun _ => 0) (exv y) ↔ Ker row (l+r) G (exv y) := by
      refine Ker.congr fun i hi j hj => ?_
      exact ext_eq (R := R) (C := C) (fun i j => G i j) (by omega) (by omega)
    exact (e2.symm.trans (e3.trans (I.ker (exv y)))).trans e1
  · cases q' with
    | none =>
      cases q with
      | none => rfl
      | some _ => cases h1
    | some v =>
      cases q with
      | none => cases h1
      | some _ =>
        have hv := P v rfl
        rw [Option.map_some]
        congr 1
        apply List.ext_getElem?
        intro i
        by_cases hi : i < row + 1
        · rw [hv.val i hi]; simp [hi]
        · rw [List.getElem?_eq_none (by rw [hv.len]; omega), List.getElem?_eq_none (by simp; omega)]

example : gauss 2 3 0 ([[0, 2, 4], [0, 1, 5]] : Mat ℚ) (some []) = some ([[0, 1, 0], [0, 0, 1]], 2, some [1, 2, 3]) := by decide +kernel
example : gauss 2 2 1 ([[1, 2, 3], [2, 4, 5]] : Mat ℚ) none = some ([[1, 2, 3], [0, 0, -1]], 1, none) := by decide +kernel

end Verif.Gauss
