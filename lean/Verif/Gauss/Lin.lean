import Verif.Gauss.Det
import Verif.MatrixM.Props
import Mathlib.LinearAlgebra.Matrix.Rank
/-!
From sums over ranges to linear algebra.
-/
namespace Verif.Gauss
open Verif Verif.MatrixM

variable {K : Type} [Field K] [DecidableEq K] {R C m n k : Nat}

/-- The left upper part of a matrix. -/
def lead (hm : m ≤ R) (hn : n ≤ C) (A : Matrix (Fin R) (Fin C) K) : Matrix (Fin m) (Fin n) K := A.submatrix (Fin.castLE hm) (Fin.castLE hn)

theorem toM_ext (hm : n ≤ R) (hn : n ≤ C) (A : Matrix (Fin R) (Fin C) K) : toM n (ext A) = lead hm hn A := by
  ext i j
  rw [toM_apply, ext_eq A (by omega) (by omega)]
  rfl

/-- A vector as a function on the naturals. -/
def exv (y : Fin n → K) (j : Nat) : K := if h : j < n then y ⟨j, h⟩ else 0

theorem exv_eq (y : Fin n → K) (j : Fin n) : exv y j = y j := by unfold exv; rw [dif_pos j.2]

theorem isSol_iff (hm : m ≤ R) (hn : n ≤ C) (A : Matrix (Fin R) (Fin C) K) (b x : Nat → K) :
    IsSol m n (ext A) b x ↔ (lead hm hn A).mulVec (fun j => x j) = fun i : Fin m => b i := by
  have e : ∀ i : Fin m, (lead hm hn A).mulVec (fun j => x j) i = ∑ j ∈ Finset.range n, ext A i j * x j := by
    intro i
    rw [Finset.sum_range]
    show ∑ j, lead hm hn A i j * x j = _
    refine Finset.sum_congr rfl fun j _ => ?_
    rw [ext_eq A (by omega) (by omega)]
    rfl
  unfold IsSol
  constructor
  · intro h; funext i; rw [e]; exact h i i.2
  · intro h i hi
    have := congrFun h ⟨i, hi⟩
    rw [e] at this
    exact this

theorem isSol_exv (hm : m ≤ R) (hn : n ≤ C) (A : Matrix (Fin R) (Fin C) K) (b : Nat → K) (y : Fin n → K) :
    IsSol m n (ext A) b (exv y) ↔ (lead hm hn A).mulVec y = fun i : Fin m => b i := by
  rw [isSol_iff hm hn]
  simp only [exv_eq]

theorem IsBasis.lin (hm : m ≤ R) (hn : n ≤ C) {A : Matrix (Fin R) (Fin C) K} {V : Nat → Nat → K} (h : IsBasis m n (ext A) k V) :
    LinearIndependent K (fun (t : Fin k) (j : Fin n) => V t j) ∧ Submodule.span K (Set.range (fun (t : Fin k) (j : Fin n) => V t j)) = LinearMap.ker (lead hm hn A).mulVecLin := by
  constructor
  · rw [Fintype.linearIndependent_iff]
    intro g hg t
    have := h.indep (exv g) (fun j hj => by
      have := congrFun hg ⟨j, hj⟩
      rw [Finset.sum_apply] at this
      rw [Finset.sum_range]
      simpa only [exv_eq, Pi.smul_apply, smul_eq_mul, Pi.zero_apply] using this) t t.2
    rwa [exv_eq] at this
  · ext y
    rw [LinearMap.mem_ker, Matrix.mulVecLin_apply, Submodule.mem_span_range_iff_exists_fun]
    constructor
    · rintro ⟨c, rfl⟩
      rw [← Matrix.mulVecLin_apply, map_sum]
      refine Finset.sum_eq_zero fun t _ => ?_
      rw [map_smul, Matrix.mulVecLin_apply, (isSol_iff hm hn A (fun _ => 0) (V t)).1 (h.mem t t.2)]
      exact smul_zero _
    · intro hy
      obtain ⟨c, hc⟩ := h.span (exv y) ((isSol_exv hm hn A (fun _ => 0) y).2 hy)
      refine ⟨fun t => c t, ?_⟩
      funext j
      rw [Finset.sum_apply, ← exv_eq y j, hc j j.2, Finset.sum_range]
      rfl

theorem IsBasis.card (hm : m ≤ R) (hn : n ≤ C) {A : Matrix (Fin R) (Fin C) K} {V : Nat → Nat → K} (h : IsBasis m n (ext A) k V) : (lead hm hn A).rank + k = n := by
  obtain ⟨h1, h2⟩ := h.lin hm hn
  have h3 := finrank_span_eq_card h1
  rw [h2, Fintype.card_fin] at h3
  have h4 := LinearMap.finrank_range_add_finrank_ker (lead hm hn A).mulVecLin
  rw [h3, Module.finrank_fin_fun] at h4
  exact h4

end Verif.Gauss
