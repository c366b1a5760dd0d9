import Verif.Fft.Props
import Mathlib.Analysis.SpecialFunctions.Trigonometric.Basic
/-!
# C145: the theorems of `Props.lean` for the complex numbers, with the factors of fft.hpp:53-56
-/
namespace Verif.Fft
open Finset Complex

/-- fft.hpp:53, 56 for `theta0 = θ / m`: `{cos(theta0*i), -sin(theta0*i)}`, with `θ = M_PI` forward and `θ = -M_PI` for the inverse. -/
noncomputable def factor (θ : ℝ) (m i : Nat) : ℂ := ⟨Real.cos (θ / m * i), -Real.sin (θ / m * i)⟩

/-- `e^(-2θ√-1 / 2^s)`. -/
noncomputable def root (θ : ℝ) (s : Nat) : ℂ := exp (-(2 * θ / 2^s * I))

theorem factor_eq (θ : ℝ) (m i : Nat) : factor θ m i = exp (-(θ / m * I)) ^ i := by
  rw [← exp_nat_mul]
  have h : (i : ℂ) * -(θ / m * I) = ((-(θ / m * i) : ℝ) : ℂ) * I := by push_cast; ring
  rw [h, exp_mul_I, ← ofReal_cos, ← ofReal_sin, Real.cos_neg, Real.sin_neg]
  refine Complex.ext ?_ ?_
  · rw [add_re, mul_I_re, ofReal_re, ofReal_im, factor, neg_zero, add_zero]
  · rw [add_im, mul_I_im, ofReal_re, ofReal_im, factor, zero_add]

theorem twiddles (θ : ℝ) (h : exp (-(θ * I)) = -1) : Twiddles (factor θ) (root θ) where
  tw := fun s i => by
    rw [factor_eq, root]
    congr 2
    rw [pow_succ]
    push_cast
    field_simp
  neg := by
    rw [root, ← h]
    congr 2
    field_simp
  sq := fun s => by
    rw [root, root, ← exp_nat_mul]
    congr 1
    rw [pow_succ]
    push_cast
    field_simp

theorem twiddles_fwd : Twiddles (factor Real.pi) (root Real.pi) := twiddles _ (by rw [exp_neg, exp_pi_mul_I]; norm_num)

theorem twiddles_inv : Twiddles (factor (-Real.pi)) (root (-Real.pi)) := twiddles _ (by rw [ofReal_neg, neg_mul, neg_neg, exp_pi_mul_I])

theorem root_inv (s : Nat) : root Real.pi s * root (-Real.pi) s = 1 := by
  rw [root, root, ← exp_add, ← exp_zero]
  congr 1
  push_cast
  ring

/-- C145 for complex numbers: `fft(f)` has the entries `∑ f(t) e^(-2π√-1 k t / n)`. -/
theorem C145_complex_fft (L : Nat) (f : List ℂ) :
    ∃ F, fft (factor Real.pi) (2^L) f = some F ∧ F.length = 2^L ∧ ∀ k : Nat, k < 2^L → F[k]? = some (∑ t ∈ range (2^L), f.getD t 0 * exp (-(2 * Real.pi * I * k * t / 2^L))) := by
  obtain ⟨F, e, h1, h2⟩ := C145_fft twiddles_fwd L f
  refine ⟨F, e, h1, fun k hk => ?_⟩
  rw [h2 k hk]
  congr 1
  refine sum_congr rfl (fun t _ => ?_)
  rw [root, ← exp_nat_mul]
  congr 2
  push_cast
  ring

/-- C145 for complex numbers: `ifft(F)` has the entries `∑ F(k) e^(2π√-1 k t / n) / n`. -/
theorem C145_complex_ifft (L : Nat) (F : List ℂ) :
    ∃ f, ifft (factor (-Real.pi)) (2^L) F = some f ∧ f.length = 2^L ∧ ∀ t : Nat, t < 2^L → f[t]? = some ((∑ k ∈ range (2^L), F.getD k 0 * exp (2 * Real.pi * I * k * t / 2^L)) / 2^L) := by
  obtain ⟨f, e, h1, h2⟩ := C145_ifft twiddles_inv L F
  refine ⟨f, e, h1, fun t ht => ?_⟩
  rw [h2 t ht, Nat.cast_pow, Nat.cast_ofNat]
  congr 2
  refine sum_congr rfl (fun k _ => ?_)
  rw [root, ← exp_nat_mul]
  congr 2
  push_cast
  ring

/-- C145 for complex numbers: `ifft(fft(f))` is `f`, cut or padded with zeros. -/
theorem C145_complex_round_trip (L : Nat) (f : List ℂ) :
    ∃ F f', fft (factor Real.pi) (2^L) f = some F ∧ ifft (factor (-Real.pi)) (2^L) F = some f' ∧ f'.length = 2^L ∧ ∀ t, t < 2^L → f'[t]? = some (f.getD t 0) :=
  C145_round_trip twiddles_fwd twiddles_inv root_inv two_ne_zero L f

/-- C145 for complex numbers: products of polynomials. -/
theorem C145_complex_product (L : Nat) (f g : List ℂ) (hfit : f.length + g.length ≤ 2^L + 1) :
    ∃ F G h, fft (factor Real.pi) (2^L) f = some F ∧ fft (factor Real.pi) (2^L) g = some G ∧ ifft (factor (-Real.pi)) (2^L) (List.zipWith (· * ·) F G) = some h ∧ h.length = 2^L ∧
      ∀ t, t < 2^L → h[t]? = some (∑ i ∈ range (t+1), f.getD i 0 * g.getD (t - i) 0) :=
  C145_product twiddles_fwd twiddles_inv root_inv two_ne_zero L f g hfit

example : [1, 2, (3 : ℂ)].length + [I, 1].length ≤ 2^2 + 1 := by decide

end Verif.Fft
