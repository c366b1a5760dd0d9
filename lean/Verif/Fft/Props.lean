import Verif.Fft.Stages
import Mathlib.Algebra.Field.Basic
import Mathlib.Algebra.Order.Ring.Nat
import Mathlib.Data.Nat.Cast.Basic
import Mathlib.Algebra.Field.ZMod
import Mathlib.Tactic.FieldSimp
/-!
# C145: the fast Fourier transform, in exact arithmetic
-/
namespace Verif.Fft
open Finset

variable {T : Type}

/-! ### The constructor -/

theorem sizeLoop_ok (size : Nat) : ∀ f s, size ≤ 2^(s + f) → (s = 0 ∨ 2^s < 2 * size) → ∃ L, sizeLoop size (f+1) (2^s) = some (2^L) ∧ size ≤ 2^L ∧ (L = 0 ∨ 2^L < 2 * size)
  | f, s, h1, h2 => by
      rw [sizeLoop]
      by_cases h : 2^s < size
      · rw [if_pos h]
        cases f with
        | zero => rw [Nat.add_zero] at h1; omega
        | succ f =>
          rw [← Nat.pow_succ]
          exact sizeLoop_ok size f (s+1) (by rwa [Nat.add_right_comm]) (Or.inr (by rw [Nat.pow_succ]; omega))
      · rw [if_neg h]
        exact ⟨s, rfl, by omega, h2⟩

/-- C145, constructor: `n()` is the least power of two that is not below `size`. -/
theorem C145_size (size : Nat) : ∃ L, ctor size = some (2^L) ∧ size ≤ 2^L ∧ ∀ L', size ≤ 2^L' → 2^L ≤ 2^L' := by
  obtain ⟨L, e, h1, h2⟩ := sizeLoop_ok size size 0 (by rw [Nat.zero_add]; exact Nat.le_of_lt Nat.lt_two_pow_self) (Or.inl rfl)
  refine ⟨L, e, h1, fun L' h' => ?_⟩
  rcases h2 with rfl | h2
  · exact Nat.one_le_two_pow
  · by_contra hc
    have hlt : L' < L := by
      by_contra h
      exact hc (Nat.pow_le_pow_right (by omega) (by omega))
    have := Nat.pow_le_pow_right (n := 2) (by omega) (by omega : L' + 1 ≤ L)
    rw [Nat.pow_succ] at this
    omega

/-! ### The inverse -/

/-- Sums of powers of a root of unity vanish. -/
theorem sum_roots [CommRing T] {tw : Nat → Nat → T} {z : Nat → T} (H : Twiddles tw z) : ∀ L d, 0 < d → d < 2^L → ∑ k ∈ range (2^L), z L ^ (k * d) = 0
  | 0, d, h1, h2 => by omega
  | L+1, d, h1, h2 => by
      rw [Nat.pow_succ] at h2
      have hs : ∑ k ∈ range (2^(L+1)), z (L+1) ^ (k * d) = ∑ k ∈ range (2^L), z (L+1) ^ (k * d) + ∑ k ∈ range (2^L), z (L+1) ^ ((2^L + k) * d) := by
        rw [Nat.pow_succ, Nat.mul_two, sum_range_add]
      have hh : ∀ k, z (L+1) ^ ((2^L + k) * d) = (-1)^d * z (L+1) ^ (k * d) := fun k => by
        rw [Nat.add_mul, pow_add, pow_mul, H.half]
      rw [hs]
      simp only [hh]
      rw [← mul_sum]
      rcases Nat.even_or_odd' d with ⟨e, rfl | rfl⟩
      · have hz : ∑ k ∈ range (2^L), z (L+1) ^ (k * (2 * e)) = 0 := by
          rw [← sum_roots H L e (by omega) (by omega)]
          refine sum_congr rfl (fun k _ => ?_)
          rw [← H.sq L, ← pow_mul]
          congr 1
          ring
        rw [hz, mul_zero, add_zero]
      · rw [pow_succ, pow_mul, neg_one_sq, one_pow]
        ring

/-- The transform with the inverse roots undoes the transform, up to the factor `n`. -/
theorem dft_inv [CommRing T] {tw tw' : Nat → Nat → T} {z z' : Nat → T} (H : Twiddles tw z) (H' : Twiddles tw' z') (hz : ∀ s, z s * z' s = 1) (L : Nat) (a : Nat → T) {x : Nat}
    (hx : x < 2^L) : dft (z' L) (2^L) (dft (z L) (2^L) a) x = ((2^L : Nat) : T) * a x := by
  unfold dft
  have h1 : ∀ k, (∑ t ∈ range (2^L), a t * z L ^ (k * t)) * z' L ^ (x * k) = ∑ t ∈ range (2^L), a t * (z L ^ (k * t) * z' L ^ (x * k)) := fun k => by
    rw [sum_mul]
    exact sum_congr rfl (fun t _ => by ring)
  simp only [h1]
  rw [sum_comm]
  have h2 : ∀ t ∈ range (2^L), ∑ k ∈ range (2^L), a t * (z L ^ (k * t) * z' L ^ (x * k)) = if t = x then ((2^L : Nat) : T) * a x else 0 := by
    intro t ht
    have ht := mem_range.1 ht
    rw [← mul_sum]
    by_cases h : t = x
    · subst h
      rw [if_pos rfl]
      have : ∀ k ∈ range (2^L), z L ^ (k * t) * z' L ^ (t * k) = 1 := fun k _ => by rw [Nat.mul_comm t k, ← mul_pow, hz, one_pow]
      rw [sum_congr rfl this, sum_const, card_range, nsmul_eq_mul, mul_one, mul_comm]
    · rw [if_neg h]
      have hv : ∑ k ∈ range (2^L), z L ^ (k * t) * z' L ^ (x * k) = 0 := by
        by_cases hlt : x < t
        · rw [← sum_roots H L (t - x) (by omega) (by omega)]
          refine sum_congr rfl (fun k _ => ?_)
          have : k * t = k * (t - x) + k * x := by rw [← Nat.mul_add]; congr 1; omega
          rw [this, pow_add, mul_assoc, Nat.mul_comm x k, ← mul_pow, hz, one_pow, mul_one]
        · rw [← sum_roots H' L (x - t) (by omega) (by omega)]
          refine sum_congr rfl (fun k _ => ?_)
          have : x * k = k * (x - t) + k * t := by rw [← Nat.mul_add, Nat.mul_comm]; congr 1; omega
          rw [this, pow_add, mul_comm (z' L ^ _), ← mul_assoc, ← mul_pow, hz, one_pow, one_mul]
      rw [hv, mul_zero]
  rw [sum_congr rfl h2, sum_ite_eq', if_pos (mem_range.2 hx)]

theorem resize_rep [Zero T] (n : Nat) (f : List T) : Rep (resize n f) n (fun i => f.getD i 0) := by
  refine ⟨by simp [resize]; omega, fun i hi => ?_⟩
  unfold resize
  by_cases h : i < f.length
  · rw [List.getElem?_append_left (by rw [List.length_take]; omega), List.getElem?_take_of_lt hi]
    exact (Rep.ofList f 0).val i h
  · rw [List.getElem?_append_right (by rw [List.length_take]; omega), List.getElem?_replicate, if_pos (by rw [List.length_take]; omega), List.getD_eq_getElem?_getD,
      List.getElem?_eq_none (by omega)]
    rfl

theorem ifftInline_ok [Field T] {tw' : Nat → Nat → T} {z' : Nat → T} (H' : Twiddles tw' z') {L : Nat} {f : List T} {a : Nat → T} (R : Rep f (2^L) a) :
    ∃ f', ifftInline tw' (2^L) f = some f' ∧ Rep f' (2^L) (fun k => dft (z' L) (2^L) a k / ((2^L : Nat) : T)) := by
  obtain ⟨f1, e1, R1⟩ := impl_ok H' R
  refine ⟨f1.map (· / ((2^L : Nat) : T)), by unfold ifftInline; rw [e1]; rfl, by rw [List.length_map, R1.len], fun i hi => ?_⟩
  rw [List.getElem?_map, R1.val i hi]
  rfl

/-- C145, transform: `fft(f)` is the discrete Fourier transform of `f`, cut or padded with zeros to the size `2^L` of the object. -/
theorem C145_fft [Field T] {tw : Nat → Nat → T} {z : Nat → T} (H : Twiddles tw z) (L : Nat) (f : List T) :
    ∃ F, fft tw (2^L) f = some F ∧ F.length = 2^L ∧ ∀ k, k < 2^L → F[k]? = some (∑ t ∈ range (2^L), f.getD t 0 * z L ^ (k * t)) := by
  obtain ⟨F, e, R⟩ := impl_ok H (resize_rep (2^L) f)
  exact ⟨F, e, R.len, R.val⟩

/-- C145, inverse transform: `ifft(F)` is the inverse sum. -/
theorem C145_ifft [Field T] {tw' : Nat → Nat → T} {z' : Nat → T} (H' : Twiddles tw' z') (L : Nat) (F : List T) :
    ∃ f, ifft tw' (2^L) F = some f ∧ f.length = 2^L ∧ ∀ t, t < 2^L → f[t]? = some ((∑ k ∈ range (2^L), F.getD k 0 * z' L ^ (t * k)) / ((2^L : Nat) : T)) := by
  obtain ⟨f, e, R⟩ := ifftInline_ok H' (resize_rep (2^L) F)
  exact ⟨f, e, R.len, R.val⟩

/-- C145, round trip: `ifft(fft(f))` is `f`, padded with zeros or cut to the size of the object. -/
theorem C145_round_trip [Field T] {tw tw' : Nat → Nat → T} {z z' : Nat → T} (H : Twiddles tw z) (H' : Twiddles tw' z') (hz : ∀ s, z s * z' s = 1) (h2 : (2 : T) ≠ 0) (L : Nat) (f : List T) :
    ∃ F f', fft tw (2^L) f = some F ∧ ifft tw' (2^L) F = some f' ∧ f'.length = 2^L ∧ ∀ t, t < 2^L → f'[t]? = some (f.getD t 0) := by
  obtain ⟨F, e, R⟩ := impl_ok H (resize_rep (2^L) f)
  obtain ⟨f', e', R'⟩ := ifftInline_ok H' ((resize_rep (2^L) F).congr (g' := dft (z L) (2^L) (fun i => f.getD i 0)) (fun i hi => by
    rw [List.getD_eq_getElem?_getD, R.val i hi]; rfl))
  refine ⟨F, f', e, e', R'.len, fun t ht => ?_⟩
  have hn : ((2^L : Nat) : T) ≠ 0 := by
    rw [Nat.cast_pow]
    exact pow_ne_zero _ (by exact_mod_cast h2)
  rw [R'.val t ht, dft_inv H H' hz L _ ht, mul_div_cancel_left₀ _ hn]

/-- C145, products: the inverse transform of the pointwise product of the transforms of two sequences whose product fits is their product as polynomials. -/
theorem C145_product [Field T] {tw tw' : Nat → Nat → T} {z z' : Nat → T} (H : Twiddles tw z) (H' : Twiddles tw' z') (hz : ∀ s, z s * z' s = 1) (h2 : (2 : T) ≠ 0) (L : Nat) (f g : List T)
    (hfit : f.length + g.length ≤ 2^L + 1) :
    ∃ F G h, fft tw (2^L) f = some F ∧ fft tw (2^L) g = some G ∧ ifft tw' (2^L) (List.zipWith (· * ·) F G) = some h ∧ h.length = 2^L ∧
      ∀ t, t < 2^L → h[t]? = some (∑ i ∈ range (t+1), f.getD i 0 * g.getD (t - i) 0) := by
  obtain ⟨F, eF, RF⟩ := impl_ok H (resize_rep (2^L) f)
  obtain ⟨G, eG, RG⟩ := impl_ok H (resize_rep (2^L) g)
  -- the transform of the product
  have hconv : ∀ k, dft (z L) (2^L) (fun i => f.getD i 0) k * dft (z L) (2^L) (fun i => g.getD i 0) k =
      dft (z L) (2^L) (fun t => ∑ i ∈ range (t+1), f.getD i 0 * g.getD (t - i) 0) k := by
    intro k
    have e1 : ∀ t ∈ range (2^L), (∑ i ∈ range (t+1), f.getD i 0 * g.getD (t - i) 0) * z L ^ (k * t) =
        ∑ i ∈ range (t+1), (fun i j => f.getD i 0 * g.getD j 0 * z L ^ (k * (i + j))) i (t - i) := fun t _ => by
      rw [sum_mul]
      refine sum_congr rfl (fun i hi => ?_)
      have := mem_range.1 hi
      dsimp only
      rw [show i + (t - i) = t from by omega]
    unfold dft
    rw [sum_congr rfl e1, sum_range_diag_flip (2^L) (fun i j => f.getD i 0 * g.getD j 0 * z L ^ (k * (i + j))), sum_mul]
    refine sum_congr rfl (fun i _ => ?_)
    rw [mul_sum]
    have e2 : ∑ j ∈ range (2^L - i), (fun i j => f.getD i 0 * g.getD j 0 * z L ^ (k * (i + j))) i j =
        ∑ j ∈ range (2^L), f.getD i 0 * g.getD j 0 * z L ^ (k * (i + j)) := by
      refine sum_subset (range_subset_range.2 (Nat.sub_le _ _)) (fun j hj hj' => ?_)
      have h3 := mem_range.1 hj
      rw [mem_range] at hj'
      by_cases hi : i < f.length
      · have : g.getD j 0 = 0 := by rw [List.getD_eq_getElem?_getD, List.getElem?_eq_none (by omega)]; rfl
        dsimp only
        rw [this, mul_zero, zero_mul]
      · have : f.getD i 0 = 0 := by rw [List.getD_eq_getElem?_getD, List.getElem?_eq_none (by omega)]; rfl
        dsimp only
        rw [this, zero_mul, zero_mul]
    rw [e2]
    refine sum_congr rfl (fun j _ => ?_)
    rw [Nat.mul_add, pow_add]
    ring
  obtain ⟨h, eh, Rh⟩ := ifftInline_ok H' ((resize_rep (2^L) (List.zipWith (· * ·) F G)).congr
    (g' := dft (z L) (2^L) (fun t => ∑ i ∈ range (t+1), f.getD i 0 * g.getD (t - i) 0)) (fun i hi => by
      rw [← hconv, List.getD_eq_getElem?_getD, List.getElem?_zipWith, RF.val i hi, RG.val i hi]; rfl))
  refine ⟨F, G, h, eF, eG, eh, Rh.len, fun t ht => ?_⟩
  have hn : ((2^L : Nat) : T) ≠ 0 := by
    rw [Nat.cast_pow]
    exact pow_ne_zero _ (by exact_mod_cast h2)
  rw [Rh.val t ht, dft_inv H H' hz L _ ht, mul_div_cancel_left₀ _ hn]

/- The hypotheses on the factors hold for those of the program: `twiddles_fwd`, `twiddles_inv`, `root_inv` in `Complex.lean`.  The model run on small rings, where some factors are exact: -/
example : ctor 5 = some 8 := by decide
example : reverse 8 [0, 1, 2, 3, 4, 5, 6, 7] = some [0, 4, 2, 6, 1, 5, 3, 7] := by decide
example : impl (T := ℤ) (fun _ _ => 1) 2 [3, 5] = some [8, -2] := by decide
example : impl (T := ZMod 17) (fun m i => 4 ^ (2 / m * i)) 4 [1, 2, 3, 4] = some [10, 7, 15, 6] := by decide

end Verif.Fft
