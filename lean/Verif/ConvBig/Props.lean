import Verif.ConvBig.Garner
import Verif.ConvBig.Large
import Verif.ConvBig.Ints
/-!
**C114, C115, C116.** The convolutions of `convolution.hpp` for arbitrary moduli, for long vectors and for `int`.

`IsProduct m f g h` (of C54) says that `h` holds the coefficients of the product modulo `m`, possibly followed by zeros; `IsProductI` says that `h` holds exactly the
coefficients over the integers.
-/
namespace Verif.ConvBig
open Verif.Modular Verif.Ntt

/-- **C114.** `convolution_garner` returns the product modulo any modulus below `2^31` (prime or not), as long as the product has at most `2^24` coefficients. -/
theorem C114_garner (mod : Nat) (h0 : 0 < mod) (hm : mod < 2^31) (f g : List Nat) (hf : ∀ a ∈ f, a < mod) (hg : ∀ a ∈ g, a < mod) :
    (f = [] ∨ g = [] → convGarner mod f g = some []) ∧
    (f ≠ [] → g ≠ [] → f.length + g.length - 1 ≤ 2^24 → ∃ h, convGarner mod f g = some h ∧ IsProduct mod f g h) := by
  refine ⟨fun h => ?_, fun hf0 hg0 hl => convGarner_ok h0 hm hf hg hf0 hg0 hl⟩
  unfold convGarner
  rw [if_pos (by rcases h with rfl | rfl <;> simp)]

example : convGarner 1000000000 [999999999, 5] [7, 999999998] = some [999999993, 37, 999999990] := by decide +kernel
example : ∃ h, convGarner 1000000007 [1000000006, 1000000006, 3] [1000000006, 2] = some h ∧ IsProduct 1000000007 [1000000006, 1000000006, 3] [1000000006, 2] h :=
  (C114_garner 1000000007 (by decide) (by decide) [1000000006, 1000000006, 3] [1000000006, 2] (by decide) (by decide)).2 (by decide) (by decide) (by decide)

/-- **C115.** For an odd prime modulus `convolution_large` returns the product of vectors of any length up to `2^31` in total, whatever power of two divides `p - 1`. -/
theorem C115_large_partial {p r : Nat} (H : Root p r) (hp : p ≠ 2) (f g : List Nat) (hf : ∀ a ∈ f, a < p) (hg : ∀ a ∈ g, a < p) :
    (f = [] ∨ g = [] → convLarge p r f g = some []) ∧
    (f ≠ [] → g ≠ [] → f.length + g.length ≤ 2^31 → ∃ h, convLarge p r f g = some h ∧ IsProduct p f g h) := by
  refine ⟨fun h => ?_, fun hf0 hg0 hl => convLarge_ok H hp hf hg hf0 hg0 hl⟩
  unfold convLarge
  rw [if_pos (by rcases h with rfl | rfl <;> simp)]

/-- For the modulus 2 (`ctz(Mod-1) = 0`) every call with non-empty vectors shifts by `0u - 1`: undefined, although the modulus is tabulated. -/
theorem C115_violated (f g : List Nat) (hf0 : f ≠ []) (hg0 : g ≠ []) : Root 2 1 ∧ convLarge 2 1 f g = none := by
  refine ⟨C54_roots.1, ?_⟩
  have hp := List.length_pos_iff.2 hf0
  have hq := List.length_pos_iff.2 hg0
  have hl : logN 2 = 0 := by decide
  unfold convLarge
  rw [if_neg (by omega), hl, if_neg (by omega), if_pos rfl]

theorem root7 : Root 7 3 := by
  refine root_of_pows (by decide) (by decide) (by decide) [2, 3] [1, 1] (by decide) (by decide) (by decide +kernel) (by decide +kernel)

/-- Only `2` divides `7 - 1`: blocks of length one. -/
example : convLarge 7 3 [1, 2, 3, 4] [5, 6, 1] = some [5, 2, 0, 5, 6, 4] := by decide +kernel
example : ∃ h, convLarge 7 3 [1, 2, 3, 4] [5, 6, 1] = some h ∧ IsProduct 7 [1, 2, 3, 4] [5, 6, 1] h :=
  (C115_large_partial root7 (by decide) [1, 2, 3, 4] [5, 6, 1] (by decide) (by decide)).2 (by decide) (by decide) (by decide)
example : ∃ h, convLarge 7 3 [] [5, 6, 1] = some h := ⟨[], (C115_large_partial root7 (by decide) [] [5, 6, 1] (by decide) (by decide)).1 (Or.inl rfl)⟩

/-- **C116.** On vectors of non-negative `int` whose product has coefficients below 998244353, `convolution` returns these coefficients. -/
theorem C116_ints_partial (f g : List Int) (hf : ∀ a ∈ f, 0 ≤ a) (hg : ∀ a ∈ g, 0 ≤ a) (hc : ∀ k, coefI f g k < 998244353) :
    (f = [] ∨ g = [] → convI f g = some []) ∧
    (f ≠ [] → g ≠ [] → f.length ≤ 60 ∨ g.length ≤ 60 ∨ f.length + g.length - 1 ≤ 2^23 → ∃ h, convI f g = some h ∧ IsProductI f g h) := by
  refine ⟨fun h => ?_, fun hf0 hg0 hl => convI_ok hf hg hf0 hg0 hl hc⟩
  unfold convI
  rw [if_pos (by rcases h with rfl | rfl <;> simp)]

/-- Beyond 60 entries the coefficients are replaced by their residues: the product of `(-1, 0, …)` and `(1, 0, …)` starts with 998244352 if the vectors have 61
entries and with -1 if they have one.  No overflow is involved. -/
theorem C116_violated : ∃ f g : List Int, (∀ a ∈ f, -1 ≤ a ∧ a ≤ 0) ∧ (∀ a ∈ g, 0 ≤ a ∧ a ≤ 1) ∧ coefI f g 0 = -1 ∧
    (∃ h, convI f g = some h ∧ h[0]? = some 998244352) ∧ convI [-1] [1] = some [-1] := by
  refine ⟨-1 :: List.replicate 60 0, 1 :: List.replicate 60 0, by decide, by decide, by decide, ?_, by decide⟩
  obtain ⟨h, e, _, hv⟩ := convFftI_ok (f := -1 :: List.replicate 60 0) (g := 1 :: List.replicate 60 0) (by simp) (by simp) (by simp)
  refine ⟨h, ?_, ?_⟩
  · unfold convI
    rw [if_neg (by simp), if_neg (by simp), e]
  · rw [hv 0 (by simp)]
    decide

/-- Also for non-negative vectors: a coefficient of 998244353 becomes 0. -/
theorem C116_violated_large : ∃ f g : List Int, (∀ a ∈ f, 0 ≤ a ∧ a < 2^31) ∧ (∀ a ∈ g, 0 ≤ a ∧ a ≤ 1) ∧ coefI f g 0 = 998244353 ∧
    ∃ h, convI f g = some h ∧ h[0]? = some 0 := by
  refine ⟨998244353 :: List.replicate 60 0, 1 :: List.replicate 60 0, by decide, by decide, by decide, ?_⟩
  obtain ⟨h, e, _, hv⟩ := convFftI_ok (f := 998244353 :: List.replicate 60 0) (g := 1 :: List.replicate 60 0) (by simp) (by simp) (by simp)
  refine ⟨h, ?_, ?_⟩
  · unfold convI
    rw [if_neg (by simp), if_neg (by simp), e]
  · rw [hv 0 (by simp)]
    decide

theorem coef_bound {f g : List Int} (h0 : 0 < f.length) (h : ∀ k, k < f.length + g.length - 1 → coefI f g k < 998244353) (k : Nat) : coefI f g k < 998244353 := by
  by_cases c : k < f.length + g.length - 1
  · exact h k c
  · rw [coefI_ge h0 (by omega)]; decide

example : convI [3, 40000, 1] [20000, 7] = some [60000, 800000021, 300000, 7] := by decide +kernel
example : ∃ h, convI [3, 40000, 1] [20000, 7] = some h ∧ IsProductI [3, 40000, 1] [20000, 7] h :=
  (C116_ints_partial [3, 40000, 1] [20000, 7] (by decide) (by decide) (coef_bound (by decide) (by decide +kernel))).2 (by decide) (by decide) (Or.inl (by decide))

end Verif.ConvBig
