import Verif.Ntt.Props
import Mathlib.Algebra.Order.BigOperators.Group.Finset
/-!
Model of `convolution` on `std::vector<int>` (`/repo/include/mtl/convolution.hpp:7-23, 103-115, 117-135`) and its correctness.
-/
namespace Verif.ConvBig
open Verif.Modular Verif.Ntt

/-- A value of type `int`; overflow is undefined. -/
def i32 (x : Int) : Option Int := if -2^31 ≤ x ∧ x < 2^31 then some x else none

/-- convolution.hpp:16, 20 on `int`: `h[k] += x * y`. -/
def addMulI (k : Nat) (x y : Int) (h : List Int) : Option (List Int) :=
  (i32 (x * y)).bind (fun z => (h[k]?).bind (fun a => (i32 (a + z)).bind (fun s => wr h k s)))

/-- convolution.hpp:7-23 on `int`. -/
def convNaiveI (f g : List Int) : Option (List Int) :=
  if f.length = 0 ∨ g.length = 0 then some []
  else if f.length < g.length then
    forRange 0 g.length (fun j => forRange 0 f.length (fun i h =>
      (f[i]?).bind (fun x => (g[j]?).bind (fun y => addMulI (i+j) x y h)))) (List.replicate (f.length + g.length - 1) 0)
  else
    forRange 0 f.length (fun i => forRange 0 g.length (fun j h =>
      (f[i]?).bind (fun x => (g[j]?).bind (fun y => addMulI (i+j) x y h)))) (List.replicate (f.length + g.length - 1) 0)

/-- convolution.hpp:103-115: the overload of `convolution_fft` for `int` (`n+m-1` is a `size_t`). -/
def convFftI (f g : List Int) : Option (List Int) :=
  (convNtt 998244353 3 f.length (f.map (ofInt 998244353)) (g.map (ofInt 998244353))).bind (fun h =>
    forRange 0 ((f.length + g.length + 2^64 - 1) % 2^64) (fun i res => (h[i]?).bind (fun x => wr res i (x : Int)))
      (List.replicate ((f.length + g.length + 2^64 - 1) % 2^64) 0))

/-- convolution.hpp:117-135 on `int`. -/
def convI (f g : List Int) : Option (List Int) :=
  if f.length = 0 ∨ g.length = 0 then some []
  else if min f.length g.length ≤ 60 then convNaiveI f g
  else convFftI f g

/-- Coefficient `k` of the product over the integers. -/
def coefI (f g : List Int) (k : Nat) : Int := ∑ i ∈ Finset.range (k+1), f.getD i 0 * g.getD (k - i) 0

theorem coefI_comm (f g : List Int) (k : Nat) : coefI f g k = coefI g f k := by
  unfold coefI
  rw [← Finset.sum_range_reflect]
  apply Finset.sum_congr rfl
  intro i hi
  rw [Finset.mem_range] at hi
  rw [show k + 1 - 1 - i = k - i by omega, show k - (k - i) = i by omega, mul_comm]

/-- The contribution of the first `n` rows. -/
def rowsI (a b : Nat → Int) (n k : Nat) : Int := ∑ q ∈ Finset.range n, if q ≤ k then a q * b (k - q) else 0

theorem rowsI_succ (a b : Nat → Int) (n k : Nat) : rowsI a b (n+1) k = rowsI a b n k + if n ≤ k then a n * b (k - n) else 0 := Finset.sum_range_succ _ _

theorem term_nonneg {a b : Nat → Int} (ha : ∀ i, 0 ≤ a i) (hb : ∀ i, 0 ≤ b i) (q k : Nat) : 0 ≤ if q ≤ k then a q * b (k - q) else 0 := by
  split
  · exact mul_nonneg (ha _) (hb _)
  · exact le_refl _

theorem rowsI_mono {a b : Nat → Int} (ha : ∀ i, 0 ≤ a i) (hb : ∀ i, 0 ≤ b i) (k : Nat) {n m : Nat} (h : n ≤ m) : rowsI a b n k ≤ rowsI a b m k := by
  induction m, h using Nat.le_induction with
  | base => exact le_refl _
  | succ m _ ih =>
      rw [rowsI_succ]
      have := term_nonneg ha hb m k
      omega

theorem rowsI_nonneg {a b : Nat → Int} (ha : ∀ i, 0 ≤ a i) (hb : ∀ i, 0 ≤ b i) (n k : Nat) : 0 ≤ rowsI a b n k :=
  Finset.sum_nonneg (fun q _ => term_nonneg ha hb q k)

theorem rowsI_coef (f g : List Int) (k : Nat) : rowsI (fun i => f.getD i 0) (fun i => g.getD i 0) f.length k = coefI f g k := by
  have e1 : rowsI (fun i => f.getD i 0) (fun i => g.getD i 0) (max f.length (k+1)) k = rowsI (fun i => f.getD i 0) (fun i => g.getD i 0) f.length k := by
    symm
    apply Finset.sum_subset
    · intro x; rw [Finset.mem_range, Finset.mem_range]; omega
    · intro x _ hx
      rw [Finset.mem_range] at hx
      beta_reduce
      rw [List.getD_eq_default f 0 (by omega), zero_mul, ite_self]
  rw [← e1]
  symm
  unfold coefI rowsI
  have e2 : ∑ i ∈ Finset.range (k+1), f.getD i 0 * g.getD (k - i) 0 = ∑ i ∈ Finset.range (k+1), if i ≤ k then f.getD i 0 * g.getD (k - i) 0 else 0 := by
    apply Finset.sum_congr rfl
    intro i hi
    rw [Finset.mem_range] at hi
    rw [if_pos (by omega)]
  rw [e2]
  apply Finset.sum_subset
  · intro x; rw [Finset.mem_range, Finset.mem_range]; omega
  · intro x _ hx
    rw [Finset.mem_range] at hx
    rw [if_neg (by omega)]

/-- `h` is given by `φ`. -/
def RepI (h : List Int) (N : Nat) (φ : Nat → Int) : Prop := h.length = N ∧ ∀ k, k < N → h[k]? = some (φ k)

theorem addMulI_ok {N k : Nat} {x y : Int} {h : List Int} {φ ψ : Nat → Int} (R : RepI h N φ) (hk : k < N) (h1 : -2^31 ≤ x * y ∧ x * y < 2^31)
    (h2 : -2^31 ≤ φ k + x * y ∧ φ k + x * y < 2^31) (e1 : ψ k = φ k + x * y) (e2 : ∀ i, i < N → i ≠ k → ψ i = φ i) :
    ∃ h', addMulI k x y h = some h' ∧ RepI h' N ψ := by
  refine ⟨h.set k (φ k + x * y), ?_, by simp [R.1], ?_⟩
  · unfold addMulI i32
    rw [if_pos h1, Option.bind_some, R.2 k hk, Option.bind_some, if_pos h2, Option.bind_some]
    unfold wr
    rw [if_pos (by rw [R.1]; exact hk)]
  · intro i hi
    by_cases c : i = k
    · subst c
      rw [List.getElem?_set_self (by rw [R.1]; exact hi), e1]
    · rw [List.getElem?_set_ne (by omega), R.2 i hi, e2 i hi c]

/-- The two nested loops. -/
theorem nested_ok {n m : Nat} (hn : 0 < n) (hm : 0 < m) {a b : Nat → Int} (ha : ∀ i, 0 ≤ a i) (hb : ∀ i, 0 ≤ b i) (hbd : ∀ k, rowsI a b n k < 2^31)
    (hb0 : ∀ i, m ≤ i → b i = 0) {body : Nat → Nat → List Int → Option (List Int)} (hbody : ∀ i j h, i < n → j < m → body i j h = addMulI (i + j) (a i) (b j) h) :
    ∃ h, forRange 0 n (fun i => forRange 0 m (body i)) (List.replicate (n + m - 1) 0) = some h ∧ RepI h (n + m - 1) (rowsI a b n) := by
  apply forRange_inv (P := fun i h => RepI h (n + m - 1) (rowsI a b i)) (Nat.zero_le _)
  · refine ⟨by simp, fun k hk => ?_⟩
    rw [List.getElem?_replicate, if_pos hk]
    rfl
  · intro i h _ hi R
    obtain ⟨h', e, R'⟩ := forRange_inv (a := 0) (b := m) (s := h) (body := body i)
      (P := fun j h => RepI h (n + m - 1) (fun k => rowsI a b i k + if i ≤ k ∧ k < i + j then a i * b (k - i) else 0)) (Nat.zero_le _)
      ⟨R.1, fun k hk => by rw [R.2 k hk]; beta_reduce; rw [if_neg (by omega), add_zero]⟩ (by
        intro j h _ hj R
        rw [hbody i j h hi hj]
        have t1 : 0 ≤ a i * b j := mul_nonneg (ha _) (hb _)
        have t2 := rowsI_nonneg ha hb i (i + j)
        have t3 := rowsI_mono ha hb (i + j) (show i + 1 ≤ n from hi)
        rw [rowsI_succ, if_pos (by omega), Nat.add_sub_cancel_left] at t3
        have t4 := hbd (i + j)
        refine addMulI_ok R (by omega) ⟨by omega, by omega⟩ ?_ ?_ ?_
        · beta_reduce
          rw [if_neg (by omega)]
          constructor <;> omega
        · beta_reduce
          rw [if_pos (by omega), if_neg (by omega), Nat.add_sub_cancel_left, add_zero]
        · intro k _ hk
          beta_reduce
          by_cases c : i ≤ k ∧ k < i + j
          · rw [if_pos c, if_pos (by omega)]
          · rw [if_neg c, if_neg (by omega)])
    refine ⟨h', e, R'.1, fun k hk => ?_⟩
    rw [R'.2 k hk, rowsI_succ]
    beta_reduce
    congr 2
    by_cases c : i ≤ k
    · rw [if_pos c]
      by_cases c1 : k < i + m
      · rw [if_pos ⟨c, c1⟩]
      · rw [if_neg (by omega), hb0 _ (by omega), mul_zero]
    · rw [if_neg (by omega), if_neg c]

theorem getD_nonneg {f : List Int} (hf : ∀ a ∈ f, 0 ≤ a) (i : Nat) : 0 ≤ f.getD i 0 := by
  rw [List.getD_eq_getElem?_getD]
  cases e : f[i]? with
  | none => exact le_refl _
  | some x => exact hf x (List.mem_of_getElem? e)

theorem getElem?_getD {f : List Int} {i : Nat} (hi : i < f.length) : f[i]? = some (f.getD i 0) := by
  rw [List.getD_eq_getElem?_getD, List.getElem?_eq_getElem hi]; rfl

/-- What is expected of a product over the integers. -/
def IsProductI (f g h : List Int) : Prop := h.length = f.length + g.length - 1 ∧ ∀ k, h.getD k 0 = coefI f g k

theorem coefI_ge {f g : List Int} {k : Nat} (h0 : 0 < f.length) (hk : f.length + g.length - 1 ≤ k) : coefI f g k = 0 := by
  unfold coefI
  apply Finset.sum_eq_zero
  intro i _
  by_cases c1 : i < f.length
  · rw [List.getD_eq_default g _ (by omega), mul_zero]
  · rw [List.getD_eq_default f _ (by omega), zero_mul]

theorem isProductI_of {f g h : List Int} (h0 : 0 < f.length) (hl : h.length = f.length + g.length - 1) (hv : ∀ k, k < f.length + g.length - 1 → h[k]? = some (coefI f g k)) : IsProductI f g h := by
  refine ⟨hl, fun k => ?_⟩
  by_cases c : k < f.length + g.length - 1
  · rw [List.getD_eq_getElem?_getD, hv k c]; rfl
  · rw [List.getD_eq_default _ _ (by omega), coefI_ge h0 (by omega)]

theorem convNaiveI_ok {f g : List Int} (hf : ∀ a ∈ f, 0 ≤ a) (hg : ∀ a ∈ g, 0 ≤ a) (hf0 : f ≠ []) (hg0 : g ≠ []) (hc : ∀ k, coefI f g k < 2^31) :
    ∃ h, convNaiveI f g = some h ∧ IsProductI f g h := by
  have hp := List.length_pos_iff.2 hf0
  have hq := List.length_pos_iff.2 hg0
  unfold convNaiveI
  rw [if_neg (by omega)]
  by_cases c : f.length < g.length
  · rw [if_pos c]
    obtain ⟨h, e, R⟩ := nested_ok (n := g.length) (m := f.length) hq hp (a := fun i => g.getD i 0) (b := fun i => f.getD i 0) (getD_nonneg hg) (getD_nonneg hf)
      (fun k => by rw [rowsI_coef, coefI_comm]; exact hc k) (fun i hi => List.getD_eq_default _ _ hi)
      (body := fun j i h => (f[i]?).bind (fun x => (g[j]?).bind (fun y => addMulI (i+j) x y h))) (by
        intro i j h hi hj
        rw [getElem?_getD hi, getElem?_getD hj, Option.bind_some, Option.bind_some, Nat.add_comm j i]
        unfold addMulI
        rw [mul_comm (f.getD j 0)])
    rw [Nat.add_comm g.length] at e R
    exact ⟨h, e, isProductI_of hp R.1 (fun k hk => by rw [R.2 k hk, rowsI_coef, coefI_comm])⟩
  · rw [if_neg c]
    obtain ⟨h, e, R⟩ := nested_ok (n := f.length) (m := g.length) hp hq (a := fun i => f.getD i 0) (b := fun i => g.getD i 0) (getD_nonneg hf) (getD_nonneg hg)
      (fun k => by rw [rowsI_coef]; exact hc k) (fun i hi => List.getD_eq_default _ _ hi)
      (body := fun i j h => (f[i]?).bind (fun x => (g[j]?).bind (fun y => addMulI (i+j) x y h))) (by
        intro i j h hi hj
        rw [getElem?_getD hi, getElem?_getD hj, Option.bind_some, Option.bind_some])
    exact ⟨h, e, isProductI_of hp R.1 (fun k hk => by rw [R.2 k hk, rowsI_coef])⟩

theorem getD_ofInt {q : Nat} (hq : 0 < q) (f : List Int) (i : Nat) : (((f.map (ofInt q)).getD i 0 : Nat) : ZMod q) = ((f.getD i 0 : Int) : ZMod q) := by
  rw [List.getD_eq_getElem?_getD, List.getD_eq_getElem?_getD, List.getElem?_map]
  cases f[i]? with
  | none => simp
  | some x => exact ofInt_cast hq x

theorem prodCoeff_ofInt {q : Nat} (hq : 0 < q) (f g : List Int) (k : Nat) : ((prodCoeff q (f.map (ofInt q)) (g.map (ofInt q)) k : Nat) : ZMod q) = ((coefI f g k : Int) : ZMod q) := by
  unfold prodCoeff coefI
  rw [ZMod.natCast_mod]
  push_cast
  apply Finset.sum_congr rfl
  intro i _
  rw [getD_ofInt hq, getD_ofInt hq]

/-- `convolution_fft` on `int` returns the residues of the coefficients. -/
theorem convFftI_ok {f g : List Int} (hf0 : f ≠ []) (hg0 : g ≠ []) (hl : f.length + g.length - 1 ≤ 2^23) :
    ∃ h, convFftI f g = some h ∧ h.length = f.length + g.length - 1 ∧ ∀ k, k < f.length + g.length - 1 → h[k]? = some (coefI f g k % 998244353) := by
  have H : Root 998244353 3 := C54_roots.2.2.2.2.2
  have hp := List.length_pos_iff.2 hf0
  have hq := List.length_pos_iff.2 hg0
  have hlt : ∀ u : List Int, ∀ a ∈ u.map (ofInt 998244353), a < 998244353 := by
    intro u a ha
    obtain ⟨b, _, rfl⟩ := List.mem_map.mp ha
    exact ofInt_lt (by decide) b
  obtain ⟨h, e, _, hpr⟩ := C54_convolution_ntt H (k := 23) (by decide +kernel) (f.map (ofInt 998244353)) (g.map (ofInt 998244353)) (hlt f) (hlt g)
    (by simpa using hf0) (by simpa using hg0) (by simpa using hl)
  rw [List.length_map] at e
  have hlen : f.length + g.length - 1 ≤ h.length := by simpa using hpr.1
  unfold convFftI
  rw [e, Option.bind_some, show (f.length + g.length + 2^64 - 1) % 2^64 = f.length + g.length - 1 by omega]
  obtain ⟨res, e', hl', hv⟩ := forRange_inv (a := 0) (b := f.length + g.length - 1) (s := List.replicate (f.length + g.length - 1) (0 : Int))
    (body := fun i res => (h[i]?).bind (fun x => wr res i (x : Int)))
    (P := fun i (res : List Int) => res.length = f.length + g.length - 1 ∧ ∀ k, k < i → res[k]? = some (coefI f g k % 998244353)) (Nat.zero_le _)
    ⟨by simp, fun j hj => absurd hj (Nat.not_lt_zero _)⟩ (by
      rintro i res _ hi ⟨hl', hv⟩
      have e1 : h[i]? = some (h.getD i 0) := by
        rw [List.getD_eq_getElem?_getD, List.getElem?_eq_getElem (by omega)]; rfl
      refine ⟨res.set i ((h.getD i 0 : Nat) : Int), ?_, by simp [hl'], ?_⟩
      · rw [e1, Option.bind_some]
        unfold wr
        rw [if_pos (by omega)]
      · intro k hk
        by_cases c : k = i
        · subst c
          rw [List.getElem?_set_self (by omega), hpr.2 k]
          have h1 := prodCoeff_ofInt (q := 998244353) (by decide) f g k
          have h2 : prodCoeff 998244353 (f.map (ofInt 998244353)) (g.map (ofInt 998244353)) k < 998244353 := Nat.mod_lt _ (by decide)
          have h3 : (((prodCoeff 998244353 (f.map (ofInt 998244353)) (g.map (ofInt 998244353)) k : Nat) : Int) : ZMod 998244353) = ((coefI f g k : Int) : ZMod 998244353) := by
            rw [Int.cast_natCast]; exact h1
          rw [ZMod.intCast_eq_intCast_iff] at h3
          have h4 : ((prodCoeff 998244353 (f.map (ofInt 998244353)) (g.map (ofInt 998244353)) k : Nat) : Int) % 998244353 = coefI f g k % 998244353 := h3
          rw [← h4, Int.emod_eq_of_lt (by omega) (by omega)]
        · rw [List.getElem?_set_ne (by omega)]
          exact hv k (by omega))
  exact ⟨res, e', hl', hv⟩

theorem coefI_nonneg {f g : List Int} (hf : ∀ a ∈ f, 0 ≤ a) (hg : ∀ a ∈ g, 0 ≤ a) (k : Nat) : 0 ≤ coefI f g k :=
  Finset.sum_nonneg (fun _ _ => mul_nonneg (getD_nonneg hf _) (getD_nonneg hg _))

theorem convI_ok {f g : List Int} (hf : ∀ a ∈ f, 0 ≤ a) (hg : ∀ a ∈ g, 0 ≤ a) (hf0 : f ≠ []) (hg0 : g ≠ []) (hl : f.length ≤ 60 ∨ g.length ≤ 60 ∨ f.length + g.length - 1 ≤ 2^23)
    (hc : ∀ k, coefI f g k < 998244353) : ∃ h, convI f g = some h ∧ IsProductI f g h := by
  have hp := List.length_pos_iff.2 hf0
  have hq := List.length_pos_iff.2 hg0
  unfold convI
  rw [if_neg (by omega)]
  by_cases c : min f.length g.length ≤ 60
  · rw [if_pos c]
    exact convNaiveI_ok hf hg hf0 hg0 (fun k => by have := hc k; omega)
  · rw [if_neg c]
    obtain ⟨h, e, hl', hv⟩ := convFftI_ok (f := f) (g := g) hf0 hg0 (by omega)
    refine ⟨h, e, isProductI_of hp hl' (fun k hk => ?_)⟩
    rw [hv k hk, Int.emod_eq_of_lt (coefI_nonneg hf hg k) (hc k)]

end Verif.ConvBig
