import Verif.Ntt.Conv
import Mathlib.NumberTheory.LucasPrimality
/-!
**C54.** The number theoretic transform of `ntt.hpp` evaluates the polynomial at the powers of a root of unity, the inverse transform undoes it,
and the convolutions of `convolution.hpp` return the coefficients of the product.

The modulus is a prime `p` below `2^31` (it is an `int`), `g` a generator of its multiplicative group; `C54_roots` shows this for the moduli tabulated
in `modular.hpp`.  A length `2^k` is supported by the modulus if `2^k` divides `p - 1`.
-/
namespace Verif.Ntt
open Verif.Modular

/-- Coefficient `k` of the product of `f` and `g` modulo `p`. -/
def prodCoeff (p : Nat) (f g : List Nat) (k : Nat) : Nat := (∑ i ∈ Finset.range (k+1), f.getD i 0 * g.getD (k - i) 0) % p

/-- `h` is the product of `f` and `g`, possibly followed by zeros. -/
def IsProduct (p : Nat) (f g h : List Nat) : Prop := f.length + g.length - 1 ≤ h.length ∧ ∀ k, h.getD k 0 = prodCoeff p f g k

theorem supported {p g k : Nat} (H : Root p g) (hk : 2^k ∣ p - 1) : k ≤ logN p := by
  obtain ⟨⟨q, hq, ho⟩, _⟩ := logN_spec H.prime.two_le H.lt
  by_contra h
  have h1 : 2^(logN p + 1) ∣ p - 1 := Nat.dvd_trans (Nat.pow_dvd_pow 2 (by omega)) hk
  rw [hq, pow_succ] at h1
  have := Nat.dvd_of_mul_dvd_mul_left (Nat.two_pow_pos _) h1
  omega

theorem isProduct_of_rep {p N : Nat} (h0 : 0 < p) {f g h : List Nat} (R : RepZ p h N (mulF (cf p f) (cf p g))) (hN : f.length + g.length - 1 ≤ N) (hfg : 0 < f.length + g.length) :
    IsProduct p f g h := by
  refine ⟨by rw [R.len]; exact hN, ?_⟩
  intro k
  have hc : ((prodCoeff p f g k : Nat) : ZMod p) = mulF (cf p f) (cf p g) k := by
    unfold prodCoeff mulF cf
    rw [ZMod.natCast_mod]
    push_cast
    rfl
  have hl : prodCoeff p f g k < p := Nat.mod_lt _ h0
  by_cases hk : k < N
  · obtain ⟨a, e, la, ca⟩ := R.val k hk
    rw [List.getD_eq_getElem?_getD, e, Option.getD_some]
    exact cast_inj la hl (by rw [ca, hc])
  · rw [List.getD_eq_default _ _ (by rw [R.len]; omega)]
    refine cast_inj h0 hl ?_
    rw [hc, mulF_ge (A := f.length) (B := g.length) (fun i hi => cf_ge hi) (fun i hi => cf_ge hi) (by omega), Nat.cast_zero]

/-- The `2^k`-th root of unity of the transform of length `2^k`. -/
def om (p g k : Nat) : ZMod p := if k = 0 then 1 else (gi p g (k-1))⁻¹

theorem om_sq {p g : Nat} (H : Root p g) {k : Nat} (hk : k + 1 ≤ logN p) : om p g (k+1) * om p g (k+1) = om p g k := by
  haveI : Fact p.Prime := ⟨H.prime⟩
  unfold om
  rw [if_neg (by omega), Nat.add_sub_cancel]
  cases k with
  | zero =>
    have := gi_pow H (i := 0) (by omega)
    rw [pow_zero, pow_one] at this
    rw [if_pos rfl, this]; simp
  | succ k =>
    rw [if_neg (by omega), Nat.add_sub_cancel, ← mul_inv, gi_sq (by omega)]

theorem pts_rv {p g : Nat} (H : Root p g) : ∀ k, k ≤ logN p → ∀ j, j < 2^k → pts p g k j = om p g k ^ rv k j := by
  intro k
  induction k with
  | zero => intro _ j _; simp [pts, pt, rv]
  | succ k ih =>
    intro hk j hj
    have ih := ih (by omega)
    have hom : om p g (k+1) = (gi p g k)⁻¹ := by unfold om; rw [if_neg (by omega), Nat.add_sub_cancel]
    unfold pts at ih ⊢
    rw [pt]
    by_cases h : j < 2^k
    · have hr := rv_top k 0 j (by omega) h
      rw [Nat.zero_mul, Nat.zero_add, Nat.zero_add] at hr
      rw [if_pos h, ih j h, hr, pow_mul, pow_two, om_sq H hk]
    · rw [pow_succ] at hj
      have hr := rv_top k 1 (j - 2^k) (by omega) (by omega)
      rw [Nat.one_mul, show 2^k + (j - 2^k) = j by omega] at hr
      rw [if_neg h, ih _ (by omega), hr, pow_add, pow_one, pow_mul, pow_two, om_sq H hk, hom, mul_comm]

theorem om_order {p g : Nat} (H : Root p g) {k : Nat} (hk : k ≤ logN p) : orderOf (om p g k) = 2^k := by
  haveI : Fact p.Prime := ⟨H.prime⟩
  cases k with
  | zero => simp [om]
  | succ k =>
    have h1 : om p g (k+1) ^ 2^k = -1 := by
      unfold om
      rw [if_neg (by omega), Nat.add_sub_cancel]
      exact gi_inv_pow H (by omega)
    haveI : Fact (Nat.Prime 2) := ⟨Nat.prime_two⟩
    refine orderOf_eq_prime_pow ?_ ?_
    · rw [h1]
      intro h
      have : (2 : ZMod p) = 0 := by linear_combination -h
      exact two_ne H (by omega) this
    · rw [pow_succ, pow_mul, h1]; ring

/-- **C54, the transform.** For every supported length `2^k` there is an element `ω` of order `2^k` such that `ntt` of any vector of that length
is the vector of its values at `1, ω, ω², …`. -/
theorem C54_dft {p g k : Nat} (H : Root p g) (hk : 2^k ∣ p - 1) : ∃ ω : ZMod p, orderOf ω = 2^k ∧ ∀ f : List Nat, (∀ a ∈ f, a < p) → f.length = 2^k →
    ∃ f', ntt p g f = some f' ∧ f'.length = 2^k ∧ (∀ a ∈ f', a < p) ∧
      ∀ j, j < 2^k → ((f'.getD j 0 : Nat) : ZMod p) = ∑ i ∈ Finset.range (2^k), ((f.getD i 0 : Nat) : ZMod p) * (ω^j)^i := by
  have hk' := supported H hk
  obtain ⟨_, hL⟩ := logN_spec H.prime.two_le H.lt
  refine ⟨om p g k, om_order H hk', ?_⟩
  intro f hf hl
  obtain ⟨_, f', e, R⟩ := fft_spec H hk' hf (by rw [hl]; exact ceilPow2_pow (by omega)) (by omega)
  refine ⟨f', e, R.len, R.red, ?_⟩
  intro j hj
  have := R.cf_eq hj
  unfold cf at this
  rw [this, pts_rv H k hk' _ (rv_lt k j), rv_rv k j hj]
  unfold ev
  refine Finset.sum_congr rfl fun i _ => ?_
  rw [Nat.zero_add]

/-- **C54, inversion.** `intt` undoes `ntt`, and `intt_convolution` undoes `ntt_convolution`, on every vector that fits into a supported length;
a vector whose length is not a power of two comes back padded with zeros. -/
theorem C54_inverse {p g k : Nat} (H : Root p g) (hk : 2^k ∣ p - 1) (f : List Nat) (hf : ∀ a ∈ f, a < p) (hl : f.length ≤ 2^k)
    (hmin : ∀ j, f.length ≤ 2^j → k ≤ j) :
    (ntt p g f).bind (intt p g) = some (f ++ List.replicate (2^k - f.length) 0) ∧
    (nttConv p g f).bind (inttConv p g) = some (f ++ List.replicate (2^k - f.length) 0) := by
  have hk' := supported H hk
  have h2 := H.prime.two_le
  obtain ⟨_, hL⟩ := logN_spec h2 H.lt
  have hb : 2^k ≤ 2^30 := Nat.pow_le_pow_right (by omega) (by omega)
  obtain ⟨j, ej, h1, h3⟩ := ceilPow2_spec (x := f.length) (by omega)
  have hj : j = k := Nat.le_antisymm (h3 k hl) (hmin j h1)
  subst hj
  have Rf := resize_rep (n := 2^j) (p := p) (by omega) hf hl
  have hz : ofInt p 0 = 0 := by have := ofInt_eq (m := p) (by omega) 0; simpa using this
  have hr : resize p (2^j) f = f ++ List.replicate (2^j - f.length) 0 := by
    unfold resize; rw [List.take_of_length_le hl, hz]
  obtain ⟨⟨a, ea, Ra⟩, b, eb, Rb⟩ := fft_spec H hk' hf ej hl
  obtain ⟨a', ea', Ra'⟩ := (ifft_spec H hk').1 Ra
  obtain ⟨b', eb', Rb'⟩ := (ifft_spec H hk').2 Rb
  constructor
  · unfold ntt intt
    rw [eb, Option.bind_some, eb', ← hr, RepZ.ext Rb' Rf (fun _ _ => rfl)]
  · unfold nttConv inttConv
    rw [ea, Option.bind_some, ea', ← hr, RepZ.ext Ra' Rf (fun _ _ => rfl)]

/-- **C54, inversion at the exact lengths.** -/
theorem C54_inverse_exact {p g k : Nat} (H : Root p g) (hk : 2^k ∣ p - 1) (f : List Nat) (hf : ∀ a ∈ f, a < p) (hl : f.length = 2^k) :
    (ntt p g f).bind (intt p g) = some f ∧ (nttConv p g f).bind (inttConv p g) = some f := by
  have := C54_inverse H hk f hf (by omega) (fun j hj => (Nat.pow_le_pow_iff_right (a := 2) (by omega)).1 (by omega))
  rw [hl, Nat.sub_self, List.replicate_zero, List.append_nil] at this
  exact this

/-- **C54, convolution by transforms.** For non-empty vectors whose product fits into a supported length `convolution_ntt` returns the coefficients of
the product, possibly followed by zeros. -/
theorem C54_convolution_ntt {p r k : Nat} (H : Root p r) (hk : 2^k ∣ p - 1) (f g : List Nat) (hf : ∀ a ∈ f, a < p) (hg : ∀ a ∈ g, a < p)
    (hf0 : f ≠ []) (hg0 : g ≠ []) (hl : f.length + g.length - 1 ≤ 2^k) :
    ∃ h, convNtt p r f.length f g = some h ∧ h.length ≤ 2^k ∧ IsProduct p f g h := by
  have hf1 := List.length_pos_iff.2 hf0
  have hg1 := List.length_pos_iff.2 hg0
  have h2 := H.prime.two_le
  obtain ⟨h, N, e, n1, n2, R⟩ := convNtt_spec H f.length f g k hf hg hf1 hg1 (Nat.le_refl _) (supported H hk) hl
  exact ⟨h, e, by rw [R.len]; exact n2, isProduct_of_rep (by omega) R n1 (by omega)⟩

/-- **C54, naive convolution**, for every size and every modulus: exactly the coefficients of the product. -/
theorem C54_convolution_naive {p : Nat} (h0 : 0 < p) (hp : p < 2^31) (f g : List Nat) (hf : ∀ a ∈ f, a < p) (hg : ∀ a ∈ g, a < p) :
    (f = [] ∨ g = [] → convNaive p f g = some []) ∧
    (f ≠ [] → g ≠ [] → ∃ h, convNaive p f g = some h ∧ h.length = f.length + g.length - 1 ∧ IsProduct p f g h) := by
  constructor
  · intro h
    unfold convNaive
    rw [if_pos]
    rcases h with h | h <;> simp [h]
  · intro hf0 hg0
    have hf1 := List.length_pos_iff.2 hf0
    have hg1 := List.length_pos_iff.2 hg0
    obtain ⟨h, e, R⟩ := convNaive_spec h0 hp hf hg
    rw [if_neg (by omega)] at R
    exact ⟨h, e, R.len, isProduct_of_rep h0 R (Nat.le_refl _) (by omega)⟩

/-- **C54, `convolution`.** The function users call: the product of any two vectors, unless both are longer than 60 and the product does not fit into a
supported length. -/
theorem C54_convolution {p r k : Nat} (H : Root p r) (hk : 2^k ∣ p - 1) (f g : List Nat) (hf : ∀ a ∈ f, a < p) (hg : ∀ a ∈ g, a < p) :
    (f = [] ∨ g = [] → conv p r f g = some []) ∧
    (f ≠ [] → g ≠ [] → (f.length ≤ 60 ∨ g.length ≤ 60 ∨ f.length + g.length - 1 ≤ 2^k) → ∃ h, conv p r f g = some h ∧ IsProduct p f g h) := by
  have h2 := H.prime.two_le
  constructor
  · intro h
    unfold conv convWith
    rw [if_pos]
    rcases h with h | h <;> simp [h]
  · intro hf0 hg0 hl
    have hf1 := List.length_pos_iff.2 hf0
    have hg1 := List.length_pos_iff.2 hg0
    unfold conv convWith
    rw [if_neg (by omega)]
    by_cases hs : min f.length g.length ≤ 60
    · rw [if_pos hs]
      obtain ⟨h, e, _, hh⟩ := (C54_convolution_naive (by omega) H.lt f g hf hg).2 hf0 hg0
      exact ⟨h, e, hh⟩
    · rw [if_neg hs]
      obtain ⟨h, N, e, n1, n2, R⟩ := convNtt_spec H (f.length+1) f g k hf hg hf1 hg1 (Nat.le_succ _) (supported H hk) (by omega)
      exact ⟨h, e, isProduct_of_rep (by omega) R n1 (by omega)⟩

/-! ### The tabulated moduli -/

/-- A prime and a generator from the powers at the maximal proper divisors. -/
theorem root_of_pows {p g : Nat} (h1 : 1 < p) (hlt : p < 2^31) (hg : g < p) (ps : List Nat) (e : List Nat) (hfac : (List.zipWith (· ^ ·) ps e).prod = p - 1)
    (hps : ∀ q ∈ ps, q.Prime) (hone : pow p g (p-1) = some 1) (hne : ∀ q ∈ ps, pow p g ((p-1)/q) ≠ some 1) : Root p g := by
  have hpow : ∀ n, n < p → ((g : ZMod p)^n = 1 ↔ pow p g n = some 1) := by
    intro n hn
    obtain ⟨c, ec, lc, cc⟩ := pow_cast (m := p) (by omega) hg (p := n) (by omega)
    rw [← cc, ec]
    constructor
    · intro h
      rw [cast_inj lc h1 (by rw [h, Nat.cast_one])]
    · intro h
      rw [Option.some.inj h, Nat.cast_one]
  have hdvd : ∀ q, q.Prime → q ∣ p - 1 → q ∈ ps := by
    intro q hq hd
    rw [← hfac] at hd
    clear hfac hne
    induction ps generalizing e with
    | nil => simp at hd; exact absurd hd hq.one_lt.ne'
    | cons a ps ih =>
      cases e with
      | nil => simp at hd; exact absurd hd hq.one_lt.ne'
      | cons b e =>
        rw [List.zipWith_cons_cons, List.prod_cons] at hd
        rcases (hq.dvd_mul).1 hd with hd | hd
        · have := (Nat.prime_dvd_prime_iff_eq hq (hps a List.mem_cons_self)).1 (hq.dvd_of_dvd_pow hd)
          rw [this]; exact List.mem_cons_self
        · exact List.mem_cons_of_mem _ (ih e (fun q hq => hps q (List.mem_cons_of_mem _ hq)) hd)
  have h1' : (g : ZMod p)^(p-1) = 1 := (hpow _ (by omega)).2 hone
  have hq' : ∀ q : Nat, q.Prime → q ∣ p - 1 → (g : ZMod p)^((p-1)/q) ≠ 1 := by
    intro q hq hd h
    exact hne q (hdvd q hq hd) ((hpow _ (by have := Nat.div_le_self (p-1) q; omega)).1 h)
  refine ⟨lucas_primality p (g : ZMod p) h1' hq', hlt, ?_⟩
  exact orderOf_eq_of_pow_and_pow_div_prime (by omega) h1' hq'

theorem prime_small {q : Nat} (h : q = 2 ∨ q = 3 ∨ q = 5 ∨ q = 7 ∨ q = 17) : q.Prime := by
  rcases h with h | h | h | h | h <;> subst h <;> decide

theorem root17 : Root 17 3 :=
  root_of_pows (by decide) (by decide) (by decide) [2] [4] (by decide) (fun q hq => prime_small (by revert q; decide)) (by decide +kernel) (by decide +kernel)

/-- **C54, the moduli of `modular.hpp:306-312`** are primes, and the tabulated numbers generate their multiplicative groups. -/
theorem C54_roots : Root 2 1 ∧ Root 167772161 3 ∧ Root 469762049 3 ∧ Root 754974721 11 ∧ Root 880803841 26 ∧ Root 998244353 3 := by
  refine ⟨?_, ?_, ?_, ?_, ?_, ?_⟩
  · exact root_of_pows (by decide) (by decide) (by decide) [] [] (by decide) (by simp) (by decide +kernel) (by simp)
  · exact root_of_pows (by decide) (by decide) (by decide) [2, 5] [25, 1] (by decide +kernel) (fun q hq => prime_small (by revert q; decide)) (by decide +kernel) (by decide +kernel)
  · exact root_of_pows (by decide) (by decide) (by decide) [2, 7] [26, 1] (by decide +kernel) (fun q hq => prime_small (by revert q; decide)) (by decide +kernel) (by decide +kernel)
  · exact root_of_pows (by decide) (by decide) (by decide) [2, 3, 5] [24, 2, 1] (by decide +kernel) (fun q hq => prime_small (by revert q; decide)) (by decide +kernel) (by decide +kernel)
  · exact root_of_pows (by decide) (by decide) (by decide) [2, 3, 5, 7] [23, 1, 1, 1] (by decide +kernel) (fun q hq => prime_small (by revert q; decide)) (by decide +kernel) (by decide +kernel)
  · exact root_of_pows (by decide) (by decide) (by decide) [2, 7, 17] [23, 1, 1] (by decide +kernel) (fun q hq => prime_small (by revert q; decide)) (by decide +kernel) (by decide +kernel)

/-! Instances. -/

example : ntt 17 3 [1, 2, 3, 4, 0, 0, 0, 0] = some [10, 15, 7, 13, 15, 11, 6, 16] ∧
    (ntt 17 3 [1, 2, 3, 4, 0, 0, 0, 0]).bind (intt 17 3) = some [1, 2, 3, 4, 0, 0, 0, 0] := by decide +kernel
example : (ntt 17 3 [5, 6, 7]).bind (intt 17 3) = some [5, 6, 7, 0] := by decide +kernel
example : convNtt 17 3 3 [1, 2, 3] [4, 5] = some [4, 13, 5, 15] ∧ convNtt 17 3 4 [1, 2, 3, 4] [4, 5] = some [4, 13, 5, 14, 3] ∧
    prodCoeff 17 [1, 2, 3] [4, 5] 2 = 5 := by decide +kernel
example : ∃ h, conv 998244353 3 [1, 2, 3] [4, 5] = some h ∧ IsProduct 998244353 [1, 2, 3] [4, 5] h :=
  (C54_convolution (k := 3) C54_roots.2.2.2.2.2 (by decide) _ _ (by decide) (by decide)).2 (by simp) (by simp) (Or.inl (by decide))
/-- The dispatcher refuses empty vectors before `convolution_ntt`, where they would be undefined behaviour. -/
example : convNtt 17 3 5 [] [1, 2, 3] = none ∧ conv 17 3 [] [1, 2] = some [] := by decide +kernel
/-- Lengths beyond the supported ones fail the assertion. -/
example : ntt 17 3 (List.replicate 17 1) = none := by decide +kernel

end Verif.Ntt
