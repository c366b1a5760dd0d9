import Verif.Garner.Garner
import Verif.Ntt.Props
/-!
Model of `convolution_garner` (`/repo/include/mtl/convolution.hpp:137-169`) and its correctness.  The three convolutions are those of C54, `garner` is that of C28.
-/
namespace Verif.ConvBig
open Verif.Modular Verif.Ntt Verif.Garner

/-- convolution.hpp:167 for one `i`. -/
def garnerStep (mod : Nat) (c0 c1 c2 : List Nat) (i : Nat) (c : List Nat) : Option (List Nat) :=
  (c0[i]?).bind (fun x0 => (c1[i]?).bind (fun x1 => (c2[i]?).bind (fun x2 => (garner mod x0 x1 x2).bind (fun y => wr c i y))))

/-- convolution.hpp:137-169 (`convolution_garner`): the values (`unsigned`) are reduced modulo the three primes by the constructor of `Modular`; 11, 3 and 3 are the
tabulated primitive roots of the primes (C113). -/
def convGarner (mod : Nat) (f g : List Nat) : Option (List Nat) :=
  if f.length = 0 ∨ g.length = 0 then some []
  else (convNtt p0 11 f.length (f.map (ofNat p0)) (g.map (ofNat p0))).bind (fun c0 =>
    (convNtt p1 3 f.length (f.map (ofNat p1)) (g.map (ofNat p1))).bind (fun c1 =>
    (convNtt p2 3 f.length (f.map (ofNat p2)) (g.map (ofNat p2))).bind (fun c2 =>
      forRange 0 c0.length (garnerStep mod c0 c1 c2) (List.replicate c0.length (ofInt mod 0)))))

/-- The length of the result of `convolution_ntt`. -/
def resLen (n m : Nat) : Nat := match ceilPow2 (n + m - 1) with
  | some j => if (n + m + 2^64 - 3) % 2^64 < 2^j / 2 then n + m - 1 else 2^j
  | none => 0

theorem convNtt_length {p r k : Nat} (H : Root p r) (hk : 2^k ∣ p - 1) {f g : List Nat} (hf : ∀ a ∈ f, a < p) (hg : ∀ a ∈ g, a < p) (hf0 : 0 < f.length) (hg0 : 0 < g.length)
    (hn : f.length + g.length - 1 ≤ 2^k) {h : List Nat} (e : convNtt p r f.length f g = some h) : h.length = resLen f.length g.length := by
  have h2 := H.prime.two_le
  have hp := H.lt
  obtain ⟨_, hL⟩ := logN_spec h2 H.lt
  have hk := supported H hk
  obtain ⟨t, ht⟩ : ∃ t, f.length = t + 1 := ⟨f.length - 1, by omega⟩
  have hbig : 2^k ≤ 2^30 := Nat.pow_le_pow_right (by omega) (by omega)
  obtain ⟨j, ej, h1, hmin⟩ := ceilPow2_spec (x := f.length + g.length - 1) (by omega)
  have hjk := hmin k hn
  have hjle : 2^j ≤ 2^k := Nat.pow_le_pow_right (by omega) hjk
  unfold resLen
  rw [ej]
  dsimp only
  conv at e => lhs; arg 3; rw [ht]
  rw [convNtt, show (f.length + g.length + 2^64 - 1) % 2^64 = f.length + g.length - 1 by omega, ej, Option.bind_some, shl_some (by omega), Option.bind_some] at e
  by_cases hc : (f.length + g.length + 2^64 - 3) % 2^64 < 2^j / 2
  · rw [if_pos hc] at e ⊢
    have hj0 : j ≠ 0 := by
      intro h; subst h; simp at hc
    have e2 : 2^j = 2^(j-1) * 2 := by rw [← pow_succ]; congr 1; omega
    obtain ⟨h', e', R⟩ := convPeel_spec (rec := convNtt p r t) (by omega) hp hf hg hf0 hg0 (by
      intro hf1 hg1
      have lf' : f.dropLast.length = f.length - 1 := List.length_dropLast
      have lg' : g.dropLast.length = g.length - 1 := List.length_dropLast
      obtain ⟨h, N, e, n1, n2, R⟩ := convNtt_spec H t f.dropLast g.dropLast k (fun a ha => hf a (List.dropLast_subset f ha))
        (fun a ha => hg a (List.dropLast_subset g ha)) (by omega) (by omega) (by omega) hk (by omega)
      have hlen : f.length + g.length ≥ 3 := by omega
      have hgt : 2^(j-1) < f.length + g.length - 1 := by
        by_contra h
        have := hmin (j-1) (by omega)
        omega
      obtain ⟨h, N, e, n1, n2, R⟩ := convNtt_spec H t f.dropLast g.dropLast (j-1) (fun a ha => hf a (List.dropLast_subset f ha))
        (fun a ha => hg a (List.dropLast_subset g ha)) (by omega) (by omega) (by omega) (by omega) (by omega)
      exact ⟨h, N, e, by omega, n1, R⟩)
    rw [e] at e'
    rw [Option.some.inj e', R.len]
  · rw [if_neg hc] at e ⊢
    obtain ⟨h', e', R⟩ := convMain_spec H (k := j) (by omega) hf hg hf0 hg0 h1
    rw [e] at e'
    rw [Option.some.inj e', R.len]

/-- Coefficient of the product over the naturals. -/
def coefN (f g : List Nat) (k : Nat) : Nat := ∑ i ∈ Finset.range (k+1), f.getD i 0 * g.getD (k - i) 0

theorem getD_mod (q : Nat) (f : List Nat) (i : Nat) : (f.map (ofNat q)).getD i 0 = f.getD i 0 % q := by
  rw [List.getD_eq_getElem?_getD, List.getD_eq_getElem?_getD, List.getElem?_map]
  cases f[i]? with
  | none => simp
  | some x => rfl

theorem prodCoeff_mod (q : Nat) (f g : List Nat) (k : Nat) : prodCoeff q (f.map (ofNat q)) (g.map (ofNat q)) k = coefN f g k % q := by
  unfold prodCoeff coefN
  rw [Finset.sum_nat_mod]
  conv_rhs => rw [Finset.sum_nat_mod]
  congr 1
  apply Finset.sum_congr rfl
  intro i _
  rw [getD_mod, getD_mod, ← Nat.mul_mod]

theorem getD_lt {q : Nat} (hq : 0 < q) {f : List Nat} (hf : ∀ a ∈ f, a < q) (i : Nat) : f.getD i 0 < q := by
  rw [List.getD_eq_getElem?_getD]
  cases e : f[i]? with
  | none => exact hq
  | some x => exact hf x (List.mem_of_getElem? e)

theorem coefN_comm (f g : List Nat) (k : Nat) : coefN f g k = coefN g f k := by
  unfold coefN
  rw [← Finset.sum_range_reflect]
  apply Finset.sum_congr rfl
  intro i hi
  rw [Finset.mem_range] at hi
  rw [show k + 1 - 1 - i = k - i by omega, show k - (k - i) = i by omega, Nat.mul_comm]

theorem coefN_le {q : Nat} (hq : 0 < q) (hq2 : q < 2^31) {f g : List Nat} (hf : ∀ a ∈ f, a < q) (hg : ∀ a ∈ g, a < q) (k : Nat) : coefN f g k ≤ f.length * 2^62 := by
  have h1 : ∀ N, ∑ i ∈ Finset.range N, f.getD i 0 * g.getD (k - i) 0 ≤ min N f.length * 2^62 := by
    intro N
    induction N with
    | zero => simp
    | succ N ih =>
        rw [Finset.sum_range_succ]
        by_cases c : N < f.length
        · have a1 := getD_lt hq hf N
          have a2 := getD_lt hq hg (k - N)
          have : f.getD N 0 * g.getD (k - N) 0 ≤ 2^31 * 2^31 := Nat.mul_le_mul (by omega) (by omega)
          omega
        · rw [List.getD_eq_default _ _ (by omega), Nat.zero_mul, Nat.add_zero]
          exact Nat.le_trans ih (Nat.mul_le_mul_right _ (by omega))
  refine Nat.le_trans (h1 _) ?_
  exact Nat.mul_le_mul_right _ (Nat.min_le_right _ _)

theorem root0 : Root p0 11 := C54_roots.2.2.2.1
theorem root1 : Root p1 3 := C54_roots.2.1
theorem root2 : Root p2 3 := C54_roots.2.2.1

/-- One of the three convolutions. -/
theorem conv_one {p r : Nat} (H : Root p r) (hk : 2^24 ∣ p - 1) {f g : List Nat} (hf0 : f ≠ []) (hg0 : g ≠ []) (hl : f.length + g.length - 1 ≤ 2^24) :
    ∃ h, convNtt p r f.length (f.map (ofNat p)) (g.map (ofNat p)) = some h ∧ h.length = resLen f.length g.length ∧
      f.length + g.length - 1 ≤ h.length ∧ ∀ i, i < h.length → h[i]? = some (coefN f g i % p) := by
  have hlt : ∀ u : List Nat, ∀ a ∈ u.map (ofNat p), a < p := by
    intro u a ha
    obtain ⟨b, _, rfl⟩ := List.mem_map.mp ha
    exact Nat.mod_lt _ (by have := H.prime.two_le; omega)
  have hp := List.length_pos_iff.2 hf0
  have hq := List.length_pos_iff.2 hg0
  obtain ⟨h, e, _, hpr⟩ := C54_convolution_ntt H hk (f.map (ofNat p)) (g.map (ofNat p)) (hlt f) (hlt g) (by simpa using hf0) (by simpa using hg0) (by simpa using hl)
  rw [List.length_map] at e
  have hlen := convNtt_length H hk (hlt f) (hlt g) (by simpa using hp) (by simpa using hq) (by simpa using hl) (h := h) (by rw [List.length_map]; exact e)
  rw [List.length_map, List.length_map] at hlen
  refine ⟨h, e, hlen, by simpa using hpr.1, fun i hi => ?_⟩
  have := hpr.2 i
  rw [prodCoeff_mod, List.getD_eq_getElem?_getD] at this
  rw [List.getElem?_eq_getElem hi] at this ⊢
  exact congrArg some this

theorem convGarner_ok {mod : Nat} (h0 : 0 < mod) (hm : mod < 2^31) {f g : List Nat} (hf : ∀ a ∈ f, a < mod) (hg : ∀ a ∈ g, a < mod) (hf0 : f ≠ []) (hg0 : g ≠ [])
    (hl : f.length + g.length - 1 ≤ 2^24) : ∃ h, convGarner mod f g = some h ∧ IsProduct mod f g h := by
  obtain ⟨c0, e0, l0, n0, v0⟩ := conv_one root0 (by decide +kernel) hf0 hg0 hl
  obtain ⟨c1, e1, l1, _, v1⟩ := conv_one root1 (by decide +kernel) hf0 hg0 hl
  obtain ⟨c2, e2, l2, _, v2⟩ := conv_one root2 (by decide +kernel) hf0 hg0 hl
  have hp := List.length_pos_iff.2 hf0
  have hq := List.length_pos_iff.2 hg0
  have hbound : ∀ i, coefN f g i < p0 * p1 * (p2 - 1) := by
    intro i
    have b1 := coefN_le h0 hm hf hg i
    have b2 := coefN_le h0 hm hg hf i
    rw [← coefN_comm f g] at b2
    have hpp : p0 * p1 * (p2 - 1) = 59501818117628994296741888 := by decide
    rw [hpp]
    omega
  unfold convGarner
  rw [if_neg (by omega), e0, Option.bind_some, e1, Option.bind_some, e2, Option.bind_some]
  obtain ⟨h, e, hlen, hv⟩ := forRange_inv (a := 0) (b := c0.length) (s := List.replicate c0.length (ofInt mod 0)) (body := garnerStep mod c0 c1 c2)
    (P := fun i (c : List Nat) => c.length = c0.length ∧ ∀ j, j < i → c[j]? = some (coefN f g j % mod)) (Nat.zero_le _)
    ⟨by simp, fun j hj => absurd hj (Nat.not_lt_zero _)⟩ (by
      rintro i c _ hi ⟨hc, hv⟩
      refine ⟨c.set i (coefN f g i % mod), ?_, by simp [hc], ?_⟩
      · unfold garnerStep
        rw [v0 i hi, Option.bind_some, v1 i (by omega), Option.bind_some, v2 i (by omega), Option.bind_some, C28_garner _ _ (hbound i) h0 hm, Option.bind_some]
        unfold wr
        rw [if_pos (by omega)]
      · intro j hj
        by_cases c3 : j = i
        · subst c3
          rw [List.getElem?_set_self (by omega)]
        · rw [List.getElem?_set_ne (by omega)]
          exact hv j (by omega))
  refine ⟨h, e, by rw [hlen]; exact n0, fun k => ?_⟩
  show _ = coefN f g k % mod
  by_cases c : k < c0.length
  · rw [List.getD_eq_getElem?_getD, hv k c]; rfl
  · rw [List.getD_eq_default _ _ (by omega)]
    have : coefN f g k = 0 := by
      unfold coefN
      apply Finset.sum_eq_zero
      intro i _
      by_cases c1 : i < f.length
      · rw [List.getD_eq_default g _ (by omega), Nat.mul_zero]
      · rw [List.getD_eq_default f _ (by omega), Nat.zero_mul]
    rw [this, Nat.zero_mod]

end Verif.ConvBig
