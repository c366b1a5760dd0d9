import Verif.SparseFps.Proofs
/-!
**C117, C118.** `SparseFps` (`sparse_fps.hpp`, `fps/exp.hpp:116-122`, `fps/pow.hpp:70-106`).

A sparse series denotes `sps p ts`, the sum of its monomials in the ring of power series over `ZMod p`; `ser p f` is the series of a vector of
coefficients.  `Ok p ts`: exponents increase and the coefficients are reduced residues (the class expects increasing exponents, line 92).
-/
namespace Verif.SparseFps
open Verif.Modular Verif.Fps Verif.Ntt
open PowerSeries (coeff)
open scoped PowerSeries

/-- **C117.** The constructors drop zero terms and keep the series; a series of at most `n` coefficients survives unchanged. -/
theorem C117_construct {p : Nat} :
    (∀ ts, Ok p ts → Ok p (ofTerms ts) ∧ (∀ t ∈ ofTerms ts, t.2 ≠ 0) ∧ sps p (ofTerms ts) = sps p ts) ∧
    (∀ l, (∀ a ∈ l, a < p) → Ok p (ofCoeffs l) ∧ (∀ t ∈ ofCoeffs l, t.2 ≠ 0) ∧ sps p (ofCoeffs l) = ser p l) ∧
    (∀ f n, (∀ a ∈ f, a < p) → Ok p (ofFps f n) ∧ (∀ t ∈ ofFps f n, t.2 ≠ 0 ∧ t.1 < n) ∧ Agree n (sps p (ofFps f n)) (ser p f) ∧ (f.length ≤ n → sps p (ofFps f n) = ser p f)) ∧
    (∀ ts d v, Ok p ts → (∀ t ∈ ts, t.1 < d) → v < p → Ok p (emplace ts d v) ∧ sps p (emplace ts d v) = sps p ts + PowerSeries.monomial d (v : ZMod p)) := by
  refine ⟨fun ts h => ⟨h.filter _, fun t ht => by simpa using (List.mem_filter.1 ht).2, ?_⟩, fun l hl => ⟨⟨terms_sorted _ _, fun t ht => (terms_lt hl t ht).2.2.2⟩, fun t ht => (terms_lt hl t ht).2.2.1, ?_⟩,
    fun f n hf => ⟨⟨terms_sorted _ _, fun t ht => (terms_lt hf t ht).2.2.2⟩, fun t ht => ⟨(terms_lt hf t ht).2.2.1, ?_⟩, ?_, ?_⟩, fun ts d v h hd hv => ?_⟩
  · ext k
    rw [coeff_sps, coeff_sps, S_filter]
  · ext k
    rw [coeff_sps, coeff_ser]
    exact S_terms_full l k
  · have := (terms_lt hf t ht).1
    omega
  · intro k hk
    rw [coeff_sps, coeff_ser]
    unfold ofFps
    rw [S_terms]
    by_cases h : k < min n f.length
    · rw [if_pos h]
    · rw [if_neg h, cf_ge (by omega)]
  · intro hl
    ext k
    rw [coeff_sps, coeff_ser]
    unfold ofFps
    rw [S_terms]
    by_cases h : k < min n f.length
    · rw [if_pos h]
    · rw [if_neg h, cf_ge (by omega)]
  · unfold emplace
    by_cases h0 : v = 0
    · rw [if_pos h0]
      exact ⟨h, by rw [h0, Nat.cast_zero, map_zero, add_zero]⟩
    · rw [if_neg h0]
      refine ⟨⟨List.pairwise_append.2 ⟨h.1, List.pairwise_singleton _ _, fun a ha b hb => ?_⟩, fun t ht => ?_⟩, ?_⟩
      · rw [List.mem_singleton] at hb
        subst hb
        exact hd a ha
      · rcases List.mem_append.1 ht with h' | h'
        · exact h.2 t h'
        · rw [List.mem_singleton] at h'
          subst h'
          exact hv
      · ext k
        rw [coeff_sps, S_append, map_add, coeff_sps, PowerSeries.coeff_monomial, S, S, add_zero]

/-- **C117.** `to_fps` returns the same series, with one coefficient more than the highest exponent. -/
theorem C117_to_fps {p : Nat} (h0 : 0 < p) (ts : Terms) (hok : Ok p ts) :
    ∃ g, toFps ts = some g ∧ (∀ a ∈ g, a < p) ∧ ser p g = sps p ts ∧ g.length = ts.foldl (fun m t => max m (t.1 + 1)) 0 := by
  obtain ⟨g, e, R⟩ := toFps_spec h0 hok
  refine ⟨g, e, R.red, ?_, ?_⟩
  · ext k
    rw [coeff_sps, coeff_ser]
    by_cases hk : k < deg ts
    · exact R.cf_eq hk
    · rw [cf_ge (by rw [R.len]; omega), S_ge_deg hok.1 (by omega)]
  · rw [R.len]
    have key : ∀ (us : Terms) m, us.Pairwise (fun a b => a.1 < b.1) → us.foldl (fun m t => max m (t.1 + 1)) m = max m (deg us) := by
      intro us
      induction us with
      | nil => intro m _; exact (Nat.max_eq_left (Nat.zero_le _)).symm
      | cons t us ih =>
        intro m hs
        obtain ⟨h1, h2⟩ := List.pairwise_cons.1 hs
        rw [List.foldl_cons, ih _ h2]
        cases us with
        | nil => unfold deg; simp
        | cons u us =>
          have h3 : deg (t :: u :: us) = deg (u :: us) := by unfold deg; rw [List.getLast?_cons_cons]
          have h4 := deg_lt h2 u List.mem_cons_self
          have h5 := h1 u List.mem_cons_self
          rw [h3]
          omega
    rw [key ts 0 hok.1, Nat.max_eq_right (Nat.zero_le _)]

/-- **C117.** `operator==` decides equality of the series; **partial**: only for vectors without stored zero coefficients. -/
theorem C117_eq_partial {p : Nat} (a b : Terms) (ha : Ok p a) (hb : Ok p b) (na : ∀ t ∈ a, t.2 ≠ 0) (nb : ∀ t ∈ b, t.2 ≠ 0) :
    eqS a b = true ↔ sps p a = sps p b := by
  unfold eqS
  rw [eqLoop_spec a.length a b (le_refl _) na nb]
  refine ⟨fun h => by rw [h], fun h => S_inj a b ha hb na nb fun k => ?_⟩
  rw [← coeff_sps, ← coeff_sps, h]

/-- **C117 is violated**: `SparseFps{1} - 1` and `SparseFps{}` denote the same series and do not compare equal. -/
theorem C117_violated_eq : subC 998244353 1 (ofCoeffs [1]) = [(0, 0)] ∧ eqS (subC 998244353 1 (ofCoeffs [1])) (ofCoeffs []) = false ∧ sps 998244353 [(0, 0)] = sps 998244353 [] := by
  refine ⟨by decide +kernel, by decide +kernel, ?_⟩
  ext k
  rw [coeff_sps, coeff_sps]
  simp [S]

theorem addC_ok {p : Nat} (hm : p ≤ 2^31) {c : Nat} (hc : c < p) {ts : Terms} (hok : Ok p ts) : Ok p (addC p c ts) ∧ sps p (addC p c ts) = sps p ts + PowerSeries.C (c : ZMod p) := by
  obtain ⟨ho, _, hs⟩ := (C117_construct (p := p)).2.1 [c] (by intro a ha; rw [List.mem_singleton] at ha; rw [ha]; exact hc)
  have hs' : sps p (ofCoeffs [c]) = PowerSeries.C (c : ZMod p) := by
    rw [hs]
    ext k
    rw [coeff_ser, PowerSeries.coeff_C, cf_cons]
    by_cases hk : k = 0
    · rw [if_pos hk, if_pos hk]
    · rw [if_neg hk, if_neg hk, cf_ge (by simp)]
  cases ts with
  | nil => exact ⟨ho, by rw [show sps p [] = 0 from rfl, zero_add]; exact hs'⟩
  | cons t ts =>
    unfold addC
    dsimp only
    by_cases h : t.1 = 0
    · rw [if_pos h]
      have hl := add_lt hm (hok.2 t List.mem_cons_self) hc
      refine ⟨⟨List.pairwise_cons.2 ⟨(List.pairwise_cons.1 hok.1).1, (List.pairwise_cons.1 hok.1).2⟩, fun u hu => ?_⟩, ?_⟩
      · rcases List.mem_cons.1 hu with h' | h'
        · subst h'; exact hl
        · exact hok.2 u (List.mem_cons_of_mem _ h')
      · ext k
        rw [coeff_sps, map_add, coeff_sps, S, S, add_cast hm (hok.2 t List.mem_cons_self) hc, PowerSeries.coeff_C]
        dsimp only
        by_cases hk : k = 0
        · rw [if_pos (by omega), if_pos (by omega), if_pos hk]
          ring
        · rw [if_neg (by omega), if_neg (by omega), if_neg hk, add_zero]
    · rw [if_neg h]
      refine ⟨⟨List.pairwise_append.2 ⟨ho.1, hok.1, fun a ha b hb => ?_⟩, fun u hu => ?_⟩, ?_⟩
      · have h1 : a.1 < 1 := (terms_lt (p := p) (by intro a ha; rw [List.mem_singleton] at ha; rw [ha]; exact hc) a ha).1
        have h2 : t.1 ≤ b.1 := by
          rcases List.mem_cons.1 hb with h' | h'
          · rw [h']
          · exact le_of_lt ((List.pairwise_cons.1 hok.1).1 b h')
        omega
      · rcases List.mem_append.1 hu with h' | h'
        · exact ho.2 u h'
        · exact hok.2 u h'
      · ext k
        rw [coeff_sps, S_append, map_add, ← coeff_sps, ← coeff_sps, hs', add_comm]

theorem mulC_ok {p : Nat} (hm : p ≤ 2^31) {c : Nat} (hc : c < p) (hc0 : c ≠ 0) {ts : Terms} (hok : Ok p ts) :
    ∃ us, mulC p c ts = some us ∧ Ok p us ∧ sps p us = PowerSeries.C (c : ZMod p) * sps p ts := by
  unfold mulC
  rw [if_neg hc0]
  obtain ⟨us, eu, F⟩ := mapM_terms (p := p) (g := fun t => (mul p t.2 c).map (fun y => (t.1, y))) (e := id) (w := fun _ => (c : ZMod p)) ts (fun t ht => by
    obtain ⟨y, ey, ly, cy⟩ := mul_cast hm (hok.2 t ht) hc
    exact ⟨y, by rw [ey]; rfl, ly, by rw [cy, mul_comm]⟩)
  refine ⟨us, eu, shift_ok (k := 0) (e := id) (w := fun _ => (c : ZMod p)) F hok (fun t _ => ⟨Nat.zero_le _, rfl⟩), ?_⟩
  ext k
  rw [PowerSeries.coeff_C_mul, coeff_sps, coeff_sps, shift_S (k := 0) (e := id) (w := fun _ => (c : ZMod p)) F (fun t _ => ⟨Nat.zero_le _, rfl⟩) k, Nat.add_zero]

/-- **C117.** Addition and subtraction of a constant, multiplication and division with a non-zero constant. -/
theorem C117_scalar {p : Nat} (hpr : p.Prime) (hp : p < 2^31) (c : Nat) (hc : c < p) (ts : Terms) (hok : Ok p ts) :
    (Ok p (addC p c ts) ∧ sps p (addC p c ts) = sps p ts + PowerSeries.C (c : ZMod p)) ∧
    (Ok p (subC p c ts) ∧ sps p (subC p c ts) = sps p ts - PowerSeries.C (c : ZMod p)) ∧
    (c ≠ 0 → ∃ us, mulC p c ts = some us ∧ Ok p us ∧ sps p us = PowerSeries.C (c : ZMod p) * sps p ts) ∧
    (c ≠ 0 → ∃ us, divC p c ts = some us ∧ Ok p us ∧ PowerSeries.C (c : ZMod p) * sps p us = sps p ts) := by
  haveI : Fact p.Prime := ⟨hpr⟩
  have h2 := hpr.two_le
  have hm : p ≤ 2^31 := by omega
  refine ⟨addC_ok hm hc hok, ?_, fun h0 => mulC_ok hm hc h0 hok, fun h0 => ?_⟩
  · obtain ⟨h1, h3⟩ := addC_ok hm (neg_lt hm hc) hok
    refine ⟨h1, ?_⟩
    unfold subC
    rw [h3, neg_cast hm hc, map_neg, sub_eq_add_neg]
  · obtain ⟨ic, eic, lic, cic⟩ := inv_spec hm hc h0
    have hcz := cast_ne0 hc h0
    have hic : ic ≠ 0 := by
      intro h
      subst h
      rw [Nat.cast_zero] at cic
      exact (inv_ne_zero hcz) cic.symm
    obtain ⟨us, eu, hu, hs⟩ := mulC_ok hm lic hic hok
    refine ⟨us, by unfold divC; rw [if_neg h0, eic, Option.bind_some, eu], hu, ?_⟩
    rw [hs, cic, ← mul_assoc, ← map_mul, mul_inv_cancel₀ hcz, map_one, one_mul]

/-- **C117.** The product with a series is exact. -/
theorem C117_mul {p : Nat} (h0 : 0 < p) (hp : p < 2^31) (ts : Terms) (hok : Ok p ts) (f : List Nat) (hf : ∀ a ∈ f, a < p) :
    ∃ g, mulFps p ts f = some g ∧ (∀ a ∈ g, a < p) ∧ ser p g = sps p ts * ser p f := mulFps_spec h0 hp hok hf

/-- **C117.** `inv(n)`: `n` coefficients of the inverse, of every series whose constant term is not zero. -/
theorem C117_inv {p : Nat} (hpr : p.Prime) (hp : p < 2^31) (ts : Terms) (hok : Ok p ts) (h0 : coeff 0 (sps p ts) ≠ 0) (n : Nat) :
    ∃ g, sparseInv p ts n = some g ∧ g.length = n ∧ (∀ a ∈ g, a < p) ∧ Agree n (sps p ts * ser p g) 1 := by
  cases ts with
  | nil => exact absurd (map_zero _) h0
  | cons x xs =>
    have hx : x.1 = 0 := by
      by_contra h
      exact h0 (by rw [coeff_sps, S_low hok.1 (by omega)])
    have hx0 : x.2 ≠ 0 := by
      intro h
      rw [coeff_sps, ← hx, S_head hok.1, h, Nat.cast_zero] at h0
      exact h0 rfl
    obtain ⟨g, e, hl, hr, h⟩ := sparseInv_spec (n := n) hpr hp hx hx0 hok.1 hok.2
    refine ⟨g, e, hl, hr, fun k hk => ?_⟩
    rw [sps_eq, mul_comm, PowerSeries.coeff_one, ← h k hk]
    exact coeff_mul_ps _ _ k

/-- **C117.** The quotient of a series and a sparse series, on as many coefficients as the dividend has. -/
theorem C117_div {p : Nat} (hpr : p.Prime) (hp : p < 2^31) (ts : Terms) (hok : Ok p ts) (h0 : coeff 0 (sps p ts) ≠ 0) (f : List Nat) (hf : ∀ a ∈ f, a < p) :
    ∃ q, divSparse p f ts = some q ∧ (∀ a ∈ q, a < p) ∧ Agree f.length (sps p ts * ser p q) (ser p f) := by
  cases ts with
  | nil => exact absurd (map_zero _) h0
  | cons x xs =>
    have hx : x.1 = 0 := by
      by_contra h
      exact h0 (by rw [coeff_sps, S_low hok.1 (by omega)])
    have hx0 : x.2 ≠ 0 := by
      intro h
      rw [coeff_sps, ← hx, S_head hok.1, h, Nat.cast_zero] at h0
      exact h0 rfl
    exact divSparse_ok hpr hp hf hok hx hx0

/-- **C117.** `inline_diff` is the derivative; **partial**: only without a stored constant term. -/
theorem C117_diff_partial {p : Nat} (h0 : 0 < p) (hp : p < 2^31) (ts : Terms) (hok : Ok p ts) (hc : ∀ t ∈ ts, 0 < t.1 ∧ t.1 < 2^64) :
    ∃ us, inlineDiff p ts = some us ∧ Ok p us ∧ sps p us = PowerSeries.derivative (ZMod p) (sps p ts) := by
  have hm : p ≤ 2^31 := by omega
  have hk : ∀ t ∈ ts, 1 ≤ t.1 ∧ (t.1 + 2^64 - 1) % 2^64 = t.1 - 1 := fun t ht => ⟨(hc t ht).1, wrap_sub (hc t ht).2 (hc t ht).1⟩
  obtain ⟨us, eu, F⟩ := mapM_terms (p := p) (g := fun t => (mul p t.2 (ofInt p t.1)).map (fun c => ((t.1 + 2^64 - 1) % 2^64, c))) (e := fun a => (a + 2^64 - 1) % 2^64) (w := fun i => (i : ZMod p)) ts
    (fun t ht => by
      obtain ⟨l1, c1⟩ := ofInt_nat h0 t.1
      obtain ⟨y, ey, ly, cy⟩ := mul_cast hm (hok.2 t ht) l1
      exact ⟨y, by rw [ey]; rfl, ly, by rw [cy, c1, mul_comm]⟩)
  refine ⟨us, eu, shift_ok (k := 1) (e := fun a => (a + 2^64 - 1) % 2^64) (w := fun i => (i : ZMod p)) F hok hk, ?_⟩
  ext k
  rw [coeff_sps, shift_S (k := 1) (e := fun a => (a + 2^64 - 1) % 2^64) (w := fun i => (i : ZMod p)) F hk k, PowerSeries.coeff_derivative, coeff_sps]
  push_cast
  ring

/-- **C117 is violated**: the derivative of `1 + x` gets the exponents `2^64 - 1` and `0`. -/
theorem C117_violated_diff : inlineDiff 998244353 (ofCoeffs [1, 1]) = some [(2^64 - 1, 0), (0, 1)] := by decide +kernel

/-- **C118.** `exp(n)`: `n` coefficients of the exponential (missing ones are zero); **partial**: exponents at most `2^31`. -/
theorem C118_exp_partial {p : Nat} (hpr : p.Prime) (hp : p < 2^31) {tb : List Nat} (hT : Full p tb) (ts : Terms) (hok : Ok p ts) (h0 : coeff 0 (sps p ts) = 0) (hb : ∀ t ∈ ts, t.1 ≤ 2^31)
    (n : Nat) (hn : n ≤ p) : ∃ e, exp p tb ts n = some e ∧ (∀ a ∈ e, a < p) ∧ Agree n (ser p e) (expS n (sps p ts)) :=
  exp_spec hpr hp hT hok h0 hb hn

/-- **C118 is violated**: the exponential of `x^(2^32+1)` is 1 below `x^2`; the function adds a term in `x`. -/
theorem C118_violated_exp : exp 998244353 (table0 998244353) (ofTerms [(2^32+1, 1)]) 2 = some [1, 301989885] := by decide +kernel

/-- **C118.** `pow(n, degrees)`; **partial**: at least one coefficient is asked for and the vector does not start with a stored zero coefficient. -/
theorem C118_pow_partial {p : Nat} (hpr : p.Prime) (hp : p < 2^31) {tb : List Nat} (hT : Full p tb) (ts : Terms) (hok : Ok p ts) (hb : ∀ u ∈ ts, u.1 < 2^64)
    (hnz : ∀ t, ts.head? = some t → t.2 ≠ 0) (degrees n : Nat) (hD0 : 0 < degrees) (hD : degrees ≤ p) (hn : n < 2^63) :
    ∃ g, pow p tb ts n degrees = some g ∧ (∀ a ∈ g, a < p) ∧ Agree degrees (ser p g) (sps p ts ^ n) := pow_spec hpr hp hT hok hb hnz hD0 hD hn

/-- **C118 is violated**: `(SparseFps{1, 1, 1} - 1).pow(2, 5)` is `x^2`, and not `(x + x^2)^2 = x^2 + 2x^3 + x^4`. -/
theorem C118_violated_pow : subC 998244353 1 (ofCoeffs [1, 1, 1]) = [(0, 0), (1, 1), (2, 1)] ∧
    pow 998244353 (table0 998244353) [(0, 0), (1, 1), (2, 1)] 2 5 = some [0, 0, 1, 0, 0] ∧ pow 998244353 (table0 998244353) [(1, 1), (2, 1)] 2 5 = some [0, 0, 1, 2, 1] := by
  refine ⟨by decide +kernel, by decide +kernel, by decide +kernel⟩

/-- **C118 is violated**: no coefficient of a power of `1 + x` is asked for, and an element of an empty vector is written. -/
theorem C118_violated_pow0 : pow 998244353 (table0 998244353) (ofCoeffs [1, 1]) 2 0 = none := by decide +kernel

/-! Non-trivial instances -/

example : Ok 17 (ofTerms [(1, 3), (4, 0), (7, 16)]) ∧ ofTerms [(1, 3), (4, 0), (7, 16)] = [(1, 3), (7, 16)] ∧ sps 17 (ofTerms [(1, 3), (4, 0), (7, 16)]) = sps 17 [(1, 3), (4, 0), (7, 16)] :=
  have h := (C117_construct (p := 17)).1 [(1, 3), (4, 0), (7, 16)] (by constructor <;> decide)
  ⟨h.1, by decide, h.2.2⟩
example : ofFps [0, 3, 0, 5] 10 = [(1, 3), (3, 5)] ∧ toFps [(1, 3), (3, 5)] = some [0, 3, 0, 5] := by decide +kernel
example : ∃ g, toFps [(1, 3), (3, 5)] = some g ∧ (∀ a ∈ g, a < 17) ∧ ser 17 g = sps 17 [(1, 3), (3, 5)] ∧ g.length = 4 := C117_to_fps (by omega) _ (by constructor <;> decide)
example : eqS [(1, 3), (3, 5)] [(1, 3), (3, 6)] = false ∧ (eqS [(1, 3), (3, 5)] [(1, 3), (3, 6)] = true ↔ sps 17 [(1, 3), (3, 5)] = sps 17 [(1, 3), (3, 6)]) :=
  ⟨by decide, C117_eq_partial _ _ (by constructor <;> decide) (by constructor <;> decide) (by decide) (by decide)⟩
example : sps 17 (subC 17 3 [(1, 3), (3, 5)]) = sps 17 [(1, 3), (3, 5)] - PowerSeries.C ((3 : Nat) : ZMod 17) :=
  (C117_scalar (by decide) (by omega) 3 (by omega) [(1, 3), (3, 5)] (by constructor <;> decide)).2.1.2
example : mulFps 17 [(1, 3), (3, 5)] [2, 0, 4] = some [0, 6, 0, 5, 0, 3] := by decide +kernel
example : ∃ g, mulFps 17 [(1, 3), (3, 5)] [2, 0, 4] = some g ∧ (∀ a ∈ g, a < 17) ∧ ser 17 g = sps 17 [(1, 3), (3, 5)] * ser 17 [2, 0, 4] :=
  C117_mul (by omega) (by omega) _ (by constructor <;> decide) _ (by decide)
theorem coeff0_ex : coeff 0 (sps 17 [(0, 3), (3, 5)]) ≠ 0 := by rw [coeff_sps]; decide
example : ∃ g, sparseInv 17 [(0, 3), (3, 5)] 6 = some g ∧ g.length = 6 ∧ (∀ a ∈ g, a < 17) ∧ Agree 6 (sps 17 [(0, 3), (3, 5)] * ser 17 g) 1 :=
  C117_inv (by decide) (by omega) _ (by constructor <;> decide) coeff0_ex 6
example : ∃ q, divSparse 17 [1, 2, 3, 4] [(0, 3), (3, 5)] = some q ∧ (∀ a ∈ q, a < 17) ∧ Agree 4 (sps 17 [(0, 3), (3, 5)] * ser 17 q) (ser 17 [1, 2, 3, 4]) :=
  C117_div (by decide) (by omega) _ (by constructor <;> decide) coeff0_ex _ (by decide)
example : ∃ us, inlineDiff 17 [(1, 3), (5, 5)] = some us ∧ Ok 17 us ∧ sps 17 us = PowerSeries.derivative (ZMod 17) (sps 17 [(1, 3), (5, 5)]) :=
  C117_diff_partial (by omega) (by omega) _ (by constructor <;> decide) (by decide)
example : ∃ e, exp 17 (table0 17) [(1, 2), (2, 3)] 6 = some e ∧ (∀ a ∈ e, a < 17) ∧ Agree 6 (ser 17 e) (expS 6 (sps 17 [(1, 2), (2, 3)])) :=
  C118_exp_partial (by decide) (by omega) (full_table0 (by decide)) _ (by constructor <;> decide) (by rw [coeff_sps]; decide) (by decide) 6 (by omega)
example : exp 17 (table0 17) [(1, 2), (2, 3)] 4 = some [1, 2, 5, 13] := by decide +kernel
example : ∃ g, pow 17 (table0 17) [(1, 2), (2, 3)] 3 9 = some g ∧ (∀ a ∈ g, a < 17) ∧ Agree 9 (ser 17 g) (sps 17 [(1, 2), (2, 3)] ^ 3) :=
  C118_pow_partial (by decide) (by omega) (full_table0 (by decide)) _ (by constructor <;> decide) (by decide) (by simp) 9 3 (by omega) (by omega) (by omega)
example : pow 17 (table0 17) [(1, 2), (2, 3)] 3 7 = some [0, 0, 0, 8, 2, 3, 10] := by decide +kernel

end Verif.SparseFps
