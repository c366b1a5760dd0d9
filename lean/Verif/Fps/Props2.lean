import Verif.Fps.Sqrt
import Verif.Fps.Props
/-!
**C65, C66, C67, C68.** Logarithm, exponential, powers and square roots of `Fps` (`fps.hpp`, `fps/exp.hpp`, `fps/pow.hpp`, `sparse_fps.hpp`).

The modulus is a prime `p` below `2^31` with generator `g` (`Ntt.Root`), as for the transforms.  `ser p f` is the power series over `ZMod p` with the
coefficients `f`, `Agree n A B` says that the series `A` and `B` have the same coefficients below `x^n`.  The specifications are the
defining series: `logS n F = -Σ_{0<j<n} (1-F)^j/j` and `expS n H = Σ_{j<n} H^j/j!` (later summands do not matter below `x^n`), powers are
those of Mathlib.  `tb` is the shared table of inverses in whatever state earlier calls left it (`Modular.Full`, `C23_table`).
-/
namespace Verif.Fps
open Verif.Modular Verif.Ntt
open PowerSeries (coeff)
open scoped PowerSeries

theorem coeff0_one {p : Nat} {f : List Nat} (h : f[0]? = some 1) : coeff 0 (ser p f) = 1 := by
  rw [coeff_ser]; unfold cf; rw [List.getD_eq_getElem?_getD, h]; simp

theorem IsLog.agree {p n : Nat} (hpr : p.Prime) (hn : n ≤ p) {F : (ZMod p)⟦X⟧} {l : List Nat} (h : IsLog p n F l) (h0 : coeff 0 F = 1) :
    Agree n (ser p l) (logS n F) := by
  haveI : Fact p.Prime := ⟨hpr⟩
  obtain ⟨_, _, h1, h2⟩ := h
  obtain ⟨h3, h4⟩ := logS_ode hn h0
  exact ode_unique (F := F) (C := 0) (G := d⁄dX _ F) hn (by rw [h0]; exact one_ne_zero) (by rw [h1, h3]) (by rwa [zero_mul, zero_add]) (by rwa [zero_mul, zero_add])

theorem IsExp.agree {p n : Nat} (hpr : p.Prime) (hn0 : 0 < n) (hn : n ≤ p) {F : (ZMod p)⟦X⟧} {l : List Nat} (h : IsExp p n F l) (h0 : coeff 0 F = 0) :
    Agree n (ser p l) (expS n F) := by
  haveI : Fact p.Prime := ⟨hpr⟩
  obtain ⟨_, h1, h2⟩ := h
  obtain ⟨h3, h4⟩ := expS_ode hn0 hn h0
  exact ode_unique (F := 1) (C := d⁄dX _ F) (G := 0) hn (by simp) (by rw [h1, h3]) (by rwa [one_mul, add_zero]) (by rwa [one_mul, add_zero])

/-- What a logarithm has to return. -/
def LogOut (p n : Nat) (f : List Nat) (r : Option (List Nat)) : Prop :=
  ∃ l, r = some l ∧ l.length = n ∧ (∀ a ∈ l, a < p) ∧ ∀ i, i < n → coeff i (ser p l) = coeff i (logS n (ser p f))

/-- What an exponential has to return; missing coefficients count as zero. -/
def ExpOut (p n : Nat) (f : List Nat) (r : Option (List Nat)) : Prop :=
  ∃ l, r = some l ∧ (∀ a ∈ l, a < p) ∧ ∀ i, i < n → coeff i (ser p l) = coeff i (expS n (ser p f))

theorem IsLog.out {p n : Nat} (hpr : p.Prime) (hn : n ≤ p) {f : List Nat} (h0 : f[0]? = some 1) {r : Option (List Nat)} (h : ∃ l, r = some l ∧ IsLog p n (ser p f) l) :
    LogOut p n f r := by
  obtain ⟨l, e, h⟩ := h
  exact ⟨l, e, h.1, h.2.1, h.agree hpr hn (coeff0_one h0)⟩

/-- **C65.** `log`. -/
theorem C65_log {p g : Nat} (H : Root p g) {tb : List Nat} (hT : Full p tb) (f : List Nat) {n k : Nat} (hf : ∀ a ∈ f, a < p) (h0 : f[0]? = some 1)
    (hn0 : 0 < n) (hn : n < p) (hk : 2^(k+1) ∣ p - 1) (hl : f.length + n ≤ 2^k) : LogOut p n f (logF p g tb f n) :=
  IsLog.out H.prime (by omega) h0 (logF_spec H hT hf h0 hn0 hn (supported H hk) hl)

/-- **C65.** `log_dense`. -/
theorem C65_dense {p g : Nat} (H : Root p g) {tb : List Nat} (hT : Full p tb) (f : List Nat) {n k : Nat} (hf : ∀ a ∈ f, a < p) (h0 : f[0]? = some 1)
    (hn0 : 0 < n) (hn : n < p) (hk : 2^(k+1) ∣ p - 1) (hl : f.length + n ≤ 2^k) : LogOut p n f (logDense p g tb f n) :=
  IsLog.out H.prime (by omega) h0 (logDense_spec H hT hf h0 hn0 hn (supported H hk) hl)

/-- **C65.** `log_sparse`, for at least two and no more coefficients than the series has. -/
theorem C65_sparse_partial {p : Nat} (hpr : p.Prime) (hp : p < 2^31) {tb : List Nat} (hT : Full p tb) (f : List Nat) {n : Nat} (hf : ∀ a ∈ f, a < p) (h0 : f[0]? = some 1)
    (hn0 : 2 ≤ n) (hn : n < p) (hl : n ≤ f.length) : LogOut p n f (logSparse p tb f n) :=
  IsLog.out hpr (by omega) h0 (logSparse_spec hpr hp hT hf h0 hn0 hn hl)

/-- **C65, violation.** `log_sparse(5)` of `1 + x` drops the coefficients of `x³` and `x⁴`, which `log(5)` gives. -/
theorem C65_violation : logSparse 998244353 (table0 998244353) [1, 1] 5 = some [0, 1, 499122176, 0, 0] ∧
    logF 998244353 3 (table0 998244353) [1, 1] 5 = some [0, 1, 499122176, 332748118, 249561088] := by decide +kernel

/-- **C65, violation.** `log_sparse(1)` of `1 + x` fails an assertion; the answer is `[0]`. -/
theorem C65_violation_one : logSparse 998244353 (table0 998244353) [1, 1] 1 = none ∧ logF 998244353 3 (table0 998244353) [1, 1] 1 = some [0] := by decide +kernel

/-- **C65.** `log (fg) = log f + log g`: the functional equation which the header documents. -/
theorem C65_mul {p g : Nat} (H : Root p g) {tb : List Nat} (hT : Full p tb) (f r h : List Nat) {n k : Nat} (hf : ∀ a ∈ f, a < p) (hr : ∀ a ∈ r, a < p) (hh : ∀ a ∈ h, a < p)
    (f0 : f[0]? = some 1) (r0 : r[0]? = some 1) (h0 : h[0]? = some 1) (hfr : ∀ i, i < n → h.getD i 0 = prodCoeff p f r i)
    (hn0 : 0 < n) (hn : n < p) (hk : 2^(k+1) ∣ p - 1) (lf : f.length + n ≤ 2^k) (lr : r.length + n ≤ 2^k) (lh : h.length + n ≤ 2^k) :
    ∃ a b c, logF p g tb f n = some a ∧ logF p g tb r n = some b ∧ logF p g tb h n = some c ∧ ∀ i, i < n → c.getD i 0 = (a.getD i 0 + b.getD i 0) % p := by
  haveI : Fact p.Prime := ⟨H.prime⟩
  have h2 := H.prime.two_le
  obtain ⟨a, ea, _, ra, a0, oa⟩ := logF_spec H hT hf f0 hn0 hn (supported H hk) lf
  obtain ⟨b, eb, _, rb, b0, ob⟩ := logF_spec H hT hr r0 hn0 hn (supported H hk) lr
  obtain ⟨c, ec, _, rc, c0, oc⟩ := logF_spec H hT hh h0 hn0 hn (supported H hk) lh
  refine ⟨a, b, c, ea, eb, ec, fun i hi => ?_⟩
  have hP : Agree n (ser p h) (ser p f * ser p r) := fun i hi => by
    rw [coeff_ser, coeff_ser_mul, ← prodCoeff_cast, ← hfr i hi]; rfl
  have hA : Agree (n-1) (ser p h * d⁄dX _ (ser p a + ser p b)) (d⁄dX _ (ser p h)) := by
    refine ((hP.mono (by omega)).mul (Agree.refl _ _)).trans (Agree.trans ?_ hP.deriv.symm)
    have h3 := (oa.mul (Agree.refl _ (ser p r))).add (ob.mul (Agree.refl _ (ser p f)))
    intro i hi
    have h4 := h3 i hi
    rw [Derivation.leibniz, smul_eq_mul, smul_eq_mul, map_add]
    have e1 : ser p f * ser p r * (d⁄dX _ (ser p a) + d⁄dX _ (ser p b)) = ser p f * d⁄dX _ (ser p a) * ser p r + ser p r * d⁄dX _ (ser p b) * ser p f := by ring
    rw [e1, h4]
    congr 1
    ring
  have h5 := ode_unique (F := ser p h) (C := 0) (G := d⁄dX _ (ser p h)) (A := ser p c) (B := ser p a + ser p b) (n := n) (by omega)
    (by rw [coeff0_one h0]; exact one_ne_zero) (by rw [map_add, a0, b0, c0, add_zero]) (by rwa [zero_mul, zero_add]) (by rwa [zero_mul, zero_add]) i hi
  rw [map_add, coeff_ser, coeff_ser, coeff_ser] at h5
  refine nat_of_cast (getD_lt (by omega) rc i) (Nat.mod_lt _ (by omega)) ?_
  rw [ZMod.natCast_mod, Nat.cast_add]
  exact h5

theorem coeff0_zero {p : Nat} {f : List Nat} (h : f.getD 0 0 = 0) : coeff 0 (ser p f) = 0 := by
  rw [coeff_ser]; unfold cf; rw [h, Nat.cast_zero]

theorem expF_spec {p g : Nat} (H : Root p g) {tb : List Nat} (hT : Full p tb) (f : List Nat) {n k : Nat} (hf : ∀ a ∈ f, a < p) (h0 : f.getD 0 0 = 0)
    (hn0 : 0 < n) (hn : n < p) (hk : 2^k ∣ p - 1) (hl : n ≤ 2^k) : ∃ l, expF p g tb f n = some l ∧ IsExp p n (ser p f) l := by
  unfold expF
  rw [if_neg (by
    rcases f with _ | ⟨a, f⟩
    · simp
    · have : a = 0 := h0
      simp [this])]
  split
  · exact expSparse_spec H.prime H.lt hT hf h0 hn0 (by omega)
  · obtain ⟨l, e, _, h⟩ := expDense_spec H hT hf h0 hn0 hn hl (supported H hk)
    exact ⟨l, e, h⟩

/-- **C66.** `exp`. -/
theorem C66_exp {p g : Nat} (H : Root p g) {tb : List Nat} (hT : Full p tb) (f : List Nat) {n k : Nat} (hf : ∀ a ∈ f, a < p) (h0 : f.getD 0 0 = 0)
    (hn0 : 0 < n) (hn : n < p) (hk : 2^k ∣ p - 1) (hl : n ≤ 2^k) : ExpOut p n f (expF p g tb f n) := by
  obtain ⟨l, e, h⟩ := expF_spec H hT f hf h0 hn0 hn hk hl
  exact ⟨l, e, h.1, h.agree H.prime hn0 (by omega) (coeff0_zero h0)⟩

/-- **C66.** `exp_sparse`. -/
theorem C66_sparse {p : Nat} (hpr : p.Prime) (hp : p < 2^31) {tb : List Nat} (hT : Full p tb) (f : List Nat) {n : Nat} (hf : ∀ a ∈ f, a < p) (h0 : f.getD 0 0 = 0)
    (hn0 : 0 < n) (hn : n ≤ p) : ExpOut p n f (expSparse p tb f n) := by
  obtain ⟨l, e, h⟩ := expSparse_spec hpr hp hT hf h0 hn0 hn
  exact ⟨l, e, h.1, h.agree hpr hn0 hn (coeff0_zero h0)⟩

/-- **C66.** `exp_dense`, which returns exactly `n` coefficients. -/
theorem C66_dense {p g : Nat} (H : Root p g) {tb : List Nat} (hT : Full p tb) (f : List Nat) {n k : Nat} (hf : ∀ a ∈ f, a < p) (h0 : f.getD 0 0 = 0)
    (hn0 : 0 < n) (hn : n < p) (hk : 2^k ∣ p - 1) (hl : n ≤ 2^k) : ExpOut p n f (expDense p g tb f n) ∧ ∀ l, expDense p g tb f n = some l → l.length = n := by
  obtain ⟨l, e, h1, h⟩ := expDense_spec H hT hf h0 hn0 hn hl (supported H hk)
  refine ⟨⟨l, e, h.1, h.agree H.prime hn0 (by omega) (coeff0_zero h0)⟩, fun l' e' => ?_⟩
  rw [e] at e'
  rw [← Option.some.inj e']
  exact h1

/-- **C66.** `exp (f + r) = exp f * exp r`: the functional equation which the header documents. -/
theorem C66_add {p g : Nat} (H : Root p g) {tb : List Nat} (hT : Full p tb) (f r h : List Nat) {n k : Nat} (hf : ∀ a ∈ f, a < p) (hr : ∀ a ∈ r, a < p) (hh : ∀ a ∈ h, a < p)
    (f0 : f.getD 0 0 = 0) (r0 : r.getD 0 0 = 0) (hfr : ∀ i, h.getD i 0 = (f.getD i 0 + r.getD i 0) % p)
    (hn0 : 0 < n) (hn : n < p) (hk : 2^k ∣ p - 1) (hl : n ≤ 2^k) :
    ∃ a b c, expF p g tb f n = some a ∧ expF p g tb r n = some b ∧ expF p g tb h n = some c ∧ ∀ i, i < n → c.getD i 0 = prodCoeff p a b i := by
  haveI : Fact p.Prime := ⟨H.prime⟩
  have h2 := H.prime.two_le
  have h0 : h.getD 0 0 = 0 := by rw [hfr, f0, r0]; exact Nat.zero_mod _
  obtain ⟨a, ea, ra, a0, oa⟩ := expF_spec H hT f hf f0 hn0 hn hk hl
  obtain ⟨b, eb, rb, b0, ob⟩ := expF_spec H hT r hr r0 hn0 hn hk hl
  obtain ⟨c, ec, rc, c0, oc⟩ := expF_spec H hT h hh h0 hn0 hn hk hl
  refine ⟨a, b, c, ea, eb, ec, fun i hi => ?_⟩
  have hS : ser p h = ser p f + ser p r := by
    ext i
    rw [map_add, coeff_ser, coeff_ser, coeff_ser]
    unfold cf
    rw [hfr, ZMod.natCast_mod, Nat.cast_add]
  have hA : Agree (n-1) (d⁄dX _ (ser p a * ser p b)) (d⁄dX _ (ser p h) * (ser p a * ser p b)) := by
    have h3 := (oa.mul (Agree.refl _ (ser p b))).add (ob.mul (Agree.refl _ (ser p a)))
    intro i hi
    have h4 := h3 i hi
    rw [Derivation.leibniz, smul_eq_mul, smul_eq_mul, hS, (d⁄dX (ZMod p)).map_add]
    have e1 : ser p a * d⁄dX _ (ser p b) + ser p b * d⁄dX _ (ser p a) = d⁄dX _ (ser p a) * ser p b + d⁄dX _ (ser p b) * ser p a := by ring
    rw [e1, h4]
    congr 1
    ring
  have h5 := ode_unique (F := 1) (C := d⁄dX _ (ser p h)) (G := 0) (A := ser p c) (B := ser p a * ser p b) (n := n) (by omega)
    (by simp) (by
      rw [c0, PowerSeries.coeff_zero_eq_constantCoeff_apply, map_mul, ← PowerSeries.coeff_zero_eq_constantCoeff_apply, ← PowerSeries.coeff_zero_eq_constantCoeff_apply, a0, b0, one_mul])
    (by rwa [one_mul, add_zero]) (by rwa [one_mul, add_zero]) i hi
  rw [coeff_ser, coeff_ser_mul, ← prodCoeff_cast] at h5
  exact nat_of_cast (getD_lt (by omega) rc i) (Nat.mod_lt _ (by omega)) h5

/-- **C66.** `exp (log f) = f`. -/
theorem C66_exp_log {p g : Nat} (H : Root p g) {tb : List Nat} (hT : Full p tb) (f : List Nat) {n k : Nat} (hf : ∀ a ∈ f, a < p) (h0 : f[0]? = some 1)
    (hn0 : 0 < n) (hn : n < p) (hk : 2^(k+1) ∣ p - 1) (hl : f.length + n ≤ 2^k) :
    ∃ l e, logF p g tb f n = some l ∧ expF p g tb l n = some e ∧ ∀ i, i < n → e.getD i 0 = f.getD i 0 := by
  haveI : Fact p.Prime := ⟨H.prime⟩
  have h2 := H.prime.two_le
  obtain ⟨l, el, _, rl, l0, ol⟩ := logF_spec H hT hf h0 hn0 hn (supported H hk) hl
  have l0' : l.getD 0 0 = 0 := nat_of_cast (p := p) (getD_lt (by omega) rl 0) (by omega) (by
    rw [coeff_ser] at l0
    rw [Nat.cast_zero]
    exact l0)
  obtain ⟨e, ee, re, e0, oe⟩ := expF_spec H hT l (n := n) (k := k) rl l0' hn0 hn (dvd_trans (pow_dvd_pow 2 (by omega)) hk) (by omega)
  refine ⟨l, e, el, ee, fun i hi => ?_⟩
  have h5 := ode_unique (F := 1) (C := d⁄dX _ (ser p l)) (G := 0) (A := ser p e) (B := ser p f) (n := n) (by omega)
    (by simp) (by rw [e0, coeff0_one h0]) (by rwa [one_mul, add_zero]) (by
      rw [one_mul, add_zero, mul_comm]
      exact ol.symm) i hi
  rw [coeff_ser, coeff_ser] at h5
  exact nat_of_cast (getD_lt (by omega) re i) (getD_lt (by omega) hf i) h5

/-- **C67.** `pow`: the power of the series, in all the coefficients which the series has. -/
theorem C67_pow {p g : Nat} (H : Root p g) {tb : List Nat} (hT : Full p tb) (f : List Nat) {n k : Nat} (hf : ∀ a ∈ f, a < p) (hl : f.length < p) (hn : n < 2^63)
    (hk : 2^(k+1) ∣ p - 1) (hl2 : 2 * f.length ≤ 2^k) :
    ∃ r, powF p g tb f n = some r ∧ (∀ a ∈ r, a < p) ∧ ∀ i, i < f.length → coeff i (ser p r) = coeff i (ser p f ^ n) :=
  powF_spec H hT hf hl (supported H hk) (by omega) hn

/-- What a square root has to do: return a root if there is one, throw otherwise. -/
def SqrtOut (p : Nat) (f : List Nat) (o : Option (Option (List Nat))) : Prop :=
  ((∃ R : (ZMod p)⟦X⟧, Agree f.length (R^2) (ser p f)) → ∃ r, o = some (some r) ∧ (∀ a ∈ r, a < p) ∧ ∀ i, i < f.length → prodCoeff p r r i = f.getD i 0) ∧
  ((¬ ∃ R : (ZMod p)⟦X⟧, Agree f.length (R^2) (ser p f)) → o = some none)

theorem sqrtOut {p : Nat} (hpr : p.Prime) (hp : p < 2^31) (h2 : p ≠ 2) {fn : List Nat → Option (List Nat)} {f : List Nat} (hfn : Sqrt1 p fn f.length) (hf : ∀ a ∈ f, a < p) :
    SqrtOut p f (sqrtWith p fn f) := by
  have hp2 := hpr.two_le
  obtain ⟨_, h3, h4⟩ := sqrtWith_spec hpr hp h2 hfn hf
  refine ⟨fun h => ?_, h4⟩
  obtain ⟨r, e, hr, ha⟩ := h3 h
  refine ⟨r, e, hr, fun i hi => ?_⟩
  refine nat_of_cast (p := p) (Nat.mod_lt _ (by omega)) (getD_lt (by omega) hf i) ?_
  rw [prodCoeff_cast, ← coeff_ser_mul, ← pow_two, ha i hi, coeff_ser]
  rfl

/-- **C68.** `sqrt`. -/
theorem C68_sqrt {p g : Nat} (H : Root p g) (h2 : p ≠ 2) {tb : List Nat} (hT : Full p tb) (f : List Nat) {k : Nat} (hf : ∀ a ∈ f, a < p) (hl : f.length < p)
    (hk : 2^(k+1) ∣ p - 1) (hl2 : 2 * f.length ≤ 2^k) : SqrtOut p f (sqrtF p g tb f) :=
  sqrtOut H.prime H.lt h2 (sqrt1_spec H h2 hT hl (supported H hk) (by omega)) hf

/-- **C68.** `sqrt_dense`. -/
theorem C68_dense {p g : Nat} (H : Root p g) (h2 : p ≠ 2) {tb : List Nat} (hT : Full p tb) (f : List Nat) {k : Nat} (hf : ∀ a ∈ f, a < p) (hl : f.length < p)
    (hk : 2^(k+1) ∣ p - 1) (hl2 : 2 * f.length ≤ 2^k) : SqrtOut p f (sqrtDense p g tb f) :=
  sqrtOut H.prime H.lt h2 (sqrt1Dense_spec H h2 hT hl (supported H hk) (by omega)) hf

/-- **C68.** `sqrt_sparse`. -/
theorem C68_sparse {p : Nat} (hpr : p.Prime) (hp : p < 2^31) (h2 : p ≠ 2) {tb : List Nat} (hT : Full p tb) (f : List Nat) (hf : ∀ a ∈ f, a < p) (hl : f.length ≤ p) :
    SqrtOut p f (sqrtSparse p tb f) :=
  sqrtOut hpr hp h2 (sqrt1Sparse_spec hpr hp h2 hT hl) hf

/-- **C68.** `is_square`. -/
theorem C68_is_square {p : Nat} (hpr : p.Prime) (hp : p < 2^31) (h2 : p ≠ 2) (f : List Nat) (hf : ∀ a ∈ f, a < p) (hl : f.length ≤ p) :
    ∃ b, isSquareF p f = some b ∧ (b = true ↔ ∃ R : (ZMod p)⟦X⟧, Agree f.length (R^2) (ser p f)) :=
  (sqrtWith_spec hpr hp h2 (sqrt1Sparse_spec hpr hp h2 (full_table0 hpr) hl) hf).1

theorem full17 : Full 17 (table0 17) := full_table0 root17.prime

example : LogOut 17 4 [1, 2, 3] (logF 17 3 (table0 17) [1, 2, 3] 4) :=
  C65_log (k := 3) root17 full17 _ (by decide) (by decide) (by decide) (by decide) (by decide) (by decide)
example : LogOut 17 4 [1, 2, 3] (logDense 17 3 (table0 17) [1, 2, 3] 4) :=
  C65_dense (k := 3) root17 full17 _ (by decide) (by decide) (by decide) (by decide) (by decide) (by decide)
example : LogOut 17 3 [1, 2, 3, 5] (logSparse 17 (table0 17) [1, 2, 3, 5] 3) :=
  C65_sparse_partial root17.prime root17.lt full17 _ (by decide) (by decide) (by decide) (by decide) (by decide)
example : logF 17 3 (table0 17) [1, 2, 3] 4 = some [0, 2, 1, 8] := by decide +kernel
example : ∃ a b c, logF 17 3 (table0 17) [1, 2] 3 = some a ∧ logF 17 3 (table0 17) [1, 1] 3 = some b ∧ logF 17 3 (table0 17) [1, 3, 2] 3 = some c ∧
    ∀ i, i < 3 → c.getD i 0 = (a.getD i 0 + b.getD i 0) % 17 :=
  C65_mul (k := 3) root17 full17 _ _ _ (by decide) (by decide) (by decide) (by decide) (by decide) (by decide) (by decide) (by decide) (by decide) (by decide)
    (by decide) (by decide) (by decide)
example : ExpOut 17 6 [0, 2, 3] (expF 17 3 (table0 17) [0, 2, 3] 6) :=
  C66_exp (k := 4) root17 full17 _ (by decide) (by decide) (by decide) (by decide) (by decide) (by decide)
example : ExpOut 17 6 [0, 2, 3] (expDense 17 3 (table0 17) [0, 2, 3] 6) :=
  (C66_dense (k := 4) root17 full17 _ (by decide) (by decide) (by decide) (by decide) (by decide) (by decide)).1
example : ExpOut 17 6 [0, 2, 3] (expSparse 17 (table0 17) [0, 2, 3] 6) :=
  C66_sparse root17.prime root17.lt full17 _ (by decide) (by decide) (by decide) (by decide)
example : expDense 17 3 (table0 17) [0, 2, 3] 4 = some [1, 2, 5, 13] := by decide +kernel
example : ∃ a b c, expF 17 3 (table0 17) [0, 2] 5 = some a ∧ expF 17 3 (table0 17) [0, 16, 4] 5 = some b ∧ expF 17 3 (table0 17) [0, 1, 4] 5 = some c ∧
    ∀ i, i < 5 → c.getD i 0 = prodCoeff 17 a b i :=
  C66_add (k := 4) root17 full17 _ _ _ (by decide) (by decide) (by decide) (by decide) (by decide) (fun i => by
    rcases i with _ | _ | _ | i
    · decide
    · decide
    · decide
    · simp) (by decide) (by decide) (by decide) (by decide)
example : ∃ l e, logF 17 3 (table0 17) [1, 2, 3] 4 = some l ∧ expF 17 3 (table0 17) l 4 = some e ∧ ∀ i, i < 4 → e.getD i 0 = [1, 2, 3].getD i 0 :=
  C66_exp_log (k := 3) root17 full17 _ (by decide) (by decide) (by decide) (by decide) (by decide) (by decide)
example : ∃ r, powF 17 3 (table0 17) [0, 2, 3] 2 = some r ∧ (∀ a ∈ r, a < 17) ∧ ∀ i, i < 3 → coeff i (ser 17 r) = coeff i (ser 17 [0, 2, 3] ^ 2) :=
  C67_pow (k := 3) root17 full17 _ (by decide) (by decide) (by decide) (by decide) (by decide)
example : powF 17 3 (table0 17) [0, 2, 3] 2 = some [0, 0, 4, 12] := by decide +kernel
example : SqrtOut 17 [0, 0, 4, 12] (sqrtF 17 3 (table0 17) [0, 0, 4, 12]) :=
  C68_sqrt (k := 3) root17 (by decide) full17 _ (by decide) (by decide) (by decide) (by decide)
example : SqrtOut 17 [0, 0, 4, 12] (sqrtDense 17 3 (table0 17) [0, 0, 4, 12]) :=
  C68_dense (k := 3) root17 (by decide) full17 _ (by decide) (by decide) (by decide) (by decide)
example : SqrtOut 17 [0, 0, 4, 12] (sqrtSparse 17 (table0 17) [0, 0, 4, 12]) :=
  C68_sparse root17.prime root17.lt (by decide) full17 _ (by decide) (by decide)
example : sqrtF 17 3 (table0 17) [0, 0, 4, 12] = some (some [0, 2, 3]) := by decide +kernel
example : sqrtF 17 3 (table0 17) [0, 0, 3, 12] = some none ∧ isSquareF 17 [0, 4, 12] = some false := by decide +kernel
example : ∃ b, isSquareF 17 [0, 0, 4, 12] = some b ∧ (b = true ↔ ∃ R : (ZMod 17)⟦X⟧, Agree 4 (R^2) (ser 17 [0, 0, 4, 12])) :=
  C68_is_square root17.prime root17.lt (by decide) _ (by decide) (by decide)

end Verif.Fps
