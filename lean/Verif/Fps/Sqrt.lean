import Verif.Fps.Model3
import Verif.Fps.Pow
import Verif.Modular.Sqrt
/-!
Square roots of series.
-/
namespace Verif.Fps
open Verif.Modular Verif.Ntt
open PowerSeries (coeff coeff_derivative derivative)
open scoped PowerSeries

/-- A power with exponent one half is a square root. -/
theorem IsPow1.half {p n : Nat} [Fact p.Prime] (hn : n ≤ p) {N : ZMod p} (hN : N + N = 1) {F : (ZMod p)⟦X⟧} {g : List Nat} (h : IsPow1 p n N F g) (h0 : coeff 0 F = 1) :
    Agree n (ser p g ^ 2) F := by
  obtain ⟨_, _, hg0, hode⟩ := h
  refine ode_unique (F := F) (C := d⁄dX _ F) (G := 0) hn (by rw [h0]; exact one_ne_zero) ?_ ?_ ?_
  · rw [h0, PowerSeries.coeff_zero_eq_constantCoeff_apply, map_pow, ← PowerSeries.coeff_zero_eq_constantCoeff_apply, hg0, one_pow]
  · have h3 := (hode.mul (Agree.refl _ (ser p g))).add (hode.mul (Agree.refl _ (ser p g)))
    have hC : PowerSeries.C N + PowerSeries.C N = (1 : (ZMod p)⟦X⟧) := by rw [← map_add, hN, map_one]
    intro k hk
    have h4 := h3 k hk
    rw [pow_two, Derivation.leibniz, smul_eq_mul, add_zero]
    have e1 : F * (ser p g * d⁄dX _ (ser p g) + ser p g * d⁄dX _ (ser p g)) = F * d⁄dX _ (ser p g) * ser p g + F * d⁄dX _ (ser p g) * ser p g := by ring
    have e2 : d⁄dX _ F * (ser p g * ser p g) = PowerSeries.C N * d⁄dX _ F * ser p g * ser p g + PowerSeries.C N * d⁄dX _ F * ser p g * ser p g := by
      linear_combination (-(d⁄dX _ F) * ser p g * ser p g) * hC
    rw [e1, e2]
    exact h4
  · rw [add_zero, mul_comm]; exact Agree.refl _ _

/-- The square of a series agreeing with one of order `k`: `k` is even and the leading coefficient a square. -/
theorem order_sq {p n k : Nat} [Fact p.Prime] {F R : (ZMod p)⟦X⟧} (hk : k < n) (hlow : ∀ j, j < k → coeff j F = 0) (hc : coeff k F ≠ 0) (hR : Agree n (R^2) F) :
    k % 2 = 0 ∧ ∃ s, s * s = coeff k F := by
  have hne : ∃ m, coeff m R ≠ 0 := by
    by_contra h
    push Not at h
    have : R = 0 := by ext m; rw [h m, map_zero]
    rw [this] at hR
    have := hR k hk
    rw [zero_pow (by omega), map_zero] at this
    exact hc this.symm
  classical
  obtain ⟨m, hm, hmin⟩ : ∃ m, coeff m R ≠ 0 ∧ ∀ j, j < m → coeff j R = 0 :=
    ⟨Nat.find hne, Nat.find_spec hne, fun j hj => by have := Nat.find_min hne hj; push Not at this; exact this⟩
  obtain ⟨R', hR'⟩ := PowerSeries.X_pow_dvd_iff.2 hmin
  have h2 : R^2 = PowerSeries.X^(2*m) * (R' * R') := by rw [hR']; ring
  have hcm : coeff m R = coeff 0 R' := by
    rw [hR', PowerSeries.coeff_X_pow_mul', if_pos (le_refl _), Nat.sub_self]
  have hsq : coeff (2*m) (R^2) = coeff 0 R' * coeff 0 R' := by
    rw [h2, PowerSeries.coeff_X_pow_mul', if_pos (le_refl _), Nat.sub_self, PowerSeries.coeff_zero_eq_constantCoeff_apply, PowerSeries.coeff_zero_eq_constantCoeff_apply, map_mul]
  have hnz : coeff (2*m) (R^2) ≠ 0 := by
    rw [hsq, ← hcm]; exact mul_ne_zero hm hm
  rcases lt_trichotomy (2*m) k with h | h | h
  · exact absurd ((hR (2*m) (by omega)).trans (hlow _ h)) hnz
  · refine ⟨by omega, coeff 0 R', ?_⟩
    rw [← hR k hk, ← hsq, h]
  · exfalso
    apply hc
    rw [← hR k hk, h2, PowerSeries.coeff_X_pow_mul', if_neg (by omega)]

/-- What the three ways of taking the root of a series with constant term one have in common. -/
def Sqrt1 (p : Nat) (fn : List Nat → Option (List Nat)) (L : Nat) : Prop :=
  ∀ g : List Nat, (∀ a ∈ g, a < p) → g[0]? = some 1 → g.length ≤ L → ∃ s, fn g = some s ∧ s.length = g.length ∧ (∀ a ∈ s, a < p) ∧ Agree g.length (ser p s ^ 2) (ser p g)

theorem half_spec {p : Nat} (hpr : p.Prime) (hp : p < 2^31) (h2 : p ≠ 2) :
    ∃ h, inv p (ofInt p 2) = some h ∧ (((h : Int) : ZMod p) + ((h : Int) : ZMod p) = 1) := by
  haveI : Fact p.Prime := ⟨hpr⟩
  have := hpr.two_le
  obtain ⟨l2, c2⟩ := ofInt_nat (p := p) (by omega) 2
  have hz : ((2 : Nat) : ZMod p) ≠ 0 := cast_ne (by omega) (by omega)
  have hne : ofInt p ((2 : Nat) : Int) ≠ 0 := by
    intro h
    rw [h, Nat.cast_zero] at c2
    exact hz c2.symm
  obtain ⟨h, e, lh, ch⟩ := inv_spec (by omega) l2 hne
  refine ⟨h, e, ?_⟩
  rw [Int.cast_natCast, ch, c2, ← two_mul]
  have : (2 : ZMod p) = ((2 : Nat) : ZMod p) := by norm_num
  rw [this, mul_inv_cancel₀ hz]

theorem sqrt1_of {p : Nat} (hpr : p.Prime) {N : ZMod p} (hN : N + N = 1) {g s : List Nat} (hg0 : g[0]? = some 1) (hl : g.length ≤ p) (h : IsPow1 p g.length N (ser p g) s) :
    s.length = g.length ∧ (∀ a ∈ s, a < p) ∧ Agree g.length (ser p s ^ 2) (ser p g) := by
  haveI : Fact p.Prime := ⟨hpr⟩
  exact ⟨h.1, h.2.1, h.half hl hN (by rw [coeff_ser]; unfold cf; rw [List.getD_eq_getElem?_getD, hg0]; simp)⟩

theorem sqrt1_spec {p r K L : Nat} (H : Root p r) (h2 : p ≠ 2) {tb : List Nat} (hT : Full p tb) (hl : L < p) (hK : K + 1 ≤ logN p) (hK2 : L + L ≤ 2^K) :
    Sqrt1 p (sqrt1 p r tb) L := by
  intro g hg hg0 hgl
  obtain ⟨h, e, hN⟩ := half_spec H.prime H.lt h2
  obtain ⟨s, es, hs⟩ := pow1_spec H hT hg hg0 (by omega) hK (by omega) (h : Int)
  exact ⟨s, by unfold sqrt1; rw [if_neg (by rw [hg0]; simp), e, Option.bind_some, es], sqrt1_of H.prime hN hg0 (by omega) hs⟩

theorem sqrt1Dense_spec {p r K L : Nat} (H : Root p r) (h2 : p ≠ 2) {tb : List Nat} (hT : Full p tb) (hl : L < p) (hK : K + 1 ≤ logN p) (hK2 : L + L ≤ 2^K) :
    Sqrt1 p (sqrt1Dense p r tb) L := by
  intro g hg hg0 hgl
  obtain ⟨h, e, hN⟩ := half_spec H.prime H.lt h2
  obtain ⟨s, es, hs⟩ := pow1Dense_spec H hT hg hg0 (by omega) hK (by omega) (h : Int)
  exact ⟨s, by unfold sqrt1Dense; rw [if_neg (by rw [hg0]; simp), e, Option.bind_some, es], sqrt1_of H.prime hN hg0 (by omega) hs⟩

theorem sqrt1Sparse_spec {p L : Nat} (hpr : p.Prime) (hp : p < 2^31) (h2 : p ≠ 2) {tb : List Nat} (hT : Full p tb) (hl : L ≤ p) :
    Sqrt1 p (sqrt1Sparse p tb) L := by
  intro g hg hg0 hgl
  obtain ⟨h, e, hN⟩ := half_spec hpr hp h2
  obtain ⟨s, es, hs⟩ := pow1Sparse_spec hpr hp hT hg hg0 (by omega) (h : Int)
  exact ⟨s, by unfold sqrt1Sparse; rw [if_neg (by rw [hg0]; simp), e, Option.bind_some, es], sqrt1_of hpr hN hg0 (by omega) hs⟩

theorem scale_rep {p c N : Nat} (hm : p ≤ 2^31) (hc : c < p) {f : List Nat} {φ : Nat → ZMod p} (R : RepZ p f N φ) :
    ∃ g, scale p c f = some g ∧ RepZ p g N (fun i => φ i * (c : ZMod p)) :=
  mapM_rep (c := fun x => mul p x c) (u := fun x => x * (c : ZMod p)) (fun _ hx => mul_cast hm hx hc) R

theorem shl_rep {p m N : Nat} (h0 : 0 < p) {f : List Nat} {φ : Nat → ZMod p} (R : RepZ p f N φ) : RepZ p (shl m f) (m + N) (fun i => if m ≤ i then φ (i - m) else 0) := by
  unfold shl
  refine ⟨by rw [List.length_append, List.length_replicate, R.len], fun i hi => ?_⟩
  by_cases h : m ≤ i
  · obtain ⟨x, ex, h3⟩ := R.val (i - m) (by omega)
    refine ⟨x, by rw [List.getElem?_append_right (by rw [List.length_replicate]; exact h), List.length_replicate, ex], ?_⟩
    rw [if_pos h]; exact h3
  · refine ⟨0, by rw [List.getElem?_append_left (by rw [List.length_replicate]; omega), List.getElem?_replicate, if_pos (by omega)], h0, ?_⟩
    rw [if_neg h, Nat.cast_zero]

/-- Whether a series is a square as far as its first `n` coefficients tell. -/
def IsSq (p n : Nat) (F : (ZMod p)⟦X⟧) : Prop := ∃ R : (ZMod p)⟦X⟧, Agree n (R^2) F

theorem sqrtTail_spec {p : Nat} (hpr : p.Prime) (hp : p < 2^31) (h2 : p ≠ 2) {fn : List Nat → Option (List Nat)} {f : List Nat} (hfn : Sqrt1 p fn f.length) (hf : ∀ a ∈ f, a < p)
    {k c : Nat} (hk : ∀ j, j < k → f[j]? = some 0) (hc : f[k]? = some c) (hc0 : c ≠ 0) (hev : k % 2 = 0) (hsq : ∃ r, r < p ∧ r * r % p = c) :
    ∃ g, sqrtTail p fn f k c = some (some g) ∧ (∀ a ∈ g, a < p) ∧ Agree f.length (ser p g ^ 2) (ser p f) := by
  haveI : Fact p.Prime := ⟨hpr⟩
  have hp2 := hpr.two_le
  have hm : p ≤ 2^31 := by omega
  have hkl : k < f.length := by
    by_contra h
    rw [List.getElem?_eq_none (by omega)] at hc
    cases hc
  have hcp : c < p := hf c (List.mem_of_getElem? hc)
  have hcz : ((c : Nat) : ZMod p) ≠ 0 := cast_ne (by omega) hcp
  have hcf : cf p f k = c := by unfold cf; rw [List.getD_eq_getElem?_getD, hc]; rfl
  obtain ⟨ic, eic, lic, cic⟩ := inv_spec hm hcp hc0
  obtain ⟨g, eg, Rg⟩ := scale_rep hm lic (shr_rep (m := k) (RepZ.of_red hf))
  have hgl := Rg.len
  have hg0 : g[0]? = some 1 := by
    obtain ⟨x, ex, lx, cx⟩ := Rg.val 0 (by omega)
    rw [Nat.add_zero, hcf, cic, mul_inv_cancel₀ hcz] at cx
    rw [ex, cast_inj (m := p) lx (b := 1) (by omega) (by rw [cx, Nat.cast_one])]
  obtain ⟨s, es, hsl, hsr, hag⟩ := hfn g Rg.red hg0 (by omega)
  obtain ⟨_, h3, _⟩ := C22_static_partial hpr hm h2 hcp hc0
  obtain ⟨t, et, lt', ct⟩ := h3 hsq
  obtain ⟨o, eo, Ro⟩ := scale_rep hm lt' (RepZ.of_red hsr)
  have Rs := shl_rep (p := p) (by omega) (m := k/2) Ro
  refine ⟨shl (k/2) o, ?_, Rs.red, ?_⟩
  · unfold sqrtTail
    have eg' : scale p ic (f.drop k) = some g := eg
    rw [eic, Option.bind_some, eg', Option.bind_some, es, Option.bind_some, et, Option.bind_some]
    dsimp only
    rw [eo, Option.map_some]
  · have hser : ser p f = PowerSeries.X^k * (PowerSeries.C ((c : Nat) : ZMod p) * ser p g) := by
      ext j
      rw [PowerSeries.coeff_X_pow_mul', coeff_ser]
      by_cases hj : k ≤ j
      · rw [if_pos hj, PowerSeries.coeff_C_mul, coeff_ser]
        by_cases hjl : j < f.length
        · rw [Rg.cf_eq (by omega), show k + (j - k) = j by omega, cic]
          field_simp
        · rw [cf_ge (by omega), cf_ge (by omega), mul_zero]
      · rw [if_neg hj]
        unfold cf
        rw [List.getD_eq_getElem?_getD, hk j (by omega)]
        simp
    have hser2 : ser p (shl (k/2) o) = PowerSeries.X^(k/2) * (PowerSeries.C ((t : Nat) : ZMod p) * ser p s) := by
      ext j
      rw [PowerSeries.coeff_X_pow_mul', coeff_ser]
      by_cases hj : j < k/2 + s.length
      · rw [Rs.cf_eq hj]
        by_cases h : k/2 ≤ j
        · rw [if_pos h, if_pos h, PowerSeries.coeff_C_mul, coeff_ser, mul_comm]
        · rw [if_neg h, if_neg h]
      · rw [cf_ge (by rw [Rs.len]; omega), if_pos (by omega), PowerSeries.coeff_C_mul, coeff_ser, cf_ge (by omega), mul_zero]
    have htt : ((t : Nat) : ZMod p) * t = c := by
      rw [← ct, ZMod.natCast_mod, Nat.cast_mul]
    have hX : (PowerSeries.X : (ZMod p)⟦X⟧)^k = PowerSeries.X^(k/2) * PowerSeries.X^(k/2) := by
      have : k = k/2 + k/2 := by omega
      rw [← pow_add, ← this]
    have hsq2 : ser p (shl (k/2) o) ^ 2 = PowerSeries.X^k * (PowerSeries.C ((c : Nat) : ZMod p) * ser p s ^ 2) := by
      rw [hser2, ← htt, map_mul, hX]
      ring
    rw [hsq2, hser]
    intro j hj
    rw [PowerSeries.coeff_X_pow_mul', PowerSeries.coeff_X_pow_mul']
    by_cases h : k ≤ j
    · rw [if_pos h, if_pos h, PowerSeries.coeff_C_mul, PowerSeries.coeff_C_mul, hag (j-k) (by omega)]
    · rw [if_neg h, if_neg h]

theorem sqrtWith_spec {p : Nat} (hpr : p.Prime) (hp : p < 2^31) (h2 : p ≠ 2) {fn : List Nat → Option (List Nat)} {f : List Nat} (hfn : Sqrt1 p fn f.length) (hf : ∀ a ∈ f, a < p) :
    (∃ b, isSquareF p f = some b ∧ (b = true ↔ IsSq p f.length (ser p f))) ∧
    (IsSq p f.length (ser p f) → ∃ g, sqrtWith p fn f = some (some g) ∧ (∀ a ∈ g, a < p) ∧ Agree f.length (ser p g ^ 2) (ser p f)) ∧
    (¬ IsSq p f.length (ser p f) → sqrtWith p fn f = some none) := by
  haveI : Fact p.Prime := ⟨hpr⟩
  have hp2 := hpr.two_le
  have hm : p ≤ 2^31 := by omega
  unfold isSquareF sqrtWith
  obtain ⟨hz, hc0, hkl⟩ := lead_spec f
  generalize (f.takeWhile (· == 0)).length = k at hz hc0 hkl ⊢
  have hlow : ∀ j, j < k → coeff j (ser p f) = 0 := fun j hj => by
    rw [coeff_ser]
    unfold cf
    rw [List.getD_eq_getElem?_getD, hz j hj]
    simp
  cases hc : f[k]? with
  | none =>
    have hk : f.length ≤ k := by
      by_contra h
      rw [List.getElem?_eq_getElem (by omega)] at hc
      cases hc
    have hA : Agree f.length (ser p [] ^ 2) (ser p f) := fun j hj => by
      have : ser p [] = 0 := by ext k; rw [coeff_ser, cf_ge (by simp), map_zero]
      rw [this, zero_pow (by omega), map_zero, hlow j (by omega)]
    refine ⟨⟨true, rfl, fun _ => ⟨_, hA⟩, fun _ => rfl⟩, fun _ => ⟨[], rfl, by simp, hA⟩, fun h => absurd ⟨_, hA⟩ h⟩
  | some c =>
    dsimp only
    have hkl' : k < f.length := by
      by_contra h
      rw [List.getElem?_eq_none (by omega)] at hc
      cases hc
    have hcp : c < p := hf c (List.mem_of_getElem? hc)
    have hcne := hc0 c hc
    have hcf : coeff k (ser p f) = c := by rw [coeff_ser]; unfold cf; rw [List.getD_eq_getElem?_getD, hc]; rfl
    have hck : coeff k (ser p f) ≠ 0 := by rw [hcf]; exact cast_ne (by omega) hcp
    by_cases hod : k % 2 = 1
    · rw [if_pos hod, if_pos hod]
      have hno : ¬ IsSq p f.length (ser p f) := fun ⟨R, hR⟩ => by
        have := (order_sq hkl' hlow hck hR).1
        omega
      exact ⟨⟨false, rfl, by simp [hno]⟩, fun h => absurd h hno, fun _ => rfl⟩
    · rw [if_neg hod, if_neg hod]
      obtain ⟨⟨b, eb, hb⟩, _, _⟩ := C22_static_partial hpr hm h2 hcp hcne
      have hiff : IsSq p f.length (ser p f) → ∃ r, r < p ∧ r * r % p = c := fun ⟨R, hR⟩ => by
        obtain ⟨_, s, hs⟩ := order_sq hkl' hlow hck hR
        refine ⟨s.val, ZMod.val_lt s, cast_inj (m := p) (Nat.mod_lt _ (by omega)) hcp ?_⟩
        rw [ZMod.natCast_mod, Nat.cast_mul, ZMod.natCast_zmod_val, hs, hcf]
      rw [eb, Option.bind_some]
      by_cases hsq : ∃ r, r < p ∧ r * r % p = c
      · obtain ⟨g, eg, hg, ha⟩ := sqrtTail_spec hpr hp h2 hfn hf hz hc hcne (by omega) hsq
        have hbt : b = true := hb.2 hsq
        subst hbt
        exact ⟨⟨true, rfl, fun _ => ⟨_, ha⟩, fun _ => rfl⟩, fun _ => ⟨g, eg, hg, ha⟩, fun h => absurd ⟨_, ha⟩ h⟩
      · have hbf : b = false := by
          cases b with
          | false => rfl
          | true => exact absurd (hb.1 rfl) hsq
        subst hbf
        exact ⟨⟨false, rfl, (fun h => by cases h), fun h => absurd (hiff h) hsq⟩, fun h => absurd (hiff h) hsq, fun _ => rfl⟩

end Verif.Fps
