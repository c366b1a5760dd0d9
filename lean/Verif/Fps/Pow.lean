import Verif.Fps.Exp
/-!
Powers: the recurrence over the terms, exponential of the multiple of the logarithm, leading zeros and coefficient.
-/
namespace Verif.Fps
open Verif.Modular Verif.Ntt
open PowerSeries (coeff coeff_derivative derivative)
open scoped PowerSeries

/-- `g` holds the power of `F` with the exponent `N`, below `x^n`. -/
def IsPow1 (p n : Nat) (N : ZMod p) (F : (ZMod p)⟦X⟧) (g : List Nat) : Prop :=
  g.length = n ∧ (∀ a ∈ g, a < p) ∧ coeff 0 (ser p g) = 1 ∧ Agree (n-1) (F * d⁄dX _ (ser p g)) (PowerSeries.C N * d⁄dX _ F * ser p g)

theorem ps_th {p : Nat} (a : Nat → ZMod p) : ps (th a) = PowerSeries.X * d⁄dX _ (ps a) := by
  ext j
  rw [coeff_ps]
  cases j with
  | zero => rw [PowerSeries.coeff_zero_X_mul]; unfold th; rw [Nat.cast_zero, zero_mul]
  | succ j =>
    rw [PowerSeries.coeff_succ_X_mul, coeff_derivative, coeff_ps]
    unfold th
    push_cast
    ring

theorem powDot_spec {p n i N : Nat} (h0 : 0 < p) (hp : p < 2^31) (hN : N < p) {h : List Nat} {γ : Nat → ZMod p} (R : RepZ p h n γ) (hi : i < n) :
    ∀ (ts : List (Nat × Nat)) s, ts.Pairwise (fun a b => a.1 < b.1) → (∀ t ∈ ts, t.2 < p) → s < p →
    ∃ s', powDot p N i h ts s = some s' ∧ s' < p ∧ (s' : ZMod p) = s + (N * mulF (th (S p ts)) γ i - mulF (S p ts) (th γ) i)
  | [], s, _, _, hs => ⟨s, rfl, hs, by rw [th_S_zero γ i [] (by simp), mulF_S_zero _ i [] (by simp)]; ring⟩
  | t :: ts, s, hso, ht, hs => by
    have hm : p ≤ 2^31 := by omega
    obtain ⟨hs1, hs2⟩ := List.pairwise_cons.1 hso
    rw [powDot]
    by_cases hlt : i < t.1
    · rw [if_pos hlt]
      have hall : ∀ u ∈ t :: ts, i < u.1 := by
        intro u hu
        rcases List.mem_cons.1 hu with h | h
        · subst h; exact hlt
        · exact lt_trans hlt (hs1 u h)
      exact ⟨s, rfl, hs, by rw [th_S_zero γ i _ hall, mulF_S_zero _ i _ hall]; ring⟩
    · rw [if_neg hlt]
      obtain ⟨y, ey, ly, cy⟩ := R.val (i - t.1) (by omega)
      obtain ⟨c, ec, lc, cc⟩ := mul_cast hm (ht t List.mem_cons_self) ly
      obtain ⟨li, ci⟩ := ofInt_nat h0 t.1
      obtain ⟨lj, cj⟩ := ofInt_nat h0 (i - t.1)
      obtain ⟨u, eu, lu, cu⟩ := mul_cast hm hN li
      obtain ⟨z, ez, lz, cz⟩ := mul_cast hm lc (sub_lt hm lu lj)
      obtain ⟨s', e, ls, cs⟩ := powDot_spec h0 hp hN R hi ts (add p s z) hs2 (fun u hu => ht u (List.mem_cons_of_mem _ hu)) (add_lt hm hs lz)
      refine ⟨s', by rw [ey, Option.bind_some, ec, Option.bind_some, eu, Option.bind_some, ez, Option.bind_some, e], ls, ?_⟩
      rw [cs, add_cast hm hs lz, cz, cc, sub_cast hm lu lj, cy, cu, ci, cj, th_S_cons, if_pos (by omega), mulF_S, if_pos (by omega)]
      unfold th
      ring

theorem pow1Sparse_spec {p : Nat} (hpr : p.Prime) (hp : p < 2^31) {tb f : List Nat} (hT : Full p tb) (hf : ∀ a ∈ f, a < p) (hf0 : f[0]? = some 1) (hn : f.length ≤ p) (n : Int) :
    ∃ g, pow1SparseImpl p tb (terms f f.length) n f.length = some g ∧ IsPow1 p f.length (n : ZMod p) (ser p f) g := by
  haveI : Fact p.Prime := ⟨hpr⟩
  have h2 := hpr.two_le
  have hm : p ≤ 2^31 := by omega
  have hl : 0 < f.length := by
    rcases f with _ | ⟨a, f⟩
    · simp at hf0
    · simp
  have hc0 : cf p f 0 = 1 := by
    unfold cf
    rw [List.getD_eq_getElem?_getD, hf0]
    simp
  obtain ⟨l1, c1⟩ := ofInt_nat (p := p) (by omega) 1
  obtain ⟨h0, e0, R0⟩ := (zeros_rep (p := p) (by omega) f.length).wr (i := 0) hl l1
  obtain ⟨tb', et, hT', _⟩ := setInv_full hm (n := f.length-1) (by omega) hT
  have hz : ofInt p 0 = 0 := by have := ofInt_eq (m := p) (by omega) 0; simpa using this
  have hS : S p (terms f f.length) = cf p f := funext (S_terms_full (p := p) f)
  set ts := terms f f.length with hts
  have hne : ts ≠ [] := by
    intro h
    have := hS
    rw [h] at this
    have h3 := congrFun this 0
    rw [hc0] at h3
    exact zero_ne_one h3
  have hNl := ofInt_lt (m := p) (by omega) n
  obtain ⟨g, e, γ, R, hγ0, -, hγ⟩ := forRange_inv (a := 1) (b := f.length) (s := h0) (body := powStep p tb' (ofInt p n) ts)
    (P := fun i (g : List Nat) => ∃ γ, RepZ p g f.length γ ∧ γ 0 = 1 ∧ (∀ k, i ≤ k → γ k = 0) ∧
      ∀ k, k < i → mulF (cf p f) (th γ) k = (n : ZMod p) * mulF (th (cf p f)) γ k) (by omega)
    ⟨_, R0, by rw [upd_same, c1, Nat.cast_one], fun k hk => by rw [upd_ne _ _ (by omega)], fun k hk => by
      have : k = 0 := by omega
      subst this
      unfold mulF th
      rw [Finset.sum_range_one, Finset.sum_range_one, Nat.sub_zero, Nat.cast_zero]
      ring⟩ (by
      rintro i g h1 hi ⟨γ, R, hγ0, hγz, hγ⟩
      obtain ⟨s, es, ls, cs⟩ := powDot_spec (by omega) hp hNl R hi ts (ofInt p 0) (terms_sorted _ _) (fun t ht => (terms_lt hf t ht).2.2.2) (by omega)
      obtain ⟨v, ev, lv, cv⟩ := tableInv_spec hpr hm hT' (i := i) (by omega)
      obtain ⟨y, ey, ly, cy⟩ := mul_cast hm ls lv
      obtain ⟨g', e, R'⟩ := R.wr hi ly
      refine ⟨g', by unfold powStep; rw [es, Option.bind_some, ev, Option.bind_some, ey, Option.bind_some, e], _, R', ?_, ?_, ?_⟩
      · rw [upd_ne _ _ (by omega), hγ0]
      · intro k hk
        rw [upd_ne _ _ (by omega), hγz k (by omega)]
      · intro k hk
        have hth : th (upd γ i ((y : Nat) : ZMod p)) = upd (th γ) i ((i : ZMod p) * y) := by
          funext j
          unfold th
          by_cases hj : j = i
          · subst hj; rw [upd_same, upd_same]
          · rw [upd_ne _ _ hj, upd_ne _ _ hj]
        rw [hth, mulF_upd _ _ _ _ (by omega), mulF_upd _ _ _ _ (by omega), show th (cf p f) 0 = 0 by unfold th; rw [Nat.cast_zero, zero_mul], zero_mul, ite_self, add_zero]
        by_cases hki : k = i
        · subst hki
          rw [if_pos rfl, cy, cs, cv, hz, Nat.cast_zero, zero_add, hS, ofInt_cast (by omega), hc0, show th γ k = 0 by unfold th; rw [hγz k (le_refl _), mul_zero]]
          have := mul_inv_cancel₀ (cast_ne (p := p) (k := k) (by omega) (by omega))
          linear_combination ((n : ZMod p) * mulF (th (cf p f)) γ k - mulF (cf p f) (th γ) k) * this
        · rw [if_neg hki, add_zero, hγ k (by omega)])
  refine ⟨g, by unfold pow1SparseImpl; rw [if_neg hne, show ofInt p 1 = ofInt p ((1:Nat) : Int) from rfl, e0, Option.bind_some, et, Option.bind_some, e], R.len, R.red, ?_, ?_⟩
  · rw [coeff_ser, R.cf_eq hl, hγ0]
  · have h1 : Agree f.length (ser p g) (ps γ) := fun k hk => by rw [coeff_ser, R.cf_eq hk, coeff_ps]
    have key : Agree (f.length - 1) (ser p f * d⁄dX _ (ps γ)) (PowerSeries.C (n : ZMod p) * d⁄dX _ (ser p f) * ps γ) := by
      intro k hk
      have h3 := hγ (k+1) (by omega)
      rw [← coeff_mul_ps, ← coeff_mul_ps, ps_th, ps_th, ← PowerSeries.coeff_C_mul, mul_left_comm, PowerSeries.coeff_succ_X_mul, mul_assoc PowerSeries.X, mul_left_comm, PowerSeries.coeff_succ_X_mul, ← mul_assoc] at h3
      exact h3
    exact ((Agree.refl _ _).mul h1.deriv).trans (key.trans ((Agree.refl _ _).mul (h1.symm.mono (by omega))))

theorem mapM_rep {p N : Nat} {c : Nat → Option Nat} {u : ZMod p → ZMod p} (hc : ∀ x < p, ∃ y, c x = some y ∧ y < p ∧ (y : ZMod p) = u x) :
    ∀ {f : List Nat} {φ : Nat → ZMod p}, RepZ p f N φ → ∃ g, f.mapM c = some g ∧ RepZ p g N (fun i => u (φ i)) := by
  intro f
  induction f generalizing N with
  | nil => 
    intro φ R
    exact ⟨[], rfl, R.len, fun i hi => absurd hi (by rw [← R.len]; simp)⟩
  | cons a f ih =>
    intro φ R
    have hN := R.len
    rw [List.length_cons] at hN
    obtain ⟨x, ex, lx, cx⟩ := R.val 0 (by omega)
    obtain rfl : a = x := by simpa using ex
    obtain ⟨y, ey, ly, cy⟩ := hc a lx
    obtain ⟨g, eg, Rg⟩ := ih (N := f.length) (φ := fun i => φ (i+1)) ⟨rfl, fun i hi => by
      obtain ⟨x, ex, h⟩ := R.val (i+1) (by omega)
      exact ⟨x, by simpa using ex, h⟩⟩
    refine ⟨y :: g, by rw [List.mapM_cons, ey, Option.bind_eq_bind, Option.bind_some, eg]; rfl, by rw [List.length_cons, Rg.len, hN], fun i hi => ?_⟩
    cases i with
    | zero => exact ⟨y, rfl, ly, by rw [cy, cx]⟩
    | succ i =>
      obtain ⟨x, ex, h⟩ := Rg.val i (by omega)
      exact ⟨x, by simpa using ex, h⟩

theorem pow1Dense_spec {p r K : Nat} (H : Root p r) {tb f : List Nat} (hT : Full p tb) (hf : ∀ a ∈ f, a < p) (hf0 : f[0]? = some 1) (hn : f.length < p) (hK : K + 1 ≤ logN p)
    (hK2 : f.length + f.length ≤ 2^K) (n : Int) :
    ∃ g, pow1Dense p r tb f n = some g ∧ IsPow1 p f.length (n : ZMod p) (ser p f) g := by
  haveI : Fact p.Prime := ⟨H.prime⟩
  have h2 := H.prime.two_le
  have hm : p ≤ 2^31 := by have := H.lt; omega
  have hl : 0 < f.length := by
    rcases f with _ | ⟨a, f⟩
    · simp at hf0
    · simp
  obtain ⟨l, el, hlog⟩ := logDense_spec H hT hf hf0 hl hn hK hK2
  obtain ⟨hll, hlr, hl0, hode⟩ := hlog
  have hNl := ofInt_lt (m := p) (by omega) n
  obtain ⟨s, es, Rs⟩ := mapM_rep (c := fun x => mul p x (ofInt p n)) (u := fun x => x * (n : ZMod p)) (fun x hx => by
    obtain ⟨y, ey, ly, cy⟩ := mul_cast hm hx hNl
    exact ⟨y, ey, ly, by rw [cy, ofInt_cast (by omega)]⟩) (RepZ.of_red hlr)
  have hser : ser p s = PowerSeries.C (n : ZMod p) * ser p l := by
    ext k
    rw [PowerSeries.coeff_C_mul, coeff_ser, coeff_ser]
    by_cases hk : k < l.length
    · rw [Rs.cf_eq hk, mul_comm]
    · rw [cf_ge (by rw [Rs.len]; omega), cf_ge (by omega), mul_zero]
  have hs0 : s.getD 0 0 = 0 := by
    refine cast_inj (m := p) (getD_red (by omega) Rs.red 0) (by omega) ?_
    have : coeff 0 (ser p s) = 0 := by rw [hser, PowerSeries.coeff_C_mul, hl0, mul_zero]
    rw [coeff_ser] at this
    rw [Nat.cast_zero]
    exact this
  have hsl : s.length = f.length := by rw [Rs.len, hll]
  obtain ⟨e, ee, hel, her, he0, heode⟩ := expDense_spec H hT Rs.red hs0 (n := s.length) (K := K) (by omega) (by omega) (by omega) (by omega)
  refine ⟨e, by unfold pow1Dense scale; rw [el, Option.bind_some, es, Option.bind_some, ee], by omega, her, he0, ?_⟩
  have hdC : d⁄dX (ZMod p) (PowerSeries.C (n : ZMod p) * ser p l) = PowerSeries.C (n : ZMod p) * d⁄dX _ (ser p l) := by
    rw [Derivation.leibniz, PowerSeries.derivative_C, smul_zero, add_zero, smul_eq_mul]
  rw [hsl, hser, hdC] at heode
  refine ((Agree.refl _ (ser p f)).mul heode).trans ?_
  have h3 := ((Agree.refl _ (PowerSeries.C (n : ZMod p))).mul hode).mul (Agree.refl _ (ser p e))
  refine Agree.trans ?_ h3
  intro k _
  congr 1
  ring

theorem pow1_spec {p r K : Nat} (H : Root p r) {tb f : List Nat} (hT : Full p tb) (hf : ∀ a ∈ f, a < p) (hf0 : f[0]? = some 1) (hn : f.length < p) (hK : K + 1 ≤ logN p)
    (hK2 : f.length + f.length ≤ 2^K) (n : Int) :
    ∃ g, pow1 p r tb f n = some g ∧ IsPow1 p f.length (n : ZMod p) (ser p f) g := by
  unfold pow1
  rw [if_neg (by rw [hf0]; simp)]
  split
  · exact pow1Sparse_spec H.prime H.lt hT hf hf0 (by omega) n
  · exact pow1Dense_spec H hT hf hf0 hn hK hK2 n

/-- The solution of the differential equation is the power. -/
theorem IsPow1.agree {p n m : Nat} [Fact p.Prime] (hn : n ≤ p) {F : (ZMod p)⟦X⟧} {g : List Nat} (h : IsPow1 p n ((m : Nat) : ZMod p) F g) (h0 : coeff 0 F = 1) :
    Agree n (ser p g) (F^m) := by
  obtain ⟨_, _, hg0, hode⟩ := h
  have hm0 : coeff 0 (F^m) = 1 := by
    rw [PowerSeries.coeff_zero_eq_constantCoeff_apply] at h0 ⊢
    rw [map_pow, h0, one_pow]
  refine ode_unique (F := F) (C := PowerSeries.C ((m : Nat) : ZMod p) * d⁄dX _ F) (G := 0) hn (by rw [h0]; exact one_ne_zero) (by rw [hg0, hm0]) ?_ ?_
  · rw [add_zero]; exact hode
  · rw [add_zero, pow_ode]; exact Agree.refl _ _

theorem lead_spec (f : List Nat) :
    (∀ j, j < (f.takeWhile (· == 0)).length → f[j]? = some 0) ∧ (∀ c, f[(f.takeWhile (· == 0)).length]? = some c → c ≠ 0) ∧
    (f.takeWhile (· == 0)).length ≤ f.length := by
  induction f with
  | nil => simp
  | cons a f ih =>
    by_cases ha : a = 0
    · subst ha
      obtain ⟨h1, h2, h3⟩ := ih
      rw [List.takeWhile_cons_of_pos (by rfl), List.length_cons]
      refine ⟨fun j hj => ?_, fun c hc => ?_, by rw [List.length_cons]; omega⟩
      · cases j with
        | zero => rfl
        | succ j => simpa using h1 j (by omega)
      · exact h2 c (by simpa using hc)
    · rw [List.takeWhile_cons_of_neg (by simpa using ha)]
      refine ⟨fun j hj => absurd hj (by simp), fun c hc => ?_, by simp⟩
      have : a = c := by simpa using hc
      omega

theorem powTail_spec {p r K n : Nat} (H : Root p r) {tb f : List Nat} (hT : Full p tb) (hf : ∀ a ∈ f, a < p) (hl : f.length < p) (hK : K + 1 ≤ logN p)
    (hK2 : f.length + f.length ≤ 2^K) (hn : n < 2^63) {k c : Nat} (hk : ∀ j, j < k → f[j]? = some 0) (hc : f[k]? = some c) (hc0 : c ≠ 0) :
    ∃ g, powTail p r tb f n k c = some g ∧ (∀ a ∈ g, a < p) ∧ g.length = k*n + (f.length - k) ∧ Agree (k*n + (f.length - k)) (ser p g) (ser p f ^ n) := by
  haveI : Fact p.Prime := ⟨H.prime⟩
  have h2 := H.prime.two_le
  have hm : p ≤ 2^31 := by have := H.lt; omega
  have hkl : k < f.length := by
    by_contra h
    rw [List.getElem?_eq_none (by omega)] at hc
    cases hc
  have hcp : c < p := hf c (List.mem_of_getElem? hc)
  have hcz : ((c : Nat) : ZMod p) ≠ 0 := cast_ne (by omega) hcp
  have hcf : cf p f k = c := by unfold cf; rw [List.getD_eq_getElem?_getD, hc]; rfl
  obtain ⟨ic, eic, lic, cic⟩ := inv_spec hm hcp hc0
  obtain ⟨g, eg, Rg⟩ := forRange_inv (a := k) (b := f.length) (s := List.replicate (f.length - k) 0) (body := powNorm p ic k f)
    (P := fun j (g : List Nat) => RepZ p g (f.length - k) (fun i => if i + k < j then cf p f (i+k) * ((c : Nat) : ZMod p)⁻¹ else 0)) (by omega)
    ((zeros_rep (p := p) (by omega) _).congr (fun i _ => by rw [if_neg (by omega)])) (by
      intro j g h1 h3 R
      obtain ⟨x, ex, lx, cx⟩ := (RepZ.of_red hf).val j h3
      obtain ⟨y, ey, ly, cy⟩ := mul_cast hm lx lic
      obtain ⟨g', e, R'⟩ := R.wr (i := j - k) (by omega) ly
      refine ⟨g', by unfold powNorm; rw [ex, Option.bind_some, ey, Option.bind_some, e], R'.congr fun i _ => ?_⟩
      by_cases hi : i = j - k
      · rw [hi, upd_same, if_pos (by omega), cy, cx, cic, show j - k + k = j by omega]
      · rw [upd_ne _ _ hi]
        by_cases h4 : i + k < j
        · rw [if_pos h4, if_pos (by omega)]
        · rw [if_neg h4, if_neg (by omega)])
  have hgl := Rg.len
  have hg0 : g[0]? = some 1 := by
    obtain ⟨x, ex, lx, cx⟩ := Rg.val 0 (by omega)
    rw [if_pos (by omega), Nat.zero_add, hcf, mul_inv_cancel₀ hcz] at cx
    rw [ex, cast_inj (m := p) lx (b := 1) (by omega) (by rw [cx, Nat.cast_one])]
  have hser : ser p f = PowerSeries.X^k * (PowerSeries.C ((c : Nat) : ZMod p) * ser p g) := by
    ext j
    rw [PowerSeries.coeff_X_pow_mul', coeff_ser]
    by_cases hj : k ≤ j
    · rw [if_pos hj, PowerSeries.coeff_C_mul, coeff_ser]
      by_cases hjl : j < f.length
      · rw [Rg.cf_eq (by omega), if_pos (by omega), show j - k + k = j by omega]
        field_simp
      · rw [cf_ge (by omega), cf_ge (by omega), mul_zero]
    · rw [if_neg hj]
      unfold cf
      rw [List.getD_eq_getElem?_getD, hk j (by omega)]
      simp
  obtain ⟨h, eh, hh⟩ := pow1_spec H hT Rg.red hg0 (by omega) hK (by omega) (n : Int)
  have hh' : IsPow1 p g.length ((n : Nat) : ZMod p) (ser p g) h := by
    have := hh
    rwa [Int.cast_natCast] at this
  have hag := hh'.agree (by omega) (by rw [coeff_ser]; unfold cf; rw [List.getD_eq_getElem?_getD, hg0]; simp)
  have hhl := hh.1
  obtain ⟨cpn, ec, lc, cc⟩ := pow_cast hm hcp hn
  obtain ⟨o, eo, Ro⟩ := forRange_inv (a := 0) (b := h.length) (s := List.replicate (k*n + h.length) 0) (body := powOut p cpn (k*n) h)
    (P := fun j (o : List Nat) => RepZ p o (k*n + h.length) (fun i => if k*n ≤ i ∧ i < k*n + j then cf p h (i - k*n) * ((c : Nat) : ZMod p)^n else 0)) (by omega)
    ((zeros_rep (p := p) (by omega) _).congr (fun i _ => by rw [if_neg (by omega)])) (by
      intro j o _ hj R
      obtain ⟨x, ex, lx, cx⟩ := (RepZ.of_red hh.2.1).val j hj
      obtain ⟨y, ey, ly, cy⟩ := mul_cast hm lx lc
      obtain ⟨o', e, R'⟩ := R.wr (i := k*n + j) (by omega) ly
      refine ⟨o', by unfold powOut; rw [ex, Option.bind_some, ey, Option.bind_some, e], R'.congr fun i _ => ?_⟩
      by_cases hi : i = k*n + j
      · rw [hi, upd_same, if_pos (by omega), cy, cx, cc, Nat.add_sub_cancel_left]
      · rw [upd_ne _ _ hi]
        by_cases h4 : k*n ≤ i ∧ i < k*n + j
        · rw [if_pos h4, if_pos (by omega)]
        · rw [if_neg h4, if_neg (by omega)])
  refine ⟨o, by unfold powTail; rw [eic, Option.bind_some, eg, Option.bind_some, eh, Option.bind_some, ec, Option.bind_some, eo], Ro.red, by rw [Ro.len, hhl, hgl], ?_⟩
  intro j hj
  rw [hser, mul_pow, mul_pow, ← pow_mul, ← map_pow, PowerSeries.coeff_X_pow_mul', coeff_ser, Ro.cf_eq (by omega)]
  by_cases h4 : k*n ≤ j
  · rw [if_pos (by omega), if_pos h4, PowerSeries.coeff_C_mul, ← hag (j - k*n) (by omega), coeff_ser, mul_comm]
  · rw [if_neg (by omega), if_neg h4]

theorem powF_spec {p r K n : Nat} (H : Root p r) {tb f : List Nat} (hT : Full p tb) (hf : ∀ a ∈ f, a < p) (hl : f.length < p) (hK : K + 1 ≤ logN p)
    (hK2 : f.length + f.length ≤ 2^K) (hn : n < 2^63) :
    ∃ g, powF p r tb f n = some g ∧ (∀ a ∈ g, a < p) ∧ Agree f.length (ser p g) (ser p f ^ n) := by
  haveI : Fact p.Prime := ⟨H.prime⟩
  have h2 := H.prime.two_le
  have hnil : ser p [] = 0 := by ext k; rw [coeff_ser, cf_ge (by simp), map_zero]
  unfold powF
  by_cases hn0 : n = 0
  · subst hn0
    obtain ⟨l1, c1⟩ := ofInt_nat (p := p) (by omega) 1
    rw [if_pos rfl]
    refine ⟨_, rfl, by intro a ha; rw [List.mem_singleton] at ha; rw [ha]; exact l1, fun k _ => ?_⟩
    rw [pow_zero, PowerSeries.coeff_one, coeff_ser, cf_cons]
    by_cases hk : k = 0
    · rw [if_pos hk, if_pos hk]; exact c1.trans Nat.cast_one
    · rw [if_neg hk, if_neg hk, cf_ge (by simp)]
  · rw [if_neg hn0]
    obtain ⟨hz, hc0, hkl⟩ := lead_spec f
    generalize (f.takeWhile (· == 0)).length = k at hz hc0 hkl ⊢
    have hlow : ∀ j, j < k → cf p f j = 0 := fun j hj => by
      unfold cf
      rw [List.getD_eq_getElem?_getD, hz j hj]
      simp
    cases hc : f[k]? with
    | none =>
      refine ⟨[], rfl, by simp, fun j hj => ?_⟩
      have hk : f.length ≤ k := by
        by_contra h
        rw [List.getElem?_eq_getElem (by omega)] at hc
        cases hc
      have : ser p f = 0 := by
        ext j
        rw [coeff_ser, map_zero]
        by_cases hj : j < f.length
        · exact hlow j (by omega)
        · exact cf_ge (by omega)
      rw [hnil, this, zero_pow hn0]
    | some c =>
      dsimp only
      have hkl' : k < f.length := by
        by_contra h
        rw [List.getElem?_eq_none (by omega)] at hc
        cases hc
      have hdvd : PowerSeries.X^(k*n) ∣ ser p f ^ n := by
        rw [pow_mul]
        refine pow_dvd_pow_of_dvd ?_ n
        rw [PowerSeries.X_pow_dvd_iff]
        intro j hj
        rw [coeff_ser, hlow j hj]
      by_cases hbig : k ≠ 0 ∧ n ≥ (f.length - 1) / k + 1
      · rw [if_pos hbig]
        refine ⟨[], rfl, by simp, fun j hj => ?_⟩
        have h3 : f.length - 1 < n * k := (Nat.div_lt_iff_lt_mul (by omega)).1 (by omega)
        rw [hnil, map_zero, (PowerSeries.X_pow_dvd_iff.1 hdvd) j (by rw [mul_comm]; omega)]
      · rw [if_neg hbig]
        by_cases h1 : f[0]? = some 1
        · rw [if_pos h1]
          obtain ⟨g, eg, hg⟩ := pow1_spec H hT hf h1 hl hK hK2 (n : Int)
          rw [Int.cast_natCast] at hg
          exact ⟨g, eg, hg.2.1, hg.agree (by omega) (by rw [coeff_ser]; unfold cf; rw [List.getD_eq_getElem?_getD, h1]; simp)⟩
        · rw [if_neg h1]
          obtain ⟨g, eg, hr, _, ha⟩ := powTail_spec H hT hf hl hK hK2 hn hz hc (hc0 c hc)
          refine ⟨g, eg, hr, ha.mono ?_⟩
          have : k ≤ k * n := Nat.le_mul_of_pos_right _ (by omega)
          omega

end Verif.Fps
