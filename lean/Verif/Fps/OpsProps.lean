import Verif.Fps.OpsModel
import Verif.Fps.Props2
/-!
**C119.** The elementary operators of `Fps` (`fps.hpp:24-97, 188-211, 362-365`) are the ring operations on power series: `ser p f` is the power series over
`ZMod p` with the coefficients `f`.
-/
namespace Verif.Fps
open Verif.Modular Verif.Ntt
open PowerSeries (coeff)
open scoped PowerSeries

theorem ser_ext {p : Nat} {f : List Nat} {A : (ZMod p)⟦X⟧} (h : ∀ k, cf p f k = coeff k A) : ser p f = A := by
  ext k
  rw [coeff_ser, h]

theorem eqFLoop_spec (f r : List Nat) : ∀ t i, eqFLoop f r t i = true ↔ ∀ j, i ≤ j → j < i + t → f.getD j 0 = r.getD j 0
  | 0, i => ⟨fun _ j h1 h2 => absurd h2 (by omega), fun _ => rfl⟩
  | t+1, i => by
    have g : ∀ l : List Nat, (if i < l.length then l.getD i 0 else 0) = l.getD i 0 := by
      intro l
      split
      · rfl
      · rw [List.getD_eq_default _ _ (by omega)]
    rw [eqFLoop, g, g]
    by_cases h : f.getD i 0 = r.getD i 0
    · rw [if_neg (by simpa using h), eqFLoop_spec f r t (i+1)]
      refine ⟨fun h1 j h2 h3 => ?_, fun h1 j h2 h3 => h1 j (by omega) (by omega)⟩
      by_cases hj : j = i
      · rw [hj, h]
      · exact h1 j (by omega) (by omega)
    · rw [if_pos (by simpa using h)]
      exact ⟨fun h1 => by simp at h1, fun h1 => absurd (h1 i (le_refl _) (by omega)) h⟩

/-- **C119.** `==` decides equality of the series, whatever the lengths. -/
theorem C119_eq {p : Nat} (f r : List Nat) (hf : ∀ a ∈ f, a < p) (hr : ∀ a ∈ r, a < p) (h0 : 0 < p) : eqF f r = true ↔ ser p f = ser p r := by
  unfold eqF
  rw [eqFLoop_spec]
  refine ⟨fun h => ser_ext fun k => ?_, fun h j _ _ => ?_⟩
  · rw [coeff_ser]
    unfold cf
    by_cases hk : k < max f.length r.length
    · rw [h k (Nat.zero_le _) (by omega)]
    · rw [List.getD_eq_default _ _ (by omega), List.getD_eq_default _ _ (by omega)]
  · have := congrArg (PowerSeries.coeff j) h
    rw [coeff_ser, coeff_ser] at this
    exact cast_inj (getD_red h0 hf j) (getD_red h0 hr j) this

/-- **C119.** `normalize` keeps the series and leaves no zero at the end. -/
theorem C119_normalize {p : Nat} (f : List Nat) : ser p (normalize f) = ser p f ∧ (normalize f).getLast? ≠ some 0 ∧ normalize f <+: f := by
  refine ⟨ser_ext fun k => by rw [cf_normalize, coeff_ser], ?_, ?_⟩
  · unfold normalize
    rw [List.getLast?_reverse]
    intro h
    have := List.head?_dropWhile_not (fun x : Nat => x == 0) f.reverse
    rw [h] at this
    simp at this
  · obtain ⟨k, hk⟩ := normalize_eq f
    exact ⟨_, hk.symm⟩

/-- **C119.** `pre(m)` and `inline_pre(m)`: exactly `m` coefficients, those of the series. -/
theorem C119_pre {p : Nat} (h0 : 0 < p) (f : List Nat) (hf : ∀ a ∈ f, a < p) (m : Nat) :
    preC m f = pre m f ∧ (pre m f).length = m ∧ (∀ a ∈ pre m f, a < p) ∧ Agree m (ser p (pre m f)) (ser p f) := by
  have R := pre_rep h0 hf m
  refine ⟨?_, R.len, R.red, fun k hk => by rw [coeff_ser, coeff_ser, R.cf_eq hk]⟩
  unfold preC
  split
  · unfold pre
    rw [show m - f.length = 0 by omega, List.replicate_zero, List.append_nil]
  · rfl

theorem addF_spec {p : Nat} (h0 : 0 < p) (hp : p < 2^31) {f r : List Nat} (hf : ∀ a ∈ f, a < p) (hr : ∀ a ∈ r, a < p) :
    ∃ h, addF p f r = some h ∧ (∀ a ∈ h, a < p) ∧ ∀ i, cf p h i = cf p f i + cf p r i := by
  have hm : p ≤ 2^31 := by omega
  have R0 : RepZ p (if f.length < r.length then pre r.length f else f) (max f.length r.length) (cf p f) := by
    split
    · rw [Nat.max_eq_right (by omega)]; exact pre_rep h0 hf _
    · rw [Nat.max_eq_left (by omega)]
      exact ⟨rfl, fun i hi => cf_mem hf hi⟩
  obtain ⟨h, e, R⟩ := forRange_inv (a := 0) (b := r.length) (s := if f.length < r.length then pre r.length f else f) (body := addStep p r)
    (P := fun i (h : List Nat) => RepZ p h (max f.length r.length) (fun k => if k < i then cf p f k + cf p r k else cf p f k)) (Nat.zero_le _)
    (R0.congr (fun k _ => by rw [if_neg (by omega)])) (by
      intro i h h1 h2 Rh
      obtain ⟨y, ey, ly, cy⟩ := cf_mem hr h2
      obtain ⟨x, ex, lx, cx⟩ := Rh.val i (by omega)
      obtain ⟨h', e, R'⟩ := Rh.wr (i := i) (by omega) (add_lt hm lx ly)
      refine ⟨h', by unfold addStep; rw [ey, Option.bind_some, ex, Option.bind_some, e], R'.congr ?_⟩
      intro k _
      by_cases hk : k = i
      · subst hk; rw [upd_same, if_pos (by omega), add_cast hm lx ly, cx, cy, if_neg (by omega)]
      · rw [upd_ne _ _ hk]
        by_cases h3 : k < i
        · rw [if_pos h3, if_pos (by omega)]
        · rw [if_neg h3, if_neg (by omega)])
  refine ⟨h, e, R.red, fun i => ?_⟩
  by_cases hi : i < max f.length r.length
  · rw [R.cf_eq hi]
    by_cases h3 : i < r.length
    · rw [if_pos h3]
    · rw [if_neg h3, cf_ge (f := r) (by omega), add_zero]
  · rw [cf_ge (by rw [R.len]; omega), cf_ge (by omega), cf_ge (by omega), add_zero]

/-- **C119.** Sum and difference. -/
theorem C119_add_sub {p : Nat} (h0 : 0 < p) (hp : p < 2^31) (f r : List Nat) (hf : ∀ a ∈ f, a < p) (hr : ∀ a ∈ r, a < p) :
    (∃ h, addF p f r = some h ∧ (∀ a ∈ h, a < p) ∧ ser p h = ser p f + ser p r) ∧
    (∃ h, subF p f r = some h ∧ (∀ a ∈ h, a < p) ∧ ser p h = ser p f - ser p r) := by
  obtain ⟨h, e, hh, c⟩ := addF_spec h0 hp hf hr
  obtain ⟨h', e', hh', c'⟩ := subF_spec h0 hp hf hr
  exact ⟨⟨h, e, hh, ser_ext fun k => by rw [c, map_add, coeff_ser, coeff_ser]⟩, ⟨h', e', hh', ser_ext fun k => by rw [c', map_sub, coeff_ser, coeff_ser]⟩⟩

theorem addConst_spec {p : Nat} (h0 : 0 < p) (hm : p ≤ 2^31) {f : List Nat} (hf : ∀ a ∈ f, a < p) {c : Nat} (hc : c < p) :
    ∃ h, addConst p c f = some h ∧ (∀ a ∈ h, a < p) ∧ ser p h = ser p f + PowerSeries.C (c : ZMod p) := by
  cases f with
  | nil =>
    refine ⟨_, rfl, by intro a ha; rw [List.mem_singleton] at ha; rw [ha]; exact add_lt hm h0 hc, ser_ext fun k => ?_⟩
    rw [map_add, coeff_ser, PowerSeries.coeff_C, cf_cons, add_cast hm h0 hc, Nat.cast_zero, zero_add, cf_ge (f := []) (by simp), cf_ge (f := []) (by simp), zero_add]
  | cons a f =>
    have ha := hf a List.mem_cons_self
    refine ⟨_, rfl, fun b hb => ?_, ser_ext fun k => ?_⟩
    · rcases List.mem_cons.1 hb with h | h
      · rw [h]; exact add_lt hm ha hc
      · exact hf b (List.mem_cons_of_mem _ h)
    · rw [map_add, coeff_ser, PowerSeries.coeff_C, cf_cons, cf_cons, add_cast hm ha hc]
      split
      · rfl
      · rw [add_zero]

theorem negF_rep {p : Nat} (hm : p ≤ 2^31) {f : List Nat} (hf : ∀ a ∈ f, a < p) : (∀ a ∈ negF p f, a < p) ∧ ser p (negF p f) = - ser p f := by
  have hl : (negF p f).length = f.length := by unfold negF; rw [List.length_map]
  refine ⟨fun a ha => ?_, ser_ext fun k => ?_⟩
  · obtain ⟨b, hb, rfl⟩ := List.mem_map.1 ha
    exact neg_lt hm (hf b hb)
  · rw [map_neg, coeff_ser]
    by_cases hk : k < f.length
    · unfold cf negF
      rw [List.getD_eq_getElem _ _ (by simpa using hk), List.getD_eq_getElem _ _ hk, List.getElem_map, neg_cast hm (hf _ (List.getElem_mem hk))]
    · rw [cf_ge (by omega), cf_ge (by omega), neg_zero]

theorem scale_ser {p : Nat} (hm : p ≤ 2^31) {f : List Nat} (hf : ∀ a ∈ f, a < p) {c : Nat} (hc : c < p) :
    ∃ h, scale p c f = some h ∧ (∀ a ∈ h, a < p) ∧ h.length = f.length ∧ ser p h = PowerSeries.C (c : ZMod p) * ser p f := by
  obtain ⟨h, e, R⟩ := mapM_rep (c := fun x => mul p x c) (u := fun x => x * (c : ZMod p)) (fun x hx => by
    obtain ⟨y, ey, ly, cy⟩ := mul_cast hm hx hc
    exact ⟨y, ey, ly, cy⟩) (RepZ.of_red hf)
  refine ⟨h, e, R.red, R.len, ser_ext fun k => ?_⟩
  rw [PowerSeries.coeff_C_mul, coeff_ser]
  by_cases hk : k < f.length
  · rw [R.cf_eq hk, mul_comm]
  · rw [cf_ge (by rw [R.len]; omega), cf_ge (by omega), mul_zero]

/-- **C119.** Constants added, subtracted, subtracted from, multiplied and divided by; unary minus. -/
theorem C119_constants {p : Nat} (hpr : p.Prime) (hp : p < 2^31) (f : List Nat) (hf : ∀ a ∈ f, a < p) (c : Nat) (hc : c < p) :
    (∃ h, addConst p c f = some h ∧ (∀ a ∈ h, a < p) ∧ ser p h = ser p f + PowerSeries.C (c : ZMod p)) ∧
    (∃ h, subConst p c f = some h ∧ (∀ a ∈ h, a < p) ∧ ser p h = ser p f - PowerSeries.C (c : ZMod p)) ∧
    (∃ h, rsubConst p c f = some h ∧ (∀ a ∈ h, a < p) ∧ ser p h = PowerSeries.C (c : ZMod p) - ser p f) ∧
    ((∀ a ∈ negF p f, a < p) ∧ ser p (negF p f) = - ser p f) ∧
    (∃ h, scale p c f = some h ∧ (∀ a ∈ h, a < p) ∧ h.length = f.length ∧ ser p h = PowerSeries.C (c : ZMod p) * ser p f) ∧
    (c ≠ 0 → ∃ h, divConst p c f = some h ∧ (∀ a ∈ h, a < p) ∧ h.length = f.length ∧ PowerSeries.C (c : ZMod p) * ser p h = ser p f) := by
  haveI : Fact p.Prime := ⟨hpr⟩
  have h2 := hpr.two_le
  have hm : p ≤ 2^31 := by omega
  refine ⟨addConst_spec (by omega) hm hf hc, ?_, ?_, negF_rep hm hf, scale_ser hm hf hc, fun h0 => ?_⟩
  · obtain ⟨h, e, hh, s⟩ := addConst_spec (by omega) hm hf (neg_lt hm hc)
    exact ⟨h, e, hh, by rw [s, neg_cast hm hc, map_neg, sub_eq_add_neg]⟩
  · obtain ⟨h1, h3⟩ := negF_rep hm hf
    obtain ⟨h, e, hh, s⟩ := addConst_spec (by omega) hm h1 hc
    exact ⟨h, e, hh, by rw [s, h3]; ring⟩
  · obtain ⟨ic, eic, lic, cic⟩ := inv_spec hm hc h0
    have hcz : ((c : Nat) : ZMod p) ≠ 0 := cast_ne (by omega) hc
    obtain ⟨h, e, hh, hl, s⟩ := scale_ser hm hf lic
    exact ⟨h, by unfold divConst; rw [eic, Option.bind_some, e], hh, hl, by rw [s, cic, ← mul_assoc, ← map_mul, mul_inv_cancel₀ hcz, map_one, one_mul]⟩

/-- **C119.** `dot` multiplies coefficient by coefficient and has the smaller length. -/
theorem C119_dot {p : Nat} (h0 : 0 < p) (hp : p < 2^31) (f r : List Nat) (hf : ∀ a ∈ f, a < p) (hr : ∀ a ∈ r, a < p) :
    ∃ h, dotF p f r = some h ∧ (∀ a ∈ h, a < p) ∧ h.length = min f.length r.length ∧ ∀ k, coeff k (ser p h) = coeff k (ser p f) * coeff k (ser p r) := by
  have hm : p ≤ 2^31 := by omega
  have R0 : RepZ p (if r.length < f.length then pre r.length f else f) (min f.length r.length) (cf p f) := by
    split
    · rw [Nat.min_eq_right (by omega)]; exact pre_rep h0 hf _
    · rw [Nat.min_eq_left (by omega)]
      exact ⟨rfl, fun i hi => cf_mem hf hi⟩
  unfold dotF
  generalize (if r.length < f.length then pre r.length f else f) = f0 at R0 ⊢
  rw [R0.len]
  obtain ⟨h, e, R⟩ := forRange_inv (a := 0) (b := min f.length r.length) (s := f0) (body := dotStepF p r)
    (P := fun i (h : List Nat) => RepZ p h (min f.length r.length) (fun k => if k < i then cf p f k * cf p r k else cf p f k)) (Nat.zero_le _)
    (R0.congr (fun k _ => by rw [if_neg (by omega)])) (by
      intro i h h1 h2 Rh
      obtain ⟨y, ey, ly, cy⟩ := cf_mem hr (i := i) (by omega)
      obtain ⟨x, ex, lx, cx⟩ := Rh.val i (by omega)
      obtain ⟨z, ez, lz, cz⟩ := mul_cast hm lx ly
      obtain ⟨h', e, R'⟩ := Rh.wr (i := i) (by omega) lz
      refine ⟨h', by unfold dotStepF; rw [ex, Option.bind_some, ey, Option.bind_some, ez, Option.bind_some, e], R'.congr ?_⟩
      intro k _
      by_cases hk : k = i
      · subst hk; rw [upd_same, if_pos (by omega), cz, cx, cy, if_neg (by omega)]
      · rw [upd_ne _ _ hk]
        by_cases h3 : k < i
        · rw [if_pos h3, if_pos (by omega)]
        · rw [if_neg h3, if_neg (by omega)])
  refine ⟨h, e, R.red, R.len, fun k => ?_⟩
  rw [coeff_ser, coeff_ser, coeff_ser]
  by_cases hk : k < min f.length r.length
  · rw [R.cf_eq hk, if_pos hk]
  · rw [cf_ge (by rw [R.len]; omega)]
    by_cases h3 : k < f.length
    · rw [cf_ge (f := r) (by omega), mul_zero]
    · rw [cf_ge (f := f) (by omega), zero_mul]

theorem shl_of_rep {p m : Nat} {f h : List Nat} (R : RepZ p h (m + f.length) (fun k => if k < m then 0 else cf p f (k - m))) : ser p h = PowerSeries.X ^ m * ser p f := by
  refine ser_ext fun k => ?_
  rw [PowerSeries.coeff_X_pow_mul', coeff_ser]
  by_cases hk : k < m + f.length
  · rw [R.cf_eq hk]
    by_cases h : k < m
    · rw [if_pos h, if_neg (by omega)]
    · rw [if_neg h, if_pos (by omega)]
  · rw [cf_ge (by rw [R.len]; omega), if_pos (by omega), cf_ge (by omega)]

/-- **C119.** The left shifts multiply with `x^m`, the right shifts drop the first `m` coefficients. -/
theorem C119_shift {p : Nat} (h0 : 0 < p) (f : List Nat) (hf : ∀ a ∈ f, a < p) (m : Nat) :
    (∃ h, shlSet m f = some h ∧ (∀ a ∈ h, a < p) ∧ h.length = m + f.length ∧ ser p h = PowerSeries.X ^ m * ser p f) ∧
    (∃ h, shlC m f = some h ∧ (∀ a ∈ h, a < p) ∧ h.length = m + f.length ∧ ser p h = PowerSeries.X ^ m * ser p f) ∧
    (∀ k, coeff k (ser p (shrC m f)) = coeff (k + m) (ser p f)) ∧ (shrC m f).length = f.length - m := by
  refine ⟨?_, ?_, fun k => ?_, ?_⟩
  · obtain ⟨h, e, R⟩ := forRange_inv (a := 0) (b := f.length) (s := pre (m + f.length) f) (body := shlStep m f.length)
      (P := fun i (h : List Nat) => RepZ p h (m + f.length) (fun k => if m + f.length - i ≤ k then cf p f (k - m) else cf p f k)) (Nat.zero_le _)
      ((pre_rep h0 hf _).congr (fun k hk => by rw [if_neg (by omega)])) (by
        intro i h _ hi Rh
        obtain ⟨x, ex, lx, cx⟩ := Rh.val (f.length - 1 - i) (by omega)
        rw [if_neg (by omega)] at cx
        obtain ⟨h', e, R'⟩ := Rh.wr (i := m + f.length - 1 - i) (by omega) lx
        refine ⟨h', by unfold shlStep; rw [ex, Option.bind_some, e], R'.congr fun k _ => ?_⟩
        by_cases hk : k = m + f.length - 1 - i
        · rw [hk, upd_same, if_pos (by omega), cx]
          congr 1
          omega
        · rw [upd_ne _ _ hk]
          by_cases h3 : m + f.length - i ≤ k
          · rw [if_pos h3, if_pos (by omega)]
          · rw [if_neg h3, if_neg (by omega)])
    obtain ⟨h2, e2, R2⟩ := forRange_inv (a := 0) (b := m) (s := h) (body := fun i h => wr h i 0)
      (P := fun i (h : List Nat) => RepZ p h (m + f.length) (fun k => if k < i then 0 else if m ≤ k then cf p f (k - m) else cf p f k)) (Nat.zero_le _)
      (R.congr (fun k hk => by
        rw [if_neg (show ¬ k < 0 by omega)]
        by_cases h3 : m ≤ k
        · rw [if_pos (by omega), if_pos h3]
        · rw [if_neg (by omega), if_neg h3])) (by
        intro i h _ hi Rh
        obtain ⟨h', e, R'⟩ := Rh.wr (i := i) (by omega) h0
        refine ⟨h', e, R'.congr fun k _ => ?_⟩
        by_cases hk : k = i
        · rw [hk, upd_same, if_pos (by omega), Nat.cast_zero]
        · rw [upd_ne _ _ hk]
          by_cases h3 : k < i
          · rw [if_pos h3, if_pos (by omega)]
          · rw [if_neg h3, if_neg (show ¬ k < i + 1 by omega)])
    refine ⟨h2, by unfold shlSet; rw [e, Option.bind_some, e2], R2.red, R2.len, shl_of_rep (R2.congr fun k _ => ?_)⟩
    by_cases hk : k < m
    · rw [if_pos hk, if_pos hk]
    · rw [if_neg hk, if_neg hk, if_pos (by omega)]
  · obtain ⟨h, e, R⟩ := forRange_inv (a := 0) (b := f.length) (s := List.replicate (m + f.length) 0) (body := fun i h => (f[i]?).bind (fun x => wr h (m+i) x))
      (P := fun i (h : List Nat) => RepZ p h (m + f.length) (fun k => if m ≤ k ∧ k < m + i then cf p f (k - m) else 0)) (Nat.zero_le _)
      ((zeros_rep h0 _).congr (fun k hk => by rw [if_neg (by omega)])) (by
        intro i h _ hi Rh
        obtain ⟨x, ex, lx, cx⟩ := cf_mem hf hi
        obtain ⟨h', e, R'⟩ := Rh.wr (i := m + i) (by omega) lx
        refine ⟨h', by rw [ex, Option.bind_some, e], R'.congr fun k _ => ?_⟩
        by_cases hk : k = m + i
        · rw [hk, upd_same, if_pos (by omega), cx, Nat.add_sub_cancel_left]
        · rw [upd_ne _ _ hk]
          by_cases h3 : m ≤ k ∧ k < m + i
          · rw [if_pos h3, if_pos (by omega)]
          · rw [if_neg h3, if_neg (by omega)])
    refine ⟨h, e, R.red, R.len, shl_of_rep (R.congr fun k hk => ?_)⟩
    by_cases h3 : k < m
    · rw [if_pos h3, if_neg (by omega)]
    · rw [if_neg h3, if_pos (by omega)]
  · rw [coeff_ser, coeff_ser]
    unfold shrC shr cf
    split
    · rw [List.getD_eq_default _ _ (by simp), List.getD_eq_default _ _ (by omega)]
    · rw [List.getD_eq_getElem?_getD, List.getD_eq_getElem?_getD, List.getElem?_drop, Nat.add_comm m k]
  · unfold shrC shr
    split
    · rw [List.length_nil]; omega
    · rw [List.length_drop]

/-- **C119 (partial).** `f *= f`: right with fewer than 100 terms, and in general if the second parameter of the convolution is initialised first. -/
theorem C119_self_partial {p g : Nat} (H : Root p g) (f : List Nat) {k : Nat} (hf : ∀ a ∈ f, a < p) (hk : 2^k ∣ p - 1) (hl : f.length + f.length - 1 ≤ 2^k) (lf : Bool)
    (h : countTerms f f.length < 100 ∨ lf = false) : ∃ h, mulSelf p g lf f = some h ∧ (∀ a ∈ h, a < p) ∧ ser p h = ser p f * ser p f := by
  have h2 := H.prime.two_le
  by_cases hc : countTerms f f.length < 100
  · obtain ⟨h, N, e, P⟩ := mulSparse_spec (p := p) (by omega) H.lt hf hf
    exact ⟨h, by unfold mulSelf; rw [if_pos hc, e], P.1.rep.red, P.1.ser_eq⟩
  · have hlf : lf = false := by
      rcases h with h | h
      · exact absurd h hc
      · exact h
    have hf0 : 0 < f.length := by
      rcases f with _ | ⟨a, f⟩
      · exact absurd (by decide) hc
      · simp
    obtain ⟨h, N, e, P, _⟩ := mulSet_spec H hf hf hf0 (supported H hk) hl
    refine ⟨h, ?_, P.rep.red, P.ser_eq⟩
    rw [← e]
    unfold mulSelf mulSet
    rw [if_neg hc, if_neg hc, hlf]
    rfl

/-- **C119 is violated** if the compiler initialises the first parameter first: the square of a series with 130 terms reads the last element of an empty vector. -/
theorem C119_violated : mulSelf 998244353 3 true (List.replicate 130 1) = none := by decide +kernel

/-! Non-trivial instances -/

example : eqF [1, 2, 0, 0] [1, 2] = true ∧ eqF [1, 2, 0, 3] [1, 2] = false := by decide
example : normalize [1, 0, 2, 0, 0] = [1, 0, 2] := by decide
example : preC 5 [1, 2] = [1, 2, 0, 0, 0] ∧ preC 1 [1, 2] = [1] := by decide
example : addF 17 [16, 2] [3, 4, 5] = some [2, 6, 5] ∧ subF 17 [1, 2] [3, 4, 5] = some [15, 15, 12] := by decide +kernel
example : ∃ h, addF 17 [16, 2] [3, 4, 5] = some h ∧ (∀ a ∈ h, a < 17) ∧ ser 17 h = ser 17 [16, 2] + ser 17 [3, 4, 5] := (C119_add_sub (by omega) (by omega) _ _ (by decide) (by decide)).1
example : addConst 17 3 [16, 2] = some [2, 2] ∧ rsubConst 17 3 [16, 2] = some [4, 15] ∧ divConst 17 3 [1, 3] = some [6, 1] := by decide +kernel
example : ∃ h, rsubConst 17 3 [16, 2] = some h ∧ (∀ a ∈ h, a < 17) ∧ ser 17 h = PowerSeries.C ((3 : Nat) : ZMod 17) - ser 17 [16, 2] :=
  (C119_constants (by decide) (by omega) [16, 2] (by decide) 3 (by omega)).2.2.1
example : dotF 17 [2, 3, 4] [5, 6] = some [10, 1] := by decide +kernel
example : shlSet 2 [1, 2, 3] = some [0, 0, 1, 2, 3] ∧ shlC 2 [1, 2, 3] = some [0, 0, 1, 2, 3] ∧ shrC 2 [1, 2, 3] = [3] ∧ shlSet 5 [1, 2] = some [0, 0, 0, 0, 0, 1, 2] := by decide +kernel
example : mulSelf 17 3 true [1, 2, 3] = some [1, 4, 10, 12, 9] := by decide +kernel
example : ∃ h, mulSelf 17 3 true [1, 2, 3] = some h ∧ (∀ a ∈ h, a < 17) ∧ ser 17 h = ser 17 [1, 2, 3] * ser 17 [1, 2, 3] :=
  C119_self_partial (k := 3) root17 _ (by decide) (by decide) (by decide) true (Or.inl (by decide))

end Verif.Fps
