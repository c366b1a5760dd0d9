import Verif.Fps.LogSparse
/-!
The exponential: the recurrence over the terms and the doubling algorithm.
-/
namespace Verif.Fps
open Verif.Modular Verif.Ntt
open PowerSeries (coeff coeff_derivative derivative)
open scoped PowerSeries

/-- `e` holds the exponential of `H` below `x^n`. -/
def IsExp (p n : Nat) (H : (ZMod p)⟦X⟧) (e : List Nat) : Prop :=
  (∀ a ∈ e, a < p) ∧ coeff 0 (ser p e) = 1 ∧ Agree (n-1) (d⁄dX _ (ser p e)) (d⁄dX _ H * ser p e)

theorem mulF_upd {R : Type} [CommRing R] (a γ : Nat → R) (i : Nat) (y : R) {k : Nat} (hk : k ≤ i) :
    mulF a (upd γ i y) k = mulF a γ k + if k = i then a 0 * (y - γ i) else 0 := by
  unfold mulF
  rw [Finset.sum_range_succ', Finset.sum_range_succ' (fun j => a j * γ (k - j)), Nat.sub_zero]
  have hs : ∑ j ∈ Finset.range k, a (j+1) * upd γ i y (k - (j+1)) = ∑ j ∈ Finset.range k, a (j+1) * γ (k - (j+1)) :=
    Finset.sum_congr rfl fun j hj => by
      have := Finset.mem_range.1 hj
      rw [upd_ne _ _ (by omega)]
  rw [hs]
  by_cases h : k = i
  · subst h; rw [upd_same, if_pos rfl]; ring
  · rw [upd_ne _ _ h, if_neg h]; ring

/-- Coefficients of `x f'`. -/
def th {p : Nat} (a : Nat → ZMod p) (k : Nat) : ZMod p := (k : ZMod p) * a k

theorem th_S_cons {p : Nat} (t : Nat × Nat) (ts : List (Nat × Nat)) (γ : Nat → ZMod p) (k : Nat) :
    mulF (th (S p (t :: ts))) γ k = (if t.1 ≤ k then (t.1 : ZMod p) * t.2 * γ (k - t.1) else 0) + mulF (th (S p ts)) γ k := by
  rw [← mulF_single_left, ← mulF_add_left]
  refine mulF_congr (fun i _ => ?_) (fun _ _ => rfl)
  unfold th
  rw [S, mul_add]
  by_cases h : i = t.1
  · rw [if_pos h, if_pos h, h]
  · rw [if_neg h, if_neg h, mul_zero]

theorem th_S_zero {p : Nat} (γ : Nat → ZMod p) (k : Nat) : ∀ (ts : List (Nat × Nat)), (∀ t ∈ ts, k < t.1) → mulF (th (S p ts)) γ k = 0
  | [], _ => by
    rw [show th (S p []) = fun _ => (0 : ZMod p) from funext fun k => by unfold th; rw [S, mul_zero], mulF_zero_left]
  | t :: ts, h => by
    rw [th_S_cons, if_neg (by have := h t List.mem_cons_self; omega), th_S_zero γ k ts (fun u hu => h u (List.mem_cons_of_mem _ hu)), add_zero]

theorem expDot_spec {p n i : Nat} (h0 : 0 < p) (hp : p < 2^31) {h : List Nat} {γ : Nat → ZMod p} (R : RepZ p h n γ) (hi : i < n) (hi0 : 0 < i) :
    ∀ (ts : List (Nat × Nat)) s, ts.Pairwise (fun a b => a.1 < b.1) → (∀ t ∈ ts, t.2 < p) → s < p →
    ∃ s', expDot p i h ts s = some s' ∧ s' < p ∧ (s' : ZMod p) = s + mulF (th (S p ts)) γ i
  | [], s, _, _, hs => ⟨s, rfl, hs, by rw [th_S_zero γ i [] (by simp), add_zero]⟩
  | t :: ts, s, hso, ht, hs => by
    have hm : p ≤ 2^31 := by omega
    obtain ⟨hs1, hs2⟩ := List.pairwise_cons.1 hso
    have ih := fun s hs => expDot_spec h0 hp R hi hi0 ts s hs2 (fun u hu => ht u (List.mem_cons_of_mem _ hu)) hs
    rw [expDot]
    by_cases ht0 : t.1 = 0
    · rw [if_pos ht0]
      obtain ⟨s', e, ls, cs⟩ := ih s hs
      refine ⟨s', e, ls, ?_⟩
      rw [cs, th_S_cons, ht0, Nat.cast_zero, zero_mul, zero_mul, ite_self, zero_add]
    · rw [if_neg ht0]
      obtain ⟨li, ci⟩ := ofInt_nat h0 t.1
      obtain ⟨c, ec, lc, cc⟩ := mul_cast hm (ht t List.mem_cons_self) li
      rw [ec, Option.bind_some]
      by_cases hlt : i < t.1
      · rw [if_pos (by omega)]
        refine ⟨s, rfl, hs, ?_⟩
        rw [th_S_zero γ i (t :: ts), add_zero]
        intro u hu
        rcases List.mem_cons.1 hu with h | h
        · subst h; exact hlt
        · exact lt_trans hlt (hs1 u h)
      · rw [if_neg (by omega)]
        obtain ⟨y, ey, ly, cy⟩ := R.val (i - 1 - (t.1 - 1)) (by omega)
        obtain ⟨z, ez, lz, cz⟩ := mul_cast hm ly lc
        obtain ⟨s', e, ls, cs⟩ := ih (add p s z) (add_lt hm hs lz)
        refine ⟨s', by rw [ey, Option.bind_some, ez, Option.bind_some, e], ls, ?_⟩
        rw [cs, add_cast hm hs lz, cz, cy, cc, ci, th_S_cons, if_pos (by omega), show i - 1 - (t.1 - 1) = i - t.1 by omega]
        ring

/-- From the recurrence to the differential equation. -/
theorem ode_of_rec {p n : Nat} {a γ : Nat → ZMod p} (h : ∀ k, 0 < k → k < n → (k : ZMod p) * γ k = mulF (th a) γ k) :
    Agree (n-1) (d⁄dX _ (ps γ)) (d⁄dX _ (ps a) * ps γ) := by
  intro k hk
  have h1 := h (k+1) (by omega) (by omega)
  have e : ps (th a) = PowerSeries.X * d⁄dX _ (ps a) := by
    ext j
    rw [coeff_ps]
    cases j with
    | zero => rw [PowerSeries.coeff_zero_X_mul]; unfold th; rw [Nat.cast_zero, zero_mul]
    | succ j =>
      rw [PowerSeries.coeff_succ_X_mul, coeff_derivative, coeff_ps]
      unfold th
      push_cast
      ring
  rw [← coeff_mul_ps, e, mul_assoc, PowerSeries.coeff_succ_X_mul] at h1
  rw [coeff_derivative, coeff_ps, ← h1]
  push_cast
  ring

theorem expSparseImpl_spec {p n : Nat} (hpr : p.Prime) (hp : p < 2^31) {tb : List Nat} (hT : Full p tb) {ts : List (Nat × Nat)} (hn0 : 0 < n) (hn : n ≤ p)
    (hso : ts.Pairwise (fun a b => a.1 < b.1)) (ht : ∀ t ∈ ts, t.2 < p) :
    ∃ e γ, expSparseImpl p tb ts n = some e ∧ RepZ p e n γ ∧ γ 0 = 1 ∧ ∀ k, 0 < k → k < n → (k : ZMod p) * γ k = mulF (th (S p ts)) γ k := by
  haveI : Fact p.Prime := ⟨hpr⟩
  have h2 := hpr.two_le
  have hm : p ≤ 2^31 := by omega
  obtain ⟨l1, c1⟩ := ofInt_nat (p := p) (by omega) 1
  obtain ⟨h0, e0, R0⟩ := (zeros_rep (p := p) (by omega) n).wr (i := 0) hn0 l1
  obtain ⟨tb', et, hT', _⟩ := setInv_full hm (n := n-1) (by omega) hT
  have hz : ofInt p 0 = 0 := by have := ofInt_eq (m := p) (by omega) 0; simpa using this
  obtain ⟨g, e, γ, R, hγ0, hγ⟩ := forRange_inv (a := 1) (b := n) (s := h0) (body := expSparseStep p tb' ts)
    (P := fun i (g : List Nat) => ∃ γ, RepZ p g n γ ∧ γ 0 = 1 ∧ ∀ k, 0 < k → k < i → (k : ZMod p) * γ k = mulF (th (S p ts)) γ k) (by omega)
    ⟨_, R0, by rw [upd_same, c1, Nat.cast_one], fun k h1 h2 => by omega⟩ (by
      rintro i g h1 hi ⟨γ, R, hγ0, hγ⟩
      obtain ⟨s, es, ls, cs⟩ := expDot_spec (by omega) hp R hi (by omega) ts (ofInt p 0) hso ht (by omega)
      obtain ⟨v, ev, lv, cv⟩ := tableInv_spec hpr hm hT' (i := i) (by omega)
      obtain ⟨y, ey, ly, cy⟩ := mul_cast hm ls lv
      obtain ⟨g', e, R'⟩ := R.wr hi ly
      refine ⟨g', by unfold expSparseStep; rw [es, Option.bind_some, ev, Option.bind_some, ey, Option.bind_some, e], _, R', ?_, ?_⟩
      · rw [upd_ne _ _ (by omega), hγ0]
      · intro k hk0 hk
        rw [mulF_upd _ _ _ _ (by omega), show th (S p ts) 0 = 0 by unfold th; rw [Nat.cast_zero, zero_mul], zero_mul, ite_self, add_zero]
        by_cases hki : k = i
        · subst hki
          rw [upd_same, cy, cs, cv, hz, Nat.cast_zero, zero_add]
          have := mul_inv_cancel₀ (cast_ne (p := p) (k := k) hk0 (by omega))
          linear_combination (mulF (th (S p ts)) γ k) * this
        · rw [upd_ne _ _ hki, hγ k hk0 (by omega)])
  exact ⟨g, γ, by unfold expSparseImpl; rw [show ofInt p 1 = ofInt p ((1:Nat) : Int) from rfl, e0, Option.bind_some, et, Option.bind_some, e], R, hγ0, hγ⟩

theorem expSparse_spec {p n : Nat} (hpr : p.Prime) (hp : p < 2^31) {tb f : List Nat} (hT : Full p tb) (hf : ∀ a ∈ f, a < p) (hf0 : f.getD 0 0 = 0)
    (hn0 : 0 < n) (hn : n ≤ p) : ∃ e, expSparse p tb f n = some e ∧ IsExp p n (ser p f) e := by
  haveI : Fact p.Prime := ⟨hpr⟩
  have h2 := hpr.two_le
  obtain ⟨l1, c1⟩ := ofInt_nat (p := p) (by omega) 1
  unfold expSparse
  rw [if_neg (by
    rcases f with _ | ⟨a, f⟩
    · simp
    · have : a = 0 := hf0
      simp [this]), if_neg (by omega)]
  by_cases hnil : f = []
  · rw [if_pos hnil]
    refine ⟨_, rfl, by intro a ha; rw [List.mem_singleton] at ha; rw [ha]; exact l1, ?_, ?_⟩
    · rw [coeff_ser, cf_cons, if_pos rfl]
      exact c1.trans Nat.cast_one
    · intro k hk
      have hz : ser p f = 0 := by
        ext k; rw [coeff_ser, hnil, cf_ge (by simp), map_zero]
      rw [hz, map_zero, zero_mul, coeff_derivative, coeff_ser, cf_cons, if_neg (by omega), cf_ge (by simp), zero_mul, map_zero]
  · rw [if_neg hnil]
    obtain ⟨e, γ, ee, R, hγ0, hγ⟩ := expSparseImpl_spec hpr hp hT (ts := terms f (min n f.length)) hn0 hn (terms_sorted _ _) (fun t ht => (terms_lt hf t ht).2.2.2)
    refine ⟨e, ee, R.red, ?_, ?_⟩
    · rw [coeff_ser, R.cf_eq hn0, hγ0]
    · have h1 : Agree n (ser p e) (ps γ) := fun k hk => by rw [coeff_ser, R.cf_eq hk, coeff_ps]
      have h3 : Agree n (ser p f) (ps (S p (terms f (min n f.length)))) := fun k hk => by
        rw [coeff_ser, coeff_ps, S_terms]
        by_cases h : k < min n f.length
        · rw [if_pos h]
        · rw [if_neg h, cf_ge (by omega)]
      have h4 := ode_of_rec hγ
      exact h1.deriv.trans (h4.trans (h3.deriv.symm.mul (h1.symm.mono (by omega))))

theorem q_spec {p : Nat} (h0 : 0 < p) (hp : p < 2^31) {h q : List Nat} (hh : ∀ a ∈ h, a < p) {m i : Nat} (hm0 : 0 < m) (hmi : m ≤ i)
    (Rq : RepZ p q (m-1) (fun k => (k+1 : ZMod p) * cf p h (k+1))) :
    ∃ q', forRange m i (qStep p h) (pre (i-1) q) = some q' ∧ RepZ p q' (i-1) (fun k => (k+1 : ZMod p) * cf p h (k+1)) := by
  have hm : p ≤ 2^31 := by omega
  obtain ⟨q', e, R⟩ := forRange_inv (a := m) (b := i) (s := pre (i-1) q) (body := qStep p h)
    (P := fun j (q : List Nat) => RepZ p q (i-1) (fun k => if k + 1 < j then (k+1 : ZMod p) * cf p h (k+1) else 0)) hmi
    ((pre_rep h0 Rq.red (i-1)).congr (fun k _ => by
      by_cases hk : k + 1 < m
      · rw [if_pos hk, Rq.cf_eq (by omega)]
      · rw [if_neg hk, cf_ge (by rw [Rq.len]; omega)])) (by
      intro j q h1 h2 Rq
      have la : h.getD j 0 < p := by
        by_cases hj : j < h.length
        · rw [List.getD_eq_getElem _ _ hj]; exact hh _ (List.getElem_mem hj)
        · rw [List.getD_eq_default _ _ (by omega)]; exact h0
      obtain ⟨li, ci⟩ := ofInt_nat h0 j
      obtain ⟨y, ey, ly, cy⟩ := mul_cast hm la li
      obtain ⟨q', e, R'⟩ := Rq.wr (i := j-1) (by omega) ly
      refine ⟨q', by unfold qStep; rw [ey, Option.bind_some, e], R'.congr fun k _ => ?_⟩
      by_cases hk : k = j - 1
      · rw [hk, upd_same, if_pos (by omega), cy, ci, show j - 1 + 1 = j by omega, show ((h.getD j 0 : Nat) : ZMod p) = cf p h j from rfl]
        have : ((j - 1 : Nat) : ZMod p) + 1 = (j : ZMod p) := by
          rw [← Nat.cast_succ]; exact congrArg _ (by omega)
        rw [this, mul_comm]
      · rw [upd_ne _ _ hk]
        by_cases h3 : k + 1 < j
        · rw [if_pos h3, if_pos (by omega)]
        · rw [if_neg h3, if_neg (by omega)])
  refine ⟨q', e, R.congr fun k hk => ?_⟩
  rw [if_pos (by omega)]

theorem getD_red {p : Nat} (h0 : 0 < p) {h : List Nat} (hh : ∀ a ∈ h, a < p) (j : Nat) : h.getD j 0 < p := by
  by_cases hj : j < h.length
  · rw [List.getD_eq_getElem _ _ hj]; exact hh _ (List.getElem_mem hj)
  · rw [List.getD_eq_default _ _ (by omega)]; exact h0

/-- After the first half of the round, `g` is the reciprocal of `f` below `x^i` and `q` the derivative of `h` below `x^(i-1)`. -/
theorem expCatch_spec {p r e : Nat} (H : Root p r) {h f g q : List Nat} (hh : ∀ a ∈ h, a < p) (hf : ∀ a ∈ f, a < p) (hfl : f.length = 2^e) (he : e + 1 ≤ logN p)
    (hg : IsInv p g (2^(e-1)) (cf p f)) (hq : RepZ p q (2^(e-1) - 1) (fun k => (k+1 : ZMod p) * cf p h (k+1))) :
    ∃ s, expCatch p r h (2^e) f (g, q) = some s ∧ IsInv p s.1 (2^e) (cf p f) ∧ RepZ p s.2 (2^e - 1) (fun k => (k+1 : ZMod p) * cf p h (k+1)) := by
  have h2 := H.prime.two_le
  unfold expCatch
  cases e with
  | zero =>
    rw [if_neg (by norm_num)]
    exact ⟨(g, q), rfl, hg, hq⟩
  | succ e =>
    rw [Nat.add_sub_cancel] at hg hq
    have e1 : 2^(e+1) = 2^e * 2 := pow_succ 2 e
    have e2 : 2^(e+2) = 2^e * 2 * 2 := by rw [pow_succ, pow_succ]
    have hpos := Nat.two_pow_pos e
    rw [if_pos (by omega), show 2^(e+1) / 2 = 2^e by omega]
    obtain ⟨hl, hred, hinv⟩ := hg
    obtain ⟨t1, N1, et1, P1, hN1⟩ := mulSet_spec H (k := e+1) (f := g) (r := g) hred hred (by omega) (by omega) (by omega)
    have hN1' : 0 < N1 := by
      by_contra h0
      have h4 := P1.out 0 (by omega)
      have h3 := hinv 0 hpos
      unfold mulF at h4 h3
      rw [Finset.sum_range_one, Nat.sub_zero] at h4 h3
      rw [if_pos rfl] at h3
      haveI : Fact p.Prime := ⟨H.prime⟩
      have hz : cf p g 0 = 0 := by
        rcases mul_eq_zero.1 h4 with h | h <;> exact h
      rw [hz, zero_mul] at h3
      exact zero_ne_one h3
    obtain ⟨t2, N2, et2, P2, hN2⟩ := mulSet_spec H (k := e+2) (f := t1) (r := f) P1.rep.red hf (by rw [P1.rep.len]; exact hN1') he
      (by rw [P1.rep.len, hfl]; omega)
    have Rt := pre_rep (p := p) (by omega) P2.rep.red (2^(e+1))
    have Rg := pre_rep (p := p) (by omega) hred (2^(e+1))
    have hcg : ∀ k, k < 2^e → cf p (pre (2^(e+1)) g) k = cf p g k := fun k hk => Rg.cf_eq (by omega)
    obtain ⟨g', eg, Rg'⟩ := neg_spec H.lt (m := 2^e) (by omega) Rt (Rg.congr (fun k hk => by
      by_cases h : k < 2^e
      · rw [if_pos h, hcg k h]
      · rw [if_neg h, cf_ge (by omega)]))
    obtain ⟨q', eq, Rq'⟩ := q_spec (p := p) (by omega) H.lt hh hpos (i := 2^(e+1)) (by omega) hq
    refine ⟨(g', q'), ?_, ⟨Rg'.len, Rg'.red, ?_⟩, Rq'⟩
    · dsimp only
      rw [et1, Option.bind_some, et2, Option.bind_some, eg, Option.bind_some, eq, Option.map_some]
    · refine newton_series (a := cf p f) (g := cf p g) (m := 2^e) (by omega) (fun i hi => cf_ge (by omega)) hinv ?_ ?_
      · intro k hk
        rw [Rg'.cf_eq (by omega), if_pos hk, hcg k hk]
      · intro k hk hk2
        rw [Rg'.cf_eq hk2, if_neg (by omega), P2.cf_eq]
        refine congrArg _ (mulF_congr (fun i _ => P1.cf_eq i) (fun i hi => rfl))

theorem shr_rep {p n m : Nat} {f : List Nat} {φ : Nat → ZMod p} (R : RepZ p f n φ) : RepZ p (shr m f) (n - m) (fun k => φ (m + k)) := by
  unfold shr
  refine ⟨by rw [List.length_drop, R.len], fun i hi => ?_⟩
  obtain ⟨a, e, h⟩ := R.val (m+i) (by omega)
  exact ⟨a, by rw [List.getElem?_drop, e], h⟩

theorem integ_spec {p : Nat} (hpr : p.Prime) (hp : p < 2^31) {tb h t : List Nat} (hT : Full p tb) (hh : ∀ a ∈ h, a < p) {i N : Nat} {τ : Nat → ZMod p} (Rt : RepZ p t N τ)
    (hN : i + N ≤ p) :
    ∃ t', forRange 0 N (integStep p tb h i) t = some t' ∧ RepZ p t' N (fun j => τ j * ((i + j : Nat) : ZMod p)⁻¹ + cf p h (i+j)) := by
  have hm : p ≤ 2^31 := by omega
  have h2 := hpr.two_le
  obtain ⟨t', e, R⟩ := forRange_inv (a := 0) (b := N) (s := t) (body := integStep p tb h i)
    (P := fun k (t : List Nat) => RepZ p t N (fun j => if j < k then τ j * ((i + j : Nat) : ZMod p)⁻¹ + cf p h (i+j) else τ j)) (Nat.zero_le _)
    (Rt.congr (fun k _ => by rw [if_neg (by omega)])) (by
      intro j t _ hj R
      obtain ⟨x, ex, lx, cx⟩ := R.val j hj
      rw [if_neg (by omega)] at cx
      obtain ⟨v, ev, lv, cv⟩ := tableInv_spec hpr hm hT (i := i+j) (by omega)
      obtain ⟨y, ey, ly, cy⟩ := mul_cast hm lx lv
      have la := getD_red (p := p) (by omega) hh (i+j)
      obtain ⟨t', e, R'⟩ := R.wr hj (add_lt hm ly la)
      refine ⟨t', by unfold integStep; rw [ex, Option.bind_some, ev, Option.bind_some, ey, Option.bind_some, e], R'.congr fun k _ => ?_⟩
      by_cases hk : k = j
      · subst hk
        rw [upd_same, if_pos (by omega), add_cast hm ly la, cy, cx, cv]
        rfl
      · rw [upd_ne _ _ hk]
        by_cases h3 : k < j
        · rw [if_pos h3, if_pos (by omega)]
        · rw [if_neg h3, if_neg (by omega)])
  exact ⟨t', e, R.congr fun k hk => by rw [if_pos hk]⟩

theorem append_spec {p : Nat} {t f : List Nat} {i l : Nat} {τ φ : Nat → ZMod p} (Rt : RepZ p t (l - i) τ) (hil : i ≤ l) (Rf : RepZ p f l φ) :
    ∃ f', forRange i l (appendStep t i) f = some f' ∧ RepZ p f' l (fun k => if k < i then φ k else τ (k - i)) := by
  obtain ⟨f', e, R⟩ := forRange_inv (a := i) (b := l) (s := f) (body := appendStep t i)
    (P := fun j (f : List Nat) => RepZ p f l (fun k => if k < i then φ k else if k < j then τ (k - i) else φ k)) hil
    (Rf.congr (fun k _ => by
      by_cases h : k < i
      · rw [if_pos h]
      · rw [if_neg h, if_neg h])) (by
      intro j f h1 h2 R
      obtain ⟨x, ex, lx, cx⟩ := Rt.val (j - i) (by omega)
      obtain ⟨f', e, R'⟩ := R.wr h2 lx
      refine ⟨f', by unfold appendStep; rw [ex, Option.bind_some, e], R'.congr fun k _ => ?_⟩
      by_cases hk : k = j
      · subst hk
        rw [upd_same, if_neg (by omega), if_pos (by omega), cx]
      · rw [upd_ne _ _ hk]
        by_cases h3 : k < i
        · rw [if_pos h3, if_pos h3]
        · rw [if_neg h3, if_neg h3]
          by_cases h4 : k < j
          · rw [if_pos h4, if_pos (by omega)]
          · rw [if_neg h4, if_neg (by omega)])
  refine ⟨f', e, R.congr fun k hk => ?_⟩
  by_cases h : k < i
  · rw [if_pos h, if_pos h]
  · rw [if_neg h, if_neg h, if_pos hk]

/-- `f` holds the first `l` coefficients of the exponential of `h`. -/
def ExpTo (p l : Nat) (h f : List Nat) : Prop := f.length = l ∧ IsExp p l (ser p h) f

theorem expExtend_spec {p r e n : Nat} (H : Root p r) {tb h f g q : List Nat} (hT : Full p tb) (hh : ∀ a ∈ h, a < p) (hn : 2^e < n) (hnp : n < p) (he : e + 1 ≤ logN p)
    (hf : ExpTo p (2^e) h f) (hg : IsInv p g (2^e) (cf p f)) (hq : RepZ p q (2^e - 1) (fun k => (k+1 : ZMod p) * cf p h (k+1))) :
    ∃ f', expExtend p r tb h n (2^e) f g q = some f' ∧ ExpTo p (min (2^e*2) n) h f' ∧ ∀ k, k < 2^e → cf p f' k = cf p f k := by
  haveI : Fact p.Prime := ⟨H.prime⟩
  have h2 := H.prime.two_le
  have hpos := Nat.two_pow_pos e
  have e1 : 2^(e+1) = 2^e * 2 := pow_succ 2 e
  obtain ⟨hfl, hfr, hf0, hfode⟩ := hf
  obtain ⟨hgl, hgr, hginv⟩ := hg
  unfold expExtend
  generalize hi : 2^e = i at *
  generalize hl : min (i*2) n = l
  obtain ⟨t1, N1, et1, P1, _⟩ := mulSet_spec H (k := e+1) (f := f) (r := q) hfr hq.red (by omega) he (by rw [hfl, hq.len]; omega)
  have Rp1 := pre_rep (p := p) (by omega) P1.rep.red (l-1)
  have Rs := shr_rep (m := i-1) Rp1
  obtain ⟨t2, N2, et2, P2, _⟩ := mulSet_spec H (k := e+1) (f := shr (i-1) (pre (l-1) t1)) (r := g) Rs.red hgr (by rw [Rs.len]; omega) he (by rw [Rs.len, hgl]; omega)
  have Rp2 := pre_rep (p := p) (by omega) P2.rep.red (l-i+1)
  obtain ⟨u, eu, Ru⟩ := integ_spec H.prime H.lt hT hh (i := i) Rp2 (by omega)
  obtain ⟨t3, N3, et3, P3, _⟩ := mulSet_spec H (k := e+1) (f := u) (r := f) Ru.red hfr (by rw [Ru.len]; omega) he (by rw [Ru.len, hfl]; omega)
  have Rp3 := pre_rep (p := p) (by omega) P3.rep.red (l-i)
  have Rpf := pre_rep (p := p) (by omega) hfr l
  obtain ⟨f', ef, Rf'⟩ := append_spec Rp3 (i := i) (l := l) (by omega) Rpf
  refine ⟨f', by rw [et1, Option.bind_some, et2, Option.bind_some, eu, Option.bind_some, et3, Option.bind_some, ef], ?_, ?_⟩
  · have key := exp_round (p := p) (A := ser p f) (G := ser p g) (U := ser p u) (H := ser p h) (Q := ser p q)
      (T := ps (fun k => mulF (cf p f) (cf p q) (i - 1 + k))) (i := i) (l := l) hpos (by omega)
      (fun k hk => by rw [coeff_ser, cf_ge (by omega)]) hfode
      (fun k hk => by rw [mul_comm, coeff_ser_mul, hginv k hk, PowerSeries.coeff_one])
      (fun k => by
        rw [coeff_ser, coeff_derivative, coeff_ser]
        by_cases hk : k < i - 1
        · rw [if_pos hk, hq.cf_eq hk, mul_comm]
        · rw [if_neg hk, cf_ge (by rw [hq.len]; omega)])
      (fun k => by rw [coeff_ps, coeff_ser_mul])
      (fun j hj => by
        rw [coeff_ser, coeff_ser, Ru.cf_eq (by omega), P2.cf_eq, mul_add]
        have hinv := mul_inv_cancel₀ (cast_ne (p := p) (k := i + j) (by omega) (by omega))
        have hTG : coeff j (ps (fun k => mulF (cf p f) (cf p q) (i - 1 + k)) * ser p g) = mulF (cf p (shr (i-1) (pre (l-1) t1))) (cf p g) j := by
          unfold ser
          rw [coeff_mul_ps]
          refine mulF_congr (fun k hk => ?_) (fun _ _ => rfl)
          rw [Rs.cf_eq (by omega), P1.cf_eq]
        rw [hTG]
        linear_combination (mulF (cf p (shr (i-1) (pre (l-1) t1))) (cf p g) j) * hinv)
    have hagree : Agree l (ser p f') (ser p f + PowerSeries.X^i * (ser p f * ser p u)) := by
      intro k hk
      rw [coeff_ser, Rf'.cf_eq hk, map_add, PowerSeries.coeff_X_pow_mul', coeff_ser]
      by_cases h : k < i
      · rw [if_pos h, if_neg (by omega), add_zero]
      · rw [if_neg h, if_pos (by omega), cf_ge (f := f) (by omega), zero_add, P3.cf_eq, mulF_comm, coeff_ser_mul]
    refine ⟨Rf'.len, Rf'.red, ?_, ?_⟩
    · rw [coeff_ser, Rf'.cf_eq (by omega), if_pos hpos, ← coeff_ser, hf0]
    · exact hagree.deriv.trans (key.trans ((Agree.refl _ _).mul (hagree.symm.mono (by omega))))
  · intro k hk
    rw [Rf'.cf_eq (by omega), if_pos hk]

theorem expLoop_spec {p r n K : Nat} (H : Root p r) {tb h : List Nat} (hT : Full p tb) (hh : ∀ a ∈ h, a < p) (hnp : n < p) (hn : n ≤ 2^K) (hK : K ≤ logN p) :
    ∀ t e f g q, n < e + t → e ≤ K → 2^e < 2*n → ExpTo p (min (2^e) n) h f → IsInv p g (2^(e-1)) (cf p f) →
    RepZ p q (2^(e-1) - 1) (fun k => (k+1 : ZMod p) * cf p h (k+1)) →
    ∃ f', expLoop p r tb h n t (2^e) f (g, q) = some f' ∧ ExpTo p n h f' := by
  intro t
  induction t with
  | zero =>
    intro e f g q h1 _ h2 _ _ _
    exfalso
    cases e with
    | zero => omega
    | succ e =>
      have : e < 2^e := Nat.lt_two_pow_self
      rw [pow_succ] at h2
      omega
  | succ t ih =>
    intro e f g q h1 hK' h2 hf hg hq
    rw [expLoop]
    by_cases hlt : 2^e < n
    · have he : e < K := (Nat.pow_lt_pow_iff_right (a := 2) (by omega)).1 (by omega)
      rw [if_pos hlt]
      rw [Nat.min_eq_left (by omega)] at hf
      obtain ⟨s, es, hg', hq'⟩ := expCatch_spec H hh hf.2.1 hf.1 (by omega) hg hq
      obtain ⟨f', ef, hf', hfk⟩ := expExtend_spec H hT hh hlt hnp (by omega) hf hg' hq'
      rw [es, Option.bind_some, ef, Option.bind_some, ← pow_succ]
      rw [← pow_succ] at hf'
      refine ih (e+1) f' s.1 s.2 (by omega) (by omega) (by rw [pow_succ]; omega) hf' ?_ (by rw [Nat.add_sub_cancel]; exact hq')
      rw [Nat.add_sub_cancel]
      refine ⟨hg'.1, hg'.2.1, fun k hk => ?_⟩
      rw [← hg'.2.2 k hk]
      exact mulF_congr (fun _ _ => rfl) (fun i hi => hfk i (by omega))
    · rw [if_neg hlt]
      rw [Nat.min_eq_right (by omega)] at hf
      exact ⟨f, rfl, hf⟩

theorem pre_self (f : List Nat) : pre f.length f = f := by
  unfold pre
  rw [List.take_of_length_le (le_refl _), Nat.sub_self, List.replicate_zero, List.append_nil]

theorem expDense_spec {p r n K : Nat} (H : Root p r) {tb h : List Nat} (hT : Full p tb) (hh : ∀ a ∈ h, a < p) (hh0 : h.getD 0 0 = 0) (hn0 : 0 < n) (hnp : n < p)
    (hn : n ≤ 2^K) (hK : K ≤ logN p) : ∃ e, expDense p r tb h n = some e ∧ e.length = n ∧ IsExp p n (ser p h) e := by
  haveI : Fact p.Prime := ⟨H.prime⟩
  have h2 := H.prime.two_le
  obtain ⟨l1, c1⟩ := ofInt_nat (p := p) (by omega) 1
  obtain ⟨tb', et, hT', _⟩ := setInv_full (p := p) (by have := H.lt; omega) hnp hT
  have hr1 : ∀ a ∈ [ofInt p 1], a < p := by intro a ha; rw [List.mem_singleton] at ha; rw [ha]; exact l1
  have hc0 : cf p [ofInt p 1] 0 = 1 := by rw [cf_cons, if_pos rfl]; exact c1.trans Nat.cast_one
  obtain ⟨f, ef, hf⟩ := expLoop_spec H hT' hh hnp hn hK (n+1) 0 [ofInt p 1] [ofInt p 1] [] (by omega) (by omega) (by omega)
    (by
      rw [pow_zero, Nat.min_eq_left (by omega)]
      exact ⟨rfl, hr1, by rw [coeff_ser, hc0], fun k hk => absurd hk (by omega)⟩)
    ⟨rfl, hr1, fun k hk => by
      have : k = 0 := by rw [show 2^(0-1) = 1 from rfl] at hk; omega
      subst this
      unfold mulF
      rw [Finset.sum_range_one, Nat.sub_zero, hc0, one_mul, if_pos rfl]⟩
    ⟨rfl, fun i hi => absurd hi (by rw [show 2^(0-1) = 1 from rfl]; omega)⟩
  refine ⟨f, ?_, hf⟩
  unfold expDense
  rw [if_neg (by
    rcases h with _ | ⟨a, h⟩
    · simp
    · have : a = 0 := hh0
      simp [this]), if_neg (by omega), et, Option.bind_some]
  rw [pow_zero] at ef
  rw [ef, Option.map_some]
  have := pre_self f
  rw [hf.1] at this
  rw [this]

end Verif.Fps
