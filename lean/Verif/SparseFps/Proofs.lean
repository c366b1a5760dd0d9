import Verif.SparseFps.Model
import Verif.Fps.Sqrt
import Verif.Fps.Props2
/-!
Lemmas about sparse series: lists of terms as power series, the loops, powers of an arbitrary list of terms.
-/
namespace Verif.SparseFps
open Verif.Modular Verif.Fps Verif.Ntt
open PowerSeries (coeff coeff_derivative derivative)
open scoped PowerSeries

/-- The series given by a list of terms. -/
noncomputable def sps (p : Nat) (ts : Terms) : (ZMod p)⟦X⟧ := (ts.map (fun t => PowerSeries.monomial t.1 (t.2 : ZMod p))).sum

/-- Exponents increase and coefficients are reduced. -/
def Ok (p : Nat) (ts : Terms) : Prop := ts.Pairwise (fun a b => a.1 < b.1) ∧ ∀ t ∈ ts, t.2 < p

theorem coeff_sps (p : Nat) (k : Nat) : ∀ ts : Terms, coeff k (sps p ts) = S p ts k
  | [] => by unfold sps; rw [List.map_nil, List.sum_nil, map_zero]; rfl
  | t :: ts => by
    have := coeff_sps p k ts
    unfold sps at this ⊢
    rw [List.map_cons, List.sum_cons, map_add, this, PowerSeries.coeff_monomial, S]

theorem sps_eq (p : Nat) (ts : Terms) : sps p ts = ps (S p ts) := by
  ext k
  rw [coeff_sps, coeff_ps]

theorem Ok.tail {p : Nat} {t : Nat × Nat} {ts : Terms} (h : Ok p (t :: ts)) : Ok p ts :=
  ⟨(List.pairwise_cons.1 h.1).2, fun u hu => h.2 u (List.mem_cons_of_mem _ hu)⟩

theorem Ok.filter {p : Nat} {ts : Terms} (h : Ok p ts) (q : Nat × Nat → Bool) : Ok p (ts.filter q) :=
  ⟨h.1.filter q, fun t ht => h.2 t (List.mem_filter.1 ht).1⟩

theorem S_filter (p k : Nat) : ∀ ts : Terms, S p (ofTerms ts) k = S p ts k
  | [] => rfl
  | t :: ts => by
    have := S_filter p k ts
    unfold ofTerms at this ⊢
    rw [List.filter_cons]
    by_cases h : t.2 = 0
    · rw [if_neg (by simp [h]), this, S, h, Nat.cast_zero, ite_self, zero_add]
    · rw [if_pos (by simp [h]), S, S, this]

theorem S_append (p k : Nat) : ∀ a b : Terms, S p (a ++ b) k = S p a k + S p b k
  | [], b => by rw [List.nil_append, S, zero_add]
  | t :: a, b => by rw [List.cons_append, S, S, S_append p k a b, add_assoc]

theorem deg_lt {ts : Terms} (h : ts.Pairwise (fun a b => a.1 < b.1)) : ∀ t ∈ ts, t.1 < deg ts := by
  intro t ht
  unfold deg
  cases hl : ts.getLast? with
  | none => rw [List.getLast?_eq_none_iff] at hl; subst hl; cases ht
  | some l => have := sorted_last h hl t ht; dsimp only; omega

theorem toFpsLoop_spec {p N : Nat} : ∀ (ts : Terms) (h : List Nat) (φ : Nat → ZMod p), RepZ p h N φ → Ok p ts → (∀ t ∈ ts, t.1 < N ∧ φ t.1 = 0) →
    ∃ h', toFpsLoop ts h = some h' ∧ RepZ p h' N (fun k => φ k + S p ts k)
  | [], h, φ, R, _, _ => ⟨h, rfl, R.congr (fun k _ => by rw [S, add_zero])⟩
  | t :: ts, h, φ, R, hok, ht => by
    obtain ⟨h1, h2⟩ := ht t List.mem_cons_self
    obtain ⟨g, eg, Rg⟩ := R.wr h1 (hok.2 t List.mem_cons_self)
    have hne : ∀ u ∈ ts, t.1 < u.1 := (List.pairwise_cons.1 hok.1).1
    obtain ⟨h', e, R'⟩ := toFpsLoop_spec ts g _ Rg hok.tail (fun u hu => by
      obtain ⟨h3, h4⟩ := ht u (List.mem_cons_of_mem _ hu)
      exact ⟨h3, by rw [upd_ne _ _ (by have := hne u hu; omega), h4]⟩)
    refine ⟨h', by rw [toFpsLoop, eg, Option.bind_some, e], R'.congr fun k _ => ?_⟩
    rw [S]
    by_cases hk : k = t.1
    · subst hk
      rw [upd_same, if_pos rfl, h2, zero_add]
    · rw [upd_ne _ _ hk, if_neg hk, zero_add]

theorem toFps_spec {p : Nat} (h0 : 0 < p) {ts : Terms} (hok : Ok p ts) : ∃ g, toFps ts = some g ∧ RepZ p g (deg ts) (S p ts) := by
  unfold toFps
  by_cases h : ts = []
  · subst h
    exact ⟨[], by rw [if_pos rfl], rfl, fun i hi => absurd hi (Nat.not_lt_zero _)⟩
  · rw [if_neg h]
    obtain ⟨g, e, R⟩ := toFpsLoop_spec ts _ _ (zeros_rep h0 (deg ts)) hok (fun t ht => ⟨deg_lt hok.1 t ht, rfl⟩)
    exact ⟨g, e, R.congr fun k _ => zero_add _⟩

theorem S_ge_deg {p k : Nat} {ts : Terms} (h : ts.Pairwise (fun a b => a.1 < b.1)) (hk : deg ts ≤ k) : S p ts k = 0 :=
  S_zero fun t ht => by have := deg_lt h t ht; omega

/-! Equality -/

theorem dropWhile_self {ts : Terms} (h : ∀ t ∈ ts, t.2 ≠ 0) : ts.dropWhile (fun t => t.2 == 0) = ts := by
  cases ts with
  | nil => rfl
  | cons t ts => rw [List.dropWhile_cons_of_neg (by simpa using h t List.mem_cons_self)]

theorem eqLoop_spec : ∀ (f : Nat) (a b : Terms), a.length ≤ f → (∀ t ∈ a, t.2 ≠ 0) → (∀ t ∈ b, t.2 ≠ 0) → (eqLoop f a b = true ↔ a = b)
  | 0, a, b, hf, _, _ => by
    have : a = [] := List.length_eq_zero_iff.1 (by omega)
    subst this
    cases b <;> simp [eqLoop]
  | f+1, a, b, hf, ha, hb => by
    rw [eqLoop]
    cases a with
    | nil => cases b <;> simp
    | cons x xs =>
      cases b with
      | nil => simp
      | cons y ys =>
        rw [if_neg (by simp), dropWhile_self ha, dropWhile_self hb]
        dsimp only
        by_cases hxy : x = y
        · subst hxy
          rw [if_neg (by simp), eqLoop_spec f xs ys (by rw [List.length_cons] at hf; omega) (fun t h => ha t (List.mem_cons_of_mem _ h)) (fun t h => hb t (List.mem_cons_of_mem _ h))]
          simp
        · rw [if_pos hxy]
          simp [hxy]

theorem S_head {p : Nat} {t : Nat × Nat} {ts : Terms} (h : (t :: ts).Pairwise (fun a b => a.1 < b.1)) : S p (t :: ts) t.1 = (t.2 : ZMod p) := by
  rw [S, if_pos rfl, S_zero, add_zero]
  intro u hu
  have := (List.pairwise_cons.1 h).1 u hu
  omega

theorem S_low {p k : Nat} {t : Nat × Nat} {ts : Terms} (h : (t :: ts).Pairwise (fun a b => a.1 < b.1)) (hk : k < t.1) : S p (t :: ts) k = 0 := by
  refine S_zero fun u hu => ?_
  rcases List.mem_cons.1 hu with h' | h'
  · subst h'; omega
  · have := (List.pairwise_cons.1 h).1 u h'; omega

theorem cast_ne0 {p a : Nat} (h : a < p) (h0 : a ≠ 0) : (a : ZMod p) ≠ 0 := by
  intro h1
  rw [ZMod.natCast_eq_zero_iff] at h1
  exact h0 (Nat.eq_zero_of_dvd_of_lt h1 h)

theorem S_inj {p : Nat} : ∀ (a b : Terms), Ok p a → Ok p b → (∀ t ∈ a, t.2 ≠ 0) → (∀ t ∈ b, t.2 ≠ 0) → (∀ k, S p a k = S p b k) → a = b
  | [], [], _, _, _, _, _ => rfl
  | [], y :: ys, _, hb, _, nb, h => by
    have := h y.1
    rw [S_head hb.1, S] at this
    exact absurd this.symm (cast_ne0 (hb.2 y List.mem_cons_self) (nb y List.mem_cons_self))
  | x :: xs, [], ha, _, na, _, h => by
    have := h x.1
    rw [S_head ha.1, S] at this
    exact absurd this (cast_ne0 (ha.2 x List.mem_cons_self) (na x List.mem_cons_self))
  | x :: xs, y :: ys, ha, hb, na, nb, h => by
    have hx := cast_ne0 (ha.2 x List.mem_cons_self) (na x List.mem_cons_self)
    have hy := cast_ne0 (hb.2 y List.mem_cons_self) (nb y List.mem_cons_self)
    have h1 : x.1 = y.1 := by
      rcases Nat.lt_trichotomy x.1 y.1 with h2 | h2 | h2
      · have := h x.1
        rw [S_head ha.1, S_low hb.1 h2] at this
        exact absurd this hx
      · exact h2
      · have := h y.1
        rw [S_head hb.1, S_low ha.1 h2] at this
        exact absurd this.symm hy
    have h2 : x.2 = y.2 := by
      have := h x.1
      rw [S_head ha.1, h1, S_head hb.1] at this
      exact cast_inj (ha.2 x List.mem_cons_self) (hb.2 y List.mem_cons_self) this
    have hxy : x = y := _root_.Prod.ext h1 h2
    subst hxy
    rw [S_inj xs ys ha.tail hb.tail (fun t h => na t (List.mem_cons_of_mem _ h)) (fun t h => nb t (List.mem_cons_of_mem _ h)) (fun k => by
      have := h k
      rw [S, S] at this
      exact add_left_cancel this)]

/-! Maps over the terms -/

theorem mapM_terms {p : Nat} {g : Nat × Nat → Option (Nat × Nat)} {e : Nat → Nat} {w : Nat → ZMod p} : ∀ ts : Terms,
    (∀ t ∈ ts, ∃ y, g t = some (e t.1, y) ∧ y < p ∧ (y : ZMod p) = w t.1 * t.2) →
    ∃ us, ts.mapM g = some us ∧ List.Forall₂ (fun t v => v.1 = e t.1 ∧ v.2 < p ∧ (v.2 : ZMod p) = w t.1 * (t.2 : ZMod p)) ts us
  | [], _ => ⟨[], rfl, List.Forall₂.nil⟩
  | t :: ts, h => by
    obtain ⟨y, ey, ly, cy⟩ := h t List.mem_cons_self
    obtain ⟨us, eu, F⟩ := mapM_terms ts (fun t ht => h t (List.mem_cons_of_mem _ ht))
    exact ⟨(e t.1, y) :: us, by rw [List.mapM_cons, ey, Option.bind_eq_bind, Option.bind_some, eu]; rfl, List.Forall₂.cons ⟨rfl, ly, cy⟩ F⟩

theorem shift_S {p k : Nat} {e : Nat → Nat} {w : Nat → ZMod p} : ∀ {ts us : Terms}, List.Forall₂ (fun t v => v.1 = e t.1 ∧ v.2 < p ∧ (v.2 : ZMod p) = w t.1 * (t.2 : ZMod p)) ts us →
    (∀ t ∈ ts, k ≤ t.1 ∧ e t.1 = t.1 - k) → ∀ j, S p us j = w (j + k) * S p ts (j + k)
  | _, _, List.Forall₂.nil, _, j => by rw [S, S, mul_zero]
  | _, _, List.Forall₂.cons (a := t) (b := v) ⟨h1, _, h3⟩ F, hk, j => by
    obtain ⟨h4, h5⟩ := hk t List.mem_cons_self
    rw [S, S, shift_S F (fun u hu => hk u (List.mem_cons_of_mem _ hu)) j, h1, h5, mul_add]
    congr 1
    by_cases hj : j = t.1 - k
    · rw [if_pos hj, if_pos (by omega), h3, show j + k = t.1 by omega]
    · rw [if_neg hj, if_neg (by omega), mul_zero]

theorem shift_mem {p k : Nat} {e : Nat → Nat} {w : Nat → ZMod p} : ∀ {ts us : Terms}, List.Forall₂ (fun t v => v.1 = e t.1 ∧ v.2 < p ∧ (v.2 : ZMod p) = w t.1 * (t.2 : ZMod p)) ts us →
    (∀ t ∈ ts, k ≤ t.1 ∧ e t.1 = t.1 - k) → ∀ v ∈ us, ∃ t ∈ ts, v.1 = t.1 - k ∧ v.2 < p ∧ (v.2 : ZMod p) = w t.1 * (t.2 : ZMod p)
  | _, _, List.Forall₂.nil, _, v, hv => absurd hv (by simp)
  | _, _, List.Forall₂.cons (a := t) (b := u) ⟨h1, h2, h3⟩ F, hk, v, hv => by
    rcases List.mem_cons.1 hv with h | h
    · subst h
      exact ⟨t, List.mem_cons_self, by rw [h1, (hk t List.mem_cons_self).2], h2, h3⟩
    · obtain ⟨t', ht, h4⟩ := shift_mem F (fun u hu => hk u (List.mem_cons_of_mem _ hu)) v h
      exact ⟨t', List.mem_cons_of_mem _ ht, h4⟩

theorem shift_ok {p k : Nat} {e : Nat → Nat} {w : Nat → ZMod p} : ∀ {ts us : Terms}, List.Forall₂ (fun t v => v.1 = e t.1 ∧ v.2 < p ∧ (v.2 : ZMod p) = w t.1 * (t.2 : ZMod p)) ts us →
    Ok p ts → (∀ t ∈ ts, k ≤ t.1 ∧ e t.1 = t.1 - k) → Ok p us
  | _, _, List.Forall₂.nil, _, _ => ⟨List.Pairwise.nil, by simp⟩
  | _, _, List.Forall₂.cons (a := t) (b := u) ⟨h1, h2, h3⟩ F, hok, hk => by
    have hk' := fun u hu => hk u (List.mem_cons_of_mem t hu)
    have ih := shift_ok F hok.tail hk'
    refine ⟨List.pairwise_cons.2 ⟨fun v hv => ?_, ih.1⟩, fun v hv => ?_⟩
    · obtain ⟨t', ht', h4, _⟩ := shift_mem F hk' v hv
      have := (List.pairwise_cons.1 hok.1).1 t' ht'
      have := (hk t List.mem_cons_self)
      rw [h1, h4, this.2]
      omega
    · rcases List.mem_cons.1 hv with h | h
      · subst h; exact h2
      · exact ih.2 v h

/-! Product -/

theorem mulRow_spec {p : Nat} (hp : p < 2^31) {f : List Nat} (hf : ∀ a ∈ f, a < p) {N : Nat} {x : Nat × Nat} (hx : x.2 < p) (hN : x.1 + f.length ≤ N) {h : List Nat} {φ : Nat → ZMod p} (R : RepZ p h N φ) :
    ∃ h', mulRow p f x h = some h' ∧ RepZ p h' N (fun k => φ k + if x.1 ≤ k then (x.2 : ZMod p) * cf p f (k - x.1) else 0) := by
  unfold mulRow
  obtain ⟨h', e, R'⟩ := rowLoop (o := x.1) (m := f.length) (ψ := fun i => (x.2 : ZMod p) * cf p f i)
    (body := fun i h => (f[i]?).bind (fun y => addMul p (i + x.1) x.2 y h)) (fun j h φ hj R => by
      obtain ⟨a, ea, la, ca⟩ := cf_mem hf hj
      obtain ⟨h', e, R'⟩ := addMul_spec hp R (k := j + x.1) (by omega) hx la
      refine ⟨h', by rw [ea, Option.bind_some, e], ?_⟩
      rw [← ca, Nat.add_comm x.1 j]
      exact R') R
  refine ⟨h', e, R'.congr fun k _ => ?_⟩
  by_cases h1 : x.1 ≤ k
  · by_cases h2 : k < x.1 + f.length
    · rw [if_pos ⟨h1, h2⟩, if_pos h1]
    · rw [if_neg (by omega), if_pos h1, cf_ge (by omega), mul_zero]
  · rw [if_neg (by omega), if_neg h1]

theorem mulRows_spec {p : Nat} (hp : p < 2^31) {f : List Nat} (hf : ∀ a ∈ f, a < p) {N : Nat} : ∀ (ts : Terms), (∀ t ∈ ts, t.2 < p ∧ t.1 + f.length ≤ N) →
    ∀ (h : List Nat) (φ : Nat → ZMod p), RepZ p h N φ → ∃ h', mulRows p f ts h = some h' ∧ RepZ p h' N (fun k => φ k + mulF (S p ts) (cf p f) k)
  | [], _, h, φ, R => ⟨h, rfl, R.congr (fun k _ => by rw [show S p [] = fun _ => 0 from rfl, mulF_zero_left, add_zero])⟩
  | t :: ts, ht, h, φ, R => by
    obtain ⟨h1, h2⟩ := ht t List.mem_cons_self
    obtain ⟨g, eg, Rg⟩ := mulRow_spec hp hf h1 h2 R
    obtain ⟨h', e, R'⟩ := mulRows_spec hp hf ts (fun u hu => ht u (List.mem_cons_of_mem _ hu)) g _ Rg
    refine ⟨h', by rw [mulRows, eg, Option.bind_some, e], R'.congr fun k _ => ?_⟩
    rw [mulF_S, add_assoc]

theorem mulFps_spec {p : Nat} (h0 : 0 < p) (hp : p < 2^31) {ts : Terms} (hok : Ok p ts) {f : List Nat} (hf : ∀ a ∈ f, a < p) :
    ∃ g, mulFps p ts f = some g ∧ (∀ a ∈ g, a < p) ∧ ser p g = sps p ts * ser p f := by
  have hmul : ∀ k, coeff k (sps p ts * ser p f) = mulF (S p ts) (cf p f) k := fun k => by rw [sps_eq]; exact coeff_mul_ps _ _ k
  have hnil : ser p [] = 0 := by ext k; rw [coeff_ser, cf_ge (by simp), map_zero]
  unfold mulFps
  by_cases h : ts = [] ∨ f = []
  · rw [if_pos h]
    refine ⟨[], rfl, by simp, ?_⟩
    rw [hnil]
    rcases h with h | h
    · subst h; rw [show sps p [] = 0 from rfl, zero_mul]
    · subst h; rw [hnil, mul_zero]
  · rw [if_neg h]
    have h' : ts ≠ [] ∧ f ≠ [] := not_or.1 h
    have hd : ∀ t ∈ ts, t.1 < deg ts := deg_lt hok.1
    obtain ⟨g, e, R⟩ := mulRows_spec hp hf (N := deg ts - 1 + f.length) ts (fun t ht => ⟨hok.2 t ht, by have := hd t ht; omega⟩) _ _ (zeros_rep h0 _)
    have R := R.congr (ψ := mulF (S p ts) (cf p f)) (fun k _ => zero_add _)
    refine ⟨g, e, R.red, ?_⟩
    ext k
    rw [hmul, coeff_ser]
    by_cases hk : k < deg ts - 1 + f.length
    · exact R.cf_eq hk
    · rw [cf_ge (by rw [R.len]; omega)]
      symm
      unfold mulF
      refine Finset.sum_eq_zero fun i hi => ?_
      by_cases hi2 : i < deg ts
      · rw [cf_ge (f := f) (by have := Finset.mem_range.1 hi; omega), mul_zero]
      · rw [S_ge_deg hok.1 (by omega), zero_mul]

/-! Division -/

theorem divSparse_ok {p : Nat} (hpr : p.Prime) (hp : p < 2^31) {f : List Nat} (hf : ∀ a ∈ f, a < p) {x : Nat × Nat} {xs : Terms} (hok : Ok p (x :: xs)) (hx : x.1 = 0) (hx0 : x.2 ≠ 0) :
    ∃ q, divSparse p f (x :: xs) = some q ∧ (∀ a ∈ q, a < p) ∧ Agree f.length (sps p (x :: xs) * ser p q) (ser p f) := by
  haveI : Fact p.Prime := ⟨hpr⟩
  have h2 := hpr.two_le
  have hm : p ≤ 2^31 := by omega
  have hmul : ∀ (ts : Terms) q k, coeff k (sps p ts * ser p q) = mulF (S p ts) (cf p q) k := fun ts q k => by rw [sps_eq]; exact coeff_mul_ps _ _ k
  unfold divSparse
  by_cases hz : ∀ a ∈ f, a = 0
  · rw [if_pos hz]
    refine ⟨[], rfl, by simp, fun k hk => ?_⟩
    rw [hmul, coeff_ser, show cf p [] = fun _ => 0 from funext fun _ => cf_ge (by simp)]
    obtain ⟨a, _, _, ca⟩ := cf_mem hf hk
    have ha : a = 0 := hz a (List.mem_of_getElem? (by assumption))
    rw [← ca, ha, Nat.cast_zero]
    unfold mulF
    exact Finset.sum_eq_zero fun i _ => mul_zero _
  rw [if_neg hz]
  dsimp only
  rw [if_neg (by omega)]
  by_cases h1 : x.2 = 1
  · rw [if_pos h1]
    obtain ⟨q, N, e, hN, _, hr, hq⟩ := divOne_spec hpr hp hf (x := x) (xs := xs) (_root_.Prod.ext hx h1) hok.1 (fun t ht => hok.2 t (List.mem_cons_of_mem _ ht))
    exact ⟨q, e, hr, fun k hk => by rw [hmul, coeff_ser, hq k (by omega)]⟩
  · rw [if_neg h1]
    have hxp := hok.2 x List.mem_cons_self
    obtain ⟨c, ec, lc, cc⟩ := inv_spec hm hxp hx0
    have hxz := cast_ne0 hxp hx0
    rw [ec, Option.bind_some]
    obtain ⟨us, eu, F⟩ := mapM_terms (p := p) (g := fun t => (mul p t.2 c).map (fun y => (t.1, y))) (e := id) (w := fun _ => (c : ZMod p)) (x :: xs) (fun t ht => by
      obtain ⟨y, ey, ly, cy⟩ := mul_cast hm (hok.2 t ht) lc
      exact ⟨y, by rw [ey]; rfl, ly, by rw [cy, mul_comm]⟩)
    rw [eu, Option.bind_some]
    have hS := shift_S (k := 0) (e := id) (w := fun _ => (c : ZMod p)) F (fun t _ => ⟨Nat.zero_le _, rfl⟩)
    have hO := shift_ok (k := 0) (e := id) (w := fun _ => (c : ZMod p)) F hok (fun t _ => ⟨Nat.zero_le _, rfl⟩)
    cases F with
    | cons hv F =>
      rename_i v vs
      obtain ⟨v1, v2, v3⟩ := hv
      have hv : v = (0, 1) := by
        refine _root_.Prod.ext (by rw [v1]; exact hx) ?_
        refine cast_inj v2 (b := 1) (by omega) ?_
        rw [v3, cc, inv_mul_cancel₀ hxz, Nat.cast_one]
      obtain ⟨q, N, e, hN, hql, hr, hq⟩ := divOne_spec hpr hp hf (x := v) (xs := vs) hv hO.1 (fun t ht => hO.2 t (List.mem_cons_of_mem _ ht))
      rw [e, Option.bind_some]
      obtain ⟨h, eh, Rh⟩ := mapM_rep (c := fun y => mul p y c) (u := fun y => y * (c : ZMod p)) (fun y hy => by
        obtain ⟨z, ez, lz, cz⟩ := mul_cast hm hy lc
        exact ⟨z, ez, lz, cz⟩) (RepZ.of_red hr)
      refine ⟨h, eh, Rh.red, fun k hk => ?_⟩
      rw [hmul, coeff_ser, ← hq k (by omega)]
      unfold mulF
      refine Finset.sum_congr rfl fun i hi => ?_
      have := Finset.mem_range.1 hi
      rw [Rh.cf_eq (by omega), hS i]
      ring

/-! Exponential -/

theorem toInt32_small {x : Nat} (h : x < 2^31) : toInt32 x = x := by
  unfold toInt32
  rw [Int.bmod_def]
  split <;> omega

theorem expDot_eq (p i : Nat) (h : List Nat) (hi : 0 < i) : ∀ (ts : Terms) s, (∀ t ∈ ts, t.1 ≤ 2^31) → expDot p i h ts s = Fps.expDot p i h ts s
  | [], _, _ => rfl
  | t :: ts, s, ht => by
    have h1 := ht t List.mem_cons_self
    have ih := fun s => expDot_eq p i h hi ts s (fun u hu => ht u (List.mem_cons_of_mem _ hu))
    rw [expDot, Fps.expDot]
    split
    · exact ih s
    · rw [toInt32_small (by omega)]
      congr 1
      funext c
      by_cases h2 : t.1 - 1 > i - 1
      · rw [if_pos h2, if_pos (by omega)]
      · rw [if_neg h2, if_neg (by omega), show ((i : Int) - 1 - ((t.1 - 1 : Nat) : Int)).toNat = i - 1 - (t.1 - 1) by omega]
        congr 1
        funext y
        congr 1
        funext z
        exact ih _

theorem forUp_congr {σ : Type} {f g : Nat → σ → Option σ} {a b : Nat} (h : ∀ i s, a ≤ i → i < b → f i s = g i s) (s : σ) : forRange a b f s = forRange a b g s := by
  unfold forRange
  generalize hn : b - a = n
  induction n generalizing a s with
  | zero => rfl
  | succ n ih =>
    rw [forUp, forUp, h a s (le_refl _) (by omega)]
    congr 1
    funext s'
    exact ih (fun i s h1 h2 => h i s (by omega) h2) s' (by omega)

theorem expImpl_eq (p : Nat) (tb : List Nat) (ts : Terms) (n : Nat) (ht : ∀ t ∈ ts, t.1 ≤ 2^31) : expImpl p tb ts n = expSparseImpl p tb ts n := by
  unfold expImpl expSparseImpl
  congr 1
  funext h
  congr 1
  funext tb
  refine forUp_congr (fun i h h1 _ => ?_) h
  unfold expStep expSparseStep
  rw [expDot_eq p i h (by omega) ts _ ht]

theorem exp_spec {p n : Nat} (hpr : p.Prime) (hp : p < 2^31) {tb : List Nat} (hT : Full p tb) {ts : Terms} (hok : Ok p ts) (h0 : coeff 0 (sps p ts) = 0) (hb : ∀ t ∈ ts, t.1 ≤ 2^31) (hn : n ≤ p) :
    ∃ e, exp p tb ts n = some e ∧ (∀ a ∈ e, a < p) ∧ Agree n (ser p e) (expS n (sps p ts)) := by
  haveI : Fact p.Prime := ⟨hpr⟩
  have h2 := hpr.two_le
  by_cases hn0 : n = 0
  · subst hn0
    refine ⟨[], ?_, by simp, fun k hk => absurd hk (Nat.not_lt_zero _)⟩
    unfold exp
    cases ts with
    | nil => rfl
    | cons t ts =>
      dsimp only
      rw [if_neg (by
        rintro ⟨h3, h4⟩
        rw [coeff_sps, ← h3, S_head hok.1] at h0
        exact cast_ne0 (hok.2 t List.mem_cons_self) h4 h0), if_pos rfl]
  suffices h : ∃ e, exp p tb ts n = some e ∧ IsExp p n (sps p ts) e by
    obtain ⟨e, h1, h3⟩ := h
    exact ⟨e, h1, h3.1, h3.agree hpr (by omega) hn h0⟩
  obtain ⟨l1, c1⟩ := ofInt_nat (p := p) (by omega) 1
  unfold exp
  cases ts with
  | nil =>
    dsimp only
    rw [if_neg hn0]
    refine ⟨_, rfl, by intro a ha; rw [List.mem_singleton] at ha; rw [ha]; exact l1, ?_, ?_⟩
    · rw [coeff_ser, cf_cons, if_pos rfl]
      exact c1.trans Nat.cast_one
    · intro k hk
      rw [show sps p [] = 0 from rfl, map_zero, zero_mul, coeff_derivative, coeff_ser, cf_cons, if_neg (by omega), cf_ge (by simp), zero_mul, map_zero]
  | cons t ts =>
    dsimp only
    rw [if_neg (by
        rintro ⟨h3, h4⟩
        rw [coeff_sps, ← h3, S_head hok.1] at h0
        exact cast_ne0 (hok.2 t List.mem_cons_self) h4 h0), if_neg hn0, expImpl_eq _ _ _ _ hb]
    obtain ⟨e, γ, ee, R, hγ0, hγ⟩ := expSparseImpl_spec hpr hp hT (ts := t :: ts) (n := n) (by omega) hn hok.1 hok.2
    refine ⟨e, ee, R.red, ?_, ?_⟩
    · rw [coeff_ser, R.cf_eq (by omega), hγ0]
    · have h1 : Agree n (ser p e) (ps γ) := fun k hk => by rw [coeff_ser, R.cf_eq hk, coeff_ps]
      have h4 := ode_of_rec hγ
      rw [sps_eq]
      exact h1.deriv.trans (h4.trans ((Agree.refl _ _).mul (h1.symm.mono (by omega))))

/-! Powers -/

theorem pow1_spec {p : Nat} (hpr : p.Prime) (hp : p < 2^31) {tb : List Nat} (hT : Full p tb) {ts : Terms} (hok : Ok p ts) (hc0 : S p ts 0 = 1) {D : Nat} (hD0 : 0 < D) (hD : D ≤ p) (n : Int) :
    ∃ g, pow1SparseImpl p tb ts n D = some g ∧ IsPow1 p D (n : ZMod p) (sps p ts) g := by
  haveI : Fact p.Prime := ⟨hpr⟩
  have h2 := hpr.two_le
  have hm : p ≤ 2^31 := by omega
  obtain ⟨l1, c1⟩ := ofInt_nat (p := p) (by omega) 1
  obtain ⟨h0, e0, R0⟩ := (zeros_rep (p := p) (by omega) D).wr (i := 0) hD0 l1
  obtain ⟨tb', et, hT', _⟩ := setInv_full hm (n := D-1) (by omega) hT
  have hz : ofInt p 0 = 0 := by have := ofInt_eq (m := p) (by omega) 0; simpa using this
  have hne : ts ≠ [] := by
    intro h
    subst h
    exact zero_ne_one hc0
  have hNl := ofInt_lt (m := p) (by omega) n
  obtain ⟨g, e, γ, R, hγ0, -, hγ⟩ := forRange_inv (a := 1) (b := D) (s := h0) (body := powStep p tb' (ofInt p n) ts)
    (P := fun i (g : List Nat) => ∃ γ, RepZ p g D γ ∧ γ 0 = 1 ∧ (∀ k, i ≤ k → γ k = 0) ∧
      ∀ k, k < i → mulF (S p ts) (th γ) k = (n : ZMod p) * mulF (th (S p ts)) γ k) (by omega)
    ⟨_, R0, by rw [upd_same, c1, Nat.cast_one], fun k hk => by rw [upd_ne _ _ (by omega)], fun k hk => by
      have : k = 0 := by omega
      subst this
      unfold mulF th
      rw [Finset.sum_range_one, Finset.sum_range_one, Nat.sub_zero, Nat.cast_zero]
      ring⟩ (by
      rintro i g h1 hi ⟨γ, R, hγ0, hγz, hγ⟩
      obtain ⟨s, es, ls, cs⟩ := powDot_spec (by omega) hp hNl R hi ts (ofInt p 0) hok.1 hok.2 (by omega)
      obtain ⟨v, ev, lv, cv⟩ := tableInv_spec hpr hm hT' (i := i) (by omega)
      obtain ⟨y, ey, ly, cy⟩ := mul_cast hm ls lv
      obtain ⟨g', e, R'⟩ := R.wr hi ly
      refine ⟨g', by unfold powStep; rw [es, Option.bind_some, ev, Option.bind_some, ey, Option.bind_some, e], _, R', ?_, ?_, ?_⟩
      · rw [upd_ne _ _ (by omega), hγ0]
      · intro k hk
        rw [upd_ne _ _ (by omega), hγz k (by omega)]
      · intro k hk
        have hth : th (upd γ i ((y : Nat) : ZMod p)) = upd (th γ) i ((i : ZMod p) * y) := by
          funext j
          unfold th
          by_cases hj : j = i
          · subst hj; rw [upd_same, upd_same]
          · rw [upd_ne _ _ hj, upd_ne _ _ hj]
        rw [hth, mulF_upd _ _ _ _ (by omega), mulF_upd _ _ _ _ (by omega), show th (S p ts) 0 = 0 by unfold th; rw [Nat.cast_zero, zero_mul], zero_mul, ite_self, add_zero]
        by_cases hki : k = i
        · subst hki
          rw [if_pos rfl, cy, cs, cv, hz, Nat.cast_zero, zero_add, ofInt_cast (by omega), hc0, show th γ k = 0 by unfold th; rw [hγz k (le_refl _), mul_zero]]
          have := mul_inv_cancel₀ (cast_ne (p := p) (k := k) (by omega) (by omega))
          linear_combination ((n : ZMod p) * mulF (th (S p ts)) γ k - mulF (S p ts) (th γ) k) * this
        · rw [if_neg hki, add_zero, hγ k (by omega)])
  refine ⟨g, by unfold pow1SparseImpl; rw [if_neg hne, show ofInt p 1 = ofInt p ((1:Nat) : Int) from rfl, e0, Option.bind_some, et, Option.bind_some, e], R.len, R.red, ?_, ?_⟩
  · rw [coeff_ser, R.cf_eq hD0, hγ0]
  · have h1 : Agree D (ser p g) (ps γ) := fun k hk => by rw [coeff_ser, R.cf_eq hk, coeff_ps]
    rw [sps_eq]
    have key : Agree (D - 1) (ps (S p ts) * d⁄dX _ (ps γ)) (PowerSeries.C (n : ZMod p) * d⁄dX _ (ps (S p ts)) * ps γ) := by
      intro k hk
      have h3 := hγ (k+1) (by omega)
      rw [← coeff_mul_ps, ← coeff_mul_ps, ps_th, ps_th, ← PowerSeries.coeff_C_mul, mul_left_comm, PowerSeries.coeff_succ_X_mul, mul_assoc PowerSeries.X, mul_left_comm, PowerSeries.coeff_succ_X_mul, ← mul_assoc] at h3
      exact h3
    exact ((Agree.refl _ _).mul h1.deriv).trans (key.trans ((Agree.refl _ _).mul (h1.symm.mono (by omega))))

theorem wrap_sub {a k : Nat} (ha : a < 2^64) (hk : k ≤ a) : (a + 2^64 - k) % 2^64 = a - k := by omega

theorem powTail_spec {p : Nat} (hpr : p.Prime) (hp : p < 2^31) {tb : List Nat} (hT : Full p tb) {t : Nat × Nat} {ts : Terms} (hok : Ok p (t :: ts)) (hb : ∀ u ∈ t :: ts, u.1 < 2^64)
    (hc0 : t.2 ≠ 0) {D n : Nat} (hD0 : 0 < D) (hD : D ≤ p) (hn : n < 2^63) :
    ∃ g, powTail p tb (t :: ts) n t.1 t.2 D = some g ∧ g.length = D ∧ (∀ a ∈ g, a < p) ∧ Agree D (ser p g) (sps p (t :: ts) ^ n) := by
  haveI : Fact p.Prime := ⟨hpr⟩
  have h2 := hpr.two_le
  have hm : p ≤ 2^31 := by omega
  have hcp := hok.2 t List.mem_cons_self
  have hcz := cast_ne0 hcp hc0
  obtain ⟨ic, eic, lic, cic⟩ := inv_spec hm hcp hc0
  have hk : ∀ u ∈ t :: ts, t.1 ≤ u.1 ∧ (u.1 + 2^64 - t.1) % 2^64 = u.1 - t.1 := by
    intro u hu
    have : t.1 ≤ u.1 := by
      rcases List.mem_cons.1 hu with h | h
      · subst h; exact le_refl _
      · exact le_of_lt ((List.pairwise_cons.1 hok.1).1 u h)
    exact ⟨this, wrap_sub (hb u hu) this⟩
  obtain ⟨us, eu, F⟩ := mapM_terms (p := p) (g := fun u => (mul p u.2 ic).map (fun y => ((u.1 + 2^64 - t.1) % 2^64, y))) (e := fun a => (a + 2^64 - t.1) % 2^64) (w := fun _ => (ic : ZMod p)) (t :: ts)
    (fun u hu => by
      obtain ⟨y, ey, ly, cy⟩ := mul_cast hm (hok.2 u hu) lic
      exact ⟨y, by rw [ey]; rfl, ly, by rw [cy, mul_comm]⟩)
  have hS := shift_S (k := t.1) (e := fun a => (a + 2^64 - t.1) % 2^64) (w := fun _ => (ic : ZMod p)) F hk
  have hO := shift_ok (k := t.1) (e := fun a => (a + 2^64 - t.1) % 2^64) (w := fun _ => (ic : ZMod p)) F hok hk
  have hser : sps p (t :: ts) = PowerSeries.X^t.1 * (PowerSeries.C ((t.2 : Nat) : ZMod p) * sps p us) := by
    ext j
    rw [PowerSeries.coeff_X_pow_mul', coeff_sps]
    by_cases hj : t.1 ≤ j
    · rw [if_pos hj, PowerSeries.coeff_C_mul, coeff_sps, hS, cic, ← mul_assoc, mul_inv_cancel₀ hcz, one_mul, show j - t.1 + t.1 = j by omega]
    · rw [if_neg hj, S_low hok.1 (by omega)]
  have hg0 : S p us 0 = 1 := by
    rw [hS, Nat.zero_add, S_head hok.1, cic, inv_mul_cancel₀ hcz]
  obtain ⟨h, eh, hh⟩ := pow1_spec hpr hp hT hO hg0 hD0 hD (n : Int)
  have hh' : IsPow1 p D ((n : Nat) : ZMod p) (sps p us) h := by
    have := hh
    rwa [Int.cast_natCast] at this
  have hag := hh'.agree hD (by rw [coeff_sps, hg0])
  have hhl := hh.1
  obtain ⟨cpn, ec, lc, cc⟩ := pow_cast hm hcp hn
  generalize hkk : t.1 = k at *
  obtain ⟨o, eo, Ro⟩ := forRange_inv (a := 0) (b := h.length) (s := List.replicate (k*n + h.length) 0) (body := powOut p cpn (k*n) h)
    (P := fun j (o : List Nat) => RepZ p o (k*n + h.length) (fun i => if k*n ≤ i ∧ i < k*n + j then cf p h (i - k*n) * ((t.2 : Nat) : ZMod p)^n else 0)) (by omega)
    ((zeros_rep (p := p) (by omega) _).congr (fun i _ => by rw [if_neg (by omega)])) (by
      intro j o _ hj R
      obtain ⟨x, ex, lx, cx⟩ := (RepZ.of_red hh.2.1).val j hj
      obtain ⟨y, ey, ly, cy⟩ := mul_cast hm lx lc
      obtain ⟨o', e, R'⟩ := R.wr (i := k*n + j) (by omega) ly
      refine ⟨o', by unfold powOut; rw [ex, Option.bind_some, ey, Option.bind_some, e], R'.congr fun i _ => ?_⟩
      by_cases hi : i = k*n + j
      · rw [hi, upd_same, if_pos (by omega), cy, cx, cc, Nat.add_sub_cancel_left]
      · rw [upd_ne _ _ hi]
        by_cases h4 : k*n ≤ i ∧ i < k*n + j
        · rw [if_pos h4, if_pos (by omega)]
        · rw [if_neg h4, if_neg (by omega)])
  have Rp := pre_rep (p := p) (by omega) Ro.red D
  refine ⟨pre D o, by unfold powTail; rw [eic, Option.bind_some, eu, Option.bind_some, eh, Option.bind_some, ec, Option.bind_some, eo, Option.map_some], Rp.len, Rp.red, ?_⟩
  intro j hj
  rw [hser, mul_pow, mul_pow, ← pow_mul, ← map_pow, PowerSeries.coeff_X_pow_mul', coeff_ser, Rp.cf_eq hj, Ro.cf_eq (by omega)]
  by_cases h4 : k*n ≤ j
  · rw [if_pos (by omega), if_pos h4, PowerSeries.coeff_C_mul, ← hag (j - k*n) (by omega), coeff_ser, mul_comm]
  · rw [if_neg (by omega), if_neg h4]

theorem pow_spec {p : Nat} (hpr : p.Prime) (hp : p < 2^31) {tb : List Nat} (hT : Full p tb) {ts : Terms} (hok : Ok p ts) (hb : ∀ u ∈ ts, u.1 < 2^64) (hnz : ∀ t, ts.head? = some t → t.2 ≠ 0)
    {D n : Nat} (hD0 : 0 < D) (hD : D ≤ p) (hn : n < 2^63) :
    ∃ g, pow p tb ts n D = some g ∧ (∀ a ∈ g, a < p) ∧ Agree D (ser p g) (sps p ts ^ n) := by
  haveI : Fact p.Prime := ⟨hpr⟩
  have h2 := hpr.two_le
  have hnil : ser p [] = 0 := by ext k; rw [coeff_ser, cf_ge (by simp), map_zero]
  unfold pow
  by_cases hn0 : n = 0
  · subst hn0
    obtain ⟨l1, c1⟩ := ofInt_nat (p := p) (by omega) 1
    rw [if_pos rfl]
    refine ⟨_, rfl, by intro a ha; rw [List.mem_singleton] at ha; rw [ha]; exact l1, fun k _ => ?_⟩
    rw [pow_zero, PowerSeries.coeff_one, coeff_ser, cf_cons]
    by_cases hk : k = 0
    · rw [if_pos hk, if_pos hk]; exact c1.trans Nat.cast_one
    · rw [if_neg hk, if_neg hk, cf_ge (by simp)]
  rw [if_neg hn0]
  cases ts with
  | nil =>
    refine ⟨[], rfl, by simp, fun j _ => ?_⟩
    rw [hnil, show sps p [] = 0 from rfl, zero_pow hn0]
  | cons t ts =>
    have h0 := hnz t rfl
    rw [List.find?_cons_of_pos (by simpa using h0)]
    obtain ⟨k, c⟩ := t
    dsimp only
    have hlow : ∀ j, j < k → coeff j (sps p ((k, c) :: ts)) = 0 := fun j hj => by rw [coeff_sps, S_low hok.1 hj]
    by_cases hbig : k ≠ 0 ∧ n ≥ (D + k - 1) / k
    · rw [if_pos hbig]
      have hdvd : PowerSeries.X^(k*n) ∣ sps p ((k, c) :: ts) ^ n := by
        rw [pow_mul]
        refine pow_dvd_pow_of_dvd ?_ n
        rw [PowerSeries.X_pow_dvd_iff]
        exact hlow
      refine ⟨[], rfl, by simp, fun j hj => ?_⟩
      have h3 : D + k - 1 < (n + 1) * k := (Nat.div_lt_iff_lt_mul (by omega)).1 (by omega)
      rw [Nat.add_mul, Nat.one_mul] at h3
      rw [hnil, map_zero, (PowerSeries.X_pow_dvd_iff.1 hdvd) j (by rw [mul_comm]; omega)]
    · rw [if_neg hbig]
      by_cases h1 : k = 0 ∧ c = 1
      · rw [if_pos h1]
        have hS : S p ((k, c) :: ts) 0 = 1 := by
          have := S_head (p := p) hok.1
          rw [show ((k, c) : Nat × Nat).1 = 0 from h1.1, show ((k, c) : Nat × Nat).2 = 1 from h1.2, Nat.cast_one] at this
          exact this
        obtain ⟨g, eg, hg⟩ := pow1_spec hpr hp hT hok hS hD0 hD (n : Int)
        rw [Int.cast_natCast] at hg
        exact ⟨g, eg, hg.2.1, hg.agree hD (by rw [coeff_sps, hS])⟩
      · rw [if_neg h1]
        obtain ⟨g, eg, _, hr, ha⟩ := powTail_spec hpr hp hT hok hb h0 hD0 hD hn
        exact ⟨g, eg, hr, ha⟩

end Verif.SparseFps
