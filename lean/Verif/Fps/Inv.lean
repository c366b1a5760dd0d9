import Verif.Fps.Mul
import Verif.Fps.Series
/-!
The reciprocal: Newton's iteration and the recurrence over the terms.
-/
namespace Verif.Fps
open Verif.Modular Verif.Ntt

theorem pre_rep {p : Nat} (h0 : 0 < p) {f : List Nat} (hf : ∀ a ∈ f, a < p) (n : Nat) : RepZ p (pre n f) n (cf p f) := by
  refine ⟨by unfold pre; rw [List.length_append, List.length_take, List.length_replicate]; omega, ?_⟩
  intro i hi
  unfold pre
  by_cases hl : i < f.length
  · obtain ⟨a, e, la, ca⟩ := cf_mem hf hl
    refine ⟨a, ?_, la, ca⟩
    rw [List.getElem?_append_left (by rw [List.length_take]; omega), List.getElem?_take, if_pos hi, e]
  · refine ⟨0, ?_, h0, by rw [cf_ge (by omega), Nat.cast_zero]⟩
    rw [List.getElem?_append_right (by rw [List.length_take]; omega), List.getElem?_replicate, if_pos (by rw [List.length_take]; omega)]

/-- `g` holds the first `m` coefficients of the reciprocal of `a`. -/
def IsInv (p : Nat) (g : List Nat) (m : Nat) (a : Nat → ZMod p) : Prop :=
  g.length = m ∧ (∀ x ∈ g, x < p) ∧ ∀ k, k < m → mulF (cf p g) a k = if k = 0 then 1 else 0

theorem copy_spec {p : Nat} {f fm : List Nat} {m nm : Nat} (hf : ∀ a ∈ f, a < p) (h0 : 0 < p) (hm : m ≤ nm)
    (R : RepZ p fm m (cf p f)) :
    ∃ fm', forRange m (min nm f.length) (copyStep f) (pre nm fm) = some fm' ∧ RepZ p fm' nm (cf p f) := by
  have R0 := pre_rep h0 R.red nm
  by_cases hlt : f.length ≤ m
  · refine ⟨pre nm fm, forRange_nil (by omega) _, R0.congr ?_⟩
    intro i hi
    by_cases h : i < m
    · exact R.cf_eq h
    · rw [cf_ge (by rw [R.len]; omega), cf_ge (by omega)]
  · obtain ⟨fm', e, R'⟩ := forRange_inv (a := m) (b := min nm f.length) (s := pre nm fm) (body := copyStep f)
      (P := fun i (h : List Nat) => RepZ p h nm (fun k => if k < i then cf p f k else 0)) (by omega)
      (R0.congr (fun k _ => by
        by_cases h : k < m
        · rw [if_pos h, R.cf_eq h]
        · rw [if_neg h, cf_ge (by rw [R.len]; omega)])) (by
        intro i h h1 h2 Rh
        obtain ⟨a, ea, la, ca⟩ := cf_mem hf (i := i) (by omega)
        obtain ⟨h', e, R'⟩ := Rh.wr (i := i) (by omega) la
        refine ⟨h', by unfold copyStep; rw [ea, Option.bind_some, e], R'.congr ?_⟩
        intro k _
        by_cases hk : k = i
        · subst hk; rw [upd_same, if_pos (by omega), ca]
        · rw [upd_ne _ _ hk]
          by_cases h3 : k < i
          · rw [if_pos h3, if_pos (by omega)]
          · rw [if_neg h3, if_neg (by omega)])
    refine ⟨fm', e, R'.congr ?_⟩
    intro k hk
    by_cases h : k < min nm f.length
    · rw [if_pos h]
    · rw [if_neg h, cf_ge (by omega)]

theorem neg_spec {p : Nat} (hp : p < 2^31) {t g : List Nat} {m nm : Nat} {τ : Nat → ZMod p} (hm : m ≤ nm) (Rt : RepZ p t nm τ)
    (Rg : RepZ p g nm (fun k => if k < m then cf p g k else 0)) :
    ∃ g', forRange m nm (negStep p t) g = some g' ∧ RepZ p g' nm (fun k => if k < m then cf p g k else - τ k) := by
  have hpm : p ≤ 2^31 := by omega
  obtain ⟨g', e, R'⟩ := forRange_inv (a := m) (b := nm) (s := g) (body := negStep p t)
    (P := fun i (h : List Nat) => RepZ p h nm (fun k => if k < m then cf p g k else if k < i then - τ k else 0)) hm
    (Rg.congr (fun k _ => by
      by_cases h : k < m
      · rw [if_pos h, if_pos h]
      · rw [if_neg h, if_neg h, if_neg h])) (by
      intro i h h1 h2 Rh
      obtain ⟨a, ea, la, ca⟩ := Rt.val i h2
      obtain ⟨h', e, R'⟩ := Rh.wr (i := i) h2 (neg_lt hpm la)
      refine ⟨h', by unfold negStep; rw [ea, Option.bind_some, e], R'.congr ?_⟩
      intro k _
      by_cases hk : k = i
      · subst hk; rw [upd_same, if_neg (by omega), if_pos (by omega), neg_cast hpm la, ca]
      · rw [upd_ne _ _ hk]
        by_cases h3 : k < m
        · rw [if_pos h3, if_pos h3]
        · rw [if_neg h3, if_neg h3]
          by_cases h4 : k < i
          · rw [if_pos h4, if_pos (by omega)]
          · rw [if_neg h4, if_neg (by omega)])
  refine ⟨g', e, R'.congr ?_⟩
  intro k hk
  by_cases h : k < m
  · rw [if_pos h, if_pos h]
  · rw [if_neg h, if_neg h, if_pos hk]

theorem newton_spec {p r n e : Nat} (H : Root p r) {f : List Nat} (hf : ∀ a ∈ f, a < p) {g fm : List Nat} (hm : 2^e < n) (he : e + 2 ≤ logN p)
    (hg : IsInv p g (2^e) (cf p f)) (hfm : RepZ p fm (2^e) (cf p f)) :
    ∃ s, newton p r n (2^e) f (g, fm) = some s ∧ IsInv p s.1 (min (2^e * 2) n) (cf p f) ∧ RepZ p s.2 (min (2^e * 2) n) (cf p f) := by
  have h2 := H.prime.two_le
  have hp := H.lt
  obtain ⟨hl, hred, hinv⟩ := hg
  have hpos := Nat.two_pow_pos e
  have e1 : 2^(e+1) = 2^e * 2 := pow_succ 2 e
  have e2 : 2^(e+2) = 2^e * 2 * 2 := by rw [pow_succ, pow_succ]
  generalize hnm : min (2^e * 2) n = nm
  obtain ⟨fm', ef, Rf⟩ := copy_spec (nm := nm) hf (by omega) (by omega) hfm
  obtain ⟨t1, N1, et1, P1, hN1⟩ := mulSet_spec H (k := e+1) (f := g) (r := g) hred hred (by omega) (by omega) (by omega)
  have hN1' : 0 < N1 := by
    by_contra h0
    have h4 := P1.out 0 (by omega)
    have h3 := hinv 0 hpos
    unfold mulF at h4 h3
    rw [Finset.sum_range_one, Nat.sub_zero] at h4 h3
    rw [if_pos rfl] at h3
    haveI : Fact p.Prime := ⟨H.prime⟩
    have hz : cf p g 0 = 0 := by
      rcases mul_eq_zero.1 h4 with h | h <;> exact h
    rw [hz, zero_mul] at h3
    exact zero_ne_one h3
  obtain ⟨t2, N2, et2, P2, hN2⟩ := mulSet_spec H (k := e+2) (f := t1) (r := fm') P1.rep.red Rf.red (by rw [P1.rep.len]; exact hN1') he
    (by rw [P1.rep.len, Rf.len]; omega)
  have Rt := pre_rep (p := p) (by omega) P2.rep.red nm
  have Rg := pre_rep (p := p) (by omega) hred nm
  have hcg : ∀ k, k < 2^e → cf p (pre nm g) k = cf p g k := fun k hk => Rg.cf_eq (by omega)
  obtain ⟨g', eg, Rg'⟩ := neg_spec hp (m := 2^e) (by omega) Rt (Rg.congr (fun k hk => by
    by_cases h : k < 2^e
    · rw [if_pos h, hcg k h]
    · rw [if_neg h, cf_ge (by omega)]))
  refine ⟨(g', fm'), ?_, ⟨Rg'.len, Rg'.red, ?_⟩, Rf⟩
  · unfold newton
    dsimp only
    rw [hnm, ef, Option.bind_some, et1, Option.bind_some, et2, Option.bind_some, eg, Option.map_some]
  · refine newton_series (a := cf p f) (g := cf p g) (m := 2^e) (by omega) (fun i hi => cf_ge (by omega)) hinv ?_ ?_
    · intro k hk
      rw [Rg'.cf_eq (by omega), if_pos hk, hcg k hk]
    · intro k hk hk2
      rw [Rg'.cf_eq hk2, if_neg (by omega), P2.cf_eq]
      refine congrArg _ (mulF_congr (fun i _ => P1.cf_eq i) (fun i hi => Rf.cf_eq (by omega)))

theorem newtonLoop_spec {p r n : Nat} (H : Root p r) {f : List Nat} (hf : ∀ a ∈ f, a < p) {K : Nat} (hn : n ≤ 2^K) (hK : K + 1 ≤ logN p) :
    ∀ t e (s : List Nat × List Nat), n < e + t → e ≤ K → 2^e < 2*n → IsInv p s.1 (min (2^e) n) (cf p f) → RepZ p s.2 (min (2^e) n) (cf p f) →
    ∃ g, newtonLoop p r n f t (2^e) s = some g ∧ IsInv p g n (cf p f) := by
  intro t
  induction t with
  | zero =>
    intro e s h1 _ h2 _ _
    exfalso
    have : e < 2^e := Nat.lt_two_pow_self
    cases e with
    | zero => omega
    | succ e =>
      have : e < 2^e := Nat.lt_two_pow_self
      rw [pow_succ] at h2
      omega
  | succ t ih =>
    intro e s h1 hK' h2 hg hfm
    rw [newtonLoop]
    by_cases hlt : 2^e < n
    · have he : e < K := (Nat.pow_lt_pow_iff_right (a := 2) (by omega)).1 (by omega)
      rw [if_pos hlt]
      rw [Nat.min_eq_left (by omega)] at hg hfm
      obtain ⟨s', es, hg', hf'⟩ := newton_spec H hf (g := s.1) (fm := s.2) hlt (by omega) hg hfm
      rw [es, Option.bind_some, ← pow_succ]
      rw [← pow_succ] at hg' hf'
      exact ih (e+1) s' (by omega) (by omega) (by rw [pow_succ]; omega) hg' hf'
    · rw [if_neg hlt]
      rw [Nat.min_eq_right (by omega)] at hg
      exact ⟨s.1, rfl, hg⟩

theorem invDense_spec {p r n : Nat} (H : Root p r) {f : List Nat} (hf : ∀ a ∈ f, a < p) (h0 : f.getD 0 0 ≠ 0) {K : Nat} (hn : n ≤ 2^K) (hK : K + 1 ≤ logN p) :
    ∃ g, invDense p r f n = some g ∧ IsInv p g n (cf p f) := by
  have h2 := H.prime.two_le
  have hp := H.lt
  haveI : Fact p.Prime := ⟨H.prime⟩
  cases f with
  | nil => exact absurd rfl h0
  | cons a f =>
    have ha0 : a ≠ 0 := h0
    have la : a < p := hf a List.mem_cons_self
    unfold invDense
    dsimp only
    rw [if_neg ha0]
    by_cases hn0 : n = 0
    · subst hn0
      exact ⟨[], if_pos rfl, rfl, fun x hx => by simp at hx, fun k hk => absurd hk (by omega)⟩
    · rw [if_neg hn0]
      obtain ⟨b, eb, lb, cb⟩ := inv_spec (p := p) (by omega) la ha0
      rw [eb, Option.bind_some]
      have hne : (a : ZMod p) ≠ 0 := by
        intro h
        exact ha0 (cast_inj la (by omega) (by rw [h, Nat.cast_zero]))
      refine newtonLoop_spec H hf hn hK (n+1) 0 ([b], [a]) (by omega) (by omega) (by omega) ?_ ?_
      · rw [pow_zero, Nat.min_eq_left (by omega)]
        refine ⟨rfl, fun x hx => by have : x = b := by simpa using hx
                                    rw [this]; exact lb, ?_⟩
        intro k hk
        have : k = 0 := by omega
        subst this
        unfold mulF
        rw [Finset.sum_range_one, Nat.sub_zero, if_pos rfl, cf_cons, cf_cons, if_pos rfl, if_pos rfl, cb, inv_mul_cancel₀ hne]
      · rw [pow_zero, Nat.min_eq_left (by omega)]
        refine ⟨rfl, fun i hi => ⟨a, ?_, la, ?_⟩⟩
        · have : i = 0 := by omega
          subst this; rfl
        · have : i = 0 := by omega
          subst this
          rw [cf_cons, if_pos rfl]

/-- Product with a list of terms. -/
theorem mulF_S {p : Nat} (γ : Nat → ZMod p) (k : Nat) (t : Nat × Nat) (ts : List (Nat × Nat)) :
    mulF (S p (t :: ts)) γ k = (if t.1 ≤ k then (t.2 : ZMod p) * γ (k - t.1) else 0) + mulF (S p ts) γ k := by
  rw [← mulF_single_left, ← mulF_add_left]
  rfl

theorem mulF_S_zero {p : Nat} (γ : Nat → ZMod p) (k : Nat) : ∀ (ts : List (Nat × Nat)), (∀ t ∈ ts, k < t.1) → mulF (S p ts) γ k = 0
  | [], _ => mulF_zero_left _ _
  | t :: ts, h => by
    rw [mulF_S, if_neg (by have := h t List.mem_cons_self; omega), mulF_S_zero γ k ts (fun u hu => h u (List.mem_cons_of_mem _ hu)), add_zero]

theorem sparseDot_spec {p n i : Nat} (hp : p < 2^31) {g : List Nat} {γ : Nat → ZMod p} (R : RepZ p g n γ) (hi : i < n) :
    ∀ (ts : List (Nat × Nat)) s, ts.Pairwise (fun a b => a.1 < b.1) → (∀ t ∈ ts, t.2 < p) → s < p →
    ∃ s', sparseDot p i g ts s = some s' ∧ s' < p ∧ (s' : ZMod p) = s + mulF (S p ts) γ i
  | [], s, _, _, hs => ⟨s, rfl, hs, by rw [show S p [] = fun _ => 0 from rfl, mulF_zero_left, add_zero]⟩
  | t :: ts, s, hso, ht, hs => by
    have hm : p ≤ 2^31 := by omega
    obtain ⟨hs1, hs2⟩ := List.pairwise_cons.1 hso
    rw [sparseDot]
    by_cases hlt : i < t.1
    · rw [if_pos hlt]
      refine ⟨s, rfl, hs, ?_⟩
      rw [mulF_S_zero γ i (t :: ts), add_zero]
      intro u hu
      rcases List.mem_cons.1 hu with h | h
      · subst h; exact hlt
      · exact lt_trans hlt (hs1 u h)
    · rw [if_neg hlt]
      obtain ⟨y, ey, ly, cy⟩ := R.val (i - t.1) (by omega)
      obtain ⟨z, ez, lz, cz⟩ := mul_cast hm (ht t List.mem_cons_self) ly
      obtain ⟨s', e, ls, cs⟩ := sparseDot_spec hp R hi ts (add p s z) hs2 (fun u hu => ht u (List.mem_cons_of_mem _ hu)) (add_lt hm hs lz)
      refine ⟨s', by rw [ey, Option.bind_some, ez, Option.bind_some, e], ls, ?_⟩
      rw [cs, add_cast hm hs lz, cz, cy, mulF_S, if_pos (by omega), add_assoc]

theorem sparseInv_spec {p : Nat} (hpr : p.Prime) (hp : p < 2^31) {x : Nat × Nat} {xs : List (Nat × Nat)} {n : Nat} (hx : x.1 = 0) (hx0 : x.2 ≠ 0)
    (hso : (x :: xs).Pairwise (fun a b => a.1 < b.1)) (ht : ∀ t ∈ x :: xs, t.2 < p) :
    ∃ g, sparseInv p (x :: xs) n = some g ∧ IsInv p g n (S p (x :: xs)) := by
  haveI : Fact p.Prime := ⟨hpr⟩
  have h2 := hpr.two_le
  have hm : p ≤ 2^31 := by omega
  unfold sparseInv
  dsimp only
  rw [if_neg (by omega)]
  by_cases hn : n = 0
  · subst hn
    exact ⟨[], if_pos rfl, rfl, fun x hx => by simp at hx, fun k hk => absurd hk (by omega)⟩
  rw [if_neg hn]
  have la := ht x List.mem_cons_self
  obtain ⟨hs1, hs2⟩ := List.pairwise_cons.1 hso
  obtain ⟨c, ec, lc, cc⟩ := inv_spec (p := p) hm la hx0
  have hne : (x.2 : ZMod p) ≠ 0 := by
    intro h
    exact hx0 (cast_inj la (by omega) (by rw [h, Nat.cast_zero]))
  obtain ⟨g0, eg, R0⟩ := (zeros_rep (p := p) (by omega) n).wr (i := 0) (by omega) lc
  have hz : ofInt p 0 = 0 := by have := ofInt_eq (m := p) (by omega) 0; simpa using this
  obtain ⟨g, e, γ, R, hγ⟩ := forRange_inv (a := 1) (b := n) (s := g0) (body := sparseInvStep p c xs)
    (P := fun i (g : List Nat) => ∃ γ, RepZ p g n γ ∧ ∀ k, k < i → mulF (S p (x :: xs)) γ k = if k = 0 then 1 else 0) (by omega)
    ⟨_, R0, by
      intro k hk
      have : k = 0 := by omega
      subst this
      rw [mulF_S, mulF_S_zero _ _ xs (fun t ht => by have := hs1 t ht; omega), if_pos (by omega), hx, upd_same, cc, mul_inv_cancel₀ hne, add_zero, if_pos rfl]⟩ (by
      rintro i g h1 hi ⟨γ, R, hγ⟩
      obtain ⟨s, es, ls, cs⟩ := sparseDot_spec hp R hi xs (ofInt p 0) hs2 (fun u hu => ht u (List.mem_cons_of_mem _ hu)) (by omega)
      obtain ⟨y, ey, ly, cy⟩ := mul_cast hm (neg_lt hm ls) lc
      obtain ⟨g', e, R'⟩ := R.wr hi ly
      refine ⟨g', by unfold sparseInvStep; rw [es, Option.bind_some, ey, Option.bind_some, e], _, R', ?_⟩
      have tail : ∀ k, k ≤ i → ∀ (ys : List (Nat × Nat)), (∀ t ∈ ys, 0 < t.1) → mulF (S p ys) (upd γ i (y : ZMod p)) k = mulF (S p ys) γ k := by
        intro k hk ys
        induction ys with
        | nil => intro _; rw [show S p [] = fun _ => 0 from rfl, mulF_zero_left, mulF_zero_left]
        | cons t ys ih =>
          intro h
          have := h t List.mem_cons_self
          rw [mulF_S, mulF_S, ih (fun u hu => h u (List.mem_cons_of_mem _ hu))]
          by_cases h3 : t.1 ≤ k
          · rw [if_pos h3, if_pos h3, upd_ne _ _ (by omega)]
          · rw [if_neg h3, if_neg h3]
      intro k hk
      by_cases hki : k = i
      · subst hki
        rw [mulF_S, tail k (le_refl _) xs (fun t ht => by have := hs1 t ht; omega), if_pos (by omega), hx, Nat.sub_zero, upd_same, if_neg (by omega)]
        rw [hz, Nat.cast_zero, zero_add] at cs
        rw [cy, neg_cast hm ls, cs, cc]
        have := mul_inv_cancel₀ hne
        linear_combination (- mulF (S p xs) γ k) * this
      · rw [← hγ k (by omega)]
        exact mulF_congr (fun j _ => rfl) (fun j hj => upd_ne _ _ (by omega)))
  refine ⟨g, by rw [ec, Option.bind_some, eg, Option.bind_some, e], R.len, R.red, ?_⟩
  intro k hk
  rw [← hγ k hk, mulF_comm]
  exact mulF_congr (fun _ _ => rfl) (fun i hi => R.cf_eq (by omega))

theorem terms_head {a n : Nat} {f : List Nat} (ha : a ≠ 0) (hn : n ≠ 0) : ∃ xs, terms (a :: f) n = (0, a) :: xs := by
  rw [terms_eq]
  cases n with
  | zero => exact absurd rfl hn
  | succ n => rw [List.take_succ_cons, termsFrom, if_pos ha]; exact ⟨_, rfl⟩

theorem invSparse_spec {p n : Nat} (hpr : p.Prime) (hp : p < 2^31) {f : List Nat} (hf : ∀ a ∈ f, a < p) (h0 : f.getD 0 0 ≠ 0) :
    ∃ g, invSparse p f n = some g ∧ IsInv p g n (cf p f) := by
  cases f with
  | nil => exact absurd rfl h0
  | cons a f =>
    have ha0 : a ≠ 0 := h0
    unfold invSparse
    dsimp only
    rw [if_neg ha0]
    by_cases hn0 : n = 0
    · subst hn0
      exact ⟨[], if_pos rfl, rfl, fun x hx => by simp at hx, fun k hk => absurd hk (by omega)⟩
    · rw [if_neg hn0]
      obtain ⟨xs, exs⟩ := terms_head (f := f) ha0 hn0
      have hso := terms_sorted (a :: f) n
      have ht : ∀ t ∈ terms (a :: f) n, t.2 < p := fun t ht => (terms_lt hf t ht).2.2.2
      rw [exs] at hso ht
      obtain ⟨g, e, h1, h2, h3⟩ := sparseInv_spec hpr hp (x := (0, a)) (n := n) rfl ha0 hso ht
      refine ⟨g, by rw [exs, e], h1, h2, ?_⟩
      intro k hk
      rw [← h3 k hk]
      refine mulF_congr (fun _ _ => rfl) (fun i hi => ?_)
      rw [← exs, S_terms, if_pos (by omega)]

theorem invF_spec {p r n : Nat} (H : Root p r) {f : List Nat} (hf : ∀ a ∈ f, a < p) (h0 : f.getD 0 0 ≠ 0) {K : Nat} (hn : n ≤ 2^K) (hK : K + 1 ≤ logN p) :
    ∃ g, invF p r f n = some g ∧ IsInv p g n (cf p f) := by
  unfold invF
  split
  · exact invSparse_spec H.prime H.lt hf h0
  · exact invDense_spec H hf h0 hn hK

end Verif.Fps
