import Verif.Fps.Log
/-!
Division by a sparse series, and the logarithm through it.
-/
namespace Verif.Fps
open Verif.Modular Verif.Ntt
open PowerSeries (coeff coeff_derivative derivative)
open scoped PowerSeries

theorem mulF_S_upd {p i : Nat} {γ : Nat → ZMod p} {y : ZMod p} {k : Nat} (hk : k ≤ i) : ∀ (ys : List (Nat × Nat)), (∀ t ∈ ys, 0 < t.1) →
    mulF (S p ys) (upd γ i y) k = mulF (S p ys) γ k
  | [], _ => by rw [show S p [] = fun _ => 0 from rfl, mulF_zero_left, mulF_zero_left]
  | t :: ys, h => by
    have := h t List.mem_cons_self
    rw [mulF_S, mulF_S, mulF_S_upd hk ys (fun u hu => h u (List.mem_cons_of_mem _ hu))]
    by_cases h3 : t.1 ≤ k
    · rw [if_pos h3, if_pos h3, upd_ne _ _ (by omega)]
    · rw [if_neg h3, if_neg h3]

theorem divRow_spec {p N i : Nat} (hp : p < 2^31) (hi : i < N) : ∀ (ts : List (Nat × Nat)), ts.Pairwise (fun a b => a.1 < b.1) → (∀ t ∈ ts, 0 < t.1 ∧ t.2 < p) →
    ∀ {h : List Nat} {φ : Nat → ZMod p}, RepZ p h N φ →
    ∃ h', divRow p i ts h = some h' ∧ RepZ p h' N (upd φ i (φ i - mulF (S p ts) φ i))
  | [], _, _, h, φ, R => ⟨h, rfl, R.congr (fun k _ => by
      rw [show S p [] = fun _ => 0 from rfl, mulF_zero_left, sub_zero]
      by_cases hk : k = i
      · subst hk; rw [upd_same]
      · rw [upd_ne _ _ hk])⟩
  | t :: ts, hso, hts, h, φ, R => by
    have hm : p ≤ 2^31 := by omega
    obtain ⟨hs1, hs2⟩ := List.pairwise_cons.1 hso
    obtain ⟨ht1, ht2⟩ := hts t List.mem_cons_self
    rw [divRow]
    by_cases hlt : i < t.1
    · rw [if_pos hlt]
      refine ⟨h, rfl, R.congr fun k _ => ?_⟩
      rw [mulF_S_zero φ i (t :: ts), sub_zero]
      · by_cases hk : k = i
        · subst hk; rw [upd_same]
        · rw [upd_ne _ _ hk]
      · intro u hu
        rcases List.mem_cons.1 hu with h | h
        · subst h; exact hlt
        · exact lt_trans hlt (hs1 u h)
    · rw [if_neg hlt]
      obtain ⟨y, ey, ly, cy⟩ := R.val (i - t.1) (by omega)
      obtain ⟨z, ez, lz, cz⟩ := mul_cast hm ly (neg_lt hm ht2)
      obtain ⟨w, ew, lw, cw⟩ := R.val i hi
      obtain ⟨h1, e1, R1⟩ := R.wr hi (add_lt hm lw lz)
      obtain ⟨h2, e2, R2⟩ := divRow_spec hp hi ts hs2 (fun u hu => hts u (List.mem_cons_of_mem _ hu)) R1
      refine ⟨h2, by rw [ey, Option.bind_some, ez, Option.bind_some, ew, Option.bind_some, e1, Option.bind_some, e2], R2.congr fun k _ => ?_⟩
      rw [mulF_S_upd (le_refl i) ts (fun u hu => (hts u (List.mem_cons_of_mem _ hu)).1)]
      by_cases hk : k = i
      · subst hk
        rw [upd_same, upd_same, upd_same, mulF_S, if_pos (by omega), add_cast hm lw lz, cz, cy, cw, neg_cast hm ht2]
        ring
      · rw [upd_ne _ _ hk, upd_ne _ _ hk, upd_ne _ _ hk]

theorem divOne_spec {p : Nat} (hpr : p.Prime) (hp : p < 2^31) {f : List Nat} (hf : ∀ a ∈ f, a < p) {x : Nat × Nat} {xs : List (Nat × Nat)}
    (hx : x = (0, 1)) (hso : (x :: xs).Pairwise (fun a b => a.1 < b.1)) (ht : ∀ t ∈ xs, t.2 < p) :
    ∃ q N, divOne p f (x :: xs) = some q ∧ f.length ≤ N ∧ q.length = N ∧ (∀ a ∈ q, a < p) ∧ ∀ k, k < N → mulF (S p (x :: xs)) (cf p q) k = cf p f k := by
  have h2 := hpr.two_le
  obtain ⟨hs1, hs2⟩ := List.pairwise_cons.1 hso
  have hpos : ∀ t ∈ xs, 0 < t.1 := fun t h => by have := hs1 t h; omega
  unfold divOne
  cases hl : (x :: xs).getLast? with
  | none => simp at hl
  | some l =>
    dsimp only
    generalize hN : f.length + l.1 = N
    have R0 := pre_rep (p := p) (by omega) hf N
    have S0 : ∀ (φ : Nat → ZMod p) k, mulF (S p (x :: xs)) φ k = φ k + mulF (S p xs) φ k := by
      intro φ k
      rw [mulF_S, hx, if_pos (Nat.zero_le _), Nat.cast_one, one_mul, Nat.sub_zero]
    by_cases hN1 : N = 0
    · subst hN1
      refine ⟨pre 0 f, 0, forRange_nil (by omega) _, by omega, R0.len, R0.red, fun k hk => absurd hk (by omega)⟩
    obtain ⟨q, e, φ, R, h1, _⟩ := forRange_inv (a := 1) (b := N) (s := pre N f) (body := fun i h => divRow p i (x :: xs).tail h)
      (P := fun i (h : List Nat) => ∃ φ, RepZ p h N φ ∧ (∀ k, k < i → mulF (S p (x :: xs)) φ k = cf p f k) ∧ ∀ k, i ≤ k → φ k = cf p f k) (by omega)
      ⟨_, R0, fun k hk => by
        have : k = 0 := by omega
        subst this
        rw [S0, mulF_S_zero _ 0 xs hpos, add_zero], fun _ _ => rfl⟩ (by
        rintro i h h1 h2 ⟨φ, R, hA, hB⟩
        obtain ⟨h', e, R'⟩ := divRow_spec hp h2 xs hs2 (fun t h => ⟨hpos t h, ht t h⟩) R
        refine ⟨h', e, _, R', ?_, ?_⟩
        · intro k hk
          rw [S0, mulF_S_upd (by omega) xs hpos]
          by_cases hki : k = i
          · subst hki
            rw [upd_same, sub_add_cancel, hB k (le_refl _)]
          · rw [upd_ne _ _ hki, ← S0, hA k (by omega)]
        · intro k hk
          rw [upd_ne _ _ (by omega), hB k (by omega)])
    refine ⟨q, N, e, by omega, R.len, R.red, fun k hk => ?_⟩
    rw [← h1 k hk]
    exact mulF_congr (fun _ _ => rfl) (fun i hi => R.cf_eq (by omega))

theorem logSparse_spec {p n : Nat} (hpr : p.Prime) (hp : p < 2^31) {tb f : List Nat} (hT : Full p tb) (hf : ∀ a ∈ f, a < p) (hf0 : f[0]? = some 1) (hn0 : 2 ≤ n) (hn : n < p)
    (hl : n ≤ f.length) : ∃ l, logSparse p tb f n = some l ∧ IsLog p n (ser p f) l := by
  haveI : Fact p.Prime := ⟨hpr⟩
  have h2 := hpr.two_le
  obtain ⟨d, ed, ld, rd, sd⟩ := diffF_spec (p := p) (by omega) hp hf
  have hdiv : ∃ t, divSparse p d (terms f (n-1)) = some t ∧ (∀ a ∈ t, a < p) ∧ ∀ k, k < n - 1 → mulF (cf p f) (cf p t) k = cf p d k := by
    unfold divSparse
    by_cases hz : ∀ a ∈ d, a = 0
    · rw [if_pos hz]
      refine ⟨[], rfl, by simp, fun k _ => ?_⟩
      have : ∀ i, cf p d i = 0 := by
        intro i
        by_cases hi : i < d.length
        · unfold cf
          rw [List.getD_eq_getElem _ _ hi, hz _ (List.getElem_mem hi), Nat.cast_zero]
        · exact cf_ge (by omega)
      rw [this, show cf p [] = fun _ => (0 : ZMod p) from funext fun i => cf_ge (by simp), mulF_zero_right]
    · rw [if_neg hz]
      rcases hf' : f with _ | ⟨a, f'⟩
      · rw [hf'] at hf0; simp at hf0
      · have ha : a = 1 := by rw [hf'] at hf0; simpa using hf0
        obtain ⟨xs, exs⟩ := terms_head (a := a) (n := n-1) (f := f') (by omega) (by omega)
        rw [← hf'] at exs ⊢
        have hso := terms_sorted f (n-1)
        have ht : ∀ t ∈ terms f (n-1), t.2 < p := fun t ht => (terms_lt hf t ht).2.2.2
        rw [exs] at hso ht
        obtain ⟨q, N, eq, h1, h3, h4, h5⟩ := divOne_spec hpr hp rd (x := (0, a)) (by rw [ha]) hso (fun t h => ht t (List.mem_cons_of_mem _ h))
        rw [exs]
        dsimp only
        rw [if_neg (by omega), if_pos ha]
        refine ⟨q, eq, h4, fun k hk => ?_⟩
        rw [← h5 k (by omega), ← exs]
        refine mulF_congr (fun i hi => ?_) (fun _ _ => rfl)
        rw [S_terms, if_pos (by omega)]
  obtain ⟨t, et, rt, ct⟩ := hdiv
  obtain ⟨l, el, h1, h3, h4, h5⟩ := logTail_spec hpr hp hT rt (n := n) (by omega) hn
  refine ⟨l, by unfold logSparse; rw [if_neg (by rw [hf0]; simp), ed, Option.bind_some, et, Option.bind_some, el], h1, h3, h4, ?_⟩
  refine ((Agree.refl _ (ser p f)).mul h5).trans ?_
  intro k hk
  rw [coeff_ser_mul, ct k hk, ← sd, coeff_ser]

end Verif.Fps
