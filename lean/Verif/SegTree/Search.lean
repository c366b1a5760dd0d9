import Verif.SegTree.Proofs
/-! `max_right` and `min_left`. -/
namespace Verif.SegTree
variable {M : Type} [Monoid M]

theorem level_lt {n i k : Nat} (hn : 0 < n) (h1 : n ≤ i * 2^k) (h2 : (i+1) * 2^k ≤ 2 * n) : k < n := by
  have e : (i+1) * 2^k = i*2^k + 2^k := by ring
  have : k < 2^k := Nat.lt_two_pow_self
  omega

/-! ### max_right -/

theorem mrDown_spec {t : Tree M} {vs : List M} (h : Inv t vs) (hn : 0 < vs.length) (f : M → Bool) (b : Nat) :
    ∀ (k fuel l : Nat) (p : M), k < fuel → vs.length + b ≤ l * 2^k → (l+1) * 2^k ≤ 2 * vs.length →
      p = segProd vs b (l * 2^k - vs.length) → f p = true →
      f (segProd vs b ((l+1) * 2^k - vs.length)) = false →
      ∃ q, mrDown vs.length t.tree f fuel l p = some q ∧ l * 2^k ≤ q ∧ q < (l+1) * 2^k ∧
        f (segProd vs b (q - vs.length)) = true ∧ f (segProd vs b (q + 1 - vs.length)) = false := by
  intro k
  induction k with
  | zero =>
    intro fuel l p hf h1 h2 hp ht hff
    obtain ⟨fuel, rfl⟩ : ∃ g, fuel = g + 1 := ⟨fuel - 1, by omega⟩
    simp only [pow_zero, mul_one] at *
    unfold mrDown
    rw [if_neg (by omega)]
    exact ⟨l, rfl, by omega, by omega, by rw [← hp]; exact ht, hff⟩
  | succ k ih =>
    intro fuel l p hf h1 h2 hp ht hff
    obtain ⟨fuel, rfl⟩ : ∃ g, fuel = g + 1 := ⟨fuel - 1, by omega⟩
    have hpk : 0 < 2^k := Nat.two_pow_pos k
    have e1 : l * 2^(k+1) = (2*l) * 2^k := by ring
    have e2 : (l+1) * 2^(k+1) = (2*l+1+1) * 2^k := by ring
    have e3 : (2*l+1) * 2^k = 2*l*2^k + 2^k := by ring
    have e4 : (2*l+1+1) * 2^k = 2*l*2^k + 2^k + 2^k := by ring
    have hx := node_prod h hn (k+1) l (by omega) h2
    have hy := node_prod h hn k (2*l) (by omega) (by omega)
    rw [e1] at h1 hp
    rw [e2] at h2 hff
    rw [e1, e2] at hx
    have hin : l < vs.length := by
      have : (2*l+1+1) * 1 ≤ (2*l+1+1) * 2^k := Nat.mul_le_mul_left _ hpk
      omega
    unfold mrDown
    rw [if_pos hin]
    simp only [hx, hy, Option.bind_eq_bind, Option.bind_some]
    rw [hp, segProd_append _ (by omega) (by omega), segProd_append _ (by omega) (by omega), hff]
    simp only [Bool.false_eq_true, if_false]
    by_cases hc : f (segProd vs b ((2*l+1) * 2^k - vs.length)) = true
    · rw [if_pos hc]
      obtain ⟨q, g1, g2, g3, g4⟩ := ih fuel (2*l+1) _ (by omega) (by omega) h2 rfl hc hff
      exact ⟨q, g1, by omega, by omega, g4⟩
    · rw [if_neg hc]
      obtain ⟨q, g1, g2, g3, g4⟩ := ih fuel (2*l) _ (by omega) (by omega) (by omega) rfl (by rw [← hp]; exact ht)
        (by simpa using hc)
      exact ⟨q, g1, by omega, by omega, g4⟩

/-- The stack describes consecutive blocks from `R` to `e`. -/
def StackR (vs : List M) (e : Nat) : Nat → List (Nat × M) → Prop
  | R, [] => R = e
  | R, (r, y) :: rest => ∃ j, 0 < r ∧ vs.length + R = (r-1) * 2^j ∧ r * 2^j ≤ vs.length + e ∧
      y = segProd vs R (r * 2^j - vs.length) ∧ StackR vs e (r * 2^j - vs.length) rest

theorem mrUp_spec {t : Tree M} {vs : List M} (h : Inv t vs) (hn : 0 < vs.length) (f : M → Bool) (b e : Nat)
    (he : e ≤ vs.length) :
    ∀ (fuel k l r : Nat) (p : M) (rps : List (Nat × M)), r < fuel → vs.length + b ≤ l * 2^k → l ≤ r →
      r * 2^k ≤ vs.length + e → p = segProd vs b (l * 2^k - vs.length) → f p = true →
      StackR vs e (r * 2^k - vs.length) rps →
      ∃ k' l' r' p' rps', mrUp t.tree f fuel l r p rps = some (l', r', p', rps') ∧
        vs.length + b ≤ l' * 2^k' ∧ l' ≤ r' ∧ r' * 2^k' ≤ vs.length + e ∧
        p' = segProd vs b (l' * 2^k' - vs.length) ∧ f p' = true ∧
        StackR vs e (r' * 2^k' - vs.length) rps' ∧
        (l' < r' → f (segProd vs b ((l'+1) * 2^k' - vs.length)) = false) := by
  intro fuel
  induction fuel with
  | zero => intro k l r p rps h; omega
  | succ fuel ih =>
    intro k l r p rps hf hl hlr hr hp ht hst
    have hpk : 0 < 2^k := Nat.two_pow_pos k
    have hmul : ∀ x y : Nat, x ≤ y → x * 2^k ≤ y * 2^k := fun x y hxy => Nat.mul_le_mul_right _ hxy
    unfold mrUp
    by_cases hlt : l < r
    · rw [if_pos hlt]
      have e2 : ∀ x : Nat, x * 2^(k+1) = 2*x*2^k := by intro x; ring
      have hsucc : (l+1) * 2^k ≤ r * 2^k := hmul _ _ hlt
      have hs : (l+1)*2^k = l * 2^k + 2^k := by ring
      have hx := node_prod h hn k l (by omega) (by omega)
      have hpx : p * segProd vs (l * 2^k - vs.length) ((l+1)*2^k - vs.length) = segProd vs b ((l+1)*2^k - vs.length) := by
        rw [hp, segProd_append _ (by omega) (by omega)]
      simp only [hx, Option.bind_eq_bind, Option.bind_some, hpx]
      by_cases hc : f (segProd vs b ((l+1)*2^k - vs.length)) = true
      · rw [if_pos hc]
        have hL : takeL t.tree p l = some (segProd vs b ((2*((l+1)/2)) * 2^k - vs.length), 2*((l+1)/2)) := by
          unfold takeL
          by_cases ho : l % 2 = 1
          · rw [if_pos ho, hx]
            rw [show 2*((l+1)/2) = l+1 by omega]
            simp only [Option.bind_some, hpx]
          · rw [if_neg ho, show 2*((l+1)/2) = l by omega, hp]
        have hft : f (segProd vs b ((2*((l+1)/2)) * 2^k - vs.length)) = true := by
          by_cases ho : l % 2 = 1
          · rw [show 2*((l+1)/2) = l+1 by omega]; exact hc
          · rw [show 2*((l+1)/2) = l by omega, ← hp]; exact ht
        have hR : ∃ rps', pushR t.tree rps r = some (rps', 2*(r/2)) ∧ StackR vs e ((2*(r/2)) * 2^k - vs.length) rps' := by
          unfold pushR
          by_cases ho : r % 2 = 1
          · obtain ⟨q, rfl⟩ : ∃ q, r = q + 1 := ⟨r-1, by omega⟩
            have hq : (q+1)*2^k = q * 2^k + 2^k := by ring
            have hq2 : (l)*2^k ≤ q * 2^k := hmul _ _ (by omega)
            rw [if_pos ho, Nat.add_sub_cancel, node_prod h hn k q (by omega) (by omega)]
            rw [show 2*((q+1)/2) = q by omega]
            refine ⟨_, rfl, k, by omega, ?_, by omega, rfl, hst⟩
            rw [Nat.add_sub_cancel]; omega
          · rw [if_neg ho, show 2*(r/2) = r by omega]
            exact ⟨_, rfl, hst⟩
        obtain ⟨rps', hR, hst'⟩ := hR
        simp only [hL, hR, Option.bind_some]
        have m1 := hmul l (2*((l+1)/2)) (by omega)
        have m2 := hmul (2*(r/2)) r (by omega)
        rw [show 2*((l+1)/2)/2 = (l+1)/2 by omega, show 2*(r/2)/2 = r/2 by omega]
        exact ih (k+1) ((l+1)/2) (r/2) _ rps' (by omega) (by rw [e2]; omega) (by omega) (by rw [e2]; omega)
          (by rw [e2]) hft (by rw [e2]; exact hst')
      · rw [if_neg hc]
        exact ⟨k, l, r, p, rps, rfl, hl, hlr, hr, hp, ht, hst, fun _ => by simpa using hc⟩
    · rw [if_neg hlt]
      exact ⟨k, l, r, p, rps, rfl, hl, hlr, hr, hp, ht, hst, fun h => absurd h hlt⟩

theorem mrStack_spec {vs : List M} (f : M → Bool) (b e : Nat) :
    ∀ (rps : List (Nat × M)) (R l0 : Nat) (p : M), b ≤ R → StackR vs e R rps → p = segProd vs b R → f p = true →
      ∃ l p' rps', mrStack f rps l0 p = (l, p', rps') ∧
        ((rps' = [] ∧ f (segProd vs b e) = true) ∨
         (rps' ≠ [] ∧ ∃ j, vs.length + b ≤ l * 2^j ∧ (l+1) * 2^j ≤ vs.length + e ∧ p' = segProd vs b (l * 2^j - vs.length) ∧
            f p' = true ∧ f (segProd vs b ((l+1) * 2^j - vs.length)) = false)) := by
  intro rps
  induction rps with
  | nil =>
    intro R l0 p hb hst hp ht
    have : R = e := hst
    subst this
    exact ⟨l0, p, [], rfl, Or.inl ⟨rfl, by rw [← hp]; exact ht⟩⟩
  | cons hd rest ih =>
    intro R l0 p hb hst hp ht
    obtain ⟨r, y⟩ := hd
    obtain ⟨j, h0, h1, h2, h3, h4⟩ := hst
    obtain ⟨q, rfl⟩ : ∃ q, r = q + 1 := ⟨r-1, by omega⟩
    rw [Nat.add_sub_cancel] at h1
    have hq : (q+1)*2^j = q * 2^j + 2^j := by ring
    have hpj : 0 < 2^j := Nat.two_pow_pos j
    have hpy : p * y = segProd vs b ((q+1) * 2^j - vs.length) := by
      rw [hp, h3, segProd_append _ hb (by omega)]
    unfold mrStack
    by_cases hc : f (p * y) = true
    · simp only [hc, Bool.not_true, Bool.false_eq_true, if_false]
      exact ih _ l0 (p*y) (by omega) h4 hpy hc
    · simp only [hc, Bool.not_false, if_true]
      refine ⟨_, _, _, rfl, Or.inr ⟨by simp, j, ?_⟩⟩
      rw [Nat.add_sub_cancel]
      refine ⟨by omega, h2, ?_, ht, ?_⟩
      · rw [hp, ← h1]; congr 1; omega
      · rw [← hpy]; simpa using hc

/-- `max_right` finds a boundary of `f` along the prefixes of `[b,e)`. -/
theorem maxRight_spec {t : Tree M} {vs : List M} (h : Inv t vs) (f : M → Bool) {b e : Nat} (hbe : b ≤ e)
    (he : e ≤ vs.length) (hf : f 1 = true) :
    ∃ r, maxRight t f b e = some r ∧ b ≤ r ∧ r ≤ e ∧ f (segProd vs b r) = true ∧
      (r = e ∨ f (segProd vs b (r+1)) = false) := by
  unfold maxRight
  by_cases heq : b = e
  · subst heq
    rw [if_pos rfl]
    exact ⟨b, rfl, by omega, by omega, by rw [segProd_self]; exact hf, Or.inl rfl⟩
  · rw [if_neg heq, h.sz]
    have hn : 0 < vs.length := by omega
    obtain ⟨k, l, r, p, rps, e1, h1, h2, h3, h4, h5, h6, h7⟩ := mrUp_spec h hn f b e he (vs.length + e + 1) 0
      (vs.length + b) (vs.length + e) 1 [] (by omega) (by simp) (by omega) (by simp) (by simp [segProd_self]) hf
      (by simp [StackR])
    simp only [e1, Option.bind_eq_bind, Option.bind_some]
    have down : ∀ (l j : Nat) (p : M), vs.length + b ≤ l * 2^j → (l+1) * 2^j ≤ vs.length + e →
        p = segProd vs b (l * 2^j - vs.length) → f p = true → f (segProd vs b ((l+1) * 2^j - vs.length)) = false →
        ∃ r, ((mrDown vs.length t.tree f (vs.length + 1) l p).bind fun l => some (l - vs.length)) = some r ∧
          b ≤ r ∧ r ≤ e ∧ f (segProd vs b r) = true ∧ (r = e ∨ f (segProd vs b (r+1)) = false) := by
      intro l j p g1 g2 g3 g4 g5
      have := level_lt (i := l) (k := j) hn (by omega) (by omega)
      obtain ⟨q, q1, q2, q3, q4, q5⟩ := mrDown_spec h hn f b j (vs.length + 1) l p (by omega) g1 (by omega) g3 g4 g5
      refine ⟨q - vs.length, by simp [q1], by omega, by omega, q4, Or.inr ?_⟩
      rw [show q - vs.length + 1 = q + 1 - vs.length by omega]; exact q5
    by_cases hlr : l ≥ r
    · rw [if_pos hlr]
      have : l = r := by omega
      subst this
      obtain ⟨l', p', rps', g1, g2⟩ := mrStack_spec f b e rps (l * 2^k - vs.length) l p (by omega) h6 h4 h5
      simp only [g1]
      rcases g2 with ⟨rfl, g2⟩ | ⟨g2, j, g3, g4, g5, g6, g7⟩
      · simp only [List.isEmpty_nil, if_true]
        exact ⟨e, rfl, hbe, by omega, g2, Or.inl rfl⟩
      · have : rps'.isEmpty = false := by simpa using g2
        simp only [this, Bool.false_eq_true, if_false]
        exact down l' j p' g3 g4 g5 g6 g7
    · rw [if_neg hlr]
      have hs : (l+1) * 2^k ≤ r * 2^k := Nat.mul_le_mul_right _ (by omega)
      exact down l k p h1 (by omega) h4 h5 (h7 (by omega))

/-! ### min_left -/

theorem mlDown_spec {t : Tree M} {vs : List M} (h : Inv t vs) (hn : 0 < vs.length) (f : M → Bool) (e : Nat)
    (he : e ≤ vs.length) :
    ∀ (k fuel l : Nat) (p : M), k < fuel → vs.length ≤ l * 2^k → (l+1) * 2^k ≤ vs.length + e →
      p = segProd vs ((l+1) * 2^k - vs.length) e → f p = true →
      f (segProd vs (l * 2^k - vs.length) e) = false →
      ∃ q, mlDown vs.length t.tree f fuel (l+1) p = some (q+1) ∧ l * 2^k ≤ q ∧ q < (l+1) * 2^k ∧
        f (segProd vs (q + 1 - vs.length) e) = true ∧ f (segProd vs (q - vs.length) e) = false := by
  intro k
  induction k with
  | zero =>
    intro fuel l p hf h1 h2 hp ht hff
    obtain ⟨fuel, rfl⟩ : ∃ g, fuel = g + 1 := ⟨fuel - 1, by omega⟩
    simp only [pow_zero, mul_one] at *
    unfold mlDown
    rw [if_neg (by omega)]
    exact ⟨l, rfl, by omega, by omega, by rw [← hp]; exact ht, hff⟩
  | succ k ih =>
    intro fuel l p hf h1 h2 hp ht hff
    obtain ⟨fuel, rfl⟩ : ∃ g, fuel = g + 1 := ⟨fuel - 1, by omega⟩
    have hpk : 0 < 2^k := Nat.two_pow_pos k
    have e1 : l * 2^(k+1) = (2*l) * 2^k := by ring
    have e2 : (l+1) * 2^(k+1) = (2*l+1+1) * 2^k := by ring
    have e3 : (2*l+1) * 2^k = 2*l*2^k + 2^k := by ring
    have e4 : (2*l+1+1) * 2^k = 2*l*2^k + 2^k + 2^k := by ring
    have hx := node_prod h hn (k+1) l (by omega) (by omega)
    have hy := node_prod h hn k (2*l+1) (by omega) (by omega)
    rw [e1] at h1 hff
    rw [e2] at h2 hp
    rw [e1, e2] at hx
    have hin : l + 1 ≤ vs.length := by
      have : (2*l+1+1) * 1 ≤ (2*l+1+1) * 2^k := Nat.mul_le_mul_left _ hpk
      omega
    unfold mlDown
    rw [if_pos hin]
    simp only [Nat.add_sub_cancel]
    rw [show 2*(l+1)-1 = 2*l+1 by omega, show 2*(l+1) = 2*l+1+1 by omega]
    simp only [hx, hy, Option.bind_eq_bind, Option.bind_some]
    rw [hp, segProd_append _ (by omega) (by omega), segProd_append _ (by omega) (by omega), hff]
    simp only [Bool.false_eq_true, if_false]
    by_cases hc : f (segProd vs ((2*l+1) * 2^k - vs.length) e) = true
    · rw [if_pos hc]
      obtain ⟨q, g1, g2, g3, g4⟩ := ih fuel (2*l) _ (by omega) (by omega) (by omega) rfl hc hff
      exact ⟨q, g1, by omega, by omega, g4⟩
    · rw [if_neg hc]
      obtain ⟨q, g1, g2, g3, g4⟩ := ih fuel (2*l+1) _ (by omega) (by omega) (by omega) rfl (by rw [← hp]; exact ht)
        (by simpa using hc)
      exact ⟨q, g1, by omega, by omega, g4⟩

/-- The stack describes consecutive blocks from `L` down to `b`. -/
def StackL (vs : List M) (b : Nat) : Nat → List (Nat × M) → Prop
  | L, [] => L = b
  | L, (l, y) :: rest => ∃ j, vs.length + L = (l+1) * 2^j ∧ vs.length + b ≤ l * 2^j ∧
      y = segProd vs (l * 2^j - vs.length) L ∧ StackL vs b (l * 2^j - vs.length) rest

theorem mlUp_spec {t : Tree M} {vs : List M} (h : Inv t vs) (hn : 0 < vs.length) (f : M → Bool) (b e : Nat)
    (he : e ≤ vs.length) :
    ∀ (fuel k l r : Nat) (p : M) (lps : List (Nat × M)), r < fuel → vs.length + b ≤ l * 2^k → l ≤ r →
      r * 2^k ≤ vs.length + e → p = segProd vs (r * 2^k - vs.length) e → f p = true →
      StackL vs b (l * 2^k - vs.length) lps →
      ∃ k' l' r' p' lps', mlUp t.tree f fuel l r p lps = some (l', r', p', lps') ∧
        vs.length + b ≤ l' * 2^k' ∧ l' ≤ r' ∧ r' * 2^k' ≤ vs.length + e ∧
        p' = segProd vs (r' * 2^k' - vs.length) e ∧ f p' = true ∧
        StackL vs b (l' * 2^k' - vs.length) lps' ∧
        (l' < r' → f (segProd vs ((r'-1) * 2^k' - vs.length) e) = false) := by
  intro fuel
  induction fuel with
  | zero => intro k l r p lps h; omega
  | succ fuel ih =>
    intro k l r p lps hf hl hlr hr hp ht hst
    have hpk : 0 < 2^k := Nat.two_pow_pos k
    have hmul : ∀ x y : Nat, x ≤ y → x * 2^k ≤ y * 2^k := fun x y hxy => Nat.mul_le_mul_right _ hxy
    unfold mlUp
    by_cases hlt : l < r
    · rw [if_pos hlt]
      obtain ⟨q, rfl⟩ : ∃ q, r = q + 1 := ⟨r-1, by omega⟩
      rw [Nat.add_sub_cancel]
      have e2 : ∀ x : Nat, x * 2^(k+1) = 2*x*2^k := by intro x; ring
      have hsucc : l * 2^k ≤ q * 2^k := hmul _ _ (by omega)
      have hs : (l+1)*2^k = l * 2^k + 2^k := by ring
      have hq : (q+1)*2^k = q * 2^k + 2^k := by ring
      have hx := node_prod h hn k q (by omega) (by omega)
      have hpx : segProd vs (q * 2^k - vs.length) ((q+1)*2^k - vs.length) * p = segProd vs (q*2^k - vs.length) e := by
        rw [hp, segProd_append _ (by omega) (by omega)]
      simp only [hx, Option.bind_eq_bind, Option.bind_some, hpx]
      by_cases hc : f (segProd vs (q*2^k - vs.length) e) = true
      · rw [if_pos hc]
        have hP : (if (q+1) % 2 = 1 then segProd vs (q*2^k - vs.length) e else p) =
            segProd vs ((2*((q+1)/2)) * 2^k - vs.length) e := by
          by_cases ho : (q+1) % 2 = 1
          · rw [if_pos ho, show 2*((q+1)/2) = q by omega]
          · rw [if_neg ho, show 2*((q+1)/2) = q+1 by omega, hp]
        have hft : f (segProd vs ((2*((q+1)/2)) * 2^k - vs.length) e) = true := by
          by_cases ho : (q+1) % 2 = 1
          · rw [show 2*((q+1)/2) = q by omega]; exact hc
          · rw [show 2*((q+1)/2) = q+1 by omega, ← hp]; exact ht
        have hL : ∃ lps', pushL t.tree lps l = some (lps', 2*((l+1)/2)) ∧
            StackL vs b ((2*((l+1)/2)) * 2^k - vs.length) lps' := by
          unfold pushL
          by_cases ho : l % 2 = 1
          · rw [if_pos ho, node_prod h hn k l (by omega) (by omega)]
            rw [show 2*((l+1)/2) = l+1 by omega]
            refine ⟨_, rfl, k, by omega, by omega, rfl, hst⟩
          · rw [if_neg ho, show 2*((l+1)/2) = l by omega]
            exact ⟨_, rfl, hst⟩
        obtain ⟨lps', hL, hst'⟩ := hL
        simp only [hL, hP, Option.bind_some]
        have m1 := hmul l (2*((l+1)/2)) (by omega)
        have m2 := hmul (2*((q+1)/2)) (q+1) (by omega)
        rw [show 2*((l+1)/2)/2 = (l+1)/2 by omega]
        exact ih (k+1) ((l+1)/2) ((q+1)/2) _ lps' (by omega) (by rw [e2]; omega) (by omega) (by rw [e2]; omega)
          (by rw [e2]) hft (by rw [e2]; exact hst')
      · rw [if_neg hc]
        exact ⟨k, l, q+1, p, lps, rfl, hl, hlr, hr, hp, ht, hst, fun _ => by simpa using hc⟩
    · rw [if_neg hlt]
      exact ⟨k, l, r, p, lps, rfl, hl, hlr, hr, hp, ht, hst, fun h => absurd h hlt⟩

theorem mlStack_spec {vs : List M} (f : M → Bool) (b e : Nat) :
    ∀ (lps : List (Nat × M)) (L r0 : Nat) (p : M), L ≤ e → StackL vs b L lps → p = segProd vs L e → f p = true →
      ∃ l p' lps', mlStack f lps r0 p = (l, p', lps') ∧
        ((lps' = [] ∧ f (segProd vs b e) = true) ∨
         (lps' ≠ [] ∧ ∃ l' j, l = l' + 1 ∧ vs.length + b ≤ l' * 2^j ∧ (l'+1) * 2^j ≤ vs.length + e ∧
            p' = segProd vs ((l'+1) * 2^j - vs.length) e ∧
            f p' = true ∧ f (segProd vs (l' * 2^j - vs.length) e) = false)) := by
  intro lps
  induction lps with
  | nil =>
    intro L r0 p hb hst hp ht
    have : L = b := hst
    subst this
    exact ⟨r0, p, [], rfl, Or.inl ⟨rfl, by rw [← hp]; exact ht⟩⟩
  | cons hd rest ih =>
    intro L r0 p hb hst hp ht
    obtain ⟨l, y⟩ := hd
    obtain ⟨j, h1, h2, h3, h4⟩ := hst
    have hq : (l+1)*2^j = l * 2^j + 2^j := by ring
    have hpj : 0 < 2^j := Nat.two_pow_pos j
    have hpy : y * p = segProd vs (l * 2^j - vs.length) e := by
      rw [hp, h3, segProd_append _ (by omega) hb]
    unfold mlStack
    by_cases hc : f (y * p) = true
    · simp only [hc, Bool.not_true, Bool.false_eq_true, if_false]
      exact ih _ r0 (y*p) (by omega) h4 hpy hc
    · simp only [hc, Bool.not_false, if_true]
      refine ⟨_, _, _, rfl, Or.inr ⟨by simp, l, j, rfl, h2, by omega, ?_, ht, ?_⟩⟩
      · rw [hp, ← h1]; congr 1; omega
      · rw [← hpy]; simpa using hc

/-- `min_left` finds a boundary of `f` along the suffixes of `[b,e)`. -/
theorem minLeft_spec {t : Tree M} {vs : List M} (h : Inv t vs) (f : M → Bool) {b e : Nat} (hbe : b ≤ e)
    (he : e ≤ vs.length) (hf : f 1 = true) :
    ∃ l, minLeft t f b e = some l ∧ b ≤ l ∧ l ≤ e ∧ f (segProd vs l e) = true ∧
      (l = b ∨ f (segProd vs (l-1) e) = false) := by
  unfold minLeft
  by_cases heq : e = b
  · subst heq
    rw [if_pos rfl]
    exact ⟨e, rfl, by omega, by omega, by rw [segProd_self]; exact hf, Or.inl rfl⟩
  · rw [if_neg heq, h.sz]
    have hn : 0 < vs.length := by omega
    obtain ⟨k, l, r, p, lps, e1, h1, h2, h3, h4, h5, h6, h7⟩ := mlUp_spec h hn f b e he (vs.length + e + 1) 0
      (vs.length + b) (vs.length + e) 1 [] (by omega) (by simp) (by omega) (by simp) (by simp [segProd_self]) hf
      (by simp [StackL])
    simp only [e1, Option.bind_eq_bind, Option.bind_some]
    have down : ∀ (l j : Nat) (p : M), vs.length + b ≤ l * 2^j → (l+1) * 2^j ≤ vs.length + e →
        p = segProd vs ((l+1) * 2^j - vs.length) e → f p = true → f (segProd vs (l * 2^j - vs.length) e) = false →
        ∃ r, ((mlDown vs.length t.tree f (vs.length + 2) (l+1) p).bind fun l => some (l - vs.length)) = some r ∧
          b ≤ r ∧ r ≤ e ∧ f (segProd vs r e) = true ∧ (r = b ∨ f (segProd vs (r-1) e) = false) := by
      intro l j p g1 g2 g3 g4 g5
      have := level_lt (i := l) (k := j) hn (by omega) (by omega)
      obtain ⟨q, q1, q2, q3, q4, q5⟩ := mlDown_spec h hn f e he j (vs.length + 2) l p (by omega) (by omega) (by omega) g3 g4 g5
      refine ⟨q + 1 - vs.length, by simp [q1], by omega, by omega, q4, Or.inr ?_⟩
      rw [show q + 1 - vs.length - 1 = q - vs.length by omega]; exact q5
    by_cases hlr : l ≥ r
    · rw [if_pos hlr]
      have : l = r := by omega
      subst this
      obtain ⟨l', p', lps', g1, g2⟩ := mlStack_spec f b e lps (l * 2^k - vs.length) l p (by omega) h6 h4 h5
      simp only [g1]
      rcases g2 with ⟨rfl, g2⟩ | ⟨g2, l2, j, rfl, g3, g4, g5, g6, g7⟩
      · simp only [List.isEmpty_nil, if_true]
        exact ⟨b, rfl, by omega, hbe, g2, Or.inl rfl⟩
      · have : lps'.isEmpty = false := by simpa using g2
        simp only [this, Bool.false_eq_true, if_false]
        exact down l2 j p' g3 g4 g5 g6 g7
    · rw [if_neg hlr]
      obtain ⟨q, rfl⟩ : ∃ q, r = q + 1 := ⟨r-1, by omega⟩
      have hs : l * 2^k ≤ q * 2^k := Nat.mul_le_mul_right _ (by omega)
      have h8 := h7 (by omega)
      rw [Nat.add_sub_cancel] at h8
      exact down q k p (by omega) h3 h4 h5 h8

end Verif.SegTree
