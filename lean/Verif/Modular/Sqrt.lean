import Verif.Modular.SqrtModel
import Verif.Modular.Props
import Mathlib.NumberTheory.LegendreSymbol.QuadraticReciprocity
/-!
# C22: modular square roots
-/
namespace Verif.Modular

section field
variable {p : Nat} [hp : Fact p.Prime]

theorem cast_ne_zero {a : Nat} (ha : a < p) (h0 : a ≠ 0) : (a : ZMod p) ≠ 0 := by
  intro h
  have : (a : ZMod p) = ((0 : Nat) : ZMod p) := by simpa using h
  exact h0 (cast_inj ha hp.out.pos this)

theorem eq_ofInt_iff {v : Nat} (hv : v < p) (k : Int) : v = ofInt p k ↔ (v : ZMod p) = (k : ZMod p) := by
  have hp0 := hp.out.pos
  constructor
  · intro h; rw [h, ofInt_cast hp0]
  · intro h
    exact cast_inj hv (ofInt_lt hp0 k) (by rw [h, ofInt_cast hp0])

/-- Euler's criterion, with the exponent written as in the code. -/
theorem euler (h2 : p ≠ 2) {x : ZMod p} (hx : x ≠ 0) : IsSquare x ↔ x ^ ((p-1)/2) = 1 := by
  have hodd : p % 2 = 1 := hp.out.eq_two_or_odd.resolve_left h2
  rw [ZMod.euler_criterion p hx, show (p-1)/2 = p/2 by omega]

theorem half_pow (h2 : p ≠ 2) {x : ZMod p} (hx : x ≠ 0) (hs : ¬ IsSquare x) : x ^ ((p-1)/2) = -1 := by
  have hodd : p % 2 = 1 := hp.out.eq_two_or_odd.resolve_left h2
  rcases ZMod.pow_div_two_eq_neg_one_or_one p hx with h | h
  · exact absurd ((ZMod.euler_criterion p hx).2 h) hs
  · rw [show (p-1)/2 = p/2 by omega]; exact h

theorem isSquare_spec (hm : p ≤ 2^31) (h2 : p ≠ 2) {a : Nat} (ha : a < p) (h0 : a ≠ 0) :
    ∃ b, isSquare p a = some b ∧ (b = true ↔ IsSquare (a : ZMod p)) := by
  obtain ⟨c, e, hc, h⟩ := pow_cast hm (p := (p-1)/2) ha (by omega)
  refine ⟨c == ofInt p 1, by rw [isSquare, e, Option.map_some], ?_⟩
  rw [beq_iff_eq, eq_ofInt_iff hc, euler h2 (cast_ne_zero ha h0), h]
  simp

theorem isSquareD_spec (hm : p ≤ 2^31) (h2 : p ≠ 2) {a : Nat} (ha : a < p) :
    ∃ b, isSquareD p a = some b ∧ (b = true ↔ IsSquare (a : ZMod p)) := by
  by_cases h0 : a = 0
  · subst h0
    exact ⟨true, by simp [isSquareD], by simp⟩
  · obtain ⟨b, e, h⟩ := isSquare_spec hm h2 ha h0
    refine ⟨b, ?_, h⟩
    rw [isSquareD, if_neg h0]
    exact e

/-- The search finds a non-square, given that one lies ahead. -/
theorem nonSquare_spec (hm : p ≤ 2^31) {isSq : Nat → Option Bool}
    (hsq : ∀ a, a < p → a ≠ 0 → ∃ b, isSq a = some b ∧ (b = true ↔ IsSquare (a : ZMod p)))
    {n : Nat} (hn : n < p) (hns : ¬ IsSquare (n : ZMod p)) :
    ∀ f d, 0 < d → d ≤ n → n < d + f → ∃ d', nonSquare p isSq f d = some d' ∧ d' < p ∧ d' ≠ 0 ∧ ¬ IsSquare (d' : ZMod p) := by
  intro f
  induction f with
  | zero => intro d h1 h2 h3; omega
  | succ f ih =>
    intro d h1 h2 h3
    obtain ⟨b, e, hb⟩ := hsq d (by omega) (by omega)
    rw [nonSquare, e, Option.bind_some]
    by_cases hbt : b = true
    · rw [if_pos hbt]
      have hne : d ≠ n := by
        rintro rfl
        exact hns (hb.1 hbt)
      have h1p : (ofInt p 1) = 1 := by
        have := ofInt_eq (m := p) (by omega) 1
        rw [Int.emod_eq_of_lt (by omega) (by omega)] at this
        omega
      rw [h1p, add_eq hm (by omega) (by omega), Nat.mod_eq_of_lt (by omega)]
      exact ih (d+1) (by omega) (by omega) (by omega)
    · rw [if_neg hbt]
      exact ⟨d, rfl, by omega, by omega, fun h => hbt (hb.2 h)⟩

theorem ctz_spec : ∀ f x, 0 < x → x < 2^f → ∃ t, x = 2^(ctz f x) * t ∧ t % 2 = 1 := by
  intro f
  induction f with
  | zero => intro x h1 h2; simp at h2; omega
  | succ f ih =>
    intro x h1 h2
    rw [ctz]
    by_cases hx : x % 2 = 0
    · rw [if_pos hx]
      obtain ⟨t, ht, hodd⟩ := ih (x/2) (by omega) (by rw [Nat.pow_succ] at h2; omega)
      refine ⟨t, ?_, hodd⟩
      rw [Nat.pow_succ, Nat.mul_right_comm, ← ht]; omega
    · rw [if_neg hx]
      exact ⟨x, by simp, by omega⟩

/-- What holds before round `i` of the Tonelli-Shanks loop. -/
structure TS (p : Nat) (a D : ZMod p) (s i : Nat) (st : Nat × Nat × Nat) : Prop where
  dt_lt : st.2.1 < p
  du_lt : st.2.2 < p
  bits : st.1 < 2^i
  even : st.1 % 2 = 0
  dt : (st.2.1 : ZMod p) = D ^ st.1
  du : (st.2.2 : ZMod p) = D ^ (2^i)
  one : (a * D ^ st.1) ^ (2^(s-i)) = 1

theorem tsStep_spec (hm : p ≤ 2^31) (h2 : p ≠ 2) {a s i : Nat} {D : ZMod p} (ha : a < p) (hs : s < 32) (hi : i < s)
    (ha1 : (a : ZMod p) ^ (2^(s-1)) = 1) (hD : D ^ (2^(s-1)) = -1) {st : Nat × Nat × Nat} (h : TS p a D s i st) :
    ∃ st', tsStep p a s i st = some st' ∧ TS p a D s (i+1) st' := by
  obtain ⟨mm, dt, du⟩ := st
  obtain ⟨h1, h3, h4, h5, h6, h7, h8⟩ := h
  dsimp only at h1 h3 h4 h5 h6 h7 h8
  have hp2 : 2 < p := by have := hp.out.two_le; omega
  obtain ⟨x, ex, hx, cx⟩ := mul_cast hm ha h1
  have hexp : 2^(s-1-i) < 2^63 := Nat.pow_lt_pow_right (by omega) (by omega)
  obtain ⟨v, ev, hv, cv⟩ := pow_cast hm hx hexp
  obtain ⟨du', edu, hdu', cdu⟩ := mul_cast hm h3 h3
  have hdu2 : (du' : ZMod p) = D ^ (2^(i+1)) := by
    rw [cdu, h7, ← pow_add, Nat.pow_succ]; congr 1; omega
  have hv2 : (v : ZMod p) * v = 1 := by
    rw [cv, cx, h6, ← mul_pow, ← pow_two, ← pow_mul, ← pow_succ' , show s - 1 - i + 1 = s - i by omega]
    exact h8
  simp only [tsStep, ex, ev, edu, Option.bind_some]
  by_cases hneg : v = ofInt p (-1)
  · rw [if_pos hneg]
    obtain ⟨dt', edt, hdt', cdt⟩ := mul_cast hm h1 h3
    rw [edt]
    simp only [Option.map_some, Option.bind_some]
    have hor : mm ||| 2^i = mm + 2^i := by
      have := Nat.two_pow_add_eq_or_of_lt h4 1
      rw [Nat.mul_one] at this; rw [Nat.or_comm]; omega
    have hvm : (v : ZMod p) = -1 := by
      have := (eq_ofInt_iff hv (-1)).1 hneg
      simpa using this
    have hi0 : i ≠ 0 := by
      rintro rfl
      have hmm : mm = 0 := by simpa using h4
      subst hmm
      rw [cv, cx, h6, pow_zero, mul_one, show s - 1 - 0 = s - 1 by omega, ha1] at hvm
      have : (1 : ZMod p) + 1 = 0 := by linear_combination hvm
      have h2' : ((2 : Nat) : ZMod p) = 0 := by rw [← this]; norm_num
      exact cast_ne_zero hp2 (by omega) h2'
    refine ⟨_, rfl, hdt', hdu', ?_, ?_, ?_, hdu2, ?_⟩
    · dsimp only; rw [hor, Nat.pow_succ]; omega
    · dsimp only; rw [hor]
      obtain ⟨j, rfl⟩ : ∃ j, i = j + 1 := ⟨i - 1, by omega⟩
      rw [Nat.pow_succ]; omega
    · dsimp only; rw [hor, cdt, h6, h7, pow_add]
    · dsimp only
      rw [hor, pow_add, ← mul_assoc, mul_pow, show s - (i+1) = s - 1 - i by omega, ← h6, ← cx, ← cv, hvm, ← pow_mul, ← pow_add,
        show i + (s - 1 - i) = s - 1 by omega, hD]
      norm_num
  · rw [if_neg hneg]
    simp only [Option.map_some, Option.bind_some]
    have hv1 : (v : ZMod p) = 1 := by
      rcases mul_self_eq_one_iff.1 hv2 with h | h
      · exact h
      · exact absurd ((eq_ofInt_iff hv (-1)).2 (by simpa using h)) hneg
    refine ⟨_, rfl, h1, hdu', ?_, h5, h6, hdu2, ?_⟩
    · dsimp only; rw [Nat.pow_succ]; omega
    · dsimp only
      rw [show s - (i+1) = s - 1 - i by omega, ← h6, ← cx, ← cv, hv1]

theorem tonelli_spec (hm : p ≤ 2^31) (h2 : p ≠ 2) {isSq : Nat → Option Bool}
    (hsq : ∀ a, a < p → a ≠ 0 → ∃ b, isSq a = some b ∧ (b = true ↔ IsSquare (a : ZMod p)))
    {x : Nat} (hx : x < p) (hx0 : x ≠ 0) (hxs : IsSquare (x : ZMod p)) :
    ∃ r, tonelli p isSq x = some r ∧ r < p ∧ (r : ZMod p) * r = x := by
  have hpl := hp.out.two_le
  have hodd : p % 2 = 1 := hp.out.eq_two_or_odd.resolve_left h2
  -- a non-square exists
  obtain ⟨w, hw⟩ := FiniteField.exists_nonsquare (F := ZMod p) (by rw [ZMod.ringChar_zmod_n]; exact h2)
  have hwv : ((w.val : Nat) : ZMod p) = w := by simp
  have hwlt : w.val < p := ZMod.val_lt w
  have hw2 : 2 ≤ w.val := by
    by_contra hlt
    have : w.val = 0 ∨ w.val = 1 := by omega
    rcases this with h | h
    · rw [← hwv, h] at hw; exact hw (by simp)
    · rw [← hwv, h] at hw; exact hw (by simp)
  have h2p : ofInt p 2 = 2 := by
    have := ofInt_eq (m := p) (by omega) 2
    rw [Int.emod_eq_of_lt (by omega) (by omega)] at this
    omega
  obtain ⟨d, ed, hd, hd0, hds⟩ := nonSquare_spec hm hsq hwlt (by rw [hwv]; exact hw) p (ofInt p 2) (by omega) (by omega) (by omega)
  obtain ⟨t, ht, htodd⟩ := ctz_spec 32 (p-1) (by omega) (by omega)
  have hs1 : ctz 32 (p-1) ≠ 0 := by
    intro h
    rw [h] at ht
    omega
  have hs32 : ctz 32 (p-1) < 32 := by
    by_contra hge
    have : 2^32 ≤ 2^(ctz 32 (p-1)) := Nat.pow_le_pow_right (by omega) (by omega)
    have h3 : 2^(ctz 32 (p-1)) ≤ 2^(ctz 32 (p-1)) * t := Nat.le_mul_of_pos_right _ (by omega)
    omega
  rw [tonelli, ed, Option.bind_some]
  generalize ctz 32 (p-1) = s at *
  have hdiv : (p-1) / 2^s = t := by
    rw [ht]; exact Nat.mul_div_cancel_left _ (Nat.two_pow_pos s)
  have htle : t ≤ p - 1 := by
    rw [ht]; exact Nat.le_mul_of_pos_left _ (Nat.two_pow_pos s)
  have hhalf : (p-1)/2 = t * 2^(s-1) := by
    obtain ⟨s', rfl⟩ : ∃ s', s = s' + 1 := ⟨s - 1, by omega⟩
    rw [ht, Nat.pow_succ, Nat.add_sub_cancel, Nat.mul_right_comm, Nat.mul_div_cancel _ (by omega), Nat.mul_comm]
  dsimp only
  rw [hdiv]
  obtain ⟨a, ea, ha, ca⟩ := pow_cast hm (p := t) hx (by omega)
  obtain ⟨D, eD, hD, cD⟩ := pow_cast hm (p := t) hd (by omega)
  rw [ea, Option.bind_some, eD, Option.bind_some]
  have ha1 : (a : ZMod p) ^ (2^(s-1)) = 1 := by
    rw [ca, ← pow_mul, ← hhalf]
    exact (euler h2 (cast_ne_zero hx hx0)).1 hxs
  have hD1 : (D : ZMod p) ^ (2^(s-1)) = -1 := by
    rw [cD, ← pow_mul, ← hhalf]
    exact half_pow h2 (cast_ne_zero hd hd0) hds
  obtain ⟨st, est, hst⟩ := forRange_inv (a := 0) (b := s) (P := TS p a (D : ZMod p) s) (body := tsStep p a s)
    (s := (0, ofInt p 1, D)) (by omega)
    ⟨ofInt_lt (by omega) 1, hD, by simp, rfl, by rw [ofInt_cast (by omega)]; simp, by simp, by
      dsimp only
      rw [pow_zero, mul_one, Nat.sub_zero, show s = (s-1) + 1 by omega, pow_succ 2, pow_mul, ha1, one_pow]⟩
    (fun i st _ hi h => tsStep_spec hm h2 ha hs32 hi ha1 hD1 h)
  rw [est, Option.bind_some]
  obtain ⟨mm, dt, du⟩ := st
  obtain ⟨-, -, hbits, heven, -, -, hone⟩ := hst
  dsimp only at hbits heven hone ⊢
  rw [Nat.sub_self, pow_zero, pow_one] at hone
  have hmm : mm / 2 < 2^63 := by
    have : 2^s ≤ 2^32 := Nat.pow_le_pow_right (by omega) (by omega)
    omega
  obtain ⟨u, eu, hu, cu⟩ := pow_cast hm (p := (t+1)/2) hx (by omega)
  obtain ⟨w', ew, hw', cw⟩ := pow_cast hm (p := mm/2) hD hmm
  obtain ⟨r, er, hr, cr⟩ := mul_cast hm hu hw'
  rw [eu, Option.bind_some, ew, Option.bind_some]
  refine ⟨r, er, hr, ?_⟩
  rw [cr, cu, cw]
  have e1 : (x : ZMod p) ^ ((t+1)/2) * (x : ZMod p) ^ ((t+1)/2) = x * a := by
    rw [← pow_add, ca, show (t+1)/2 + (t+1)/2 = t + 1 by omega, pow_succ']
  have e2 : (D : ZMod p) ^ (mm/2) * (D : ZMod p) ^ (mm/2) = (D : ZMod p) ^ mm := by
    rw [← pow_add, show mm/2 + mm/2 = mm by omega]
  calc _ = ((x : ZMod p) ^ ((t+1)/2) * (x : ZMod p) ^ ((t+1)/2)) * ((D : ZMod p) ^ (mm/2) * (D : ZMod p) ^ (mm/2)) := by ring
    _ = x * (a * (D : ZMod p) ^ mm) := by rw [e1, e2, mul_assoc]
    _ = x := by rw [hone, mul_one]

theorem sqrtCases_spec (hm : p ≤ 2^31) (h2 : p ≠ 2) {isSq : Nat → Option Bool}
    (hsq : ∀ a, a < p → a ≠ 0 → ∃ b, isSq a = some b ∧ (b = true ↔ IsSquare (a : ZMod p)))
    {x : Nat} (hx : x < p) (hx0 : x ≠ 0) (hxs : IsSquare (x : ZMod p)) :
    ∃ r, sqrtCases p isSq x = some r ∧ r < p ∧ (r : ZMod p) * r = x := by
  have hodd : p % 2 = 1 := hp.out.eq_two_or_odd.resolve_left h2
  have hpl := hp.out.two_le
  have heul := (euler h2 (cast_ne_zero hx hx0)).1 hxs
  unfold sqrtCases
  by_cases h37 : p % 8 = 3 ∨ p % 8 = 7
  · rw [if_pos h37]
    obtain ⟨r, er, hr, cr⟩ := pow_cast hm (p := (p+1)/4) hx (by omega)
    refine ⟨r, er, hr, ?_⟩
    rw [cr, ← pow_add, show (p+1)/4 + (p+1)/4 = (p-1)/2 + 1 by omega, pow_succ, heul, one_mul]
  · rw [if_neg h37]
    by_cases h5 : p % 8 = 5
    · rw [if_pos h5, sqrt5]
      obtain ⟨y, ey, hy, cy⟩ := pow_cast hm (p := (p+3)/8) hx (by omega)
      obtain ⟨yy, eyy, hyy, cyy⟩ := mul_cast hm hy hy
      rw [ey, Option.bind_some, eyy, Option.bind_some]
      by_cases hcmp : yy = x
      · rw [if_pos hcmp]
        exact ⟨y, rfl, hy, by rw [← cyy, hcmp]⟩
      · rw [if_neg hcmp]
        obtain ⟨z, ez, hz, cz⟩ := pow_cast hm (p := (p-1)/4) (ofInt_lt (m := p) (by omega) 2) (by omega)
        obtain ⟨r, er, hr, cr⟩ := mul_cast hm hy hz
        rw [ez, Option.bind_some]
        refine ⟨r, er, hr, ?_⟩
        have hy2 : (y : ZMod p) * y = (x : ZMod p) ^ ((p-1)/4) * x := by
          rw [cy, ← pow_add, ← pow_succ, show (p+3)/8 + (p+3)/8 = (p-1)/4 + 1 by omega]
        have hc2 : (x : ZMod p) ^ ((p-1)/4) * (x : ZMod p) ^ ((p-1)/4) = 1 := by
          rw [← pow_add, show (p-1)/4 + (p-1)/4 = (p-1)/2 by omega, heul]
        have hcm : (x : ZMod p) ^ ((p-1)/4) = -1 := by
          rcases mul_self_eq_one_iff.1 hc2 with h | h
          · exfalso
            apply hcmp
            apply cast_inj hyy hx
            rw [cyy, hy2, h, one_mul]
          · exact h
        have h2ne : (2 : ZMod p) ≠ 0 := by
          have := cast_ne_zero (p := p) (a := 2) (by omega) (by omega)
          simpa using this
        have h2ns : ¬ IsSquare (2 : ZMod p) := by
          rw [ZMod.exists_sq_eq_two_iff h2]; omega
        have h2m := half_pow h2 h2ne h2ns
        have hz2 : (z : ZMod p) * z = -1 := by
          rw [cz, ofInt_cast (by omega), ← pow_add, show (p-1)/4 + (p-1)/4 = (p-1)/2 by omega]
          simpa using h2m
        calc (r : ZMod p) * r = (y * y) * (z * z) := by rw [cr]; ring
          _ = x := by rw [hy2, hcm, hz2]; ring
    · rw [if_neg h5]
      exact tonelli_spec hm h2 hsq hx hx0 hxs

theorem isSquare_cast_iff {a : Nat} (ha : a < p) : IsSquare (a : ZMod p) ↔ ∃ r, r < p ∧ r * r % p = a := by
  constructor
  · rintro ⟨r, hr⟩
    refine ⟨r.val, ZMod.val_lt r, ?_⟩
    apply cast_inj (Nat.mod_lt _ hp.out.pos) ha
    rw [ZMod.natCast_mod, Nat.cast_mul, hr]
    simp
  · rintro ⟨r, _, hr⟩
    refine ⟨r, ?_⟩
    rw [← Nat.cast_mul, ← hr, ZMod.natCast_mod]

theorem root_mod {r x : Nat} (hx : x < p) (h : (r : ZMod p) * r = x) : r * r % p = x := by
  apply cast_inj (Nat.mod_lt _ hp.out.pos) hx
  rw [ZMod.natCast_mod, Nat.cast_mul, h]

end field

/-- **C22 for `DynamicModular`.** For every prime (2 included) and every element, `is_square` decides whether the element has a
square root, `sqrt` returns one if so and throws otherwise; all searches end. -/
theorem C22_dynamic {p : Nat} (hp : p.Prime) (hm : p ≤ 2^31) {a : Nat} (ha : a < p) :
    (∃ b, isSquareD p a = some b ∧ (b = true ↔ ∃ r, r < p ∧ r * r % p = a)) ∧
    ((∃ r, r < p ∧ r * r % p = a) → ∃ r, sqrtD p a = some (some r) ∧ r < p ∧ r * r % p = a) ∧
    ((¬ ∃ r, r < p ∧ r * r % p = a) → sqrtD p a = some none) := by
  haveI : Fact p.Prime := ⟨hp⟩
  have hpl := hp.two_le
  have hsmall : a < 2 → a * a % p = a := by
    intro h
    have : a = 0 ∨ a = 1 := by omega
    rcases this with rfl | rfl
    · simp
    · exact Nat.mod_eq_of_lt (by omega)
  have hofn : ofNat p a = a := Nat.mod_eq_of_lt ha
  by_cases h2 : p = 2
  · subst h2
    have ha2 : a = 0 ∨ a = 1 := by omega
    have hsq : isSquareD 2 a = some true := by
      rcases ha2 with rfl | rfl <;> decide +kernel
    have hex : ∃ r, r < 2 ∧ r * r % 2 = a := ⟨a, ha, hsmall ha⟩
    refine ⟨⟨true, hsq, by simpa using hex⟩, ?_, fun h => absurd hex h⟩
    intro _
    refine ⟨a, ?_, ha, hsmall ha⟩
    rw [sqrtD, hsq, Option.bind_some, if_pos rfl, if_pos ha, hofn]
  · obtain ⟨b, eb, hb⟩ := isSquareD_spec hm h2 ha
    rw [isSquare_cast_iff ha] at hb
    refine ⟨⟨b, eb, hb⟩, ?_, ?_⟩
    · intro hex
      have hbt := hb.2 hex
      subst hbt
      rw [sqrtD, eb, Option.bind_some, if_pos rfl]
      by_cases hlt : a < 2
      · exact ⟨a, by rw [if_pos hlt, hofn], ha, hsmall hlt⟩
      · rw [if_neg hlt]
        obtain ⟨r, er, hr, hrr⟩ := sqrtCases_spec hm h2 (fun a h _ => isSquareD_spec hm h2 h) ha (by omega)
          ((isSquare_cast_iff ha).2 hex)
        exact ⟨r, by rw [er]; rfl, hr, root_mod ha hrr⟩
    · intro hex
      have : b = false := by
        cases b with
        | false => rfl
        | true => exact absurd (hb.1 rfl) hex
      subst this
      rw [sqrtD, eb, Option.bind_some]; rfl

/-- **C22 for `Modular`, part.** The same for every odd prime and every element except 0.  Missing: the element 0 and the modulus 2,
where the claim fails (`C22_violated_zero`, `C22_violated_two`). -/
theorem C22_static_partial {p : Nat} (hp : p.Prime) (hm : p ≤ 2^31) (h2 : p ≠ 2) {a : Nat} (ha : a < p) (ha0 : a ≠ 0) :
    (∃ b, isSquare p a = some b ∧ (b = true ↔ ∃ r, r < p ∧ r * r % p = a)) ∧
    ((∃ r, r < p ∧ r * r % p = a) → ∃ r, sqrt p a = some (some r) ∧ r < p ∧ r * r % p = a) ∧
    ((¬ ∃ r, r < p ∧ r * r % p = a) → sqrt p a = some none) := by
  haveI : Fact p.Prime := ⟨hp⟩
  obtain ⟨b, eb, hb⟩ := isSquare_spec hm h2 ha ha0
  rw [isSquare_cast_iff ha] at hb
  refine ⟨⟨b, eb, hb⟩, ?_, ?_⟩
  · intro hex
    have hbt := hb.2 hex
    subst hbt
    rw [sqrt, eb, Option.bind_some, if_pos rfl]
    obtain ⟨r, er, hr, hrr⟩ := sqrtCases_spec hm h2 (fun a h h0 => isSquare_spec hm h2 h h0) ha ha0 ((isSquare_cast_iff ha).2 hex)
    exact ⟨r, by rw [er]; rfl, hr, root_mod ha hrr⟩
  · intro hex
    have : b = false := by
      cases b with
      | false => rfl
      | true => exact absurd (hb.1 rfl) hex
    subst this
    rw [sqrt, eb, Option.bind_some]; rfl

/-- **C22 fails for `Modular` at 0**: for every odd prime, `Modular(0).is_square()` is false and `Modular(0).sqrt()` throws,
although 0 is the square of 0 (modular.hpp:79-81; `DynamicModular` has the missing test). -/
theorem C22_violated_zero {p : Nat} (hp : p.Prime) (hm : p ≤ 2^31) (h2 : p ≠ 2) :
    isSquare p 0 = some false ∧ sqrt p 0 = some none := by
  haveI : Fact p.Prime := ⟨hp⟩
  have hpl := hp.two_le
  have hodd : p % 2 = 1 := hp.eq_two_or_odd.resolve_left h2
  have h : isSquare p 0 = some false := by
    obtain ⟨c, e, hc, h⟩ := pow_cast hm (p := (p-1)/2) hp.pos (by omega)
    rw [isSquare, e, Option.map_some]
    refine congrArg some (beq_eq_false_iff_ne.2 ?_)
    intro h1
    have h1' := (eq_ofInt_iff hc 1).1 h1
    rw [h, Nat.cast_zero, zero_pow (by omega)] at h1'
    simp at h1'
  exact ⟨h, by rw [sqrt, h, Option.bind_some]; rfl⟩

/-- **C22 fails for `Modular<2>`**: 1 is reported to be a square, but the search for a non-square never ends, whatever the budget
(modular.hpp:99-100; there is no non-square modulo 2). -/
theorem C22_violated_two (budget d : Nat) (hd : d < 2) : isSquare 2 1 = some true ∧ nonSquare 2 (isSquare 2) budget d = none := by
  refine ⟨by decide +kernel, ?_⟩
  have h0 : isSquare 2 0 = some true := by decide +kernel
  have h1 : isSquare 2 1 = some true := by decide +kernel
  have a0 : add 2 0 (ofInt 2 1) = 1 := by decide +kernel
  have a1 : add 2 1 (ofInt 2 1) = 0 := by decide +kernel
  have key : ∀ budget, nonSquare 2 (isSquare 2) budget 0 = none ∧ nonSquare 2 (isSquare 2) budget 1 = none := by
    intro budget
    induction budget with
    | zero => exact ⟨rfl, rfl⟩
    | succ n ih =>
      refine ⟨?_, ?_⟩
      · rw [nonSquare, h0, Option.bind_some, if_pos rfl, a0]; exact ih.2
      · rw [nonSquare, h1, Option.bind_some, if_pos rfl, a1]; exact ih.1
  have : d = 0 ∨ d = 1 := by omega
  rcases this with rfl | rfl
  · exact (key budget).1
  · exact (key budget).2

/-- The three branches, with primes 998244353 ≡ 1, 13 ≡ 5, 7 ≡ 7 (mod 8). -/
example : sqrtD 998244353 5 = some none := by decide +kernel
example : sqrtD 17 13 = some (some 8) := by decide +kernel
example : sqrtD 13 3 = some (some 9) := by decide +kernel
example : sqrtD 7 2 = some (some 4) := by decide +kernel

end Verif.Modular
