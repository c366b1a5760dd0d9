import Verif.Enumerate.Model
import Verif.Modular.Props
import Mathlib.Data.Nat.Choose.Basic
import Mathlib.Data.Nat.Factorial.BigOperators
import Mathlib.Data.Nat.Prime.Factorial
/-!
# C24: tables of factorials
-/
namespace Verif.Enumerate
open Modular

/-- Below `k` the list holds the values of `g`, all of them canonical. -/
def Upto (p : Nat) (v : List Nat) (k : Nat) (g : Nat → ZMod p) : Prop :=
  ∀ i, i < k → ∃ x, v[i]? = some x ∧ x < p ∧ (x : ZMod p) = g i

/-- What is known about the tables. -/
structure Ok (p : Nat) (t : Tab) : Prop where
  pos : 1 ≤ t.maxN
  lenF : t.fact.length = t.maxN + 1
  lenI : t.ifact.length = t.maxN + 1
  fact : Upto p t.fact (t.maxN + 1) (fun i => ((i.factorial : Nat) : ZMod p))
  ifact : t.maxN < p → Upto p t.ifact (t.maxN + 1) (fun i => ((i.factorial : Nat) : ZMod p)⁻¹)
  lt : ∀ i, i < t.maxN + 1 → ∃ x, t.ifact[i]? = some x ∧ x < p

section
variable {p : Nat} [hp : Fact p.Prime]

theorem fact_ne_zero {n : Nat} (h : n < p) : ((n.factorial : Nat) : ZMod p) ≠ 0 := by
  rw [Ne, ZMod.natCast_eq_zero_iff, hp.out.dvd_factorial]
  omega

theorem resize_len (v : List Nat) (n : Nat) : (resize v n).length = n := by
  simp [resize]; omega

theorem resize_get {v : List Nat} {n i : Nat} (hi : i < v.length) (hn : v.length ≤ n) : (resize v n)[i]? = v[i]? := by
  unfold resize
  rw [List.take_of_length_le hn, List.getElem?_append_left hi]

theorem div_total (hm : p ≤ 2^31) {a b : Nat} (ha : a < p) (hb : b < p) : ∃ c, div p a b = some c ∧ c < p := by
  have h2 := hp.out.two_le
  obtain ⟨c, e, hc, -⟩ := pow_cast hm (p := p - 2) hb (by omega)
  obtain ⟨d, ed, hd, -⟩ := mul_cast hm ha hc
  refine ⟨d, ?_, hd⟩
  rw [div, inv, u32, show (p + 2^32 - 2) % 2^32 = p - 2 by omega, e, Option.bind_some, ed]

theorem setMaxN_ok (hm : p ≤ 2^31) {n : Nat} {t : Tab} (hpos : 1 ≤ t.maxN) (hlF : t.maxN + 1 ≤ t.fact.length) (hlF2 : t.fact.length ≤ max (t.maxN + 1) (n+1))
    (hlI : t.ifact.length = t.fact.length)
    (hf : Upto p t.fact (t.maxN + 1) (fun i => ((i.factorial : Nat) : ZMod p)))
    (hif : t.maxN < p → Upto p t.ifact (t.maxN + 1) (fun i => ((i.factorial : Nat) : ZMod p)⁻¹))
    (hlt : ∀ i, i < t.maxN + 1 → ∃ x, t.ifact[i]? = some x ∧ x < p) :
    ∃ t', setMaxN p n t = some t' ∧ Ok p t' ∧ n ≤ t'.maxN ∧ t'.maxN = (if n ≤ t.maxN then t.maxN else max (t.maxN * 2) n) := by
  have hp2 := hp.out.two_le
  unfold setMaxN
  by_cases hn : n ≤ t.maxN
  · simp only [if_pos hn]
    exact ⟨t, rfl, ⟨hpos, by omega, by omega, hf, hif, hlt⟩, hn, rfl⟩
  · simp only [if_neg hn]
    generalize hN : max (t.maxN * 2) n = N
    have hN1 : t.maxN < N := by omega
    -- factorials
    obtain ⟨f, ef, hfl, hfv⟩ := forRange_inv (a := t.maxN+1) (b := N+1)
      (P := fun k v => v.length = N + 1 ∧ Upto p v k (fun i => ((i.factorial : Nat) : ZMod p)))
      (body := factStep p) (s := resize t.fact (N+1)) (by omega)
      ⟨resize_len _ _, fun i hi => by
        obtain ⟨x, ex, hx⟩ := hf i hi
        exact ⟨x, by rw [resize_get (by omega) (by omega)]; exact ex, hx⟩⟩
      (by
        intro k v hk1 hk2 ⟨hl, hv⟩
        obtain ⟨x, ex, hx, cx⟩ := hv (k-1) (by omega)
        obtain ⟨y, ey, hy, cy⟩ := mul_cast hm hx (ofInt_lt (m := p) (by omega) (k : Int))
        refine ⟨v.set k y, by rw [factStep, ex, Option.bind_some, ey, Option.bind_some, wr, if_pos (by omega)], by simpa using hl, ?_⟩
        intro i hi
        by_cases hik : i = k
        · subst hik
          refine ⟨y, by rw [List.getElem?_set_self (by omega)], hy, ?_⟩
          rw [cy, cx, ofInt_cast (by omega), Int.cast_natCast, ← Nat.cast_mul]
          obtain ⟨j, rfl⟩ : ∃ j, i = j + 1 := ⟨i - 1, by omega⟩
          dsimp only
          rw [Nat.add_sub_cancel, Nat.factorial_succ, Nat.mul_comm]
        · obtain ⟨z, ez, hz⟩ := hv i (by omega)
          exact ⟨z, by rw [List.getElem?_set_ne (Ne.symm hik)]; exact ez, hz⟩)
    rw [ef, Option.bind_some]
    obtain ⟨x, ex, hx, cx⟩ := hfv N (by omega)
    obtain ⟨y, ey, hy⟩ := div_total hm (ofInt_lt (m := p) (by omega) 1) hx
    rw [ex, Option.bind_some, ey, Option.bind_some]
    have hyv : N < p → (y : ZMod p) = ((N.factorial : Nat) : ZMod p)⁻¹ := by
      intro hNp
      have hne := fact_ne_zero hNp
      have hx0 : x ≠ 0 := by
        rintro rfl
        rw [Nat.cast_zero] at cx
        exact hne cx.symm
      obtain ⟨c, ec, hc, cc⟩ := inv_spec hm hx hx0
      obtain ⟨d, ed, hd, cd⟩ := mul_cast hm (ofInt_lt (m := p) (by omega) 1) hc
      rw [div, ec, Option.bind_some, ed, Option.some.injEq] at ey
      rw [← ey, cd, ofInt_cast (by omega), cc, cx]
      simp
    have hwr : wr (resize t.ifact (N+1)) N y = some ((resize t.ifact (N+1)).set N y) := by
      unfold wr; rw [if_pos (by rw [resize_len]; omega)]
    rw [hwr, Option.bind_some]
    obtain ⟨g, eg, hgl, hg1, hg2, hg3⟩ := forRangeDown_inv (a := t.maxN+1) (b := N)
      (P := fun k v => v.length = N + 1 ∧ (∀ i, i < t.maxN + 1 → v[i]? = t.ifact[i]?) ∧
        (∀ i, k ≤ i → i ≤ N → ∃ x, v[i]? = some x ∧ x < p) ∧
        (N < p → ∀ i, k ≤ i → i ≤ N → ∃ x, v[i]? = some x ∧ x < p ∧ (x : ZMod p) = ((i.factorial : Nat) : ZMod p)⁻¹))
      (body := ifactStep p) (s := (resize t.ifact (N+1)).set N y) (by omega)
      ⟨by simp [resize_len], fun i hi => by
          rw [List.getElem?_set_ne (by omega), resize_get (by omega) (by omega)],
        fun i h1 h2 => by
          obtain rfl : i = N := by omega
          exact ⟨y, by rw [List.getElem?_set_self (by rw [resize_len]; omega)], hy⟩,
        fun hNp i h1 h2 => by
          obtain rfl : i = N := by omega
          exact ⟨y, by rw [List.getElem?_set_self (by rw [resize_len]; omega)], hy, hyv hNp⟩⟩
      (by
        intro k v hk1 hk2 ⟨hl, hv1, hv2, hv3⟩
        obtain ⟨x, ex, hx⟩ := hv2 (k+1) (by omega) (by omega)
        obtain ⟨z, ez, hz, cz⟩ := mul_cast hm hx (ofInt_lt (m := p) (by omega) ((k+1 : Nat) : Int))
        refine ⟨v.set k z, by rw [ifactStep, ex, Option.bind_some, ez, Option.bind_some, wr, if_pos (by omega)], by simpa using hl, ?_, ?_, ?_⟩
        · intro i hi
          rw [List.getElem?_set_ne (by omega)]; exact hv1 i hi
        · intro i h1 h2
          by_cases hik : i = k
          · subst hik
            exact ⟨z, by rw [List.getElem?_set_self (by omega)], hz⟩
          · rw [List.getElem?_set_ne (Ne.symm hik)]
            exact hv2 i (by omega) h2
        · intro hNp i h1 h2
          by_cases hik : i = k
          · subst hik
            obtain ⟨x', ex', _, cx'⟩ := hv3 hNp (i+1) (by omega) (by omega)
            rw [ex, Option.some.injEq] at ex'
            subst ex'
            refine ⟨z, by rw [List.getElem?_set_self (by omega)], hz, ?_⟩
            rw [cz, cx', ofInt_cast (by omega), Int.cast_natCast]
            apply eq_inv_of_mul_eq_one_left
            have hne := fact_ne_zero (p := p) (n := i+1) (by omega)
            rw [mul_assoc, ← Nat.cast_mul, ← Nat.factorial_succ, inv_mul_cancel₀ hne]
          · rw [List.getElem?_set_ne (Ne.symm hik)]
            exact hv3 hNp i (by omega) h2)
    rw [eg, Option.map_some]
    refine ⟨⟨N, f, g⟩, rfl, ⟨by dsimp only; omega, hfl, hgl, hfv, ?_, ?_⟩, by dsimp only; omega, by rfl⟩
    · intro hNp i hi
      dsimp only at hi hNp ⊢
      by_cases hit : i < t.maxN + 1
      · rw [hg1 i hit]
        exact hif (by omega) i hit
      · exact hg3 hNp i (by omega) (by omega)
    · intro i hi
      dsimp only at hi ⊢
      by_cases hit : i < t.maxN + 1
      · rw [hg1 i hit]
        exact hlt i hit
      · exact hg2 i (by omega) (by omega)

/-- A request brings the table up to `n`; the new bound is below `2n` unless the old one was enough. -/
theorem grow_ok (hm : p ≤ 2^31) (n : Nat) {t : Tab} (h : Ok p t) :
    ∃ t', (if t.maxN < n then setMaxN p n t else some t) = some t' ∧ Ok p t' ∧ n ≤ t'.maxN ∧ t'.maxN ≤ max t.maxN (2 * n - 1) := by
  by_cases hn : t.maxN < n
  · rw [if_pos hn]
    obtain ⟨t', e, h', h1, h2⟩ := setMaxN_ok hm (n := n) h.pos (by rw [h.lenF]) (by rw [h.lenF]; omega) (by rw [h.lenF, h.lenI])
      h.fact h.ifact h.lt
    rw [if_neg (by omega)] at h2
    have := h.pos
    exact ⟨t', e, h', h1, by omega⟩
  · rw [if_neg hn]
    exact ⟨t, rfl, h, by omega, by omega⟩

theorem fact_ok (hm : p ≤ 2^31) (n : Nat) {t : Tab} (h : Ok p t) :
    ∃ v t', Enumerate.fact p n t = some (v, t') ∧ Ok p t' ∧ t'.maxN ≤ max t.maxN (2*n-1) ∧ v < p ∧ (v : ZMod p) = ((n.factorial : Nat) : ZMod p) := by
  obtain ⟨t', e, h', h1, h2⟩ := grow_ok hm n h
  obtain ⟨x, ex, hx, cx⟩ := h'.fact n (by omega)
  exact ⟨x, t', by rw [Enumerate.fact, e, Option.bind_some, ex, Option.map_some], h', h2, hx, cx⟩

theorem ifact_ok (hm : p ≤ 2^31) (n : Nat) {t : Tab} (h : Ok p t) :
    ∃ v t', Enumerate.ifact p n t = some (v, t') ∧ Ok p t' ∧ t'.maxN ≤ max t.maxN (2*n-1) ∧ v < p ∧
      (t'.maxN < p → (v : ZMod p) = ((n.factorial : Nat) : ZMod p)⁻¹) := by
  obtain ⟨t', e, h', h1, h2⟩ := grow_ok hm n h
  obtain ⟨x, ex, hx⟩ := h'.lt n (by omega)
  refine ⟨x, t', by rw [Enumerate.ifact, e, Option.bind_some, ex, Option.map_some], h', h2, hx, ?_⟩
  intro hlt
  obtain ⟨y, ey, hy, cy⟩ := h'.ifact hlt n (by omega)
  rw [ex, Option.some.injEq] at ey
  rw [ey]; exact cy

theorem mk0_ok : Ok p (mk0 p) := by
  have hp2 := hp.out.two_le
  refine ⟨Nat.le_refl _, rfl, rfl, ?_, ?_, ?_⟩
  · intro i hi
    have : i = 0 ∨ i = 1 := by simp only [mk0] at hi; omega
    rcases this with rfl | rfl <;> exact ⟨_, rfl, ofInt_lt (by omega) 1, by rw [ofInt_cast (by omega)]; simp⟩
  · intro _ i hi
    have : i = 0 ∨ i = 1 := by simp only [mk0] at hi; omega
    rcases this with rfl | rfl <;> exact ⟨_, rfl, ofInt_lt (by omega) 1, by rw [ofInt_cast (by omega)]; simp⟩
  · intro i hi
    have : i = 0 ∨ i = 1 := by simp only [mk0] at hi; omega
    rcases this with rfl | rfl <;> exact ⟨_, rfl, ofInt_lt (by omega) 1⟩

theorem mk_ok (hm : p ≤ 2^31) (n : Nat) : ∃ t, mk p n = some t ∧ Ok p t ∧ n ≤ t.maxN ∧ t.maxN = max 1 n := by
  have hp2 := hp.out.two_le
  have hlen : (ofInt p 1 :: ofInt p 1 :: List.replicate (max 2 (n+1) - 2) 0).length = max 2 (n+1) := by simp; omega
  have small : ∀ i, i < 1 + 1 → (ofInt p 1 :: ofInt p 1 :: List.replicate (max 2 (n+1) - 2) 0)[i]? = some (ofInt p 1) := by
    intro i hi
    have : i = 0 ∨ i = 1 := by omega
    rcases this with rfl | rfl <;> rfl
  have hfac : ∀ i, i < 1 + 1 → i.factorial = 1 := by
    intro i hi
    have : i = 0 ∨ i = 1 := by omega
    rcases this with rfl | rfl <;> rfl
  obtain ⟨t, e, h, h1, h2⟩ := setMaxN_ok hm (n := n)
    (t := ⟨1, ofInt p 1 :: ofInt p 1 :: List.replicate (max 2 (n+1) - 2) 0, ofInt p 1 :: ofInt p 1 :: List.replicate (max 2 (n+1) - 2) 0⟩)
    (Nat.le_refl _) (by dsimp only; omega) (by dsimp only; omega) rfl
    (fun i hi => ⟨_, small i hi, ofInt_lt (by omega) 1, by rw [ofInt_cast (by omega)]; dsimp only; rw [hfac i hi]; simp⟩)
    (fun _ i hi => ⟨_, small i hi, ofInt_lt (by omega) 1, by rw [ofInt_cast (by omega)]; dsimp only; rw [hfac i hi]; simp⟩)
    (fun i hi => ⟨_, small i hi, ofInt_lt (by omega) 1⟩)
  refine ⟨t, e, h, h1, ?_⟩
  dsimp only at h2
  split at h2 <;> omega

end

/-! ### Specification and histories -/

inductive Query where
  | fact (n : Nat)
  | ifact (n : Nat)
  | cmb (n r : Nat)
  | prm (n r : Nat)

/-- The largest number mentioned. -/
def Query.top : Query → Nat
  | .fact n => n
  | .ifact n => n
  | .cmb n r => max n r
  | .prm n r => max n r

def Query.run (m : Nat) (t : Tab) : Query → Option (Nat × Tab)
  | .fact n => Enumerate.fact m n t
  | .ifact n => Enumerate.ifact m n t
  | .cmb n r => Enumerate.cmb m n r t
  | .prm n r => Enumerate.prm m n r t

/-- The right answer. -/
def Query.spec (p : Nat) : Query → Nat → Prop
  | .fact n, v => v = n.factorial % p
  | .ifact n, v => v < p ∧ v * n.factorial % p = 1
  | .cmb n r, v => v = n.choose r % p
  | .prm n r, v => v = n.descFactorial r % p

/-- Answers to a sequence of queries. -/
def runAll (m : Nat) : List Query → Tab → Option (List Nat)
  | [], _ => some []
  | q :: qs, t => (q.run m t).bind (fun r => (runAll m qs r.2).map (fun vs => r.1 :: vs))

theorem query_ok {p : Nat} [hp : Fact p.Prime] (hm : p ≤ 2^31) (q : Query) {t : Tab} (h : Ok p t) {B : Nat} (hB : t.maxN ≤ B) (hBp : B < p)
    (hq : q.top ≤ t.maxN ∨ 2 * q.top ≤ B + 1) : ∃ v t', q.run p t = some (v, t') ∧ Ok p t' ∧ t.maxN ≤ t'.maxN ∧ t'.maxN ≤ B ∧ q.spec p v := by
  have hp2 := hp.out.two_le
  have mono : ∀ {n : Nat} {t : Tab}, Ok p t → ∀ {t'}, (if t.maxN < n then setMaxN p n t else some t) = some t' → t.maxN ≤ t'.maxN := by
    intro n t h t' e
    obtain ⟨t1, e1, _, h1, h2⟩ := grow_ok hm n h
    rw [e1, Option.some.injEq] at e
    subst e
    by_cases hn : t.maxN < n
    · omega
    · rw [if_neg hn, Option.some.injEq] at e1
      rw [e1]
  have fact' : ∀ (n : Nat) {t : Tab}, Ok p t → t.maxN ≤ B → (n ≤ t.maxN ∨ 2 * n ≤ B + 1) → ∃ v t', Enumerate.fact p n t = some (v, t') ∧ Ok p t' ∧
      t.maxN ≤ t'.maxN ∧ n ≤ t'.maxN ∧ t'.maxN ≤ B ∧ v < p ∧ (v : ZMod p) = ((n.factorial : Nat) : ZMod p) := by
    intro n t h hB hn
    obtain ⟨t', e, h', h1, h2⟩ := grow_ok hm n h
    obtain ⟨x, ex, hx, cx⟩ := h'.fact n (by omega)
    refine ⟨x, t', by rw [Enumerate.fact, e, Option.bind_some, ex, Option.map_some], h', mono h e, h1, ?_, hx, cx⟩
    rcases hn with hn | hn
    · rw [if_neg (by omega), Option.some.injEq] at e
      rw [← e]; exact hB
    · omega
  have ifact' : ∀ (n : Nat) {t : Tab}, Ok p t → t.maxN ≤ B → (n ≤ t.maxN ∨ 2 * n ≤ B + 1) → ∃ v t', Enumerate.ifact p n t = some (v, t') ∧ Ok p t' ∧
      t.maxN ≤ t'.maxN ∧ n ≤ t'.maxN ∧ t'.maxN ≤ B ∧ v < p ∧ (v : ZMod p) = ((n.factorial : Nat) : ZMod p)⁻¹ := by
    intro n t h hB hn
    obtain ⟨t', e, h', h1, h2⟩ := grow_ok hm n h
    have hB' : t'.maxN ≤ B := by
      rcases hn with hn | hn
      · rw [if_neg (by omega), Option.some.injEq] at e
        rw [← e]; exact hB
      · omega
    obtain ⟨x, ex, hx, cx⟩ := h'.ifact (by omega) n (by omega)
    exact ⟨x, t', by rw [Enumerate.ifact, e, Option.bind_some, ex, Option.map_some], h', mono h e, h1, hB', hx, cx⟩
  cases q with
  | fact n =>
    obtain ⟨v, t', e, h', h1, _, h2, hv, cv⟩ := fact' n h hB hq
    refine ⟨v, t', e, h', h1, h2, ?_⟩
    exact cast_inj hv (Nat.mod_lt _ (by omega)) (by rw [cv, ZMod.natCast_mod])
  | ifact n =>
    obtain ⟨v, t', e, h', h1, h2, h3, hv, cv⟩ := ifact' n h hB hq
    refine ⟨v, t', e, h', h1, h3, hv, ?_⟩
    have hne := fact_ne_zero (p := p) (n := n) (by omega)
    have : ((v * n.factorial : Nat) : ZMod p) = ((1 : Nat) : ZMod p) := by
      rw [Nat.cast_mul, cv, inv_mul_cancel₀ hne, Nat.cast_one]
    rw [ZMod.natCast_eq_natCast_iff', Nat.mod_eq_of_lt (a := 1) hp.out.one_lt] at this
    exact this
  | cmb n r =>
    simp only [Query.top] at hq
    simp only [Query.run, Enumerate.cmb]
    by_cases hnr : n < r
    · rw [if_pos hnr]
      refine ⟨_, t, rfl, h, Nat.le_refl _, hB, ?_⟩
      simp only [Query.spec, Nat.choose_eq_zero_of_lt hnr, Nat.zero_mod]
      exact cast_inj (ofInt_lt (by omega) 0) (by omega) (by rw [ofInt_cast (by omega)]; simp)
    · rw [if_neg hnr]
      obtain ⟨v1, t1, e1, k1, a1, n1, b1, l1, c1⟩ := fact' n h hB (by omega)
      rw [e1, Option.bind_some]
      obtain ⟨v2, t2, e2, k2, a2, n2, b2, l2, c2⟩ := ifact' r k1 b1 (by omega)
      dsimp only
      rw [e2, Option.bind_some]
      obtain ⟨v12, e12, l12, c12⟩ := mul_cast hm l1 l2
      dsimp only
      rw [e12, Option.bind_some]
      obtain ⟨v3, t3, e3, k3, a3, n3, b3, l3, c3⟩ := ifact' (n-r) k2 b2 (by omega)
      rw [e3, Option.bind_some]
      obtain ⟨v, e, l, c⟩ := mul_cast hm l12 l3
      dsimp only
      rw [e]
      refine ⟨v, t3, rfl, k3, by omega, b3, ?_⟩
      apply cast_inj l (Nat.mod_lt _ (by omega))
      rw [ZMod.natCast_mod, c, c12, c1, c2, c3, ← Nat.choose_mul_factorial_mul_factorial (show r ≤ n by omega)]
      have hr := fact_ne_zero (p := p) (n := r) (by omega)
      have hnr' := fact_ne_zero (p := p) (n := n - r) (by omega)
      push_cast
      rw [mul_right_comm, mul_assoc _ _ (((n-r).factorial : Nat) : ZMod p)⁻¹, mul_inv_cancel₀ hnr', mul_one, mul_assoc,
        mul_inv_cancel₀ hr, mul_one]
  | prm n r =>
    simp only [Query.top] at hq
    simp only [Query.run, Enumerate.prm]
    by_cases hnr : n < r
    · rw [if_pos hnr]
      refine ⟨_, t, rfl, h, Nat.le_refl _, hB, ?_⟩
      simp only [Query.spec, Nat.descFactorial_of_lt hnr, Nat.zero_mod]
      exact cast_inj (ofInt_lt (by omega) 0) (by omega) (by rw [ofInt_cast (by omega)]; simp)
    · rw [if_neg hnr]
      obtain ⟨v1, t1, e1, k1, a1, n1, b1, l1, c1⟩ := fact' n h hB (by omega)
      rw [e1, Option.bind_some]
      obtain ⟨v2, t2, e2, k2, a2, n2, b2, l2, c2⟩ := ifact' (n-r) k1 b1 (by omega)
      dsimp only
      rw [e2, Option.bind_some]
      obtain ⟨v, e, l, c⟩ := mul_cast hm l1 l2
      dsimp only
      rw [e]
      refine ⟨v, t2, rfl, k2, by omega, b2, ?_⟩
      apply cast_inj l (Nat.mod_lt _ (by omega))
      have hnr' := fact_ne_zero (p := p) (n := n - r) (by omega)
      rw [ZMod.natCast_mod, c, c1, c2, ← Nat.factorial_mul_descFactorial (show r ≤ n by omega)]
      push_cast
      rw [mul_comm (((n-r).factorial : Nat) : ZMod p), mul_assoc, mul_inv_cancel₀ hnr', mul_one]

theorem runAll_ok {p : Nat} [hp : Fact p.Prime] (hm : p ≤ 2^31) {n0 : Nat} : ∀ (qs : List Query) (t : Tab), Ok p t → n0 ≤ t.maxN → t.maxN < p →
    (∀ q ∈ qs, q.top ≤ n0 ∨ 2 * q.top ≤ p) → ∃ vs, runAll p qs t = some vs ∧ List.Forall₂ (fun q v => Query.spec p q v) qs vs := by
  intro qs
  induction qs with
  | nil => intro t _ _ _ _; exact ⟨[], rfl, .nil⟩
  | cons q qs ih =>
    intro t h h0 hlt hqs
    have hq := hqs q (by simp)
    obtain ⟨v, t', e, h', h1, h2, hs⟩ := query_ok hm q h (B := p - 1) (by omega) (by omega) (by omega)
    obtain ⟨vs, ev, hv⟩ := ih t' h' (by omega) (by omega) (fun q hq => hqs q (by simp [hq]))
    exact ⟨v :: vs, by simp only [runAll, e, ev, Option.bind_some, Option.map_some], .cons hs hv⟩

/-- **C24, part.** For a prime modulus `p`, starting from `Enumerate(n0)` with `n0 < p`, every sequence of queries is answered rightly
provided each query `n` is at most `n0` or at most `p/2`.  Missing: queries between `p/2` and `p` that make the table grow; there the
table can grow to `p` or beyond and all new inverse factorials become 0 (`C24_violated`). -/
theorem C24_history_partial {p : Nat} (hp : p.Prime) (hm : p ≤ 2^31) {n0 : Nat} (hn0 : n0 < p) (qs : List Query)
    (hqs : ∀ q ∈ qs, q.top ≤ n0 ∨ 2 * q.top ≤ p) :
    ∃ t vs, mk p n0 = some t ∧ runAll p qs t = some vs ∧ List.Forall₂ (fun q v => Query.spec p q v) qs vs := by
  haveI : Fact p.Prime := ⟨hp⟩
  have := hp.two_le
  obtain ⟨t, e, h, h1, h2⟩ := mk_ok hm n0
  obtain ⟨vs, ev, hv⟩ := runAll_ok hm qs t h h1 (by omega) hqs
  exact ⟨t, vs, e, ev, hv⟩

/-- The same from the default constructor. -/
theorem C24_history_default_partial {p : Nat} (hp : p.Prime) (hm : p ≤ 2^31) (qs : List Query)
    (hqs : ∀ q ∈ qs, 2 * q.top ≤ p) :
    ∃ vs, runAll p qs (mk0 p) = some vs ∧ List.Forall₂ (fun q v => Query.spec p q v) qs vs := by
  haveI : Fact p.Prime := ⟨hp⟩
  exact runAll_ok hm (n0 := 0) qs _ mk0_ok (by simp) hp.one_lt (fun q hq => Or.inr (hqs q hq))

theorem fact_all {p : Nat} [hp : Fact p.Prime] (hm : p ≤ 2^31) : ∀ (ns : List Nat) (t : Tab), Ok p t →
    runAll p (ns.map Query.fact) t = some (ns.map (fun n => n.factorial % p)) := by
  have := hp.out.two_le
  intro ns
  induction ns with
  | nil => intro t _; rfl
  | cons n ns ih =>
    intro t h
    obtain ⟨v, t', e, h', _, hv, cv⟩ := fact_ok hm n h
    have : v = n.factorial % p := cast_inj hv (Nat.mod_lt _ (by omega)) (by rw [cv, ZMod.natCast_mod])
    simp only [List.map_cons, runAll, Query.run, e, Option.bind_some, ih t' h', Option.map_some, this]

/-- **C24, factorials.** Factorials are right for every sequence of `fact` requests of any size, even past the modulus, from either
constructor. -/
theorem C24_fact {p : Nat} (hp : p.Prime) (hm : p ≤ 2^31) (n0 : Nat) (ns : List Nat) :
    runAll p (ns.map Query.fact) (mk0 p) = some (ns.map (fun n => n.factorial % p)) ∧
    (mk p n0).bind (runAll p (ns.map Query.fact)) = some (ns.map (fun n => n.factorial % p)) := by
  haveI : Fact p.Prime := ⟨hp⟩
  obtain ⟨t, e, h, _⟩ := mk_ok hm n0
  exact ⟨fact_all hm ns _ mk0_ok, by rw [e, Option.bind_some]; exact fact_all hm ns t h⟩

example : runAll 998244353 [.fact 5, .ifact 3, .cmb 10 4, .prm 6 2, .cmb 2 3] (mk0 998244353) = some [120, 166374059, 210, 30, 0] := by
  decide +kernel

/-- **C24 fails** when growth passes the modulus: with `MOD = 7`, `fact(5)` followed by `ifact(6)` doubles the table to 10 entries,
`fact_[10]` is 0, its "inverse" is 0, and `ifact(6)` returns 0; `cmb(6, 0)` is 0 instead of 1 (enumerate.hpp:51, 57). -/
theorem C24_violated : runAll 7 [.fact 5, .ifact 6, .cmb 6 0] (mk0 7) = some [1, 0, 0] ∧
    ¬ Query.spec 7 (.ifact 6) 0 ∧ ¬ Query.spec 7 (.cmb 6 0) 0 := by
  refine ⟨by decide +kernel, ?_, ?_⟩ <;> simp [Query.spec]

end Verif.Enumerate
