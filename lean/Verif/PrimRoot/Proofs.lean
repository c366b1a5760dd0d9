import Verif.PrimRoot.Model
import Verif.Ntt.Props
import Mathlib.RingTheory.IntegralDomain
import Mathlib.FieldTheory.Finite.Basic
/-!
Proofs about the search for a primitive root.
-/
namespace Verif.PrimRoot
open Verif.Modular (i64)
open Verif.Ntt (Root)

theorem powLoop_ok {m : Nat} (h1 : 1 < m) (hm : m < 2^31) : ∀ (f p t u : Nat), p < f → t < m → u < m → powLoop m f p t u = some (t * u^p % m)
  | 0, p, t, u, h, _, _ => by omega
  | f+1, p, t, u, h, ht, hu => by
      rw [powLoop]
      by_cases c : p = 0
      · rw [if_pos c, c, Nat.pow_zero, Nat.mul_one, Nat.mod_eq_of_lt ht]
      · rw [if_neg c, if_neg (by omega)]
        have b1 : ∀ a b, a < m → b < m → i64 (a * b) = some (a * b) := by
          intro a b ha hb
          have : a * b ≤ 2^31 * 2^31 := Nat.mul_le_mul (by omega) (by omega)
          unfold i64
          rw [if_pos (by omega)]
        rw [b1 t u ht hu, b1 u u hu hu, Option.map_some]
        have hlt : ∀ a, a % m < m := fun a => Nat.mod_lt _ (by omega)
        have hsplit := Nat.div_add_mod p 2
        by_cases c2 : p % 2 = 1
        · rw [if_pos c2, Option.bind_some, Option.bind_some, powLoop_ok h1 hm f (p / 2) _ _ (by omega) (hlt _) (hlt _)]
          congr 1
          have e : t * u^p = t * u * (u * u)^(p/2) := by
            conv_lhs => rw [← hsplit, c2]
            rw [Nat.pow_add, Nat.pow_mul, Nat.pow_one, show u^2 = u * u by ring]; ring
          rw [e, Nat.mul_mod, Nat.mod_mod, ← Nat.pow_mod, ← Nat.mul_mod]
        · rw [if_neg c2, Option.bind_some, Option.bind_some, powLoop_ok h1 hm f (p / 2) _ _ (by omega) ht (hlt _)]
          congr 1
          have e : t * u^p = t * (u * u)^(p/2) := by
            conv_lhs => rw [← hsplit, show p % 2 = 0 by omega]
            rw [Nat.add_zero, Nat.pow_mul, show u^2 = u * u by ring]
          rw [e, Nat.mul_mod, ← Nat.pow_mod, ← Nat.mul_mod]

theorem modPow_ok {m x p : Nat} (h1 : 1 < m) (hm : m < 2^31) (hx : x < m) : modPow x p m = some (x^p % m) := by
  unfold modPow
  rw [powLoop_ok h1 hm _ _ _ _ (by omega) h1 hx, Nat.one_mul]

theorem divOut_ok {d : Nat} (hd : 2 ≤ d) : ∀ (f x : Nat), 0 < x → x < f → ∃ x', divOut d f x = some x' ∧ 0 < x' ∧ x' ∣ x ∧ x' % d ≠ 0 ∧
    (∀ q, q.Prime → q ∣ x → q ∣ x' ∨ q ∣ d) ∧ (x % d = 0 → x' * d ∣ x)
  | 0, x, _, h => by omega
  | f+1, x, h0, h => by
      rw [divOut, if_neg (by omega)]
      by_cases c : x % d = 0
      · rw [if_pos c]
        obtain ⟨y, rfl⟩ := Nat.dvd_of_mod_eq_zero c
        have hy : 0 < y := Nat.pos_of_mul_pos_left h0
        rw [Nat.mul_div_cancel_left _ (by omega)]
        have hlt : y * 2 ≤ d * y := by rw [Nat.mul_comm]; exact Nat.mul_le_mul_right _ hd
        obtain ⟨x', e, a1, a2, a3, a4, a5⟩ := divOut_ok hd f y hy (by omega)
        refine ⟨x', e, a1, Dvd.dvd.mul_left a2 d, a3, ?_, ?_⟩
        · intro q hq hqx
          rcases (hq.dvd_mul).mp hqx with h | h
          · exact Or.inr h
          · exact a4 q hq h
        · intro _
          rw [Nat.mul_comm]
          exact Nat.mul_dvd_mul_left _ a2
      · rw [if_neg c]
        exact ⟨x, rfl, h0, Nat.dvd_refl _, c, fun q _ h => Or.inl h, fun h => absurd h c⟩

theorem fact_le_prod : ∀ (l : List Nat) (b : Nat), (∀ a ∈ l, b < a) → l.Pairwise (· < ·) → (b + l.length).factorial ≤ b.factorial * l.prod
  | [], b, _, _ => by simp
  | a :: l, b, h, hs => by
      rw [List.pairwise_cons] at hs
      have ha := h a List.mem_cons_self
      have ih := fact_le_prod l (b + 1) (fun c hc => by have := hs.1 c hc; omega) hs.2
      rw [List.length_cons, List.prod_cons, show b + (l.length + 1) = b + 1 + l.length by omega]
      refine Nat.le_trans ih ?_
      rw [Nat.factorial_succ, ← Nat.mul_assoc, Nat.mul_comm (b+1)]
      exact Nat.mul_le_mul_right _ (Nat.mul_le_mul_left _ ha)

/-- The state of the factorisation of `N`. -/
structure TInv (N d x : Nat) (ds : List Nat) : Prop where
  dodd : d % 2 = 1
  d3 : 3 ≤ d
  xodd : x % 2 = 1
  low : ∀ q, q.Prime → q ∣ x → d ≤ q
  cover : ∀ q, q.Prime → q ∣ N → q ∈ ds ∨ q ∣ x
  ds2 : ∀ e ∈ ds, 2 ≤ e ∧ e < d
  ord : ds.Pairwise (· < ·)
  prod : ds.prod * x ∣ N

theorem mem_dvd {N x : Nat} {ds : List Nat} (h : ds.prod * x ∣ N) {e : Nat} (he : e ∈ ds) : e ∣ N :=
  Nat.dvd_trans (Nat.dvd_trans (List.dvd_prod he) (Nat.dvd_mul_right _ _)) h

theorem short {N x : Nat} {ds : List Nat} (hN : 0 < N) (hlt : N < 2^31) (h2 : ∀ e ∈ ds, 2 ≤ e) (ho : ds.Pairwise (· < ·)) (hp : ds.prod * x ∣ N) : ds.length < 20 := by
  by_contra hc
  have h1 := fact_le_prod ds 1 (fun a ha => h2 a ha) ho
  have h3 : ds.prod ≤ N := Nat.le_of_dvd hN (Nat.dvd_trans (Nat.dvd_mul_right _ _) hp)
  have h4 : (21).factorial ≤ (1 + ds.length).factorial := Nat.factorial_le (by omega)
  have h5 : 2^31 ≤ (21).factorial := by decide +kernel
  rw [Nat.factorial_one, Nat.one_mul] at h1
  omega

theorem odd_prime_dvd {q x : Nat} (hx : x % 2 = 1) (h : q ∣ x) : q % 2 = 1 := by
  obtain ⟨k, rfl⟩ := h
  by_contra hc
  rw [Nat.mul_mod, show q % 2 = 0 by omega] at hx
  simp at hx

theorem TInv.skip {N d x : Nat} {ds : List Nat} (h : TInv N d x ds) (hx : x % d ≠ 0) : TInv N (d + 2) x ds := by
  refine ⟨by have := h.dodd; omega, by have := h.d3; omega, h.xodd, ?_, h.cover, fun e he => ⟨(h.ds2 e he).1, by have := (h.ds2 e he).2; omega⟩, h.ord, h.prod⟩
  intro q hq hqx
  have h1 := h.low q hq hqx
  have h2 := odd_prime_dvd h.xodd hqx
  have h3 := h.dodd
  have h4 : q ≠ d := by rintro rfl; exact hx (Nat.mod_eq_zero_of_dvd hqx)
  omega

theorem TInv.step {N d x : Nat} {ds : List Nat} (h : TInv N d x ds) (hx : x % d = 0) {x' : Nat} (hd : x' ∣ x) (hm : x' % d ≠ 0)
    (hq : ∀ q, q.Prime → q ∣ x → q ∣ x' ∨ q ∣ d) (hp : x' * d ∣ x) : TInv N (d + 2) x' (ds ++ [d]) := by
  have d3 := h.d3
  have hdp : d.Prime := by
    have hmf := Nat.minFac_prime (n := d) (by omega)
    have := h.low _ hmf (Nat.dvd_trans (Nat.minFac_dvd d) (Nat.dvd_of_mod_eq_zero hx))
    have := Nat.le_of_dvd (by omega) (Nat.minFac_dvd d)
    rwa [show d.minFac = d by omega] at hmf
  refine ⟨by have := h.dodd; omega, by omega, odd_prime_dvd h.xodd hd, ?_, ?_, ?_, ?_, ?_⟩
  · intro q hpq hqx
    have h1 := h.low q hpq (Nat.dvd_trans hqx hd)
    have h2 := odd_prime_dvd h.xodd (Nat.dvd_trans hqx hd)
    have h3 := h.dodd
    have h4 : q ≠ d := by rintro rfl; exact hm (Nat.mod_eq_zero_of_dvd hqx)
    omega
  · intro q hpq hqN
    rcases h.cover q hpq hqN with h1 | h1
    · exact Or.inl (by simp [h1])
    · rcases hq q hpq h1 with h2 | h2
      · exact Or.inr h2
      · left
        have := (Nat.prime_dvd_prime_iff_eq hpq hdp).mp h2
        simp [this]
  · intro e he
    rcases List.mem_append.mp he with he | he
    · exact ⟨(h.ds2 e he).1, by have := (h.ds2 e he).2; omega⟩
    · rw [List.mem_singleton] at he
      omega
  · rw [List.pairwise_append]
    exact ⟨h.ord, by simp, fun a ha b hb => by rw [List.mem_singleton] at hb; subst hb; exact (h.ds2 a ha).2⟩
  · refine Nat.dvd_trans ?_ h.prod
    rw [List.prod_append, List.prod_singleton, Nat.mul_assoc, Nat.mul_comm d]
    exact Nat.mul_dvd_mul_left _ hp

theorem trial_ok {N : Nat} (hN : 0 < N) (hlt : N < 2^31) : ∀ (f d x : Nat) (ds : List Nat), TInv N d x ds → x ≤ 2^30 → d ≤ 32770 → 1 ≤ f → x < d + f →
    ∃ d' x' ds', trial f d x ds = some (x', ds') ∧ TInv N d' x' ds' ∧ x' < d' * d'
  | 0, d, x, ds, _, _, _, h, _ => by omega
  | f+1, d, x, ds, h, hx, hd, _, hf => by
      have hsq : d * d ≤ 32770 * 32770 := Nat.mul_le_mul hd hd
      have d3 := h.d3
      rw [trial, i32, if_pos (by omega), Option.bind_some]
      by_cases c : d * d ≤ x
      · rw [if_pos c]
        have hdb : d ≤ 32768 := by
          by_contra hc
          have := Nat.mul_le_mul (show 32769 ≤ d by omega) (show 32769 ≤ d by omega)
          omega
        have h3d : 3 * d ≤ d * d := Nat.mul_le_mul_right _ d3
        by_cases c2 : x % d = 0
        · rw [if_pos c2, push, if_pos (short hN hlt (fun e he => (h.ds2 e he).1) h.ord h.prod), Option.bind_some]
          obtain ⟨x', e, a1, a2, a3, a4, a5⟩ := divOut_ok (d := d) (by omega) (x + 1) x (by omega) (by omega)
          rw [e, Option.bind_some]
          have hle := Nat.le_of_dvd (by omega) a2
          exact trial_ok hN hlt f _ _ _ (h.step c2 a2 a3 a4 (a5 c2)) (by omega) (by omega) (by omega) (by omega)
        · rw [if_neg c2]
          exact trial_ok hN hlt f _ _ _ (h.skip c2) hx (by omega) (by omega) (by omega)
      · rw [if_neg c]
        exact ⟨d, x, ds, rfl, h, by omega⟩

theorem divisors_ok {m : Nat} (h3 : 3 ≤ m) (hodd : m % 2 = 1) (hm : m < 2^31) : ∃ ds, divisors m = some ds ∧ (∀ d ∈ ds, 2 ≤ d ∧ d ∣ m - 1) ∧
    ∀ q, q.Prime → q ∣ m - 1 → q ∈ ds := by
  obtain ⟨⟨x, hx, hxo⟩, _⟩ := Ntt.logN_spec (p := m) (by omega) hm
  have hctz : BitManip.ctz (m - 1) = Ntt.logN m := rfl
  have hpow := Nat.two_pow_pos (Ntt.logN m)
  have hL : 1 ≤ Ntt.logN m := by
    by_contra hc
    rw [show Ntt.logN m = 0 by omega] at hx
    omega
  have h2L : 2 ∣ 2^(Ntt.logN m) := dvd_pow_self 2 (by omega)
  have h2le : 2 ≤ 2^(Ntt.logN m) := Nat.le_of_dvd hpow h2L
  have hxle : 2 * x ≤ m - 1 := by rw [hx]; exact Nat.mul_le_mul_right _ h2le
  unfold divisors
  rw [if_pos (by omega), push, if_pos (by simp), Option.map_some, Option.bind_some, hctz]
  dsimp only
  have hq : (m - 1) / 2^(Ntt.logN m) = x := by rw [hx, Nat.mul_div_cancel_left _ hpow]
  rw [hq]
  have hinv : TInv (m - 1) 3 x ([] ++ [2]) := by
    refine ⟨rfl, by omega, hxo, ?_, ?_, by simp, by simp, ?_⟩
    · intro q hq hqx
      have := hq.two_le
      have := odd_prime_dvd hxo hqx
      omega
    · intro q hq hd
      rw [hx] at hd
      rcases (hq.dvd_mul).mp hd with h | h
      · left
        have := (Nat.prime_dvd_prime_iff_eq hq Nat.prime_two).mp (hq.dvd_of_dvd_pow h)
        simp [this]
      · exact Or.inr h
    · rw [List.nil_append, List.prod_singleton, hx]
      exact Nat.mul_dvd_mul_right h2L _
  obtain ⟨d', x', ds', e, hi, hlt'⟩ := trial_ok (N := m - 1) (by omega) (by omega) m 3 x _ hinv (by omega) (by omega) (by omega) (by omega)
  rw [e, Option.bind_some]
  dsimp only
  have hxN : x' ∣ m - 1 := Nat.dvd_trans (Nat.dvd_mul_left _ _) hi.prod
  by_cases c : 1 < x'
  · rw [if_pos c, push, if_pos (short (by omega) (by omega) (fun e he => (hi.ds2 e he).1) hi.ord hi.prod)]
    have hxp : x'.Prime := by
      have hmf := Nat.minFac_prime (n := x') (by omega)
      by_contra hc
      have h1 := hi.low _ hmf (Nat.minFac_dvd x')
      have h2 := Nat.minFac_sq_le_self (by omega) hc
      have h3 := Nat.mul_le_mul h1 h1
      rw [Nat.pow_two] at h2
      omega
    refine ⟨_, rfl, ?_, ?_⟩
    · intro d hd
      rcases List.mem_append.mp hd with hd | hd
      · exact ⟨(hi.ds2 d hd).1, mem_dvd hi.prod hd⟩
      · rw [List.mem_singleton] at hd
        subst hd
        exact ⟨c, hxN⟩
    · intro q hq hd
      rcases hi.cover q hq hd with h | h
      · simp [h]
      · have := (Nat.prime_dvd_prime_iff_eq hq hxp).mp h
        simp [this]
  · rw [if_neg c]
    refine ⟨_, rfl, fun d hd => ⟨(hi.ds2 d hd).1, mem_dvd hi.prod hd⟩, ?_⟩
    intro q hq hd
    rcases hi.cover q hq hd with h | h
    · exact h
    · have := hi.xodd
      rw [show x' = 1 by omega] at h
      exact absurd (Nat.dvd_one.mp h) hq.one_lt.ne'

theorem test_ok {m g : Nat} (h1 : 1 < m) (hm : m < 2^31) (hg : g < m) : ∀ ds : List Nat, (∀ d ∈ ds, 2 ≤ d) →
    ∃ b, test m g ds = some b ∧ (b = true ↔ ∀ d ∈ ds, g^((m - 1) / d) % m ≠ 1)
  | [], _ => ⟨true, rfl, by simp⟩
  | d :: ds, h => by
      have hd := h d List.mem_cons_self
      obtain ⟨b, e, hb⟩ := test_ok h1 hm hg ds (fun e he => h e (List.mem_cons_of_mem _ he))
      rw [test, if_neg (by omega), modPow_ok h1 hm hg, Option.bind_some]
      by_cases c : g^((m - 1) / d) % m = 1
      · rw [if_pos c]
        exact ⟨false, rfl, by simp [c]⟩
      · rw [if_neg c]
        exact ⟨b, e, by simp [c, hb]⟩

theorem search_ok {m : Nat} (h1 : 1 < m) (hm : m < 2^31) {ds : List Nat} (hds : ∀ d ∈ ds, 2 ≤ d) {g0 : Nat} (hg0 : g0 < m) (hok : ∀ d ∈ ds, g0^((m - 1) / d) % m ≠ 1) :
    ∀ n g, g ≤ g0 → g + n = m → ∃ r : Nat, search m ds n g = some (r : Int) ∧ g ≤ r ∧ r < m ∧ ∀ d ∈ ds, r^((m - 1) / d) % m ≠ 1
  | 0, g, h, hn => by omega
  | n+1, g, h, hn => by
      obtain ⟨b, e, hb⟩ := test_ok h1 hm (show g < m by omega) ds hds
      rw [search, e, Option.bind_some]
      cases b with
      | true => exact ⟨g, if_pos rfl, Nat.le_refl _, by omega, hb.mp rfl⟩
      | false =>
          have hne : g ≠ g0 := by
            rintro rfl
            have := hb.mpr hok
            cases this
          rw [if_neg (by simp)]
          obtain ⟨r, a1, a2, a3, a4⟩ := search_ok h1 hm hds hg0 hok n (g + 1) (by omega) (by omega)
          exact ⟨r, a1, by omega, a3, a4⟩

theorem pow_iff {m : Nat} (h1 : 1 < m) (g n : Nat) : g^n % m = 1 ↔ (g : ZMod m)^n = 1 := by
  have : ((g^n : Nat) : ZMod m) = ((1 : Nat) : ZMod m) ↔ g^n % m = 1 % m := ZMod.natCast_eq_natCast_iff' _ _ _
  rw [Nat.mod_eq_of_lt h1] at this
  rw [← this]
  push_cast
  rfl

theorem exists_root {p : Nat} (hp : p.Prime) (h3 : 3 ≤ p) : ∃ g, 2 ≤ g ∧ g < p ∧ orderOf (g : ZMod p) = p - 1 := by
  haveI : Fact p.Prime := ⟨hp⟩
  obtain ⟨u, hu⟩ := IsCyclic.exists_generator (α := (ZMod p)ˣ)
  have ho := orderOf_eq_card_of_forall_mem_zpowers hu
  rw [Nat.card_eq_fintype_card, ZMod.card_units] at ho
  have hcast : (((u : ZMod p).val : Nat) : ZMod p) = u := ZMod.natCast_zmod_val _
  have hord : orderOf (((u : ZMod p).val : Nat) : ZMod p) = p - 1 := by rw [hcast, orderOf_units, ho]
  refine ⟨(u : ZMod p).val, ?_, ZMod.val_lt _, hord⟩
  by_contra hc
  rcases (show (u : ZMod p).val = 0 ∨ (u : ZMod p).val = 1 by omega) with h | h
  · have : (u : ZMod p) = 0 := by rw [← hcast, h, Nat.cast_zero]
    exact u.ne_zero this
  · rw [h, Nat.cast_one, orderOf_one] at hord
    omega

theorem primRoot_root {p : Nat} (hp : p.Prime) (hlt : p < 2^31) : ∃ g : Nat, primRoot p = some (g : Int) ∧ 1 ≤ g ∧ g < p ∧ Root p g := by
  obtain ⟨r1, r2, r3, r4, r5, r6⟩ := Ntt.C54_roots
  unfold primRoot
  split
  · rename_i h; subst h; exact ⟨1, rfl, by omega, by omega, r1⟩
  split
  · rename_i h; subst h; exact ⟨3, rfl, by omega, by omega, r2⟩
  split
  · rename_i h; subst h; exact ⟨3, rfl, by omega, by omega, r3⟩
  split
  · rename_i h; subst h; exact ⟨11, rfl, by omega, by omega, r4⟩
  split
  · rename_i h; subst h; exact ⟨26, rfl, by omega, by omega, r5⟩
  split
  · rename_i h; subst h; exact ⟨3, rfl, by omega, by omega, r6⟩
  rename_i h2 _ _ _ _ _
  have h3 : 3 ≤ p := by have := hp.two_le; omega
  have hodd : p % 2 = 1 := by
    rcases hp.eq_two_or_odd with h | h
    · exact absurd h h2
    · exact h
  haveI : Fact p.Prime := ⟨hp⟩
  obtain ⟨ds, e, hd, hc⟩ := divisors_ok h3 hodd hlt
  obtain ⟨g0, h20, hg0, ho⟩ := exists_root hp h3
  have hok : ∀ d ∈ ds, g0^((p - 1) / d) % p ≠ 1 := by
    intro d hdm hcon
    rw [pow_iff (by omega)] at hcon
    have := orderOf_dvd_of_pow_eq_one hcon
    obtain ⟨a, ⟨k, hk⟩⟩ := hd d hdm
    rw [ho, hk, Nat.mul_div_cancel_left _ (by omega)] at this
    have hk0 : 0 < k := by
      rcases Nat.eq_zero_or_pos k with h | h
      · rw [h] at hk; omega
      · exact h
    have := Nat.le_of_dvd hk0 this
    have := Nat.mul_le_mul_right k a
    omega
  obtain ⟨r, er, hr2, hrp, hr⟩ := search_ok (by omega) hlt (fun d hdm => (hd d hdm).1) hg0 hok (p - 2) 2 h20 (by omega)
  refine ⟨r, by rw [e, Option.bind_some, er], by omega, hrp, hp, hlt, ?_⟩
  have hrne : (r : ZMod p) ≠ 0 := by
    intro h
    have := (ZMod.natCast_eq_zero_iff r p).mp h
    have := Nat.le_of_dvd (by omega) this
    omega
  refine orderOf_eq_of_pow_and_pow_div_prime (by omega) (ZMod.pow_card_sub_one_eq_one hrne) ?_
  intro q hq hqd hcon
  exact hr q (hc q hq hqd) ((pow_iff (by omega) r _).mpr hcon)

end Verif.PrimRoot
