import Verif.Dirichlet.Model
import Mathlib.Data.Nat.Prime.Basic
/-!
# C33: the sieve of Eratosthenes
-/
namespace Verif.Dirichlet

theorem int_some {x : Nat} (h : x < 2^31) : int x = some x := by rw [int, if_pos h]

theorem markOne_ok {n : Nat} {p : List Nat} {g : Nat → Nat} (hp : Rep p (n+1) g) (i : Nat) {j : Nat} (hj : j ≤ n) :
    ∃ p', markOne i j p = some p' ∧ Rep p' (n+1) (fun x => if x = j ∧ g x = 0 then i else g x) := by
  rw [markOne, hp.val j (by omega), Option.bind_some]
  by_cases h : g j = 0
  · rw [if_pos h]
    obtain ⟨p', e, h'⟩ := hp.wr (i := j) (by omega) i
    refine ⟨p', e, h'.congr (fun x _ => ?_)⟩
    by_cases hx : x = j
    · subst hx; rw [upd_same, if_pos ⟨rfl, h⟩]
    · rw [upd_ne _ _ hx, if_neg (fun hc => hx hc.1)]
  · rw [if_neg h]
    refine ⟨p, rfl, hp.congr (fun x _ => ?_)⟩
    rw [if_neg]
    rintro ⟨rfl, h2⟩; exact h h2

theorem mark_ok {n : Nat} (hn : n < 2^30 + 3) {i : Nat} (hi : 0 < i) : ∀ (f j : Nat) (p : List Nat) (g : Nat → Nat), Rep p (n+1) g → i ∣ j → i * 2 ≤ j →
    n < f * i + j → ∃ p', mark n i (f+1) j p = some p' ∧ Rep p' (n+1) (fun x => if j ≤ x ∧ i ∣ x ∧ g x = 0 then i else g x) := by
  intro f
  induction f with
  | zero =>
    intro j p g hp hd h2 hf
    refine ⟨p, by rw [mark, if_neg (by omega)], hp.congr (fun x hx => ?_)⟩
    rw [if_neg (by omega)]
  | succ f ih =>
    intro j p g hp hd h2 hf
    by_cases hj : j ≤ n
    · obtain ⟨p1, e1, h1⟩ := markOne_ok hp i hj
      obtain ⟨p2, e2, h2⟩ := ih (j+i) p1 _ h1 (Nat.dvd_add hd (Nat.dvd_refl i)) (by omega) (by rw [Nat.add_mul] at hf; omega)
      refine ⟨p2, by rw [mark, if_pos hj, e1, Option.bind_some, int_some (by omega), Option.bind_some, e2], h2.congr (fun x hx => ?_)⟩
      by_cases hxj : x = j
      · subst hxj
        rw [if_neg (by omega)]
        by_cases h0 : g x = 0
        · rw [if_pos ⟨rfl, h0⟩, if_pos ⟨Nat.le_refl x, hd, h0⟩]
        · rw [if_neg (fun h => h0 h.2), if_neg (fun h => h0 h.2.2)]
      · have e3 : (if x = j ∧ g x = 0 then i else g x) = g x := if_neg (fun h => hxj h.1)
        rw [e3]
        by_cases hc : i ∣ x ∧ g x = 0
        · by_cases hx2 : j ≤ x
          · have : j + i ≤ x := by
              obtain ⟨a, rfl⟩ := hd
              obtain ⟨b, rfl⟩ := hc.1
              have : a < b := by
                by_contra hab
                have := Nat.mul_le_mul_left i (Nat.le_of_not_lt hab)
                omega
              calc i * a + i = i * (a+1) := rfl
                _ ≤ i * b := Nat.mul_le_mul_left i this
            rw [if_pos ⟨this, hc⟩, if_pos ⟨hx2, hc⟩]
          · rw [if_neg (by omega), if_neg (by omega)]
        · rw [if_neg (fun h => hc h.2), if_neg (fun h => hc h.2)]
    · refine ⟨p, by rw [mark, if_neg hj], hp.congr (fun x hx => ?_)⟩
      rw [if_neg (by omega)]

/-- State before round `i`. -/
def seen (i x : Nat) : Nat := if x < 2 then x else if x.minFac < i then x.minFac else 0

theorem prime_lt {i : Nat} (hp : i.Prime) (h : i < 2^30 + 3) : i < 2^30 := by
  by_contra hc
  have h1 : i = 2^30 ∨ i = 2^30 + 1 ∨ i = 2^30 + 2 := by omega
  rcases h1 with rfl | rfl | rfl
  · have := (Nat.prime_dvd_prime_iff_eq Nat.prime_two hp).1 (by omega); omega
  · have := (Nat.prime_dvd_prime_iff_eq Nat.prime_five hp).1 (by omega); omega
  · have := (Nat.prime_dvd_prime_iff_eq Nat.prime_two hp).1 (by omega); omega

/-- One round of the outer loop. -/
theorem sieveStep_ok {n : Nat} (hn : n < 2^30 + 3) {i : Nat} {p : List Nat} (hi1 : 2 ≤ i) (hi2 : i < n+1) (hp : Rep p (n+1) (seen i)) :
    ∃ p', sieveStep n i p = some p' ∧ Rep p' (n+1) (seen (i+1)) := by
  unfold sieveStep
  rw [hp.val i hi2, Option.bind_some]
  by_cases hpr : i.Prime
  · have hs : seen i i = 0 := by
      unfold seen
      rw [if_neg (by omega), hpr.minFac_eq, if_neg (by omega)]
    have hi30 := prime_lt hpr (by omega)
    rw [hs, if_pos rfl]
    obtain ⟨p1, e1, h1⟩ := hp.wr hi2 i
    obtain ⟨p2, e2, h2⟩ := mark_ok hn (by omega) n (i*2) p1 _ h1 (Nat.dvd_mul_right i 2) (Nat.le_refl _)
      (by have := Nat.mul_le_mul_left n hi1; omega)
    refine ⟨p2, by rw [e1, Option.bind_some, int_some (by omega), Option.bind_some, e2], h2.congr (fun x hx => ?_)⟩
    by_cases hxi : x = i
    · subst hxi
      rw [upd_same, if_neg (by omega)]
      unfold seen
      rw [if_neg (by omega), hpr.minFac_eq, if_pos (by omega)]
    · rw [upd_ne _ _ hxi]
      unfold seen
      by_cases hx2 : x < 2
      · rw [if_pos hx2, if_pos hx2, if_neg (by omega)]
      · rw [if_neg hx2, if_neg hx2]
        by_cases hm : x.minFac < i
        · have := Nat.minFac_pos x
          rw [if_pos hm, if_neg (by omega), if_pos (by omega)]
        · rw [if_neg hm]
          by_cases hd : i ∣ x
          · have hle := Nat.minFac_le_of_dvd hi1 hd
            have h2x : i * 2 ≤ x := by
              obtain ⟨c, rfl⟩ := hd
              apply Nat.mul_le_mul_left
              by_contra hc
              have : c = 0 ∨ c = 1 := by omega
              rcases this with rfl | rfl <;> simp at hxi hx2
            rw [if_pos ⟨h2x, hd, rfl⟩, if_pos (by omega)]
            omega
          · rw [if_neg (fun h => hd h.2.1), if_neg]
            intro h
            have : x.minFac = i := by omega
            exact hd (this ▸ Nat.minFac_dvd x)
  · have hlt : i.minFac < i := (Nat.not_prime_iff_minFac_lt hi1).1 hpr
    have hs : seen i i = i.minFac := by
      unfold seen
      rw [if_neg (by omega), if_pos hlt]
    rw [hs, if_neg (Nat.ne_of_gt (Nat.minFac_pos i))]
    refine ⟨p, rfl, hp.congr (fun x hx => ?_)⟩
    unfold seen
    by_cases hx2 : x < 2
    · rw [if_pos hx2, if_pos hx2]
    · rw [if_neg hx2, if_neg hx2]
      have hne : x.minFac ≠ i := fun h => hpr (h ▸ Nat.minFac_prime (by omega))
      by_cases hm : x.minFac < i
      · rw [if_pos hm, if_pos (by omega)]
      · rw [if_neg hm, if_neg (by omega)]

theorem sieve_ok {n : Nat} (hn : n < 2^30 + 3) : ∃ p, sieve n = some p ∧ Rep p (n+1) (fun x => if x < 2 then x else x.minFac) := by
  unfold sieve
  rw [int_some (by omega), Option.bind_some]
  by_cases h0 : n = 0
  · subst h0
    refine ⟨_, if_pos rfl, (Rep.replicate _ _).congr (fun x hx => ?_)⟩
    have : x = 0 := by omega
    subst this; rfl
  · rw [if_neg h0]
    obtain ⟨p0, e0, hp0⟩ := (Rep.replicate (n+1) 0).wr (i := 1) (by omega) 1
    rw [e0, Option.bind_some]
    obtain ⟨p, e, h⟩ := forRange_inv (body := sieveStep n) (s := p0) (fun i p => Rep p (n+1) (seen i)) (by omega : 2 ≤ n+1)
      (hp0.congr (fun x hx => by
        unfold seen
        by_cases hx1 : x = 1
        · subst hx1; rfl
        · rw [upd_ne _ _ hx1]
          by_cases hx0 : x = 0
          · subst hx0; rfl
          · rw [if_neg (by omega), if_neg]
            have := (Nat.minFac_prime hx1).two_le
            omega))
      (fun i p hi1 hi2 hp => sieveStep_ok hn hi1 hi2 hp)
    refine ⟨p, e, h.congr (fun x hx => ?_)⟩
    unfold seen
    by_cases hx2 : x < 2
    · rw [if_pos hx2, if_pos hx2]
    · rw [if_neg hx2, if_neg hx2, if_pos]
      have := Nat.minFac_le (n := x) (by omega)
      omega

/-! ### Overflow -/

theorem markOne_keeps {i j q : Nat} {p p' : List Nat} (hne : j ≠ q) (h : p[q]? = some 0) (e : markOne i j p = some p') : p'[q]? = some 0 := by
  rw [markOne, Option.bind_eq_some_iff] at e
  obtain ⟨x, _, e⟩ := e
  split at e
  · unfold wr at e
    split at e
    · cases e; rw [List.getElem?_set_ne hne]; exact h
    · cases e
  · cases e; exact h

theorem mark_keeps {n i q : Nat} (hnd : ¬ i ∣ q) : ∀ (f j : Nat) (p p' : List Nat), i ∣ j → p[q]? = some 0 →
    mark n i f j p = some p' → p'[q]? = some 0 := by
  intro f
  induction f with
  | zero => intro j p p' _ _ e; cases e
  | succ f ih =>
    intro j p p' hd h e
    rw [mark] at e
    split at e
    · rw [Option.bind_eq_some_iff] at e
      obtain ⟨p1, e1, e⟩ := e
      rw [Option.bind_eq_some_iff] at e
      obtain ⟨j', e2, e⟩ := e
      unfold int at e2
      split at e2
      · cases e2
        exact ih _ _ _ (Nat.dvd_add hd (Nat.dvd_refl i)) (markOne_keeps (by rintro rfl; exact hnd hd) h e1) e
      · cases e2
    · cases e; exact h

theorem sieve_overflow {n q : Nat} (hq : q.Prime) (h1 : 2^30 ≤ q) (h2 : q ≤ n) : sieve n = none := by
  by_contra hne
  rw [← ne_eq, Option.ne_none_iff_exists'] at hne
  obtain ⟨p, e⟩ := hne
  unfold sieve at e
  rw [Option.bind_eq_some_iff] at e
  obtain ⟨m, em, e⟩ := e
  have hm : m = n+1 := by
    unfold int at em
    split at em <;> cases em; rfl
  subst hm
  rw [if_neg (by omega), Option.bind_eq_some_iff] at e
  obtain ⟨p0, e0, e⟩ := e
  have hp0 : p0[q]? = some 0 := by
    unfold wr at e0
    split at e0
    · cases e0
      rw [List.getElem?_set_ne (by omega), List.getElem?_replicate, if_pos (by omega)]
    · cases e0
  rw [forRange_split (b := q) (by omega) (by omega), Option.bind_eq_some_iff] at e
  obtain ⟨p1, e1, e2⟩ := e
  have hp1 : p1[q]? = some 0 := by
    refine forRange_part (body := sieveStep n) (fun _ p => p[q]? = some 0) (by omega : 2 ≤ q) hp0 ?_ e1
    intro i s s' hi1 hi2 h es
    have hnd : ¬ i ∣ q := fun hd => by
      rcases (Nat.dvd_prime hq).1 hd with h | h <;> omega
    unfold sieveStep at es
    rw [Option.bind_eq_some_iff] at es
    obtain ⟨x, _, es⟩ := es
    split at es
    · rw [Option.bind_eq_some_iff] at es
      obtain ⟨s1, ew, es⟩ := es
      rw [Option.bind_eq_some_iff] at es
      obtain ⟨j, ej, es⟩ := es
      have hj : j = i * 2 := by
        unfold int at ej
        split at ej <;> cases ej; rfl
      subst hj
      refine mark_keeps hnd _ _ _ _ (Nat.dvd_mul_right i 2) ?_ es
      unfold wr at ew
      split at ew
      · cases ew; rw [List.getElem?_set_ne (by omega)]; exact h
      · cases ew
    · cases es; exact h
  rw [forRange_first (by omega), Option.bind_eq_some_iff] at e2
  obtain ⟨p2, e3, _⟩ := e2
  unfold sieveStep at e3
  rw [hp1, Option.bind_some, if_pos rfl, Option.bind_eq_some_iff] at e3
  obtain ⟨p3, _, e3⟩ := e3
  rw [int, if_neg (by omega)] at e3
  cases e3

/-- Trial division over `[a, a + 2^k)`, to let the kernel check one primality statement. -/
def noDivisor (p : Nat) : Nat → Nat → Bool
  | 0, a => p % a != 0
  | k+1, a => noDivisor p k a && noDivisor p k (a + 2^k)

theorem noDivisor_spec (p : Nat) : ∀ k a, noDivisor p k a = true → ∀ d, a ≤ d → d < a + 2^k → ¬ d ∣ p := by
  intro k
  induction k with
  | zero =>
    intro a h d h1 h2 hd
    have : d = a := by simp at h2; omega
    subst this
    rw [noDivisor, Nat.mod_eq_zero_of_dvd hd] at h
    cases h
  | succ k ih =>
    intro a h d h1 h2
    rw [noDivisor, Bool.and_eq_true] at h
    rw [Nat.pow_succ] at h2
    by_cases hd : d < a + 2^k
    · exact ih a h.1 d h1 hd
    · exact ih _ h.2 d (by omega) (by omega)

theorem prime_witness : Nat.Prime 1073741827 := by
  have h := noDivisor_spec 1073741827 15 2 (by decide +kernel)
  rw [Nat.prime_def_le_sqrt]
  refine ⟨by omega, fun m h1 h2 => h m h1 ?_⟩
  rw [Nat.le_sqrt] at h2
  by_contra hc
  have : 32770 ≤ m := by omega
  have := Nat.mul_le_mul this this
  omega

/-! ### The claims -/

/-- `d` is the least divisor of `x` above 1. -/
def LeastFactor (x d : Nat) : Prop := 2 ≤ d ∧ d ∣ x ∧ ∀ e, 2 ≤ e → e ∣ x → d ≤ e

/-- **C33, partial: `n < 2^30 + 3`.**  Every entry of the sieve is the least divisor above 1; in particular `era[i] == i` exactly for primes. -/
theorem C33_sieve_partial {n : Nat} (hn : n < 2^30 + 3) : ∃ p, sieve n = some p ∧ p.length = n+1 ∧ p[0]? = some 0 ∧ (1 ≤ n → p[1]? = some 1) ∧
    ∀ x, 2 ≤ x → x ≤ n → ∃ d, p[x]? = some d ∧ LeastFactor x d ∧ (d = x ↔ x.Prime) := by
  obtain ⟨p, e, h⟩ := sieve_ok hn
  refine ⟨p, e, h.len, h.val 0 (by omega), fun h1 => h.val 1 (by omega), fun x h2 hx => ⟨x.minFac, ?_, ⟨?_, Nat.minFac_dvd x, ?_⟩, ?_⟩⟩
  · rw [h.val x (by omega), if_neg (by omega)]
  · exact (Nat.minFac_prime (by omega)).two_le
  · intro e he hd; exact Nat.minFac_le_of_dvd he hd
  · constructor
    · intro hh; rw [← hh]; exact Nat.minFac_prime (by omega)
    · intro hp; exact hp.minFac_eq

/-- **C33, primes, partial: `n < 2^30 + 3`.**  `Primes(n)` is the strictly increasing list of exactly the primes up to `n`. -/
theorem C33_primes_partial {n : Nat} (hn : n < 2^30 + 3) : ∃ ps, primes n = some ps ∧ ps.Pairwise (· < ·) ∧ ∀ x, x ∈ ps ↔ x.Prime ∧ x ≤ n := by
  obtain ⟨p, e, h⟩ := sieve_ok hn
  unfold primes
  rw [e, Option.bind_some]
  by_cases h0 : n = 0
  · subst h0
    refine ⟨[], rfl, List.Pairwise.nil, fun x => ?_⟩
    simp only [List.not_mem_nil, false_iff, not_and]
    intro hp; have := hp.two_le; omega
  obtain ⟨ps, e2, h2, h3⟩ := forRange_inv (body := primeStep p) (s := [])
    (fun i ps => ps.Pairwise (· < ·) ∧ ∀ x, x ∈ ps ↔ x.Prime ∧ x < i) (by omega : 2 ≤ n+1)
    ⟨List.Pairwise.nil, fun x => by
      simp only [List.not_mem_nil, false_iff, not_and]
      intro hp; have := hp.two_le; omega⟩
    (fun i ps hi1 hi2 ⟨hs, hm⟩ => by
      rw [primeStep, h.val i hi2, if_neg (by omega)]
      by_cases hp : i.Prime
      · refine ⟨_, rfl, ?_⟩
        dsimp only
        rw [if_pos hp.minFac_eq]
        refine ⟨?_, fun x => ?_⟩
        · rw [List.pairwise_append]
          refine ⟨hs, List.pairwise_singleton _ _, fun a ha b hb => ?_⟩
          rw [List.mem_singleton] at hb
          rw [hb]; exact ((hm a).1 ha).2
        · rw [List.mem_append, hm, List.mem_singleton]
          constructor
          · rintro (⟨h1, h2⟩ | rfl)
            · exact ⟨h1, by omega⟩
            · exact ⟨hp, by omega⟩
          · rintro ⟨h1, h2⟩
            by_cases hx : x = i
            · exact Or.inr hx
            · exact Or.inl ⟨h1, by omega⟩
      · refine ⟨_, rfl, ?_⟩
        dsimp only
        rw [if_neg (fun hh : i.minFac = i => hp (hh ▸ Nat.minFac_prime (by omega)))]
        refine ⟨hs, fun x => ?_⟩
        rw [hm]
        constructor
        · rintro ⟨h1, h2⟩; exact ⟨h1, by omega⟩
        · rintro ⟨h1, h2⟩
          have : x ≠ i := fun hh => hp (hh ▸ h1)
          exact ⟨h1, by omega⟩)
  exact ⟨ps, e2, h2, fun x => by rw [h3]; constructor <;> rintro ⟨h1, h2⟩ <;> exact ⟨h1, by omega⟩⟩

/-- **C33 is violated for `n ≥ 2^30 + 3`**: `int j = i*2` overflows at the prime `2^30 + 3`. -/
theorem C33_violated_overflow {n : Nat} (h : 2^30 + 3 ≤ n) : sieve n = none :=
  sieve_overflow prime_witness (by omega) (by omega)

example : sieve 12 = some [0, 1, 2, 3, 2, 5, 2, 7, 2, 3, 2, 11, 2] := by decide +kernel
example : primes 30 = some [2, 3, 5, 7, 11, 13, 17, 19, 23, 29] := by decide +kernel
example : sieve 0 = some [0] ∧ primes 0 = some [] ∧ primes 1 = some [] := by decide +kernel
example : LeastFactor 15 3 := ⟨by omega, by decide, fun e h1 h2 => by
  by_contra hc; have : e = 2 := by omega
  subst this; revert h2; decide⟩

end Verif.Dirichlet
