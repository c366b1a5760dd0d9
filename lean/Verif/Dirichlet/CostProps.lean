import Verif.Dirichlet.Cost
/-!
# C142: the documented complexities of the Dirichlet convolutions
-/
namespace Verif.Dirichlet
open Finset

variable {T : Type}

theorem convRowC_cost [Add T] [Mul T] {n : Nat} {a b : List T} {i : Nat} {s s' : List T × Nat} (e : convRowC n a b i s = some s') : s'.2 ≤ s.2 + (1 + n / i) := by
  have := ticks_cost e
  dsimp only at this
  generalize n / i = d at this ⊢
  omega

theorem sum_shift (f : Nat → Nat) (n : Nat) : ∑ i ∈ range n, f (1 + i) = ∑ i ∈ Ico 1 (n+1), f i := by
  rw [sum_Ico_eq_sum_range, Nat.add_sub_cancel]

/-- C142, `DirichletConvolution`: for arrays of sizes `n+1` the two loops make at most `n (log n + 2)` rounds together, the logarithm rounded down. -/
theorem C142_convolution [CommSemiring T] (A B : List T) (hA0 : A ≠ []) (hlen : A.length < 2^31) (hB : A.length ≤ B.length) :
    ∃ C k, convolutionC A B = some (C, k) ∧ convolution A B = some C ∧ k ≤ (A.length - 1) * (Nat.log2 (A.length - 1) + 2) := by
  obtain ⟨C, e, _⟩ := C56_dirichlet A B hA0 hlen hB
  obtain ⟨k, ek⟩ := of_fst (convolutionC_fst A B) e
  refine ⟨C, k, ek, e, ?_⟩
  unfold convolutionC at ek
  rw [if_neg (by simpa using hA0), int_some hlen, Option.bind_some] at ek
  have h1 := forUp_cost (fun i => 1 + (A.length - 1) / i) _ _ _ _ (fun i s s' _ e => convRowC_cost e) ek
  generalize A.length - 1 = n at h1 ⊢
  have h2 : ∑ i ∈ range n, (1 + n / (1 + i)) ≤ n + (Nat.log2 n + 1) * n := by
    rw [sum_add_distrib, sum_const, card_range, Nat.nsmul_eq_mul, Nat.mul_one, sum_shift (fun i => n / i)]
    have : n < 2^(Nat.log2 n + 1) := Nat.lt_log2_self
    exact Nat.add_le_add_left (Nat.le_trans (sum_le_sum_of_subset (Ico_subset_Ico_right (by omega))) (harmonic n _)) n
  rw [Nat.add_sub_cancel, Nat.zero_add] at h1
  refine Nat.le_trans h1 (Nat.le_trans h2 (Nat.le_of_eq ?_))
  ring

theorem sieveStepC_cost {n i : Nat} (hn : n < 2^30 + 3) (hi1 : 2 ≤ i) (hi2 : i < n + 1) {s s' : List Nat × Nat} (hp : Rep s.1 (n+1) (seen i)) (e : sieveStepC n i s = some s') :
    Rep s'.1 (n+1) (seen (i+1)) ∧ s'.2 ≤ s.2 + 1 + (if i.Prime then n / i else 0) := by
  obtain ⟨p', e1, h1⟩ := sieveStep_ok hn hi1 hi2 hp
  have h2 := sieveStepC_fst n i s
  rw [e, e1] at h2
  cases h2
  refine ⟨h1, ?_⟩
  unfold sieveStepC at e
  rw [hp.val i hi2, Option.bind_some] at e
  by_cases hpr : i.Prime
  · have hs : seen i i = 0 := by
      unfold seen
      rw [if_neg (by omega), hpr.minFac_eq, if_neg (by omega)]
    rw [hs, if_pos rfl, Option.bind_eq_some_iff] at e
    obtain ⟨p, _, e⟩ := e
    rw [Option.bind_eq_some_iff] at e
    obtain ⟨j, ej, e⟩ := e
    have : j = i * 2 := by
      unfold int at ej
      split at ej <;> cases ej
      rfl
    subst this
    obtain ⟨k, h3, h4⟩ := markC_cost _ _ _ _ e
    rw [if_pos hpr, h3]
    have h5 : k ≤ n / i := by
      rw [Nat.le_div_iff_mul_le (by omega)]
      rcases h4 with rfl | h4
      · simp
      · omega
    dsimp only
    omega
  · have hs : seen i i = i.minFac := by
      have hlt : i.minFac < i := (Nat.not_prime_iff_minFac_lt hi1).1 hpr
      unfold seen
      rw [if_neg (by omega), if_pos hlt]
    rw [hs, if_neg (Nat.ne_of_gt (Nat.minFac_pos i))] at e
    cases e
    rw [if_neg hpr]

theorem primesC_cost {n : Nat} (hn : n < 2^30 + 3) {ps : List Nat} {k : Nat} (e : primesC n = some (ps, k)) :
    k ≤ 2 * n + ∑ p ∈ Ico 1 (n+1) with p.Prime, n / p := by
  unfold primesC at e
  rw [Option.bind_eq_some_iff] at e
  obtain ⟨era, e1, e2⟩ := e
  have h1 := ticks_cost e2
  dsimp only at h1
  unfold sieveC at e1
  rw [int_some (by omega), Option.bind_some] at e1
  by_cases h0 : n = 0
  · subst h0
    rw [if_pos rfl] at e1
    cases e1
    simp at h1
    omega
  rw [if_neg h0, Option.bind_eq_some_iff] at e1
  obtain ⟨p0, e0, e1⟩ := e1
  obtain ⟨p1, e3, hp1⟩ := (Rep.replicate (n+1) 0).wr (i := 1) (by omega) 1
  rw [e3] at e0
  cases e0
  have h2 := forRange_part (body := sieveStepC n) (fun i s => Rep s.1 (n+1) (seen i) ∧ s.2 ≤ i - 2 + ∑ p ∈ Ico 1 i with p.Prime, n / p) (by omega : 2 ≤ n + 1)
    ⟨hp1.congr (fun x hx => by
        unfold seen
        by_cases hx1 : x = 1
        · subst hx1; rfl
        · rw [upd_ne _ _ hx1]
          by_cases hx0 : x = 0
          · subst hx0; rfl
          · rw [if_neg (by omega), if_neg]
            have := (Nat.minFac_prime hx1).two_le
            omega), Nat.zero_le _⟩
    (fun i s s' hi1 hi2 hs e => by
      obtain ⟨h3, h4⟩ := sieveStepC_cost hn hi1 hi2 hs.1 e
      refine ⟨h3, ?_⟩
      rw [sum_filter, sum_Ico_succ_top (by omega), ← sum_filter]
      have := hs.2
      omega) e1
  have := h2.2
  omega

theorem multPrimeC_cost [Add T] [Mul T] {n : Nat} {a : List T} {p : Nat} (hp : p.Prime) (hpn : p ≤ n) {s s' : List T × Nat} (e : multPrimeC n a p s = some s') :
    s'.2 ≤ s.2 + 4 * (n / p) := by
  haveI : Fact p.Prime := ⟨hp⟩
  have h1 := forDown_cost (fun i => 2 + padicValNat p i) (a := 1) (fun i s s' hi e => by
    have := powLoopC_cost (p := p) _ _ _ _ _ hi e
    dsimp only at this
    omega) _ _ _ e
  rw [Nat.add_sub_cancel, sum_add_distrib, sum_const, card_range, Nat.nsmul_eq_mul] at h1
  have h2 := val_sum p (n / p)
  have h3 : 0 < n / p := Nat.div_pos hpn hp.pos
  dsimp only at h1
  omega

/-- C142, `DirichletMultinomialConvolution`: with `a` of size `n+1` all loops, those of the sieve included, make at most `22 n (log log n + 1)` rounds together, the logarithms rounded down. -/
theorem C142_multinomial [CommSemiring T] (A B : List T) (hA0 : A ≠ []) (hlen : A.length ≤ 2^30 + 3) (hmul : Multiplicative (A.length - 1) (fun i => A.getD i 0)) :
    ∃ C k, multConvolutionC A B = some (C, k) ∧ multConvolution A B = some C ∧ k ≤ 22 * (A.length - 1) * (Nat.log2 (Nat.log2 (A.length - 1)) + 1) := by
  obtain ⟨C, e, _⟩ := C57_multinomial A B hA0 hlen hmul
  obtain ⟨k, ek⟩ := of_fst (multConvolutionC_fst A B) e
  refine ⟨C, k, ek, e, ?_⟩
  have hl : 0 < A.length := List.length_pos_iff.2 hA0
  unfold multConvolutionC at ek
  rw [if_neg (by simpa using hA0), int_some (by omega), Option.bind_some] at ek
  obtain ⟨n, hn⟩ : ∃ n, A.length = n + 1 := ⟨A.length - 1, by omega⟩
  rw [hn, Nat.add_sub_cancel] at ek ⊢
  rw [Option.bind_eq_some_iff] at ek
  obtain ⟨⟨ps, k0⟩, e1, e2⟩ := ek
  have h1 := primesC_cost (by omega) e1
  obtain ⟨ps', e3, h3, h4⟩ := C33_primes_partial (n := n) (by omega)
  have h5 := primesC_fst n
  rw [e1, e3] at h5
  cases h5
  have h6 := forList_cost (fun p => 4 * (n / p)) _ _ _ (fun p hp s s' e => multPrimeC_cost ((h4 p).1 hp).1 ((h4 p).1 hp).2 e) e2
  have h7 : (ps.map (fun p => 4 * (n / p))).sum = 4 * ∑ p ∈ Ico 1 (n+1) with p.Prime, n / p := by
    rw [mul_sum, ← List.sum_toFinset _ (h3.imp (fun h => Nat.ne_of_lt h))]
    refine sum_congr ?_ (fun _ _ => rfl)
    ext p
    rw [List.mem_toFinset, h4, mem_filter, mem_Ico]
    constructor
    · rintro ⟨h1, h2⟩; exact ⟨⟨h1.one_le, by omega⟩, h1⟩
    · rintro ⟨h1, h2⟩; exact ⟨h2, by omega⟩
  have h8 := prime_sum_log n
  dsimp only at h6 h7
  rw [h7] at h6
  generalize hM : Nat.log2 (Nat.log2 n) = M at h8 ⊢
  have h9 : 22 * n * (M + 1) = 2 * n * M + 2 * n + 5 * (4 * n * (M + 1)) := by ring
  omega

/-- 50 entries of the divisor function: 250 rounds where the bound is 343, and 351 rounds where the bound is 3234. -/
example : (convolutionC (List.replicate 50 (1 : Int)) (List.replicate 50 1)).map Prod.snd = some 250 ∧ 49 * (Nat.log2 49 + 2) = 343 := by decide +kernel
example : (multConvolutionC (List.replicate 50 (1 : Int)) (List.replicate 50 1)).map Prod.snd = some 351 := by decide +kernel
example : Multiplicative 49 (fun i => (List.replicate 50 (1 : Int)).getD i 0) := by
  have h : ∀ i, i < 50 → (List.replicate 50 (1 : Int)).getD i 0 = 1 := by decide
  refine ⟨rfl, fun x y hxy hc => ?_⟩
  rcases Nat.eq_zero_or_pos x with rfl | hx
  · have : y = 1 := by simpa using hc
    subst this; rfl
  rcases Nat.eq_zero_or_pos y with rfl | hy
  · have : x = 1 := by simpa using hc
    subst this; rfl
  have h1 := Nat.le_mul_of_pos_right x hy
  have h2 := Nat.le_mul_of_pos_left y hx
  dsimp only
  rw [h _ (by omega), h x (by omega), h y (by omega)]
  rfl

end Verif.Dirichlet
