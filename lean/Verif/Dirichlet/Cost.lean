import Verif.Dirichlet.Conv
import Verif.Common.Count
import Mathlib.NumberTheory.Primorial
import Mathlib.NumberTheory.Padics.PadicVal.Basic
import Mathlib.Algebra.Order.BigOperators.Group.Finset
/-!
The functions of `Model.lean` with a counter of the rounds of all their loops, and the sums that bound it.
-/
namespace Verif.Dirichlet
open Finset

variable {T : Type} {σ : Type}

/-- `convRow`, counting itself and the rounds of its loop (dirichlet.hpp:42-46). -/
def convRowC [Add T] [Mul T] (n : Nat) (a b : List T) (i : Nat) (s : List T × Nat) : Option (List T × Nat) :=
  forRange 1 (n / i + 1) (tick (convStep a b i)) (s.1, s.2 + 1)

/-- `convolution` with the number of rounds of both loops (dirichlet.hpp:42-46). -/
def convolutionC [Zero T] [Add T] [Mul T] (a b : List T) : Option (List T × Nat) :=
  if a.isEmpty then some ([], 0) else (int a.length).bind (fun m =>
    forRange 1 (m - 1 + 1) (convRowC (m - 1) a b) (List.replicate m 0, 0))

/-- `mark` with the number of rounds (dirichlet.hpp:14-17). -/
def markC (n i : Nat) : Nat → Nat → List Nat × Nat → Option (List Nat × Nat)
  | 0, _, _ => none
  | f+1, j, s => if j ≤ n then (markOne i j s.1).bind (fun p => (int (j + i)).bind (fun j => markC n i f j (p, s.2 + 1))) else some s

/-- `sieveStep`, counting itself and the rounds of its loop (dirichlet.hpp:12-18). -/
def sieveStepC (n i : Nat) (s : List Nat × Nat) : Option (List Nat × Nat) :=
  (s.1[i]?).bind (fun x => if x = 0 then (wr s.1 i i).bind (fun p => (int (i * 2)).bind (fun j => markC n i (n+1) j (p, s.2 + 1))) else some (s.1, s.2 + 1))

/-- `sieve` with the number of rounds of both loops (dirichlet.hpp:6-21). -/
def sieveC (n : Nat) : Option (List Nat × Nat) :=
  (int (n+1)).bind (fun m =>
    if n = 0 then some (List.replicate m 0, 0) else (wr (List.replicate m 0) 1 1).bind (fun p => forRange 2 (n+1) (sieveStepC n) (p, 0)))

/-- `primes` with the number of rounds of the loops of the sieve and of its own (dirichlet.hpp:23-32). -/
def primesC (n : Nat) : Option (List Nat × Nat) := (sieveC n).bind (fun era => forRange 2 (n+1) (tick (primeStep era.1)) ([], era.2))

/-- `powLoop` with the number of rounds (dirichlet.hpp:69-75). -/
def powLoopC [Add T] [Mul T] (a : List T) (p u : Nat) : Nat → Nat → Nat → List T × Nat → Option (List T × Nat)
  | 0, _, _, _ => none
  | f+1, q, j, s =>
    (a[q]?).bind (fun x => (s.1[j]?).bind (fun y => (s.1[u]?).bind (fun z => (wr s.1 u (z + x * y)).bind (fun c =>
      if j % p ≠ 0 then some (c, s.2 + 1) else (int (q * p)).bind (fun q => powLoopC a p u f q (j / p) (c, s.2 + 1))))))

/-- `multStep`, counting itself and the rounds of its loop (dirichlet.hpp:66-76). -/
def multStepC [Add T] [Mul T] (a : List T) (p i : Nat) (s : List T × Nat) : Option (List T × Nat) := powLoopC a p (p * i) (i+1) p i (s.1, s.2 + 1)

/-- `multPrime`, counting itself and the rounds of its loops (dirichlet.hpp:64-77). -/
def multPrimeC [Add T] [Mul T] (n : Nat) (a : List T) (p : Nat) (s : List T × Nat) : Option (List T × Nat) :=
  forRangeDown 1 (n / p + 1) (multStepC a p) (s.1, s.2 + 1)

/-- `multConvolution` with the number of rounds of all loops, those of `Primes` included (dirichlet.hpp:59-79). -/
def multConvolutionC [Zero T] [Add T] [Mul T] (a b : List T) : Option (List T × Nat) :=
  if a.isEmpty then none else (int a.length).bind (fun m =>
    (primesC (m - 1)).bind (fun ps => forList (multPrimeC (m - 1) a) ps.1 (resize m b, ps.2)))

/-! ### The counter does not change the results -/

theorem forList_fst {bodyC : Nat → σ × Nat → Option (σ × Nat)} {body : Nat → σ → Option σ} (h : ∀ i s, (bodyC i s).map Prod.fst = body i s.1) :
    ∀ l s, (forList bodyC l s).map Prod.fst = forList body l s.1
  | [], _ => rfl
  | p :: l, s => bind_fst (h p s) (forList_fst h l)

theorem convRowC_fst [Add T] [Mul T] (n : Nat) (a b : List T) (i : Nat) (s : List T × Nat) : (convRowC n a b i s).map Prod.fst = convRow n a b i s.1 :=
  forUp_fst (tick_fst _) _ _ (s.1, s.2 + 1)

theorem convolutionC_fst [Zero T] [Add T] [Mul T] (a b : List T) : (convolutionC a b).map Prod.fst = convolution a b := by
  unfold convolutionC convolution
  split
  · rfl
  · exact bind_same _ (fun m => forUp_fst (convRowC_fst _ a b) _ _ (List.replicate m (0 : T), 0))

theorem markC_fst (n i : Nat) : ∀ f j s, (markC n i f j s).map Prod.fst = mark n i f j s.1
  | 0, _, _ => rfl
  | f+1, j, s => by
      rw [markC, mark]
      split
      · exact bind_same _ (fun p => bind_same _ (fun j => markC_fst n i f j (p, s.2 + 1)))
      · rfl

theorem sieveStepC_fst (n i : Nat) (s : List Nat × Nat) : (sieveStepC n i s).map Prod.fst = sieveStep n i s.1 := by
  unfold sieveStepC sieveStep
  refine bind_same _ (fun x => ?_)
  split
  · exact bind_same _ (fun p => bind_same _ (fun j => markC_fst n i _ j (p, s.2 + 1)))
  · rfl

theorem sieveC_fst (n : Nat) : (sieveC n).map Prod.fst = sieve n := by
  unfold sieveC sieve
  refine bind_same _ (fun m => ?_)
  split
  · rfl
  · exact bind_same _ (fun p => forUp_fst (sieveStepC_fst n) _ _ (p, 0))

theorem primesC_fst (n : Nat) : (primesC n).map Prod.fst = primes n := by
  unfold primesC primes
  exact bind_fst (sieveC_fst n) (fun era => forUp_fst (tick_fst _) _ _ ([], era.2))

theorem powLoopC_fst [Add T] [Mul T] (a : List T) (p u : Nat) : ∀ f q j s, (powLoopC a p u f q j s).map Prod.fst = powLoop a p u f q j s.1
  | 0, _, _, _ => rfl
  | f+1, q, j, s => by
      rw [powLoopC, powLoop]
      refine bind_same _ (fun x => bind_same _ (fun y => bind_same _ (fun z => bind_same _ (fun c => ?_))))
      split
      · rfl
      · exact bind_same _ (fun q => powLoopC_fst a p u f q (j / p) (c, s.2 + 1))

theorem multPrimeC_fst [Add T] [Mul T] (n : Nat) (a : List T) (p : Nat) (s : List T × Nat) : (multPrimeC n a p s).map Prod.fst = multPrime n a p s.1 :=
  forDown_fst (fun i s => powLoopC_fst a p (p * i) (i+1) p i (s.1, s.2 + 1)) _ _ (s.1, s.2 + 1)

theorem multConvolutionC_fst [Zero T] [Add T] [Mul T] (a b : List T) : (multConvolutionC a b).map Prod.fst = multConvolution a b := by
  unfold multConvolutionC multConvolution
  split
  · rfl
  · exact bind_same _ (fun m => bind_fst (primesC_fst _) (fun ps => forList_fst (multPrimeC_fst _ a) ps.1 (resize m b, ps.2)))

/-! ### Costs of the loops -/

theorem forList_cost {bodyC : Nat → σ × Nat → Option (σ × Nat)} (f : Nat → Nat) :
    ∀ l s s', (∀ p ∈ l, ∀ s s', bodyC p s = some s' → s'.2 ≤ s.2 + f p) → forList bodyC l s = some s' → s'.2 ≤ s.2 + (l.map f).sum
  | [], s, s', _, e => by cases e; exact Nat.le_add_right _ _
  | p :: l, s, s', h, e => by
      rw [forList, Option.bind_eq_some_iff] at e
      obtain ⟨s1, e1, e2⟩ := e
      have h1 := h p List.mem_cons_self s s1 e1
      have h2 := forList_cost f l s1 s' (fun q hq => h q (List.mem_cons_of_mem _ hq)) e2
      rw [List.map_cons, List.sum_cons]
      omega

theorem markC_cost {n i : Nat} : ∀ f j s s', markC n i f j s = some s' → ∃ k, s'.2 = s.2 + k ∧ (k = 0 ∨ k * i + j ≤ n + i)
  | 0, _, _, _, e => by cases e
  | f+1, j, s, s', e => by
      rw [markC] at e
      by_cases hj : j ≤ n
      · rw [if_pos hj, Option.bind_eq_some_iff] at e
        obtain ⟨p, _, e⟩ := e
        rw [Option.bind_eq_some_iff] at e
        obtain ⟨j', e1, e⟩ := e
        have : j' = j + i := by
          unfold int at e1
          split at e1 <;> cases e1
          rfl
        subst this
        obtain ⟨k, h1, h2⟩ := markC_cost f _ _ _ e
        refine ⟨k+1, by rw [h1]; dsimp only; omega, Or.inr ?_⟩
        rw [Nat.succ_mul]
        rcases h2 with rfl | h2
        · omega
        · omega
      · rw [if_neg hj] at e
        cases e
        exact ⟨0, rfl, Or.inl rfl⟩

theorem powLoopC_cost [Add T] [Mul T] {a : List T} {p u : Nat} [hp : Fact p.Prime] : ∀ f q j (s s' : List T × Nat), 0 < j → powLoopC a p u f q j s = some s' →
    s'.2 ≤ s.2 + (1 + padicValNat p j)
  | 0, _, _, _, _, _, e => by cases e
  | f+1, q, j, s, s', hj, e => by
      rw [powLoopC] at e
      rw [Option.bind_eq_some_iff] at e
      obtain ⟨x, _, e⟩ := e
      rw [Option.bind_eq_some_iff] at e
      obtain ⟨y, _, e⟩ := e
      rw [Option.bind_eq_some_iff] at e
      obtain ⟨z, _, e⟩ := e
      rw [Option.bind_eq_some_iff] at e
      obtain ⟨c, _, e⟩ := e
      by_cases hm : j % p = 0
      · rw [if_neg (fun h => h hm), Option.bind_eq_some_iff] at e
        obtain ⟨q', _, e⟩ := e
        have hd : p ∣ j := Nat.dvd_of_mod_eq_zero hm
        have h1 := powLoopC_cost f q' (j / p) _ _ (Nat.div_pos (Nat.le_of_dvd hj hd) hp.out.pos) e
        rw [padicValNat.div hd] at h1
        have h2 : 1 ≤ padicValNat p j := one_le_padicValNat_of_dvd (by omega) hd
        dsimp only at h1
        omega
      · rw [if_pos hm] at e
        cases e
        dsimp only
        omega

/-! ### Sums -/

/-- `∑ m / i < L m` over `1 ≤ i < 2^L`. -/
theorem harmonic (m : Nat) : ∀ L, ∑ i ∈ Ico 1 (2^L), m / i ≤ L * m
  | 0 => by simp
  | L+1 => by
      have h1 : 1 ≤ 2^L := Nat.one_le_two_pow
      have h2 : 2^L ≤ 2^(L+1) := Nat.pow_le_pow_right (by omega) (by omega)
      rw [← sum_Ico_consecutive _ h1 h2, Nat.succ_mul]
      refine Nat.add_le_add (harmonic m L) ?_
      have h3 : ∑ i ∈ Ico (2^L) (2^(L+1)), m / i ≤ ∑ _i ∈ Ico (2^L) (2^(L+1)), m / 2^L :=
        sum_le_sum (fun i hi => Nat.div_le_div_left (mem_Ico.1 hi).1 (by omega))
      refine Nat.le_trans h3 ?_
      rw [sum_const, Nat.card_Ico, Nat.nsmul_eq_mul, Nat.pow_succ]
      have : 2^L * 2 - 2^L = 2^L := by omega
      rw [this]
      exact Nat.mul_div_le m (2^L)

/-- Few primes between two powers of two. -/
theorem count_primes (k : Nat) : k * #{p ∈ Ico (2^k) (2^(k+1)) | p.Prime} ≤ 2^(k+2) := by
  have h1 : (2^k) ^ #{p ∈ Ico (2^k) (2^(k+1)) | p.Prime} ≤ ∏ p ∈ Ico (2^k) (2^(k+1)) with p.Prime, p :=
    pow_card_le_prod _ _ _ (fun p hp => (mem_Ico.1 (mem_filter.1 hp).1).1)
  have h2 : ∏ p ∈ Ico (2^k) (2^(k+1)) with p.Prime, p ≤ primorial (2^(k+1)) := by
    unfold primorial
    refine prod_le_prod_of_subset_of_one_le' ?_ (fun p hp _ => (mem_filter.1 hp).2.one_le)
    intro p hp
    rw [mem_filter, mem_Ico] at hp
    rw [mem_filter, mem_range]
    exact ⟨by omega, hp.2⟩
  have h3 := Nat.le_trans h1 (Nat.le_trans h2 (primorial_le_four_pow _))
  have h4 : (4 : Nat) ^ (2^(k+1)) = 2 ^ (2^(k+2)) := by
    rw [show (4 : Nat) = 2^2 from rfl, ← Nat.pow_mul]
    congr 1
    rw [Nat.pow_succ 2 (k+1), Nat.mul_comm]
  rw [h4, ← Nat.pow_mul] at h3
  exact (Nat.pow_le_pow_iff_right (by omega)).1 h3

/-- `∑ n / p` over the primes below `2^L`. -/
theorem prime_sum (n : Nat) : ∀ L, ∑ p ∈ Ico 1 (2^L) with p.Prime, n / p ≤ ∑ k ∈ Ico 1 L, (4 * n) / k
  | 0 => by simp
  | 1 => by
      rw [show Finset.Ico 1 (2^1) = {1} from rfl, Finset.filter_singleton, if_neg Nat.not_prime_one]
      simp
  | L+2 => by
      have h1 : 1 ≤ 2^(L+1) := Nat.one_le_two_pow
      have h2 : 2^(L+1) ≤ 2^(L+2) := Nat.pow_le_pow_right (by omega) (by omega)
      rw [sum_filter, ← sum_Ico_consecutive _ h1 h2, sum_Ico_succ_top (by omega : 1 ≤ L+1), ← sum_filter, ← sum_filter]
      refine Nat.add_le_add (prime_sum n (L+1)) ?_
      have h3 : ∑ p ∈ Ico (2^(L+1)) (2^(L+2)) with p.Prime, n / p ≤ ∑ _p ∈ Ico (2^(L+1)) (2^(L+2)) with _p.Prime, n / 2^(L+1) :=
        sum_le_sum (fun i hi => Nat.div_le_div_left (mem_Ico.1 (mem_filter.1 hi).1).1 (by omega))
      refine Nat.le_trans h3 ?_
      rw [sum_const, Nat.nsmul_eq_mul, Nat.le_div_iff_mul_le (by omega)]
      have h4 := count_primes (L+1)
      have h5 := Nat.mul_le_mul_right (n / 2^(L+1)) h4
      have h6 : 2^(L+1+2) * (n / 2^(L+1)) ≤ 4 * n := by
        have := Nat.mul_div_le n (2^(L+1))
        rw [Nat.pow_add, Nat.mul_comm (2^(L+1)) (2^2), Nat.mul_assoc]
        exact Nat.mul_le_mul_left 4 this
      refine Nat.le_trans (Nat.le_of_eq ?_) (Nat.le_trans h5 h6)
      rw [Nat.mul_comm, Nat.mul_assoc]

/-- Twice logarithmic. -/
theorem prime_sum_log (n : Nat) : ∑ p ∈ Ico 1 (n+1) with p.Prime, n / p ≤ 4 * n * (Nat.log2 (Nat.log2 n) + 1) := by
  have h1 : n < 2^(Nat.log2 n + 1) := Nat.lt_log2_self
  have h2 : Nat.log2 n < 2^(Nat.log2 (Nat.log2 n) + 1) := Nat.lt_log2_self
  refine Nat.le_trans (sum_le_sum_of_subset (filter_subset_filter _ (Ico_subset_Ico_right (by omega : n + 1 ≤ 2^(Nat.log2 n + 1))))) ?_
  refine Nat.le_trans (prime_sum n _) (Nat.le_trans (sum_le_sum_of_subset (Ico_subset_Ico_right (by omega : Nat.log2 n + 1 ≤ 2^(Nat.log2 (Nat.log2 n) + 1)))) ?_)
  rw [Nat.mul_comm (4 * n)]
  exact harmonic (4 * n) _

/-- Legendre: the powers of `p` in `1, …, m` are fewer than `m`. -/
theorem val_sum (p : Nat) [hp : Fact p.Prime] (m : Nat) : ∑ i ∈ range m, padicValNat p (1 + i) ≤ m := by
  have h1 : ∀ m, ∑ i ∈ range m, padicValNat p (1 + i) = padicValNat p m.factorial := by
    intro m
    induction m with
    | zero => simp
    | succ m ih => rw [sum_range_succ, ih, Nat.factorial_succ, padicValNat.mul (by omega) (Nat.factorial_ne_zero m), Nat.add_comm 1 m, Nat.add_comm]
  rw [h1]
  have h2 := sub_one_mul_padicValNat_factorial (p := p) m
  have h3 := hp.out.two_le
  have h4 := Nat.mul_le_mul_right (padicValNat p m.factorial) (by omega : 1 ≤ p - 1)
  omega

end Verif.Dirichlet
