import Verif.Dirichlet.Sieve
import Mathlib.Algebra.BigOperators.Ring.Finset
import Mathlib.Algebra.BigOperators.Intervals
import Mathlib.Data.Nat.Factorization.Basic
import Mathlib.Tactic.Ring
/-!
# C56, C57: Dirichlet convolution
-/
namespace Verif.Dirichlet
open Finset

variable {T : Type}

/-! ### Specification -/

/-- `sum of a i * b j over i * j = m`. -/
def dirSpec [CommSemiring T] (a b : Nat → T) (m : Nat) : T :=
  ∑ i ∈ range (m+1), ∑ j ∈ range (m+1), if i * j = m then a i * b j else 0

/-- `a` is multiplicative up to `n`. -/
def Multiplicative [CommSemiring T] (n : Nat) (a : Nat → T) : Prop :=
  a 1 = 1 ∧ ∀ x y, x * y ≤ n → Nat.Coprime x y → a (x * y) = a x * a y

/-! ### Plain convolution -/

theorem sum_stop [CommSemiring T] (f : Nat → T) {k n : Nat} (hk : k ≤ n) (h : ∀ j, k ≤ j → j < n → f j = 0) : ∑ j ∈ range n, f j = ∑ j ∈ range k, f j := by
  rw [← Finset.sum_range_add_sum_Ico f hk, Finset.sum_eq_zero (s := Finset.Ico k n), add_zero]
  intro j hj
  rw [Finset.mem_Ico] at hj
  exact h j hj.1 hj.2

theorem convStep_ok [CommSemiring T] {n : Nat} {A B C : List T} {a b c : Nat → T} (hA : Rep A (n+1) a) (hB : ∀ j, j ≤ n → B[j]? = some (b j))
    (hC : Rep C (n+1) c) {i j : Nat} (hi : i ≤ n) (hj : j ≤ n) (hij : i * j ≤ n) :
    ∃ C', convStep A B i j C = some C' ∧ Rep C' (n+1) (fun m => c m + if i * j = m then a i * b j else 0) := by
  obtain ⟨C', e, h⟩ := hC.wr (i := i*j) (by omega) (c (i*j) + a i * b j)
  refine ⟨C', ?_, h.congr (fun m _ => ?_)⟩
  · rw [convStep, hA.val i (by omega), Option.bind_some, hB j (by omega), Option.bind_some, hC.val (i*j) (by omega), Option.bind_some, e]
  · by_cases hm : m = i * j
    · subst hm; rw [upd_same, if_pos rfl]
    · rw [upd_ne _ _ hm, if_neg (fun h => hm h.symm), add_zero]

theorem convRow_ok [CommSemiring T] {n : Nat} {A B C : List T} {a b c : Nat → T} (hA : Rep A (n+1) a) (hB : ∀ j, j ≤ n → B[j]? = some (b j))
    (hC : Rep C (n+1) c) {i : Nat} (hi0 : 0 < i) (hi : i ≤ n) :
    ∃ C', convRow n A B i C = some C' ∧ Rep C' (n+1) (fun m => c m + if m = 0 then 0 else ∑ j ∈ range (n+1), if i * j = m then a i * b j else 0) := by
  have hdiv : ∀ j, j < n / i + 1 ↔ i * j ≤ n := by
    intro j
    rw [Nat.lt_succ_iff, Nat.le_div_iff_mul_le hi0, Nat.mul_comm]
  obtain ⟨C', e, h⟩ := forRange_inv (body := convStep A B i) (s := C)
    (fun j C => Rep C (n+1) (fun m => c m + if m = 0 then 0 else ∑ j' ∈ range j, if i * j' = m then a i * b j' else 0)) (Nat.le_add_left 1 (n/i))
    (hC.congr (fun m _ => by
      by_cases hm : m = 0
      · rw [if_pos hm, add_zero]
      · rw [if_neg hm, Finset.sum_range_one, Nat.mul_zero, if_neg (fun h => hm h.symm), add_zero]))
    (fun j C hj1 hj2 hC => by
      have hij := (hdiv j).1 hj2
      have hjn : j ≤ n := Nat.le_trans (Nat.le_mul_of_pos_left j hi0) hij
      obtain ⟨C', e, h⟩ := convStep_ok hA hB hC hi hjn hij
      refine ⟨C', e, h.congr (fun m _ => ?_)⟩
      by_cases hm : m = 0
      · have : i * j ≠ m := by
          rw [hm]; exact Nat.ne_of_gt (Nat.mul_pos hi0 hj1)
        rw [if_pos hm, if_pos hm, if_neg this, add_zero]
      · rw [if_neg hm, if_neg hm, Finset.sum_range_succ, add_assoc])
  refine ⟨C', e, h.congr (fun m hm => ?_)⟩
  refine congrArg (c m + ·) ?_
  refine if_congr Iff.rfl rfl ?_
  have hle : n / i + 1 ≤ n + 1 := Nat.succ_le_succ (Nat.div_le_self n i)
  rw [sum_stop _ hle]
  intro j hj _
  have : ¬ i * j ≤ n := fun h => Nat.not_lt_of_le hj ((hdiv j).2 h)
  rw [if_neg (by omega)]

theorem dir_extend [CommSemiring T] (a b : Nat → T) {m n : Nat} (hm : m ≤ n) (hm0 : m ≠ 0) :
    (∑ i ∈ range (n+1), ∑ j ∈ range (n+1), if i * j = m then a i * b j else 0) = dirSpec a b m := by
  unfold dirSpec
  have h2 : ∀ i ∈ range (n+1), (∑ j ∈ range (n+1), if i * j = m then a i * b j else 0) = ∑ j ∈ range (m+1), if i * j = m then a i * b j else 0 := by
    intro i _
    apply sum_stop _ (by omega)
    intro j hj _
    rw [if_neg]
    intro h
    have hi : 0 < i := Nat.pos_of_ne_zero (fun h0 => by rw [h0, Nat.zero_mul] at h; exact hm0 h.symm)
    have := Nat.le_mul_of_pos_left j hi
    omega
  rw [Finset.sum_congr rfl h2]
  apply sum_stop _ (by omega)
  intro i hi _
  apply Finset.sum_eq_zero
  intro j _
  rw [if_neg]
  intro h
  have hj : 0 < j := Nat.pos_of_ne_zero (fun h0 => by rw [h0, Nat.mul_zero] at h; exact hm0 h.symm)
  have := Nat.le_mul_of_pos_right i hj
  omega

theorem convolution_ok [CommSemiring T] {n : Nat} {A B : List T} {a b : Nat → T} (hA : Rep A (n+1) a) (hB : ∀ j, j ≤ n → B[j]? = some (b j))
    (hlen : n + 1 < 2^31) :
    ∃ C, convolution A B = some C ∧ Rep C (n+1) (fun m => if m = 0 then 0 else dirSpec a b m) := by
  have hA0 : A ≠ [] := fun h => by have := hA.len; rw [h] at this; simp at this
  unfold convolution
  rw [if_neg (by simpa using hA0), hA.len, int_some hlen, Option.bind_some, Nat.add_sub_cancel]
  obtain ⟨C, e, h⟩ := forRange_inv (body := convRow n A B) (s := List.replicate (n+1) 0)
    (fun i C => Rep C (n+1) (fun m => if m = 0 then 0 else ∑ i' ∈ range i, ∑ j ∈ range (n+1), if i' * j = m then a i' * b j else 0))
    (Nat.le_add_left 1 n)
    ((Rep.replicate (n+1) 0).congr (fun m _ => by
      split
      · rfl
      · rename_i hm
        rw [Finset.sum_range_one, Finset.sum_eq_zero]
        intro j _
        rw [Nat.zero_mul, if_neg (fun h => hm h.symm)]))
    (fun i C hi1 hi2 hC => by
      obtain ⟨C', e, h⟩ := convRow_ok hA hB hC hi1 (by omega)
      refine ⟨C', e, h.congr (fun m _ => ?_)⟩
      by_cases hm : m = 0
      · rw [if_pos hm, if_pos hm, if_pos hm, add_zero]
      · rw [if_neg hm, if_neg hm, if_neg hm, Finset.sum_range_succ (n := i)])
  refine ⟨C, e, h.congr (fun m hm => ?_)⟩
  refine if_ctx_congr Iff.rfl (fun _ => rfl) (fun hm0 => dir_extend a b (by omega) hm0)

/-- **C56.** For arrays of sizes `n+1` (`b` may be longer): entry `m ≥ 1` of the result is the Dirichlet convolution, entry 0 is 0. -/
theorem C56_dirichlet [CommSemiring T] (A B : List T) (hA0 : A ≠ []) (hlen : A.length < 2^31) (hB : A.length ≤ B.length) :
    ∃ C, convolution A B = some C ∧ C.length = A.length ∧ C[0]? = some 0 ∧
      ∀ m, 1 ≤ m → m < A.length → C[m]? = some (dirSpec (fun i => A.getD i 0) (fun i => B.getD i 0) m) := by
  have hl : 0 < A.length := List.length_pos_iff.2 hA0
  obtain ⟨n, hn⟩ : ∃ n, A.length = n + 1 := ⟨A.length - 1, by omega⟩
  have hA : Rep A (n+1) (fun i => A.getD i 0) := hn ▸ Rep.ofList A 0
  obtain ⟨C, e, h⟩ := convolution_ok hA (b := fun i => B.getD i 0) (fun j hj => (Rep.ofList B 0).val j (by omega)) (by omega)
  refine ⟨C, e, by rw [h.len, hn], h.val 0 (by omega), fun m h1 h2 => ?_⟩
  rw [h.val m (by omega), if_neg (by omega)]

/-- A shorter `b` is read out of range. -/
theorem C56_short : convolution [0, 1, (1 : Int)] [0, 1] = none := by decide +kernel

example : convolution [0, 1, 1, 1, 1, 1, (1 : Int)] [0, 1, 2, 3, 4, 5, 6] = some [0, 1, 3, 4, 7, 6, 12] := by decide +kernel
example : dirSpec (fun _ => (1 : Int)) (fun i => i) 6 = 12 := by decide +kernel

/-! ### Multiplicative case -/

/-- The sum added by the `while (true)` loop. -/
def tail [CommSemiring T] (a c : Nat → T) (p f q j : Nat) : T := ∑ t ∈ range f, if p^t ∣ j then a (q * p^t) * c (j / p^t) else 0

theorem tail_step [CommSemiring T] (a c : Nat → T) (p f q j : Nat) (hp : 2 ≤ p) :
    tail a c p (f+1) q j = a q * c j + if p ∣ j then tail a c p f (q*p) (j/p) else 0 := by
  unfold tail
  rw [Finset.sum_range_succ', add_comm]
  refine congrArg₂ (· + ·) ?_ ?_
  · rw [Nat.pow_zero, if_pos (Nat.one_dvd j), Nat.mul_one, Nat.div_one]
  · by_cases h : p ∣ j
    · rw [if_pos h]
      apply Finset.sum_congr rfl
      intro t _
      obtain ⟨k, rfl⟩ := h
      have e1 : (p^(t+1) ∣ p * k) ↔ p^t ∣ k := by
        rw [Nat.pow_succ, Nat.mul_comm (p^t) p]
        exact Nat.mul_dvd_mul_iff_left (by omega)
      rw [Nat.mul_div_cancel_left k (by omega)]
      refine if_congr e1 ?_ rfl
      rw [show q * p^(t+1) = q * p * p^t by rw [Nat.pow_succ]; ring, show p^(t+1) = p * p^t by rw [Nat.pow_succ]; ring,
        Nat.mul_div_mul_left _ _ (by omega)]
    · rw [if_neg h]
      apply Finset.sum_eq_zero
      intro t _
      rw [if_neg]
      intro hd
      exact h (Nat.dvd_trans (Dvd.intro_left (p^t) (by rw [Nat.pow_succ])) hd)

theorem powLoop_ok [CommSemiring T] {n : Nat} (hn : n < 2^31) {A : List T} {a : Nat → T} (hA : Rep A (n+1) a) {p u : Nat} (hp : 2 ≤ p) (hu : u ≤ n) :
    ∀ (f q j : Nat) (C : List T) (c : Nat → T), Rep C (n+1) c → 0 < j → j ≤ f → q * j = u → j < u →
      ∃ C', powLoop A p u f q j C = some C' ∧ Rep C' (n+1) (upd c u (c u + tail a c p f q j)) := by
  intro f
  induction f with
  | zero => intro q j C c _ h1 h2; omega
  | succ f ih =>
    intro q j C c hC hj0 hjf hqj hju
    have hq : q ≤ n := Nat.le_trans (Nat.le_mul_of_pos_right q hj0) (by omega)
    obtain ⟨C1, e1, h1⟩ := hC.wr (i := u) (by omega) (c u + a q * c j)
    rw [powLoop, hA.val q (by omega), Option.bind_some, hC.val j (by omega), Option.bind_some, hC.val u (by omega), Option.bind_some, e1, Option.bind_some]
    by_cases hd : p ∣ j
    · obtain ⟨k, rfl⟩ := hd
      rw [if_neg (by rw [Nat.mul_mod_right]; simp), Nat.mul_div_cancel_left k (by omega)]
      have hk0 : 0 < k := Nat.pos_of_ne_zero (fun h => by rw [h] at hj0; simp at hj0)
      have hk1 : 2 * k ≤ p * k := Nat.mul_le_mul_right k hp
      have hqp : q * p * k = u := by rw [Nat.mul_assoc]; exact hqj
      have hqp' : q * p ≤ u := by rw [← hqp]; exact Nat.le_mul_of_pos_right _ hk0
      rw [int_some (by omega), Option.bind_some]
      obtain ⟨C2, e2, h2⟩ := ih (q*p) k C1 _ h1 hk0 (by omega) hqp (by omega)
      refine ⟨C2, e2, h2.congr (fun x _ => ?_)⟩
      by_cases hx : x = u
      · subst hx
        rw [upd_same, upd_same, upd_same, tail_step a c p f q _ hp, if_pos (Nat.dvd_mul_right p k), Nat.mul_div_cancel_left k (by omega), add_assoc]
        refine congrArg (c x + ·) (congrArg (a q * c (p*k) + ·) ?_)
        unfold tail
        apply Finset.sum_congr rfl
        intro t _
        refine if_congr Iff.rfl ?_ rfl
        rw [upd_ne]
        have := Nat.div_le_self k (p^t)
        omega
      · rw [upd_ne _ _ hx, upd_ne _ _ hx, upd_ne _ _ hx]
    · rw [if_pos (fun h => hd (Nat.dvd_of_mod_eq_zero h))]
      refine ⟨C1, rfl, h1.congr (fun x _ => ?_)⟩
      rw [tail_step a c p f q j hp, if_neg hd, add_zero]

/-- Multiplication by the `p`-part of `a`. -/
def mulPart [CommSemiring T] (a c : Nat → T) (p x : Nat) : T := ∑ t ∈ range (x+1), if p^t ∣ x then a (p^t) * c (x / p^t) else 0

theorem mulPart_eq [CommSemiring T] (a c : Nat → T) {p : Nat} (hp : 2 ≤ p) (h1 : a 1 = 1) {x : Nat} (hx : 0 < x) :
    mulPart a c p x = c x + if p ∣ x then tail a c p (x/p+1) p (x/p) else 0 := by
  have e : mulPart a c p x = tail a c p (x+1) 1 x := by
    unfold mulPart tail
    simp only [Nat.one_mul]
  rw [e, tail_step a c p x 1 x hp, h1, one_mul]
  refine congrArg (c x + ·) ?_
  refine if_ctx_congr Iff.rfl (fun hd => ?_) (fun _ => rfl)
  rw [Nat.one_mul]
  obtain ⟨k, rfl⟩ := hd
  rw [Nat.mul_div_cancel_left k (by omega)]
  have hk0 : 0 < k := Nat.pos_of_ne_zero (fun h => by rw [h] at hx; simp at hx)
  have hk1 : 2 * k ≤ p * k := Nat.mul_le_mul_right k hp
  unfold tail
  apply sum_stop _ (by omega)
  intro t ht _
  rw [if_neg]
  intro hd
  have := Nat.le_of_dvd hk0 hd
  have := Nat.lt_pow_self (n := t) (show 1 < p by omega)
  omega

theorem multPrime_ok [CommSemiring T] {n : Nat} (hn : n < 2^31) {A : List T} {a : Nat → T} (hA : Rep A (n+1) a) (ha : a 1 = 1) {p : Nat} (hp : 2 ≤ p)
    {C : List T} {c : Nat → T} (hC : Rep C (n+1) c) :
    ∃ C', multPrime n A p C = some C' ∧ Rep C' (n+1) (fun x => if x = 0 then c 0 else mulPart a c p x) := by
  obtain ⟨C', e, h⟩ := forRangeDown_inv (body := multStep A p) (s := C)
    (fun k C => Rep C (n+1) (fun x => if x ≠ 0 ∧ p * k ≤ x then mulPart a c p x else c x)) (Nat.le_add_left 1 (n/p))
    (hC.congr (fun x hx => by
      rw [if_neg]
      rintro ⟨_, h⟩
      have := Nat.lt_mul_div_succ n (show 0 < p by omega)
      omega))
    (fun i C hi1 hi2 hC => by
      have hpi : p * i ≤ n := by
        have := Nat.mul_le_mul_left p (Nat.lt_succ_iff.1 hi2)
        exact Nat.le_trans this (Nat.mul_div_le n p)
      have hlt : i < p * i := by
        have := Nat.mul_le_mul_right i hp
        omega
      obtain ⟨C', e, h⟩ := powLoop_ok hn hA hp hpi (i+1) p i C _ hC hi1 (by omega) rfl hlt
      refine ⟨C', e, h.congr (fun x hx => ?_)⟩
      by_cases hx0 : x = 0
      · subst hx0
        rw [upd_ne _ _ (by omega), if_neg (by simp), if_neg (by simp)]
      by_cases hxu : x = p * i
      · subst hxu
        rw [upd_same, if_neg (by rintro ⟨_, h⟩; rw [Nat.mul_succ] at h; omega), if_pos ⟨hx0, Nat.le_refl _⟩, mulPart_eq a c hp ha (by omega),
          if_pos (Nat.dvd_mul_right p i), Nat.mul_div_cancel_left i (by omega)]
        refine congrArg (c (p*i) + ·) ?_
        unfold tail
        apply Finset.sum_congr rfl
        intro t _
        refine if_congr Iff.rfl ?_ rfl
        dsimp only
        rw [if_neg]
        rintro ⟨_, h⟩
        have := Nat.div_le_self i (p^t)
        rw [Nat.mul_succ] at h
        omega
      · rw [upd_ne _ _ hxu]
        by_cases h1 : p * (i+1) ≤ x
        · rw [if_pos ⟨hx0, h1⟩, if_pos ⟨hx0, by rw [Nat.mul_succ] at h1; omega⟩]
        · rw [if_neg (fun h => h1 h.2)]
          by_cases h2 : p * i ≤ x
          · rw [if_pos ⟨hx0, h2⟩, mulPart_eq a c hp ha (by omega), if_neg, add_zero]
            rintro ⟨k, rfl⟩
            have h3 : i ≤ k := Nat.le_of_mul_le_mul_left h2 (by omega)
            have h4 : k < i + 1 := Nat.lt_of_mul_lt_mul_left (Nat.lt_of_not_le h1)
            have : k = i := by omega
            exact hxu (by rw [this])
          · rw [if_neg (fun h => h2 h.2)])
  refine ⟨C', e, h.congr (fun x hx => ?_)⟩
  by_cases hx0 : x = 0
  · subst hx0; rw [if_neg (by simp), if_pos rfl]
  · rw [if_neg hx0]
    by_cases h1 : p * 1 ≤ x
    · rw [if_pos ⟨hx0, h1⟩]
    · rw [if_neg (fun h => h1 h.2), mulPart_eq a c hp ha (by omega), if_neg, add_zero]
      intro hd
      have := Nat.le_of_dvd (by omega) hd
      omega

/-- Divisors all of whose prime factors are in `P`. -/
def Smooth (P : Nat → Prop) (d : Nat) : Prop := ∀ q, q.Prime → q ∣ d → P q

open Classical in
/-- Convolution with the `P`-smooth part of `a`. -/
noncomputable def smoothSum [CommSemiring T] (P : Nat → Prop) (a b : Nat → T) (x : Nat) : T :=
  ∑ d ∈ (range (x+1)).filter (fun d => d ∣ x ∧ Smooth P d), a d * b (x / d)

theorem smooth_mul {P : Nat → Prop} {p t d : Nat} (hp : p.Prime) (hd : Smooth P d) : Smooth (fun q => P q ∨ q = p) (p^t * d) := by
  intro q hq hdvd
  rcases (Nat.Prime.dvd_mul hq).1 hdvd with h | h
  · exact Or.inr ((Nat.prime_dvd_prime_iff_eq hq hp).1 (hq.dvd_of_dvd_pow h))
  · exact Or.inl (hd q hq h)

theorem smooth_none [CommSemiring T] (a b : Nat → T) (h1 : a 1 = 1) {x : Nat} (hx : 0 < x) : smoothSum (fun _ => False) a b x = b x := by
  classical
  unfold smoothSum
  have : (range (x+1)).filter (fun d => d ∣ x ∧ Smooth (fun _ => False) d) = {1} := by
    ext d
    rw [Finset.mem_filter, Finset.mem_range, Finset.mem_singleton]
    constructor
    · rintro ⟨_, _, h⟩
      by_contra hd
      obtain ⟨q, hq, hqd⟩ := Nat.exists_prime_and_dvd hd
      exact h q hq hqd
    · rintro rfl
      refine ⟨by omega, Nat.one_dvd x, fun q hq hd => ?_⟩
      exact hq.one_lt.ne' (Nat.dvd_one.1 hd)
  rw [this, Finset.sum_singleton, h1, one_mul, Nat.div_one]

theorem smooth_step [CommSemiring T] {n : Nat} (a b : Nat → T) (ha : Multiplicative n a) {P : Nat → Prop} {p : Nat} (hp : p.Prime) (hnp : ¬ P p)
    {x : Nat} (hx : 0 < x) (hxn : x ≤ n) : mulPart a (smoothSum P a b) p x = smoothSum (fun q => P q ∨ q = p) a b x := by
  classical
  have hpd : ∀ d, Smooth P d → ¬ p ∣ d := fun d hd h => hnp (hd p hp h)
  have e : mulPart a (smoothSum P a b) p x =
      ∑ t ∈ (range (x+1)).filter (fun t => p^t ∣ x), ∑ d ∈ (range (x+1)).filter (fun d => d ∣ x / p^t ∧ Smooth P d), a (p^t * d) * b (x / (p^t * d)) := by
    unfold mulPart
    rw [Finset.sum_filter]
    apply Finset.sum_congr rfl
    intro t _
    refine if_ctx_congr Iff.rfl (fun ht => ?_) (fun _ => rfl)
    unfold smoothSum
    have hq0 : 0 < x / p^t := Nat.div_pos (Nat.le_of_dvd hx ht) (Nat.pow_pos hp.pos)
    have hfil : (range (x / p^t + 1)).filter (fun d => d ∣ x / p^t ∧ Smooth P d) = (range (x+1)).filter (fun d => d ∣ x / p^t ∧ Smooth P d) := by
      ext d
      rw [Finset.mem_filter, Finset.mem_filter, Finset.mem_range, Finset.mem_range]
      have h1 := Nat.div_le_self x (p^t)
      constructor
      · rintro ⟨_, h⟩; exact ⟨by omega, h⟩
      · rintro ⟨_, h⟩; exact ⟨Nat.lt_succ_of_le (Nat.le_of_dvd hq0 h.1), h⟩
    rw [hfil, Finset.mul_sum]
    apply Finset.sum_congr rfl
    intro d hd
    rw [Finset.mem_filter] at hd
    have hcop : Nat.Coprime (p^t) d := Nat.Coprime.pow_left t ((Nat.Prime.coprime_iff_not_dvd hp).2 (hpd d hd.2.2))
    have hle : p^t * d ≤ n := by
      have h1 := Nat.mul_dvd_mul_left (p^t) hd.2.1
      rw [Nat.mul_div_cancel' ht] at h1
      exact Nat.le_trans (Nat.le_of_dvd hx h1) hxn
    rw [ha.2 _ _ hle hcop, Nat.div_div_eq_div_mul, mul_assoc]
  rw [e, Finset.sum_sigma']
  unfold smoothSum
  apply Finset.sum_bij' (fun (s : Sigma fun _ : Nat => Nat) _ => p^s.1 * s.2) (fun d _ => (⟨d.factorization p, d / p^(d.factorization p)⟩ : Sigma fun _ : Nat => Nat))
  · rintro ⟨t, d⟩ h
    rw [Finset.mem_sigma, Finset.mem_filter, Finset.mem_filter] at h
    obtain ⟨⟨_, ht⟩, _, hd, hs⟩ := h
    have h1 := Nat.mul_dvd_mul_left (p^t) hd
    rw [Nat.mul_div_cancel' ht] at h1
    rw [Finset.mem_filter, Finset.mem_range]
    exact ⟨Nat.lt_succ_of_le (Nat.le_of_dvd hx h1), h1, smooth_mul hp hs⟩
  · intro d h
    rw [Finset.mem_filter, Finset.mem_range] at h
    obtain ⟨hlt, hdx, hs⟩ := h
    have hd0 : d ≠ 0 := by rintro rfl; rw [Nat.zero_dvd] at hdx; omega
    have hpt : p^(d.factorization p) ∣ d := Nat.ordProj_dvd d p
    have hmul : p^(d.factorization p) * (d / p^(d.factorization p)) = d := Nat.ordProj_mul_ordCompl_eq_self d p
    rw [Finset.mem_sigma, Finset.mem_filter, Finset.mem_filter, Finset.mem_range, Finset.mem_range]
    have h1 : p^(d.factorization p) ∣ x := Nat.dvd_trans hpt hdx
    refine ⟨⟨?_, h1⟩, ?_, ?_, ?_⟩
    · have := Nat.le_of_dvd hx h1
      have := Nat.lt_pow_self (n := d.factorization p) hp.one_lt
      show d.factorization p < x + 1
      omega
    · have := Nat.div_le_self d (p^(d.factorization p))
      show d / p^(d.factorization p) < x + 1
      omega
    · exact Nat.div_dvd_div hpt hdx
    · intro q hq hqd
      rcases hs q hq (Nat.dvd_trans hqd (Nat.div_dvd_of_dvd hpt)) with h | h
      · exact h
      · subst h
        exact absurd hqd (Nat.not_dvd_ordCompl hp hd0)
  · rintro ⟨t, d⟩ h
    rw [Finset.mem_sigma, Finset.mem_filter, Finset.mem_filter] at h
    obtain ⟨⟨_, ht⟩, _, hd, hs⟩ := h
    have hd0 : d ≠ 0 := by
      rintro rfl
      exact hpd 0 hs (Nat.dvd_zero p)
    have hf : (p^t * d).factorization p = t := by
      rw [Nat.factorization_mul (Nat.ne_of_gt (Nat.pow_pos hp.pos)) hd0, Finsupp.add_apply, Nat.Prime.factorization_pow hp, Finsupp.single_eq_same,
        Nat.factorization_eq_zero_of_not_dvd (hpd d hs), Nat.add_zero]
    show (⟨(p^t * d).factorization p, p^t * d / p^((p^t * d).factorization p)⟩ : Sigma fun _ : Nat => Nat) = ⟨t, d⟩
    rw [hf, Nat.mul_div_cancel_left d (Nat.pow_pos hp.pos)]
  · intro d _
    exact Nat.ordProj_mul_ordCompl_eq_self d p
  · rintro ⟨t, d⟩ _
    rfl

theorem smooth_all [CommSemiring T] (a b : Nat → T) {P : Nat → Prop} {x : Nat} (hx : 0 < x) (hP : ∀ q, q.Prime → q ≤ x → P q) :
    smoothSum P a b x = dirSpec a b x := by
  classical
  unfold smoothSum dirSpec
  rw [Finset.sum_filter]
  apply Finset.sum_congr rfl
  intro d hd
  by_cases h : d ∣ x
  · obtain ⟨k, rfl⟩ := h
    have hd0 : 0 < d := Nat.pos_of_ne_zero (fun h => by rw [h] at hx; simp at hx)
    rw [if_pos ⟨Nat.dvd_mul_right d k, fun q hq hqd => hP q hq (Nat.le_of_dvd hx (Nat.dvd_trans hqd (Nat.dvd_mul_right d k)))⟩]
    rw [Finset.sum_eq_single k, if_pos rfl, Nat.mul_div_cancel_left k hd0]
    · intro j _ hj
      rw [if_neg]
      intro h
      exact hj (Nat.eq_of_mul_eq_mul_left hd0 h)
    · intro hk
      exfalso
      apply hk
      rw [Finset.mem_range]
      exact Nat.lt_succ_of_le (Nat.le_mul_of_pos_left k hd0)
  · rw [if_neg (fun hh => h hh.1), Finset.sum_eq_zero]
    intro j _
    rw [if_neg]
    rintro rfl
    exact h (Nat.dvd_mul_right d j)

theorem mulPart_congr [CommSemiring T] (a : Nat → T) {c c' : Nat → T} {p x : Nat} (hp : 0 < p) (hx : 0 < x) (h : ∀ y, 0 < y → y ≤ x → c y = c' y) :
    mulPart a c p x = mulPart a c' p x := by
  unfold mulPart
  apply Finset.sum_congr rfl
  intro t _
  refine if_ctx_congr Iff.rfl (fun hd => ?_) (fun _ => rfl)
  rw [h _ (Nat.div_pos (Nat.le_of_dvd hx hd) (Nat.pow_pos hp)) (Nat.div_le_self x _)]

theorem forList_ok [CommSemiring T] {n : Nat} (hn : n < 2^31) {A : List T} {a b : Nat → T} (hA : Rep A (n+1) a) (ha : Multiplicative n a) :
    ∀ (ps : List Nat) (P : Nat → Prop) (C : List T) (c : Nat → T), Rep C (n+1) c → (∀ x, 0 < x → x ≤ n → c x = smoothSum P a b x) →
      (∀ p ∈ ps, p.Prime ∧ ¬ P p) → ps.Pairwise (· < ·) →
      ∃ C' c', forList (multPrime n A) ps C = some C' ∧ Rep C' (n+1) c' ∧ c' 0 = c 0 ∧
        ∀ x, 0 < x → x ≤ n → c' x = smoothSum (fun q => P q ∨ q ∈ ps) a b x := by
  intro ps
  induction ps with
  | nil =>
    intro P C c hC hc _ _
    refine ⟨C, c, rfl, hC, rfl, fun x h1 h2 => ?_⟩
    rw [hc x h1 h2]
    congr 1
    funext q; simp
  | cons p ps ih =>
    intro P C c hC hc hps hord
    obtain ⟨hp, hnp⟩ := hps p List.mem_cons_self
    obtain ⟨C1, e1, h1⟩ := multPrime_ok hn hA ha.1 hp.two_le hC
    rw [List.pairwise_cons] at hord
    obtain ⟨C2, c2, e2, h2, h3, h4⟩ := ih (fun q => P q ∨ q = p) C1 _ h1
      (fun x hx hxn => by
        rw [if_neg (by omega), mulPart_congr a hp.pos hx (fun y hy hyx => hc y hy (by omega))]
        exact smooth_step a b ha hp hnp hx hxn)
      (fun q hq => ⟨(hps q (List.mem_cons_of_mem p hq)).1, by
        rintro (h | h)
        · exact (hps q (List.mem_cons_of_mem p hq)).2 h
        · have := hord.1 q hq; omega⟩)
      hord.2
    refine ⟨C2, c2, by rw [forList, e1, Option.bind_some, e2], h2, by rw [h3, if_pos rfl], fun x hx hxn => ?_⟩
    rw [h4 x hx hxn]
    congr 1
    funext q
    rw [List.mem_cons, or_assoc]

theorem resize_rep [Zero T] (m : Nat) (b : List T) : Rep (resize m b) m (fun i => b.getD i 0) := by
  unfold resize
  refine ⟨by rw [List.length_append, List.length_take, List.length_replicate]; omega, fun i hi => ?_⟩
  by_cases hib : i < b.length
  · rw [List.getElem?_append_left (by rw [List.length_take]; omega), List.getElem?_take_of_lt hi]
    exact (Rep.ofList b 0).val i hib
  · rw [List.getElem?_append_right (by rw [List.length_take]; omega), List.getElem?_replicate, if_pos (by rw [List.length_take]; omega),
      List.getD_eq_getElem?_getD, List.getElem?_eq_none (by omega)]
    rfl

/-- **C57.** If `a` is multiplicative, `DirichletMultinomialConvolution` returns the Dirichlet convolution at every index from 1 on,
with `b` of any length padded by zeros; index 0 keeps `b[0]`. -/
theorem C57_multinomial [CommSemiring T] (A B : List T) (hA0 : A ≠ []) (hlen : A.length ≤ 2^30 + 3)
    (hmul : Multiplicative (A.length - 1) (fun i => A.getD i 0)) :
    ∃ C, multConvolution A B = some C ∧ C.length = A.length ∧ C[0]? = some (B.getD 0 0) ∧
      ∀ m, 1 ≤ m → m < A.length → C[m]? = some (dirSpec (fun i => A.getD i 0) (fun i => B.getD i 0) m) := by
  have hl : 0 < A.length := List.length_pos_iff.2 hA0
  obtain ⟨n, hn⟩ : ∃ n, A.length = n + 1 := ⟨A.length - 1, by omega⟩
  have hA : Rep A (n+1) (fun i => A.getD i 0) := hn ▸ Rep.ofList A 0
  rw [hn, Nat.add_sub_cancel] at hmul
  obtain ⟨ps, e1, h1, h2⟩ := C33_primes_partial (n := n) (by omega)
  obtain ⟨C, c, e2, h3, h4, h5⟩ := forList_ok (by omega) hA hmul (b := fun i => B.getD i 0) ps (fun _ => False) (resize (n+1) B) _ (resize_rep (n+1) B)
    (fun x hx _ => (smooth_none (fun i => A.getD i 0) (fun i => B.getD i 0) hmul.1 hx).symm) (fun p hp => ⟨((h2 p).1 hp).1, fun h => h⟩) h1
  refine ⟨C, ?_, by rw [h3.len, hn], by rw [h3.val 0 (by omega), h4], fun m hm1 hm2 => ?_⟩
  · unfold multConvolution
    rw [if_neg (by simpa using hA0), hn, int_some (by omega), Option.bind_some, Nat.add_sub_cancel, e1, Option.bind_some, e2]
  · rw [h3.val m (by omega), h5 m hm1 (by omega), smooth_all _ _ hm1]
    intro q hq hqm
    exact Or.inr ((h2 q).2 ⟨hq, by omega⟩)

/-- Without multiplicativity the two convolutions differ. -/
theorem C57_needs_multiplicative : multConvolution [0, 2, (1 : Int)] [0, 1, 1] ≠ convolution [0, 2, (1 : Int)] [0, 1, 1] := by decide +kernel

example : multConvolution [0, 1, 2, 3, 4, 5, (6 : Int)] [0, 1, 1, 1, 1, 1, 1] = some [0, 1, 3, 4, 7, 6, 12] := by decide +kernel
example : Multiplicative 100 (fun i => (i : Int)) := ⟨by norm_num, fun x y _ _ => by push_cast; rfl⟩

end Verif.Dirichlet
