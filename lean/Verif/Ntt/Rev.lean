import Verif.Ntt.Pass
import Verif.BitManip.Props
/-!
Bit reversal of indices, and `_iterative_bit_reverse`.
-/
namespace Verif.Ntt
open Verif.Modular

/-- The lowest `k` bits of `j` in reverse order. -/
def rv : Nat → Nat → Nat
  | 0, _ => 0
  | k+1, j => (j % 2) * 2^k + rv k (j / 2)

theorem rv_lt : ∀ k j, rv k j < 2^k := by
  intro k
  induction k with
  | zero => intro j; simp [rv]
  | succ k ih =>
    intro j
    rw [rv, pow_succ]
    have := ih (j/2)
    have h2 : j % 2 = 0 ∨ j % 2 = 1 := by omega
    rcases h2 with h | h <;> rw [h] <;> omega

theorem rv_top : ∀ k b j, b ≤ 1 → j < 2^k → rv (k+1) (b * 2^k + j) = b + 2 * rv k j := by
  intro k
  induction k with
  | zero =>
    intro b j hb hj
    have : j = 0 := by simpa using hj
    subst this
    have : b = 0 ∨ b = 1 := by omega
    rcases this with h | h <;> subst h <;> rfl
  | succ k ih =>
    intro b j hb hj
    have e : 2^(k+1) = 2 * 2^k := by rw [pow_succ, Nat.mul_comm]
    rw [rv, e, show b * (2 * 2^k) + j = 2 * (b * 2^k) + j by ring]
    rw [show (2 * (b * 2^k) + j) / 2 = b * 2^k + j/2 by omega, show (2 * (b * 2^k) + j) % 2 = j % 2 by omega,
      ih b (j/2) hb (by omega), rv]
    ring

theorem rv_rv : ∀ k j, j < 2^k → rv k (rv k j) = j := by
  intro k
  induction k with
  | zero => intro j hj; have : j = 0 := by simpa using hj
            subst this; rfl
  | succ k ih =>
    intro j hj
    rw [pow_succ] at hj
    have e1 : rv (k+1) j = (j % 2) * 2^k + rv k (j / 2) := by rw [rv]
    rw [e1]
    rw [rv_top k (j%2) _ (by omega) (rv_lt _ _), ih (j/2) (by omega)]
    omega

theorem rv_zero : ∀ k, rv k 0 = 0 := by
  intro k
  induction k with
  | zero => rfl
  | succ k ih => rw [rv, Nat.zero_div, ih]; simp

theorem xor_pow {e i : Nat} (hi : i < 2^e) : i ^^^ 2^e = 2^e + i := by
  apply Nat.eq_of_testBit_eq
  intro j
  rw [Nat.testBit_xor, Nat.testBit_two_pow]
  by_cases h : e = j
  · subst h
    rw [Nat.testBit_two_pow_add_eq, Nat.testBit_lt_two_pow hi]; simp
  · rcases Nat.lt_or_gt_of_ne h with h' | h'
    · have h1 : i.testBit j = false := Nat.testBit_lt_two_pow (Nat.lt_of_lt_of_le hi (Nat.pow_le_pow_right (by omega) (by omega)))
      have h2 : (2^e + i).testBit j = false := by
        apply Nat.testBit_lt_two_pow
        have : 2^(e+1) ≤ 2^j := Nat.pow_le_pow_right (by omega) h'
        rw [pow_succ] at this
        omega
      rw [h1, h2]; simp [h]
    · rw [Nat.testBit_two_pow_add_gt h']; simp [h]

theorem revNext_spec : ∀ e F j, e < F → j + 1 < 2^(e+1) → revNext F (2^e) (rv (e+1) j) = some (rv (e+1) (j+1)) := by
  intro e
  induction e with
  | zero =>
    intro F j hF hj
    obtain ⟨F, rfl⟩ : ∃ F', F = F' + 1 := ⟨F-1, by omega⟩
    have : j = 0 := by rw [Nat.zero_add, pow_one] at hj; omega
    subst this
    rw [revNext]; rfl
  | succ e ih =>
    intro F j hF hj
    obtain ⟨F, rfl⟩ : ∃ F', F = F' + 1 := ⟨F-1, by omega⟩
    have hl := rv_lt (e+1) (j/2)
    rw [revNext]
    by_cases hp : j % 2 = 0
    · have h1 : rv (e+1+1) j = rv (e+1) (j/2) := by rw [rv, hp]; simp
      have h2 : rv (e+1+1) (j+1) = 2^(e+1) + rv (e+1) (j/2) := by
        rw [rv, show (j+1) % 2 = 1 by omega, show (j+1)/2 = j/2 by omega, Nat.one_mul]
      rw [h1, h2, xor_pow hl, if_neg (by omega)]
    · have h1 : rv (e+1+1) j = 2^(e+1) + rv (e+1) (j/2) := by rw [rv, show j % 2 = 1 by omega, Nat.one_mul]
      have h2 : rv (e+1+1) (j+1) = rv (e+1) (j/2+1) := by
        rw [rv, show (j+1) % 2 = 0 by omega, show (j+1)/2 = j/2+1 by omega]; simp
      have hx : (2^(e+1) + rv (e+1) (j/2)) ^^^ 2^(e+1) = rv (e+1) (j/2) := by
        rw [← xor_pow hl, Nat.xor_assoc, Nat.xor_self, Nat.xor_zero]
      rw [h1, h2, hx, if_pos hl, show 2^(e+1)/2 = 2^e by rw [pow_succ]; omega]
      exact ih F (j/2) (by omega) (by rw [pow_succ] at hj; omega)

theorem swap_spec {p n : Nat} {f : List Nat} {φ : Nat → ZMod p} (R : RepZ p f n φ) {i j : Nat} (hi : i < n) (hj : j < n) :
    ∃ f', swap f i j = some f' ∧ RepZ p f' n (fun q => if q = j then φ i else if q = i then φ j else φ q) := by
  obtain ⟨a, ea, ha, ca⟩ := R.val i hi
  obtain ⟨b, eb, hb, cb⟩ := R.val j hj
  obtain ⟨f1, e1, R1⟩ := R.wr hi hb
  obtain ⟨f2, e2, R2⟩ := R1.wr hj ha
  refine ⟨f2, by unfold swap; rw [ea, Option.bind_some, eb, Option.bind_some, e1, Option.bind_some, e2], R2.congr ?_⟩
  intro q _
  by_cases h1 : q = j
  · subst h1; rw [upd_same, if_pos rfl, ca]
  rw [upd_ne _ _ h1, if_neg h1]
  by_cases h2 : q = i
  · subst h2; rw [upd_same, if_pos rfl, cb]
  rw [upd_ne _ _ h2, if_neg h2]

theorem ceilPow2_spec {x : Nat} (hx : x ≤ 2^63) : ∃ k, ceilPow2 x = some k ∧ x ≤ 2^k ∧ ∀ j, x ≤ 2^j → k ≤ j := by
  unfold ceilPow2
  by_cases h0 : x = 0
  · rw [if_pos h0]; exact ⟨0, rfl, by omega, fun _ _ => Nat.zero_le _⟩
  rw [if_neg h0]
  by_cases h1 : x - 1 = 0
  · rw [h1]
    exact ⟨0, rfl, by omega, fun _ _ => Nat.zero_le _⟩
  · obtain ⟨k, e, hk, hlo, hhi⟩ := BitManip.clz_spec (x := x-1) (by omega) h1
    rw [e]
    refine ⟨64 - k, rfl, by omega, ?_⟩
    intro j hj
    by_contra hlt
    have : 2^j ≤ 2^(63-k) := Nat.pow_le_pow_right (by omega) (by omega)
    omega

theorem ceilPow2_pow {k : Nat} (hk : k ≤ 63) : ceilPow2 (2^k) = some k := by
  obtain ⟨j, e, h1, h2⟩ := ceilPow2_spec (x := 2^k) (Nat.pow_le_pow_right (by omega) hk)
  have a := h2 k (Nat.le_refl _)
  have b : k ≤ j := (Nat.pow_le_pow_iff_right (by omega)).1 h1
  rw [e, Nat.le_antisymm a b]

theorem shl_some {k : Nat} (hk : k < 31) : shl k = some (2^k) := by unfold shl; rw [if_pos hk]

theorem rv_last {k q : Nat} (hq : q < 2^k) (h : q = 2^k - 1 ∨ rv k q = 2^k - 1) : rv k q = q := by
  have hl : ∀ k, rv k (2^k - 1) = 2^k - 1 := by
    intro k
    induction k with
    | zero => rfl
    | succ k ih =>
      have e : 2^(k+1) - 1 = 1 * 2^k + (2^k - 1) := by
        have := Nat.two_pow_pos k
        rw [pow_succ]; omega
      rw [e, rv_top k 1 _ (by omega) (by have := Nat.two_pow_pos k; omega), ih]
      have := Nat.two_pow_pos k
      omega
  rcases h with h | h
  · rw [h, hl]
  · have := congrArg (rv k) h
    rw [rv_rv k q hq, hl] at this
    rw [h, this]

theorem bitReverse_spec {p k : Nat} (hk : k < 31) {f : List Nat} {φ : Nat → ZMod p} (R : RepZ p f (2^k) φ) :
    ∃ f', bitReverse f = some f' ∧ RepZ p f' (2^k) (fun q => φ (rv k q)) := by
  unfold bitReverse
  rw [R.len, ceilPow2_pow (by omega), Option.bind_some, shl_some hk, Option.bind_some]
  cases k with
  | zero =>
    refine ⟨f, by rw [forRange_nil (by simp)]; rfl, R.congr ?_⟩
    intro q hq
    have : q = 0 := by simpa using hq
    subst this; rfl
  | succ e =>
    have h2 : 2 ≤ 2^(e+1) := by have := Nat.two_pow_pos e; rw [pow_succ]; omega
    obtain ⟨s', es, ⟨_, Rs⟩⟩ := forRange_inv (a := 1) (b := 2^(e+1) - 1) (s := (0, f)) (body := revStep (2^(e+1)))
      (P := fun J (s : Nat × List Nat) => s.1 = rv (e+1) (J-1) ∧
        RepZ p s.2 (2^(e+1)) (fun q => if q < J ∧ rv (e+1) q < J then φ (rv (e+1) q) else φ q))
      (by omega) ⟨(rv_zero _).symm, R.congr (fun q hq => by
        by_cases h : q < 1 ∧ rv (e+1) q < 1
        · have : q = 0 := by omega
          subst this
          rw [if_pos h, rv_zero]
        · rw [if_neg h])⟩ (by
        rintro j ⟨i, f⟩ hj1 hj ⟨hi, Rj⟩
        dsimp only at hi Rj
        subst hi
        have hrn : revNext 32 (2^(e+1)/2) (rv (e+1) (j-1)) = some (rv (e+1) j) := by
          rw [show 2^(e+1)/2 = 2^e by rw [pow_succ]; omega]
          have := revNext_spec e 32 (j-1) (by omega) (by omega)
          rwa [show j - 1 + 1 = j by omega] at this
        unfold revStep
        dsimp only
        rw [hrn, Option.bind_some]
        have hjn : j < 2^(e+1) := by omega
        have hrr := rv_rv (e+1) j hjn
        by_cases hlt : rv (e+1) j < j
        · obtain ⟨f', ef, Rf⟩ := swap_spec Rj (rv_lt (e+1) j) hjn
          rw [if_pos hlt, ef]
          refine ⟨_, rfl, rfl, Rf.congr ?_⟩
          intro q hq
          by_cases hq1 : q = j
          · subst hq1
            rw [if_pos rfl, hrr, if_neg (by omega), if_pos (by omega)]
          rw [if_neg hq1]
          by_cases hq2 : q = rv (e+1) j
          · rw [if_pos hq2, if_neg (by omega), hq2, hrr, if_pos (by omega)]
          rw [if_neg hq2]
          by_cases hq3 : q < j ∧ rv (e+1) q < j
          · rw [if_pos hq3, if_pos (by omega)]
          · rw [if_neg hq3, if_neg]
            rintro ⟨h1, h2⟩
            have : rv (e+1) q = j := by omega
            apply hq2
            rw [← this, rv_rv _ _ hq]
        · rw [if_neg hlt]
          refine ⟨_, rfl, rfl, Rj.congr ?_⟩
          intro q hq
          by_cases hq3 : q < j ∧ rv (e+1) q < j
          · rw [if_pos hq3, if_pos (by omega)]
          · rw [if_neg hq3]
            by_cases hq4 : q < j + 1 ∧ rv (e+1) q < j + 1
            · rw [if_pos hq4]
              have h5 : q = j ∨ rv (e+1) q = j := by omega
              rcases h5 with h5 | h5
              · subst h5
                rw [show rv (e+1) q = q by omega]
              · have h6 : rv (e+1) j = q := by rw [← h5, rv_rv _ _ hq]
                rw [h5, show q = j by omega]
            · rw [if_neg hq4])
    refine ⟨s'.2, by rw [es]; rfl, Rs.congr ?_⟩
    intro q hq
    have hr := rv_lt (e+1) q
    by_cases h : q < 2^(e+1) - 1 ∧ rv (e+1) q < 2^(e+1) - 1
    · rw [if_pos h]
    · rw [if_neg h, rv_last hq (by omega)]

end Verif.Ntt
