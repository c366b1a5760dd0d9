import Verif.Bitwise.Model
import Mathlib.Tactic.Ring
/-!
The cache-oblivious loop order computes the same as the plain level-by-level transform.
-/
namespace Verif.Bitwise

variable {α : Type}

/-! ### Flipping one bit -/

theorem xor_one_even {a : Nat} (h : a % 2 = 0) : a ^^^ 1 = a + 1 := by
  have h1 : (a ^^^ 1) / 2 = a / 2 := by rw [Nat.xor_div_two]; simp
  have h2 : (a ^^^ 1) % 2^1 = 1 := by rw [Nat.xor_mod_two_pow, Nat.pow_one, h]; rfl
  omega

theorem xor_one_odd {a : Nat} (h : a % 2 = 1) : a ^^^ 1 = a - 1 := by
  have h1 : (a ^^^ 1) / 2 = a / 2 := by rw [Nat.xor_div_two]; simp
  have h2 : (a ^^^ 1) % 2^1 = 0 := by rw [Nat.xor_mod_two_pow, Nat.pow_one, h]; rfl
  omega

theorem testBit_iff {x k : Nat} : x.testBit k = true ↔ x / 2^k % 2 = 1 := by
  rw [Nat.testBit_eq_decide_div_mod_eq]; simp

theorem flip_div (x k : Nat) : (x ^^^ 2^k) / 2^k = x / 2^k ^^^ 1 := by
  rw [Nat.xor_div_two_pow, Nat.div_self (Nat.two_pow_pos k)]

theorem flip_mod (x k : Nat) : (x ^^^ 2^k) % 2^k = x % 2^k := by
  rw [Nat.xor_mod_two_pow, Nat.mod_self, Nat.xor_zero]

theorem flip_unset {x k : Nat} (h : x.testBit k = false) : x ^^^ 2^k = x + 2^k := by
  have h0 : x / 2^k % 2 = 0 := by
    have := (testBit_iff (x := x) (k := k)).not.1 (by simp [h]); omega
  have h1 := Nat.div_add_mod (x ^^^ 2^k) (2^k)
  have h2 := Nat.div_add_mod x (2^k)
  rw [flip_div, flip_mod, xor_one_even h0, Nat.mul_add, Nat.mul_one] at h1
  omega

theorem flip_set {x k : Nat} (h : x.testBit k = true) : x ^^^ 2^k = x - 2^k ∧ 2^k ≤ x := by
  have h0 := testBit_iff.1 h
  have h1 := Nat.div_add_mod (x ^^^ 2^k) (2^k)
  have h2 := Nat.div_add_mod x (2^k)
  obtain ⟨c, hc⟩ : ∃ c, x / 2^k = c + 1 := by
    generalize x / 2^k = y at h0
    exact ⟨y - 1, by omega⟩
  rw [flip_div, flip_mod, xor_one_odd h0, hc, Nat.add_sub_cancel] at h1
  rw [hc, Nat.mul_add, Nat.mul_one] at h2
  omega

theorem flip_div_succ (x k : Nat) : (x ^^^ 2^k) / 2^(k+1) = x / 2^(k+1) := by
  rw [Nat.xor_div_two_pow, Nat.div_eq_of_lt (Nat.pow_lt_pow_right (by omega) (by omega)), Nat.xor_zero]

theorem flip_flip (x k : Nat) : x ^^^ 2^k ^^^ 2^k = x := by rw [Nat.xor_assoc, Nat.xor_self, Nat.xor_zero]

theorem testBit_flip (x k j : Nat) : (x ^^^ 2^k).testBit j = (x.testBit j ^^ decide (k = j)) := by
  rw [Nat.testBit_xor, Nat.testBit_two_pow]

/-! ### The plain transform -/

/-- Level `k`: positions differing in bit `k` are combined; `p` gives the value without the bit, `q` the value with it. -/
def level (p q : α → α → α) (k : Nat) (f : Nat → α) : Nat → α := fun x =>
  if x.testBit k then q (f (x ^^^ 2^k)) (f x) else p (f x) (f (x ^^^ 2^k))

/-- Levels `0, ..., n-1`. -/
def tr (p q : α → α → α) : Nat → (Nat → α) → Nat → α
  | 0, f => f
  | n+1, f => level p q n (tr p q n f)

theorem tr_congr {p q : α → α → α} {n : Nat} : ∀ {f g : Nat → α} {x : Nat}, (∀ y, y / 2^n = x / 2^n → f y = g y) → tr p q n f x = tr p q n g x := by
  induction n with
  | zero => intro f g x h; exact h x rfl
  | succ n ih =>
    intro f g x h
    have hs : ∀ y, y / 2^n / 2 = y / 2^(n+1) := fun y => by rw [Nat.div_div_eq_div_mul, Nat.pow_succ]
    have h1 : tr p q n f x = tr p q n g x := ih (fun y hy => h y (by rw [← hs, ← hs, hy]))
    have h2 : tr p q n f (x ^^^ 2^n) = tr p q n g (x ^^^ 2^n) :=
      ih (fun y hy => h y (by rw [← hs, hy, hs, flip_div_succ]))
    show level p q n _ x = level p q n _ x
    unfold level
    rw [h1, h2]

/-! ### The loops -/

/-- What one step does to the entries `t-w` and `t`. -/
def StepOk (step : Nat → Nat → List α → Option (List α)) (p q : α → α → α) : Prop :=
  ∀ (N w t : Nat) (A : List α) (f : Nat → α), Rep A N f → 0 < w → w ≤ t → t < N →
    ∃ A', step w t A = some A' ∧ Rep A' N (fun x => if x = t then q (f (t-w)) (f t) else if x = t-w then p (f (t-w)) (f t) else f x)

variable {step : Nat → Nat → List α → Option (List α)} {p q : α → α → α} {N : Nat}

/-- One sweep is one level on one block. -/
theorem sweep_ok (hs : StepOk step p q) {k c : Nat} {A : List α} {f : Nat → α} (hA : Rep A N f) (hN : c * 2^(k+1) + 2^(k+1) ≤ N) :
    ∃ A', sweep step (c * 2^(k+1) + 2^(k+1) - 1) (2^k) A = some A' ∧
      Rep A' N (fun x => if x / 2^(k+1) = c then level p q k f x else f x) := by
  have hp := Nat.two_pow_pos k
  have hp2 : 2^(k+1) = 2 * 2^k := by rw [Nat.pow_succ, Nat.mul_comm]
  obtain ⟨b, hb⟩ : ∃ b, b = c * 2^(k+1) := ⟨_, rfl⟩
  rw [← hb] at hN ⊢
  unfold sweep
  have e1 : b + 2^(k+1) - 1 + 1 - 2^k = b + 2^k := by omega
  have e2 : b + 2^(k+1) - 1 + 1 = b + 2 * 2^k := by omega
  rw [e1, e2]
  obtain ⟨A', e, h⟩ := forRange_inv (a := b + 2^k) (b := b + 2 * 2^k) (s := A)
    (fun t A => Rep A N (fun x => if b + 2^k ≤ x ∧ x < t then q (f (x - 2^k)) (f x) else
      if b ≤ x ∧ x + 2^k < t then p (f x) (f (x + 2^k)) else f x)) (by omega)
    (hA.congr (fun x hx => by
      rw [if_neg (by omega), if_neg (by omega)]))
    (by
      intro t A h1 h2 h
      obtain ⟨A', e, h'⟩ := hs N (2^k) t A _ h hp (by omega) (by omega)
      refine ⟨A', e, h'.congr ?_⟩
      intro x hx
      by_cases hxt : x = t
      · subst hxt
        rw [if_pos rfl, if_neg (by omega), if_neg (by omega), if_neg (by omega), if_neg (by omega), if_pos (by omega)]
      · rw [if_neg hxt]
        by_cases hxw : x = t - 2^k
        · subst hxw
          rw [if_pos rfl, if_neg (by omega), if_neg (by omega), if_neg (by omega), if_neg (by omega), if_neg (by omega), if_pos (by omega)]
          rw [show t - 2^k + 2^k = t by omega]
        · rw [if_neg hxw]
          by_cases h3 : b + 2^k ≤ x ∧ x < t
          · rw [if_pos h3, if_pos (by omega)]
          · rw [if_neg h3]
            by_cases h4 : b ≤ x ∧ x + 2^k < t
            · rw [if_pos h4, if_neg (by omega), if_pos (by omega)]
            · rw [if_neg h4, if_neg (by omega), if_neg (by omega)])
  refine ⟨A', e, h.congr ?_⟩
  intro x hx
  have hxdiv : x / 2^(k+1) = c ↔ b ≤ x ∧ x < b + 2 * 2^k := by
    rw [Nat.div_eq_iff (Nat.two_pow_pos _), hb, hp2]
    rw [Nat.mul_comm c]
    omega
  by_cases hin : b ≤ x ∧ x < b + 2 * 2^k
  · rw [if_pos (hxdiv.2 hin)]
    have hq : x / 2^k / 2 = c := by rw [Nat.div_div_eq_div_mul, ← Nat.pow_succ]; exact hxdiv.2 hin
    have hxd := Nat.div_add_mod x (2^k)
    have hxm := Nat.mod_lt x hp
    unfold level
    by_cases hge : b + 2^k ≤ x
    · rw [if_pos ⟨hge, by omega⟩]
      have hbit : x.testBit k = true := by
        rw [testBit_iff]
        by_contra hne
        have hc : x / 2^k = 2 * c := by omega
        rw [hc] at hxd
        have : 2^k * (2 * c) = b := by rw [hb, hp2]; ring
        omega
      rw [if_pos hbit, (flip_set hbit).1]
    · rw [if_neg (by omega), if_pos (by omega)]
      have hbit : x.testBit k = false := by
        rw [← Bool.not_eq_true, testBit_iff]
        intro hne
        have hc : x / 2^k = 2 * c + 1 := by omega
        rw [hc, Nat.mul_add, Nat.mul_one] at hxd
        have : 2^k * (2 * c) = b := by rw [hb, hp2]; ring
        omega
      rw [hbit, flip_unset hbit]
      rfl
  · rw [if_neg (fun h => hin (hxdiv.1 h)), if_neg (by omega), if_neg (by omega)]

/-- The first `k` rounds of the inner loop. -/
def rounds (step : Nat → Nat → List α → Option (List α)) (mask k : Nat) (A : List α) : Option (List α) :=
  forRange 0 k (fun j A => sweep step mask (2^j) A) A

/-- The inner loop runs as many rounds as `mask` has trailing ones. -/
theorem whileOdd_eq {mask k c : Nat} (hm : mask = c * 2^(k+1) + 2^k - 1) : ∀ d j f A, j + d = k → d < f →
    whileOdd step mask f (mask / 2^j) (2^j) A = forRange j k (fun j A => sweep step mask (2^j) A) A := by
  have hp := Nat.two_pow_pos k
  intro d
  induction d with
  | zero =>
    intro j f A hj hf
    have hjk : j = k := by omega
    subst hjk
    obtain ⟨f, rfl⟩ : ∃ g, f = g + 1 := ⟨f - 1, by omega⟩
    have hdiv : mask / 2^j = 2 * c := by
      rw [hm]
      have : c * 2^(j+1) + 2^j - 1 = 2^j * (2 * c) + (2^j - 1) := by
        rw [Nat.pow_succ, show c * (2^j * 2) = 2^j * (2*c) by ring]; omega
      rw [this, Nat.mul_add_div hp, Nat.div_eq_of_lt (by omega), Nat.add_zero]
    rw [whileOdd, if_neg (by rw [hdiv]; omega), forRange_nil (Nat.le_refl _)]
  | succ d ih =>
    intro j f A hj hf
    obtain ⟨f, rfl⟩ : ∃ g, f = g + 1 := ⟨f - 1, by omega⟩
    have hpj := Nat.two_pow_pos j
    have hdiv : mask / 2^j % 2 = 1 := by
      obtain ⟨e, he⟩ : ∃ e, k = j + 1 + e := ⟨d, by omega⟩
      have h1 : mask = 2^j * (2 * (c * 2^(e+1) + 2^e - 1) + 1) + (2^j - 1) := by
        have he0 := Nat.two_pow_pos e
        have hk : 2^k = 2^j * (2 * 2^e) := by rw [he, Nat.pow_add, Nat.pow_succ]; ring
        have hk1 : c * 2^(k+1) = 2^j * (2 * (c * 2^(e+1))) := by rw [Nat.pow_succ, hk, Nat.pow_succ]; ring
        have h2 : 2^j * (2 * (c * 2^(e+1) + 2^e - 1) + 1) + 2^j = 2^j * (2 * (c * 2^(e+1))) + 2^j * (2 * 2^e) := by
          rw [← Nat.mul_add, ← Nat.mul_succ]
          congr 1
          omega
        rw [← hk, ← hk1] at h2
        omega
      rw [h1, Nat.mul_add_div hpj, Nat.div_eq_of_lt (by omega)]
      omega
    rw [whileOdd, if_pos hdiv, forRange_first (by omega)]
    refine congrArg _ (funext fun A' => ?_)
    rw [Nat.div_div_eq_div_mul, ← Nat.pow_succ, show 2 * 2^j = 2^(j+1) by rw [Nat.pow_succ, Nat.mul_comm]]
    exact ih (j+1) f A' (by omega) (by omega)

/-- All masks of one block of size `2^(k+1)`, the last of them with the rounds that stay in the block. -/
def blockRun (step : Nat → Nat → List α → Option (List α)) (F k c : Nat) (A : List α) : Option (List α) :=
  (forRange (c * 2^k) (c * 2^k + 2^k - 1) (fun i A => whileOdd step (2*i+1) F (2*i+1) 1 A) A).bind
    (rounds step (c * 2^(k+1) + 2^(k+1) - 1) (k+1))

theorem blockRun_ok (hs : StepOk step p q) (F : Nat) : ∀ k c A f, k < F → Rep A N f → c * 2^(k+1) + 2^(k+1) ≤ N →
    ∃ A', blockRun step F k c A = some A' ∧ Rep A' N (fun x => if x / 2^(k+1) = c then tr p q (k+1) f x else f x) := by
  intro k
  induction k with
  | zero =>
    intro c A f _ hA hN
    obtain ⟨A', e, h⟩ := sweep_ok hs hA hN
    refine ⟨A', ?_, h⟩
    unfold blockRun
    rw [forRange_nil (by simp), Option.bind_some, rounds, forRange_one]
    exact e
  | succ k ih =>
    intro c A f hF hA hN
    have hp := Nat.two_pow_pos k
    have e1 : 2^(k+1) = 2 * 2^k := by rw [Nat.pow_succ, Nat.mul_comm]
    have e2 : 2^(k+1+1) = 2 * 2^(k+1) := by rw [Nat.pow_succ 2 (k+1), Nat.mul_comm]
    have hbase : c * 2^(k+1+1) = 2 * c * 2^(k+1) := by rw [e2]; ring
    have hbase2 : (2*c+1) * 2^(k+1) = 2 * c * 2^(k+1) + 2^(k+1) := by ring
    obtain ⟨A1, r1, h1⟩ := ih (2*c) A f (by omega) hA (by omega)
    obtain ⟨A2, r2, h2⟩ := ih (2*c+1) A1 _ (by omega) h1 (by omega)
    obtain ⟨A3, r3, h3⟩ := sweep_ok hs (k := k+1) (c := c) h2 hN
    refine ⟨A3, ?_, h3.congr ?_⟩
    · unfold blockRun at r1 r2 ⊢
      have hlast : (2*c+1) * 2^(k+1) + 2^(k+1) - 1 = c * 2^(k+1+1) + 2^(k+1+1) - 1 := by omega
      rw [hlast] at r2
      have ha : c * 2^(k+1) = 2 * c * 2^k := by rw [e1]; ring
      have hb : (2*c+1) * 2^k = 2 * c * 2^k + 2^k := by ring
      rw [hb] at r2
      have hmid : (fun i A => whileOdd step (2*i+1) F (2*i+1) 1 A) (2 * c * 2^k + 2^k - 1) =
          rounds step (2 * c * 2^(k+1) + 2^(k+1) - 1) (k+1) := by
        funext A
        have hi : 2 * (2 * c * 2^k + 2^k - 1) + 1 = 2 * c * 2^(k+1) + 2^(k+1) - 1 := by
          have : 2 * c * 2^(k+1) = 2 * (2 * c * 2^k) := by rw [e1]; ring
          omega
        dsimp only
        rw [hi]
        have hm : 2 * c * 2^(k+1) + 2^(k+1) - 1 = c * 2^(k+1+1) + 2^(k+1) - 1 := by rw [hbase]
        have := whileOdd_eq (step := step) hm (k+1) 0 F A (by omega) (by omega)
        rw [Nat.pow_zero, Nat.div_one] at this
        exact this
      rw [ha, show 2 * c * 2^k + 2^(k+1) - 1 = 2 * c * 2^k + 2^k + 2^k - 1 by omega,
        forRange_split (b := 2 * c * 2^k + 2^k) (by omega) (by omega), Option.bind_assoc,
        show 2 * c * 2^k + 2^k = (2 * c * 2^k + 2^k - 1) + 1 by omega, forRange_last (by omega), Option.bind_assoc]
      rw [← show 2 * c * 2^k + 2^k = (2 * c * 2^k + 2^k - 1) + 1 by omega]
      rw [← hmid, Option.bind_eq_some_iff] at r1
      obtain ⟨B, q1, q2⟩ := r1
      dsimp only at q2
      rw [q1, Option.bind_some, q2, Option.bind_some]
      rw [Option.bind_eq_some_iff] at r2
      obtain ⟨C, q3, q4⟩ := r2
      rw [q3, Option.bind_some, rounds, forRange_last (by omega)]
      rw [rounds] at q4
      rw [q4, Option.bind_some]
      exact r3
    · intro x hx
      have hd : ∀ y, y / 2^(k+1) / 2 = y / 2^(k+1+1) := fun y => by rw [Nat.div_div_eq_div_mul, ← Nat.pow_succ]
      by_cases hin : x / 2^(k+1+1) = c
      · rw [if_pos hin, if_pos hin]
        show level p q (k+1) _ x = level p q (k+1) _ x
        have key : ∀ y, y / 2^(k+1+1) = c → (if y / 2^(k+1) = 2*c+1 then tr p q (k+1)
            (fun x => if x / 2^(k+1) = 2*c then tr p q (k+1) f x else f x) y else
            if y / 2^(k+1) = 2*c then tr p q (k+1) f y else f y) = tr p q (k+1) f y := by
          intro y hy
          rw [← hd] at hy
          by_cases h : y / 2^(k+1) = 2*c+1
          · rw [if_pos h]
            apply tr_congr
            intro z hz
            rw [if_neg (by omega)]
          · rw [if_neg h, if_pos (by omega)]
        unfold level
        dsimp only
        rw [key x hin, key (x ^^^ 2^(k+1)) (by rw [flip_div_succ, hin])]
      · rw [if_neg hin, if_neg hin]
        rw [← hd] at hin
        rw [if_neg (by omega), if_neg (by omega)]

/-- The loops compute the plain transform. -/
theorem transform_ok (hs : StepOk step p q) {n : Nat} {A : List α} {f : Nat → α} (hA : Rep A (2^n) f) :
    ∃ A', transform step n A = some A' ∧ Rep A' (2^n) (tr p q n f) := by
  cases n with
  | zero => exact ⟨A, rfl, hA⟩
  | succ k =>
    have hp := Nat.two_pow_pos k
    have e1 : 2^(k+1) = 2 * 2^k := by rw [Nat.pow_succ, Nat.mul_comm]
    obtain ⟨A', e, h⟩ := blockRun_ok hs (k+1+1) k 0 A f (by omega) hA (by omega)
    refine ⟨A', ?_, h.congr (fun x hx => by rw [if_pos (Nat.div_eq_of_lt hx)])⟩
    rw [← e]
    unfold transform blockRun
    rw [show 2^(k+1) / 2 = (2^k - 1) + 1 by omega, forRange_last (by omega), Nat.zero_mul, Nat.zero_mul, Nat.zero_add, Nat.zero_add]
    refine congrArg _ (funext fun A => ?_)
    have hm : 2 * (2^k - 1) + 1 = 2^(k+1) - 1 := by omega
    rw [hm]
    have := whileOdd_eq (step := step) (mask := 2^(k+1) - 1) (k := k+1) (c := 0) (by omega) (k+1) 0 (k+1+1) A (by omega) (by omega)
    rw [Nat.pow_zero, Nat.div_one] at this
    exact this

theorem zetaStep_ok [AddCommGroup α] : StepOk (zetaStep (α := α)) (fun a _ => a) (fun a b => b + a) := by
  intro N w t A f hA hw hwt htN
  obtain ⟨A', e, h⟩ := hA.wr htN (f t + f (t-w))
  refine ⟨A', ?_, h.congr ?_⟩
  · rw [zetaStep, hA.val t htN, Option.bind_some, hA.val (t-w) (by omega), Option.bind_some, e]
  · intro x hx
    unfold upd
    split
    · rfl
    · split
      · subst x; rfl
      · rfl

theorem mobiusStep_ok [AddCommGroup α] : StepOk (mobiusStep (α := α)) (fun a _ => a) (fun a b => b - a) := by
  intro N w t A f hA hw hwt htN
  obtain ⟨A', e, h⟩ := hA.wr htN (f t - f (t-w))
  refine ⟨A', ?_, h.congr ?_⟩
  · rw [mobiusStep, hA.val t htN, Option.bind_some, hA.val (t-w) (by omega), Option.bind_some, e]
  · intro x hx
    unfold upd
    split
    · rfl
    · split
      · subst x; rfl
      · rfl

theorem hadamardStep_ok [AddCommGroup α] : StepOk (hadamardStep (α := α)) (fun a b => a + b) (fun a b => a - b) := by
  intro N w t A f hA hw hwt htN
  obtain ⟨A1, e1, h1⟩ := hA.wr (i := t-w) (by omega) (f (t-w) + f t)
  obtain ⟨A', e, h⟩ := h1.wr htN (f (t-w) - f t)
  refine ⟨A', ?_, h.congr ?_⟩
  · rw [hadamardStep, hA.val (t-w) (by omega), Option.bind_some, hA.val t htN, Option.bind_some, e1, Option.bind_some, e]
  · intro x hx
    unfold upd
    split
    · rfl
    · rfl

end Verif.Bitwise
