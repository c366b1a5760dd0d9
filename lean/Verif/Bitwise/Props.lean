import Verif.Bitwise.Zeta
import Mathlib.Algebra.Order.Field.Rat
import Mathlib.Tactic.FieldSimp
import Mathlib.Algebra.BigOperators.Intervals
/-!
# C29, C30: bitwise convolutions
-/
namespace Verif.Bitwise
open Finset

variable {α : Type}

/-! ### Sizes -/

theorem Rep.not_empty {n : Nat} {A : List α} {f : Nat → α} (h : Rep A (2^n) f) : A.isEmpty = false := by
  cases A with
  | nil =>
    have h1 := h.len
    have h2 := Nat.two_pow_pos n
    rw [← h1] at h2
    exact absurd h2 (by simp)
  | cons => rfl

theorem lg_pow (n : Nat) : lg (2^n) = n := by
  unfold lg
  rw [if_neg (Nat.ne_of_gt (Nat.two_pow_pos n))]
  cases n with
  | zero => rfl
  | succ n =>
    have h := Nat.two_pow_pos n
    rw [if_neg (by rw [Nat.pow_succ]; omega)]
    have h1 := (Nat.log2_eq_iff (n := 2^(n+1) - 1) (k := n) (by rw [Nat.pow_succ]; omega)).2 ⟨by rw [Nat.pow_succ]; omega, by omega⟩
    rw [h1]

theorem le_lg {s : Nat} (hs : s ≠ 0) : s ≤ 2^(lg s) := by
  unfold lg
  rw [if_neg hs]
  split
  · omega
  · have := (Nat.log2_lt (n := s-1) (k := (s-1).log2 + 1) (by omega)).1 (by omega)
    omega

/-- `lg` is what the code computes with `clz`. -/
theorem lg_eq_clz (s : Nat) (h0 : 0 < s) (hs : s ≤ 2^64) : (BitManip.clz (s-1)).map (fun k => 64 - k) = some (lg s) := by
  by_cases h1 : s = 1
  · subst h1; rfl
  · obtain ⟨k, e, hk, l1, l2⟩ := BitManip.clz_spec (x := s-1) (by omega) (by omega)
    rw [e, Option.map_some]
    refine congrArg some ?_
    unfold lg
    rw [if_neg (by omega), if_neg h1]
    have := (Nat.log2_eq_iff (n := s-1) (k := 63-k) (by omega)).2 ⟨l1, by rw [show 63 - k + 1 = 64 - k by omega]; exact l2⟩
    omega

/-! ### C29 -/

/-- **C29, zeta.** Every entry becomes the sum over its subsets. -/
theorem C29_zeta [AddCommGroup α] {n : Nat} (hn : n < 32) {A : List α} {f : Nat → α} (hA : Rep A (2^n) f) :
    ∃ A', zetaInline A = some A' ∧ Rep A' (2^n) (subsetSum n f) := by
  obtain ⟨A', e, h⟩ := transform_ok zetaStep_ok hA
  have hne : A.isEmpty = false := Rep.not_empty hA
  refine ⟨A', ?_, h.congr (fun x hx => tr_zeta_lt f hx)⟩
  rw [zetaInline, hne, hA.len, lg_pow, zetaImpl, if_pos hn]
  exact e

/-- **C29, Moebius.** Any entries are the subset sums of the result. -/
theorem C29_mobius [AddCommGroup α] {n : Nat} (hn : n < 32) {A : List α} {f : Nat → α} (hA : Rep A (2^n) f) :
    ∃ A' g, mobiusInline A = some A' ∧ Rep A' (2^n) g ∧ ∀ x, x < 2^n → subsetSum n g x = f x := by
  obtain ⟨A', e, h⟩ := transform_ok mobiusStep_ok hA
  have hne : A.isEmpty = false := Rep.not_empty hA
  refine ⟨A', _, ?_, h, ?_⟩
  · rw [mobiusInline, hne, hA.len, lg_pow, mobiusImpl, if_pos hn]
    exact e
  · intro x hx
    rw [← tr_zeta_lt _ hx, zeta_mobius]

/-- **C29, inverse.** Zeta then Moebius gives the array back, and so does Moebius then zeta. -/
theorem C29_inverse [AddCommGroup α] {n : Nat} (hn : n < 32) (A : List α) (hA : A.length = 2^n) :
    (zetaInline A).bind mobiusInline = some A ∧ (mobiusInline A).bind zetaInline = some A := by
  have hr : Rep A (2^n) (fun i => A.getD i 0) := by rw [← hA]; exact Rep.ofList A 0
  have key : ∀ {B : List α} {g}, Rep B (2^n) g → B.isEmpty = false ∧ lg B.length = n := by
    intro B g hB
    exact ⟨Rep.not_empty hB, by rw [hB.len, lg_pow]⟩
  obtain ⟨Z, e1, h1⟩ := transform_ok zetaStep_ok hr
  obtain ⟨A1, e2, h2⟩ := transform_ok mobiusStep_ok h1
  obtain ⟨M, e3, h3⟩ := transform_ok mobiusStep_ok hr
  obtain ⟨A2, e4, h4⟩ := transform_ok zetaStep_ok h3
  rw [mobius_zeta] at h2
  rw [zeta_mobius] at h4
  constructor
  · rw [zetaInline, (key hr).1, (key hr).2, zetaImpl, if_pos hn]
    simp only [Bool.false_eq_true, if_false]
    rw [e1, Option.bind_some, mobiusInline, (key h1).1, (key h1).2, mobiusImpl, if_pos hn]
    simp only [Bool.false_eq_true, if_false]
    rw [e2, h2.ext hr]
  · rw [mobiusInline, (key hr).1, (key hr).2, mobiusImpl, if_pos hn]
    simp only [Bool.false_eq_true, if_false]
    rw [e3, Option.bind_some, zetaInline, (key h3).1, (key h3).2, zetaImpl, if_pos hn]
    simp only [Bool.false_eq_true, if_false]
    rw [e4, h4.ext hr]

theorem pointwise_ok [CommRing α] {N : Nat} {A B : List α} {f g : Nat → α} (hA : Rep A N f) (hB : Rep B N g) :
    ∃ C, pointwise A B = some C ∧ Rep C N (fun i => f i * g i) := by
  unfold pointwise
  rw [hA.len]
  obtain ⟨C, e, h⟩ := forRange_inv (body := mulStep B) (fun i C => Rep C N (fun x => if x < i then f x * g x else f x)) (Nat.zero_le N)
    (hA.congr (fun x _ => by simp)) (fun i C _ hi hC => by
      obtain ⟨C', e, h⟩ := hC.wr hi (f i * g i)
      refine ⟨C', ?_, h.congr ?_⟩
      · have hv := hC.val i hi
        rw [if_neg (Nat.lt_irrefl i)] at hv
        unfold mulStep
        rw [hv, Option.bind_some, hB.val i hi, Option.bind_some, e]
      · intro x hx
        unfold upd
        by_cases hxi : x = i
        · subst hxi; rw [if_pos rfl, if_pos (by omega)]
        · rw [if_neg hxi]
          dsimp only
          by_cases hlt : x < i
          · rw [if_pos hlt, if_pos (by omega)]
          · rw [if_neg hlt, if_neg (by omega)])
  exact ⟨C, e, h.congr (fun x hx => by rw [if_pos hx])⟩

/-- **C29, OR convolution** (in place). -/
theorem C29_or [CommRing α] {n : Nat} (hn : n < 32) {A B : List α} {a b : Nat → α} (hA : Rep A (2^n) a) (hB : Rep B (2^n) b) :
    ∃ C, orConvolution A B = some C ∧ Rep C (2^n) (orSpec n a b) := by
  obtain ⟨zA, e1, h1⟩ := C29_zeta hn hA
  obtain ⟨zB, e2, h2⟩ := C29_zeta hn hB
  obtain ⟨P, e3, h3⟩ := pointwise_ok h1 h2
  obtain ⟨C, e4, h4⟩ := transform_ok mobiusStep_ok
    (h3.congr (g' := tr (fun a _ => a) (fun a b => b + a) n (orSpec n a b)) (fun x hx => by rw [tr_zeta_lt _ hx, subsetSum_or]))
  rw [mobius_zeta] at h4
  have hne : P.isEmpty = false := Rep.not_empty h3
  refine ⟨C, ?_, h4⟩
  rw [orConvolution, e1, Option.bind_some, e2, Option.bind_some, e3, Option.bind_some, mobiusInline, hne, h3.len, lg_pow, mobiusImpl, if_pos hn]
  exact e4

theorem Rep.reverse {N : Nat} {A : List α} {f : Nat → α} (h : Rep A N f) : Rep A.reverse N (fun i => f (N - 1 - i)) := by
  refine ⟨by rw [List.length_reverse, h.len], ?_⟩
  intro i hi
  rw [List.getElem?_reverse (by rw [h.len]; exact hi), h.len]
  exact h.val _ (by omega)

theorem testBit_compl {n i k : Nat} (hi : i < 2^n) : (2^n - 1 - i).testBit k = (decide (k < n) && !i.testBit k) := by
  rw [show 2^n - 1 - i = 2^n - (i+1) by omega, Nat.testBit_two_pow_sub_succ hi]

theorem or_compl {n i j k : Nat} (hi : i < 2^n) (hj : j < 2^n) (hk : k < 2^n) :
    (2^n - 1 - i) ||| (2^n - 1 - j) = 2^n - 1 - k ↔ i &&& j = k := by
  have heq : (2^n - 1 - i) ||| (2^n - 1 - j) = 2^n - 1 - (i &&& j) := by
    apply Nat.eq_of_testBit_eq
    intro t
    rw [Nat.testBit_or, testBit_compl hi, testBit_compl hj, testBit_compl (Nat.and_lt_two_pow i hj), Nat.testBit_and]
    cases i.testBit t <;> cases j.testBit t <;> simp
  rw [heq]
  have := Nat.and_lt_two_pow i hj
  omega

theorem orSpec_reverse [CommRing α] (n : Nat) (a b : Nat → α) {k : Nat} (hk : k < 2^n) :
    orSpec n (fun i => a (2^n - 1 - i)) (fun i => b (2^n - 1 - i)) (2^n - 1 - k) = andSpec n a b k := by
  unfold orSpec andSpec
  rw [← Finset.sum_range_reflect]
  apply Finset.sum_congr rfl
  intro i hi
  rw [← Finset.sum_range_reflect]
  apply Finset.sum_congr rfl
  intro j hj
  rw [Finset.mem_range] at hi hj
  dsimp only
  rw [show 2^n - 1 - (2^n - 1 - i) = i by omega, show 2^n - 1 - (2^n - 1 - j) = j by omega]
  by_cases h : i &&& j = k
  · rw [if_pos h, if_pos ((or_compl hi hj hk).2 h)]
  · rw [if_neg h, if_neg (fun h' => h ((or_compl hi hj hk).1 h'))]

theorem copyInto_ok [CommRing α] {n : Nat} (hn : n < 31) {A : List α} (hA : A.length ≤ 2^n) :
    ∃ B, copyInto n A = some B ∧ Rep B (2^n) (fun i => A.getD i 0) := by
  refine ⟨_, by rw [copyInto, if_pos ⟨hn, hA⟩], ?_, ?_⟩
  · simp; omega
  · intro i hi
    by_cases h : i < A.length
    · simp [List.getElem?_append_left h, List.getD_eq_getElem?_getD, List.getElem?_eq_getElem h]
    · rw [List.getElem?_append_right (by omega), List.getElem?_replicate, if_pos (by omega), List.getD_eq_getElem?_getD,
        List.getElem?_eq_none (by omega)]
      rfl

/-- **C29, AND convolution** (arrays of any lengths, padded with zeros to the next power of two). -/
theorem C29_and [CommRing α] (A B : List α) (h0 : max A.length B.length ≠ 0) (hn : lg (max A.length B.length) < 31) :
    ∃ C, andConvolution A B = some C ∧
      Rep C (2^(lg (max A.length B.length))) (andSpec (lg (max A.length B.length)) (fun i => A.getD i 0) (fun i => B.getD i 0)) := by
  have hle := le_lg h0
  have hA : A.length ≤ 2^(lg (max A.length B.length)) := Nat.le_trans (Nat.le_max_left _ _) hle
  have hB : B.length ≤ 2^(lg (max A.length B.length)) := Nat.le_trans (Nat.le_max_right _ _) hle
  unfold andConvolution
  dsimp only
  generalize lg (max A.length B.length) = n at *
  obtain ⟨rA, e1, h1⟩ := copyInto_ok hn hA
  obtain ⟨rB, e2, h2⟩ := copyInto_ok hn hB
  obtain ⟨C, e3, h3⟩ := C29_or (by omega) (Rep.reverse h1) (Rep.reverse h2)
  refine ⟨C.reverse, ?_, (Rep.reverse h3).congr ?_⟩
  · rw [e1, Option.bind_some, e2, Option.bind_some, e3, Option.map_some]
  · intro k hk
    exact orSpec_reverse n (fun i => A.getD i 0) (fun i => B.getD i 0) hk

/-! ### C30 -/

/-- The transform applied to the product of the transforms is `2^n` times the XOR convolution. -/
theorem xorRaw_ok [CommRing α] {n : Nat} (hn : n < 31) {A B : List α} {a b : Nat → α} (hA : Rep A (2^n) a) (hB : Rep B (2^n) b) :
    ∃ C, xorRaw A B = some C ∧ Rep C (2^n) (fun k => 2^n * xorSpec n a b k) := by
  have key : ∀ {D : List α} {g}, Rep D (2^n) g → D.isEmpty = false ∧ lg D.length = n ∧ D.length = 2^(lg D.length) := by
    intro B g hB
    exact ⟨Rep.not_empty hB, by rw [hB.len, lg_pow], by rw [hB.len, lg_pow]⟩
  have had : ∀ {D : List α} {g}, Rep D (2^n) g → ∃ H, hadamard D = some H ∧ Rep H (2^n) (tr (fun a b => a + b) (fun a b => a - b) n g) := by
    intro D g hD
    obtain ⟨H, e, h⟩ := transform_ok hadamardStep_ok hD
    refine ⟨H, ?_, h⟩
    obtain ⟨k1, k2, k3⟩ := key hD
    unfold hadamard
    rw [if_neg (by rw [k1]; simp), if_pos ⟨by rw [k2]; exact hn, k3⟩, k2, hadamardImpl, if_pos (by omega)]
    exact e
  obtain ⟨hAl, e1, h1⟩ := had hA
  obtain ⟨hBl, e2, h2⟩ := had hB
  obtain ⟨P, e3, h3⟩ := pointwise_ok h1 h2
  obtain ⟨C, e4, h4⟩ := transform_ok hadamardStep_ok
    (h3.congr (g' := tr (fun a b => a + b) (fun a b => a - b) n (xorSpec n a b))
      (fun x hx => by rw [tr_hadamard_lt _ hx, tr_hadamard_lt _ hx, tr_hadamard_lt _ hx, hadamard_mul]))
  rw [hadamard_twice] at h4
  refine ⟨C, ?_, h4⟩
  rw [xorRaw, e1, Option.bind_some, e2, Option.bind_some, e3, Option.bind_some, (key hA).2.1, hadamardImpl, if_pos (by omega)]
  exact e4

theorem Rep.map {N : Nat} {A : List α} {f : Nat → α} (h : Rep A N f) {β : Type} (g : α → β) : Rep (A.map g) N (fun i => g (f i)) :=
  ⟨by rw [List.length_map, h.len], fun i hi => by rw [List.getElem?_map, h.val i hi]; rfl⟩

/-- **C30, modular types** (a field where 2 is not 0). -/
theorem C30_modular_partial [Field α] (h2 : (2 : α) ≠ 0) {n : Nat} (hn : n < 31) {A B : List α} {a b : Nat → α} (hA : Rep A (2^n) a)
    (hB : Rep B (2^n) b) : ∃ C, xorModular (fun x => x⁻¹) A B = some C ∧ Rep C (2^n) (xorSpec n a b) := by
  obtain ⟨C, e, h⟩ := xorRaw_ok hn hA hB
  refine ⟨C.map (fun x => x * (2^n)⁻¹), ?_, (Rep.map h _).congr ?_⟩
  · rw [xorModular, e, hA.len, lg_pow]; rfl
  · intro k _
    have : (2 : α)^n ≠ 0 := pow_ne_zero n h2
    field_simp

/-- **C30, integral types** (no overflow). -/
theorem C30_integral_partial {n : Nat} (hn : n < 31) {A B : List Int} {a b : Nat → Int} (hA : Rep A (2^n) a) (hB : Rep B (2^n) b) :
    ∃ C, xorIntegral A B = some C ∧ Rep C (2^n) (xorSpec n a b) := by
  obtain ⟨C, e, h⟩ := xorRaw_ok hn hA hB
  refine ⟨C.map (fun x : Int => x >>> n), ?_, (Rep.map h _).congr ?_⟩
  · rw [xorIntegral, e, hA.len, lg_pow]; rfl
  · intro k _
    rw [Int.shiftRight_eq_div_pow]
    have : ((2^n : Nat) : Int) = 2^n := by push_cast; rfl
    rw [this, Int.mul_ediv_cancel_left _ (pow_ne_zero n (by omega))]

theorem scale_eq [Field α] (n : Nat) : scale (2 : α) n = 2^n * 2 := by
  induction n with
  | zero => simp [scale]
  | succ n ih => rw [scale, ih, pow_succ]

/-- **C30, violated for other types** (floating point, `std::complex`): every entry is half of what it should be, since line 233 starts
the scaling factor at 2 instead of 1. -/
theorem C30_other_half [Field α] (h2 : (2 : α) ≠ 0) {n : Nat} (hn : n < 31) {A B : List α} {a b : Nat → α} (hA : Rep A (2^n) a)
    (hB : Rep B (2^n) b) : ∃ C, xorOther 2 A B = some C ∧ Rep C (2^n) (fun k => xorSpec n a b k / 2) := by
  obtain ⟨C, e, h⟩ := xorRaw_ok hn hA hB
  refine ⟨C.map (fun x => x / scale 2 n), ?_, (Rep.map h _).congr ?_⟩
  · rw [xorOther, e, hA.len, lg_pow]; rfl
  · intro k _
    have : (2 : α)^n ≠ 0 := pow_ne_zero n h2
    rw [scale_eq]
    field_simp

/-- **C30, violated.** The XOR convolution of `{1.0}` and `{1.0}` is `{0.5}`. -/
theorem C30_violated : xorOther (2 : ℚ) [1] [1] = some [1/2] ∧ xorSpec 0 (fun _ => (1 : ℚ)) (fun _ => 1) 0 = 1 := by
  constructor
  · decide +kernel
  · decide +kernel

/-! ### Examples -/

example : zetaInline [1, 2, 3, 4, 5, 6, 7, (8 : Int)] = some [1, 3, 4, 10, 6, 14, 16, 36] := by decide
example : mobiusInline [1, 3, 4, 10, 6, 14, 16, (36 : Int)] = some [1, 2, 3, 4, 5, 6, 7, 8] := by decide
example : orConvolution [1, 2, 3, (4 : Int)] [5, 6, 7, 8] = some [5, 28, 43, 184] := by decide
example : andConvolution [1, 2, (3 : Int)] [5, 6, 7] = some [75, 12, 21, 0] := by decide
example : xorIntegral [1, 2, 3, (4 : Int)] [5, 6, 7, 8] = some [70, 68, 62, 60] := by decide
example : Rep [1, 2, 3, (4 : Int)] (2^2) (fun i => (i : Int) + 1) :=
  ⟨rfl, fun i hi => by have : i = 0 ∨ i = 1 ∨ i = 2 ∨ i = 3 := by omega
                       rcases this with rfl | rfl | rfl | rfl <;> rfl⟩
example : lg 5 = 3 ∧ lg 8 = 3 ∧ lg 9 = 4 := by decide

end Verif.Bitwise
