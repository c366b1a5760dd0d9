import Verif.Rmq.Model
import Verif.BitManip.Props
import Mathlib.Tactic.Ring
import Mathlib.Tactic.IntervalCases
/-! The tables and `rmq64`: the leftmost minimum of the prefix sums of a word. -/
namespace Verif.Rmq
open Verif Verif.BitManip

/-- `i` is the leftmost position in `[a, b)` at which `E` is minimal. -/
def IsLM {V : Type} [LT V] [LE V] (E : Nat → V) (a b i : Nat) : Prop :=
  a ≤ i ∧ i < b ∧ (∀ j, a ≤ j → j < b → E i ≤ E j) ∧ ∀ j, a ≤ j → j < i → E i < E j

theorem isLM_merge {E : Nat → Int} {a b c i j : Nat} (hi : IsLM E a b i) (hj : IsLM E b c j) :
    IsLM E a c (if E j < E i then j else i) := by
  obtain ⟨h1, h2, h3, h4⟩ := hi
  obtain ⟨g1, g2, g3, g4⟩ := hj
  split
  · refine ⟨by omega, g2, ?_, ?_⟩
    · intro k hk hk'
      by_cases hb : k < b
      · have := h3 k hk hb; omega
      · exact g3 k (by omega) hk'
    · intro k hk hk'
      by_cases hb : k < b
      · have := h3 k hk hb; omega
      · exact g4 k (by omega) hk'
  · refine ⟨h1, by omega, ?_, h4⟩
    intro k hk hk'
    by_cases hb : k < b
    · exact h3 k hk hb
    · have := g3 k (by omega) hk'; omega

theorem isLM_one (E : Nat → Int) (a : Nat) : IsLM E a (a+1) a := by
  refine ⟨le_refl _, by omega, ?_, ?_⟩
  · intro j h1 h2
    have : j = a := by omega
    rw [this]
  · intro j h1 h2; omega

theorem isLM_congr {E F : Nat → Int} {a b i : Nat} (h : IsLM E a b i) (he : ∀ j, a ≤ j → j < b → E j = F j) : IsLM F a b i := by
  obtain ⟨h1, h2, h3, h4⟩ := h
  refine ⟨h1, h2, ?_, ?_⟩
  · intro j hj hj'
    rw [← he i h1 h2, ← he j hj hj']; exact h3 j hj hj'
  · intro j hj hj'
    rw [← he i h1 h2, ← he j hj (by omega)]; exact h4 j hj hj'

/-- Shift of the positions by `d` and of the values by `c`. -/
theorem isLM_shift {E F : Nat → Int} {a b i d : Nat} {c : Int} (h : IsLM E a b i) (he : ∀ j, a ≤ j → j < b → F (d + j) = c + E j) :
    IsLM F (d + a) (d + b) (d + i) := by
  obtain ⟨h1, h2, h3, h4⟩ := h
  refine ⟨by omega, by omega, ?_, ?_⟩
  · intro j hj hj'
    obtain ⟨j, rfl⟩ := Nat.exists_eq_add_of_le (show d ≤ j by omega)
    rw [he i h1 h2, he j (by omega) (by omega)]
    have := h3 j (by omega) (by omega); omega
  · intro j hj hj'
    obtain ⟨j, rfl⟩ := Nat.exists_eq_add_of_le (show d ≤ j by omega)
    rw [he i h1 h2, he j (by omega) (by omega)]
    have := h4 j (by omega) (by omega); omega

theorem isLM_unique {E : Nat → Int} {a b i j : Nat} (hi : IsLM E a b i) (hj : IsLM E a b j) : i = j := by
  obtain ⟨h1, h2, h3, h4⟩ := hi
  obtain ⟨g1, g2, g3, g4⟩ := hj
  have := h3 j g1 g2
  have := g3 i h1 h2
  rcases Nat.lt_trichotomy i j with h | h | h
  · have := g4 i h1 h; omega
  · exact h
  · have := h4 j g1 h; omega

theorem isLM_left {E : Nat → Int} {a b c i : Nat} (h : IsLM E a b i) (hc : c ≤ b) (hi : i < c) : IsLM E a c i :=
  ⟨h.1, hi, fun j h1 h2 => h.2.2.1 j h1 (by omega), h.2.2.2⟩

/-! ### Prefix sums of a word -/

/-- The sum of the first `k` bits, a zero counting as -1. -/
def ps (x k : Nat) : Int := 2 * (ones k x : Int) - k

theorem ones_last (i x : Nat) : ones (i+1) x = ones i x + if x.testBit i then 1 else 0 := by
  rw [ones_add i 1 x]
  congr 1
  simp only [ones, Nat.testBit_eq_decide_div_mod_eq]
  have := Nat.mod_lt (x / 2^i) (show 0 < 2 by omega)
  by_cases h : x / 2^i % 2 = 1 <;> simp [h]; omega

theorem ps_succ (x i : Nat) : ps x (i+1) = if x.testBit i then ps x i + 1 else ps x i - 1 := by
  unfold ps
  rw [ones_last]
  split <;> push_cast <;> omega

theorem ps_le (x : Nat) : ∀ k, ps x k ≤ k := by
  intro k
  have := ones_le k x
  unfold ps; omega

theorem foldl_range {σ : Type} (f : σ → Nat → σ) (P : Nat → σ → Prop) (s : σ) (n : Nat) (h0 : P 0 s)
    (hs : ∀ i s, i < n → P i s → P (i+1) (f s i)) : P n ((List.range n).foldl f s) := by
  suffices ∀ m, m ≤ n → P m ((List.range m).foldl f s) from this n (le_refl n)
  intro m
  induction m with
  | zero => intro _; exact h0
  | succ m ih =>
    intro hm
    rw [List.range_succ, List.foldl_append]
    exact hs m _ (by omega) (ih (by omega))

theorem tb_ok (x : Nat) : IsLM (fun j => ps x (j+1)) 0 8 (tb x).1 ∧ (tb x).2 = ps x ((tb x).1 + 1) := by
  have := foldl_range (fun t i => tbStep x i t)
    (fun i t => t.2.2 = ps x i ∧ (i = 0 → t.2.1 = 9) ∧ (0 < i → IsLM (fun j => ps x (j+1)) 0 i t.1 ∧ t.2.1 = ps x (t.1+1)))
    (0, 9, 0) 8 ⟨by simp [ps, ones], fun _ => rfl, by omega⟩ (by
      intro i t hi ⟨h1, h2, h3⟩
      have hs : (if x.testBit i then t.2.2 + 1 else t.2.2 - 1) = ps x (i+1) := by rw [h1, ps_succ]
      rcases Nat.eq_zero_or_pos i with h0 | h0
      · subst h0
        have := ps_le x 1
        have hlt : ps x (0+1) < t.2.1 := by rw [h2 rfl]; simp only [Nat.zero_add]; omega
        have e : tbStep x 0 t = (0, ps x (0+1), ps x (0+1)) := by
          unfold tbStep; rw [hs]; exact if_pos hlt
        rw [e]
        exact ⟨rfl, by omega, fun _ => ⟨isLM_one _ 0, rfl⟩⟩
      · obtain ⟨g1, g2⟩ := h3 h0
        have hm := isLM_merge g1 (isLM_one (fun j => ps x (j+1)) i)
        by_cases hlt : ps x (i+1) < t.2.1
        · have e : tbStep x i t = (i, ps x (i+1), ps x (i+1)) := by
            unfold tbStep; rw [hs]; exact if_pos hlt
          rw [e]
          rw [if_pos (by rw [← g2]; exact hlt)] at hm
          exact ⟨rfl, by omega, fun _ => ⟨hm, rfl⟩⟩
        · have e : tbStep x i t = (t.1, t.2.1, ps x (i+1)) := by
            unfold tbStep; rw [hs]; exact if_neg hlt
          rw [e]
          rw [if_neg (by rw [← g2]; exact hlt)] at hm
          exact ⟨rfl, by omega, fun _ => ⟨hm, g2⟩⟩)
  exact this.2.2 (by omega)

/-! ### The starting sums of the bytes -/

theorem ones_mul8 (x k : Nat) : ones (8 * (k+1)) x = ones (8 * k) x + ones 8 (x / 2^(8*k) % 256) := by
  rw [show 8 * (k+1) = 8 * k + 8 from by ring, ones_add, ← ones_mod 8 (x / 2^(8*k))]; rfl

set_option maxRecDepth 10000 in
theorem e8_val (p0 p1 p2 p3 p4 p5 p6 p7 : Nat) (h0 : p0 ≤ 8) (h1 : p1 ≤ 8) (h2 : p2 ≤ 8) (h3 : p3 ≤ 8) (h4 : p4 ≤ 8) (h5 : p5 ≤ 8) (h6 : p6 ≤ 8) (h7 : p7 ≤ 8) :
    u64 (64 * 0x0101010101010101 + u64 (u64 ((p0 + 256 * (p1 + 256 * (p2 + 256 * (p3 + 256 * (p4 + 256 * (p5 + 256 * (p6 + 256 * (p7 + 256 * (0))))))))) * 2) * 0x0101010101010100) + (2^64 - 8 * 0x0706050403020100)) =
    64 + 256 * ((56 + 2 * (p0)) + 256 * ((48 + 2 * (p0 + p1)) + 256 * ((40 + 2 * (p0 + p1 + p2)) + 256 * ((32 + 2 * (p0 + p1 + p2 + p3)) + 256 * ((24 + 2 * (p0 + p1 + p2 + p3 + p4)) + 256 * ((16 + 2 * (p0 + p1 + p2 + p3 + p4 + p5)) + 256 * ((8 + 2 * (p0 + p1 + p2 + p3 + p4 + p5 + p6))))))))) := by
  unfold u64
  rw [Nat.mod_eq_of_lt (a := (p0 + 256 * (p1 + 256 * (p2 + 256 * (p3 + 256 * (p4 + 256 * (p5 + 256 * (p6 + 256 * (p7 + 256 * (0))))))))) * 2) (by omega)]
  have e : (p0 + 256 * (p1 + 256 * (p2 + 256 * (p3 + 256 * (p4 + 256 * (p5 + 256 * (p6 + 256 * (p7 + 256 * (0))))))))) * 2 * 0x0101010101010100 =
      0 + 256 * (2 * (p0) + 256 * (2 * (p0 + p1) + 256 * (2 * (p0 + p1 + p2) + 256 * (2 * (p0 + p1 + p2 + p3) + 256 * (2 * (p0 + p1 + p2 + p3 + p4) + 256 * (2 * (p0 + p1 + p2 + p3 + p4 + p5) + 256 * (2 * (p0 + p1 + p2 + p3 + p4 + p5 + p6))))))))
      + 2^64 * (2 * (p1 + p2 + p3 + p4 + p5 + p6 + p7) + 256 * (2 * (p2 + p3 + p4 + p5 + p6 + p7) + 256 * (2 * (p3 + p4 + p5 + p6 + p7) + 256 * (2 * (p4 + p5 + p6 + p7) + 256 * (2 * (p5 + p6 + p7) + 256 * (2 * (p6 + p7) + 256 * (2 * (p7)))))))) := by omega
  rw [e, Nat.add_mul_mod_self_left, Nat.mod_eq_of_lt (a := 0 + 256 * (2 * (p0) + 256 * (2 * (p0 + p1) + 256 * (2 * (p0 + p1 + p2) + 256 * (2 * (p0 + p1 + p2 + p3) + 256 * (2 * (p0 + p1 + p2 + p3 + p4) + 256 * (2 * (p0 + p1 + p2 + p3 + p4 + p5) + 256 * (2 * (p0 + p1 + p2 + p3 + p4 + p5 + p6))))))))) (by omega)]
  omega

/-- Base 256. -/
def nestL : List Nat → Nat
  | [] => 0
  | a :: l => a + 256 * nestL l

theorem nestByte : ∀ (l : List Nat), (∀ a ∈ l, a < 256) → ∀ k, nestL l / 2^(8*k) % 2^8 = l.getD k 0 := by
  intro l
  induction l with
  | nil => intro _ k; simp [nestL]
  | cons a l ih =>
    intro h k
    have ha := h a (by simp)
    cases k with
    | zero => simp only [nestL, List.getD_cons_zero]; omega
    | succ k =>
      rw [List.getD_cons_succ, ← ih (fun b hb => h b (by simp [hb])) k, show 8 * (k+1) = 8 + 8 * k from by ring, Nat.pow_add, ← Nat.div_div_eq_div_mul]
      congr 2
      simp only [nestL]; omega

/-- Byte `k` of `e_e8`. -/
theorem e8_byte (x : Nat) : ∀ k, k < 8 → (((e8 x >>> (8 * k)) &&& 255 : Nat) : Int) - 64 = ps x (8 * k) := by
  intro k hk
  have hb := fun y => ones_le 8 (y % 256)
  have he := e8_val (ones 8 (x / 2^(8*0) % 256)) (ones 8 (x / 2^(8*1) % 256)) (ones 8 (x / 2^(8*2) % 256)) (ones 8 (x / 2^(8*3) % 256)) (ones 8 (x / 2^(8*4) % 256)) (ones 8 (x / 2^(8*5) % 256)) (ones 8 (x / 2^(8*6) % 256)) (ones 8 (x / 2^(8*7) % 256)) (hb _) (hb _) (hb _) (hb _) (hb _) (hb _) (hb _) (hb _)
  have hp : popcntE8 x = onesPerByte 8 x := popcntE8_eq x
  have hd : ∀ j, x / 2^(8*j) / 256 = x / 2^(8*(j+1)) := by
    intro j
    rw [Nat.div_div_eq_div_mul, show 8 * (j+1) = 8 * j + 8 from by ring, Nat.pow_add]
  have h0 : x = x / 2^(8*0) := by simp
  have hq : onesPerByte 8 x = onesPerByte 8 (x / 2^(8*0)) := by rw [← h0]
  simp only [onesPerByte, hd] at hq
  unfold e8
  rw [hp]
  simp only [onesPerByte] at hq ⊢
  rw [hq, he]
  have c0 := ones_mul8 x 0
  have c1 := ones_mul8 x 1
  have c2 := ones_mul8 x 2
  have c3 := ones_mul8 x 3
  have c4 := ones_mul8 x 4
  have c5 := ones_mul8 x 5
  have c6 := ones_mul8 x 6
  have z : ones (8 * 0) x = 0 := rfl
  rw [z] at c0
  have b0 := hb (x / 2^(8*0))
  have b1 := hb (x / 2^(8*1))
  have b2 := hb (x / 2^(8*2))
  have b3 := hb (x / 2^(8*3))
  have b4 := hb (x / 2^(8*4))
  have b5 := hb (x / 2^(8*5))
  have b6 := hb (x / 2^(8*6))
  rw [Nat.shiftRight_eq_div_pow, show (255 : Nat) = 2^8 - 1 from rfl, Nat.and_two_pow_sub_one_eq_mod]
  unfold ps
  generalize ones 8 (x / 2^(8*0) % 256) = q0 at *
  generalize ones 8 (x / 2^(8*1) % 256) = q1 at *
  generalize ones 8 (x / 2^(8*2) % 256) = q2 at *
  generalize ones 8 (x / 2^(8*3) % 256) = q3 at *
  generalize ones 8 (x / 2^(8*4) % 256) = q4 at *
  generalize ones 8 (x / 2^(8*5) % 256) = q5 at *
  generalize ones 8 (x / 2^(8*6) % 256) = q6 at *
  clear he hq hp hd h0 hb
  have hn := nestByte [64, (56 + 2 * (q0)), (48 + 2 * (q0 + q1)), (40 + 2 * (q0 + q1 + q2)), (32 + 2 * (q0 + q1 + q2 + q3)), (24 + 2 * (q0 + q1 + q2 + q3 + q4)), (16 + 2 * (q0 + q1 + q2 + q3 + q4 + q5)), (8 + 2 * (q0 + q1 + q2 + q3 + q4 + q5 + q6))] (by simp only [List.mem_cons, List.not_mem_nil, or_false, forall_eq_or_imp, forall_eq]; refine ⟨?_, ?_, ?_, ?_, ?_, ?_, ?_, ?_⟩ <;> omega) k
  simp only [nestL, Nat.mul_zero, Nat.add_zero] at hn
  rw [hn]
  clear hn
  interval_cases k
  · show ((64 : Nat) : Int) - 64 = _
    rw [z]; omega
  · show (((56 + 2 * (q0)) : Nat) : Int) - 64 = _
    simp only [Nat.reduceMul, Nat.reduceAdd] at *; omega
  · show (((48 + 2 * (q0 + q1)) : Nat) : Int) - 64 = _
    simp only [Nat.reduceMul, Nat.reduceAdd] at *; omega
  · show (((40 + 2 * (q0 + q1 + q2)) : Nat) : Int) - 64 = _
    simp only [Nat.reduceMul, Nat.reduceAdd] at *; omega
  · show (((32 + 2 * (q0 + q1 + q2 + q3)) : Nat) : Int) - 64 = _
    simp only [Nat.reduceMul, Nat.reduceAdd] at *; omega
  · show (((24 + 2 * (q0 + q1 + q2 + q3 + q4)) : Nat) : Int) - 64 = _
    simp only [Nat.reduceMul, Nat.reduceAdd] at *; omega
  · show (((16 + 2 * (q0 + q1 + q2 + q3 + q4 + q5)) : Nat) : Int) - 64 = _
    simp only [Nat.reduceMul, Nat.reduceAdd] at *; omega
  · show (((8 + 2 * (q0 + q1 + q2 + q3 + q4 + q5 + q6)) : Nat) : Int) - 64 = _
    simp only [Nat.reduceMul, Nat.reduceAdd] at *; omega

theorem shr8 (x k : Nat) : ∀ j, j ≤ 8 → ps x (8 * k + j) = ps x (8 * k) + ps ((x >>> (8 * k)) &&& 255) j := by
  intro j hj
  unfold ps
  rw [ones_add, Nat.shiftRight_eq_div_pow, show (255 : Nat) = 2^8 - 1 from rfl, Nat.and_two_pow_sub_one_eq_mod]
  have : ones j (x / 2^(8*k) % 2^8) = ones j (x / 2^(8*k)) := by
    rw [← ones_mod j (x / 2^(8*k) % 2^8), Nat.mod_mod_of_dvd _ (Nat.pow_dvd_pow 2 hj), ones_mod]
  rw [this]
  push_cast; omega

/-- `rmq64` finds the leftmost minimum of the 64 prefix sums. -/
theorem rmq64_ok (x : Nat) : IsLM (fun j => ps x (j+1)) 0 64 (rmq64 x).1 ∧ (rmq64 x).2 = ps x ((rmq64 x).1 + 1) := by
  have := foldl_range (fun t k => w64Step x k t)
    (fun k t => (k = 0 → t.2 = 65) ∧ (0 < k → IsLM (fun j => ps x (j+1)) 0 (8 * k) t.1 ∧ t.2 = ps x (t.1+1)))
    (0, 65) 8 ⟨fun _ => rfl, by omega⟩ (by
      intro k t hk ⟨h2, h3⟩
      have ht := tb_ok ((x >>> (8 * k)) &&& 255)
      have hsh := isLM_shift (F := fun j => ps x (j+1)) (d := 8 * k) (c := ps x (8 * k)) ht.1 (by
        intro j _ hj
        exact shr8 x k (j+1) (by omega))
      have hv : (tb ((x >>> (8 * k)) &&& 255)).2 + ((((e8 x >>> (8 * k)) &&& 255 : Nat) : Int) - 64)
          = ps x ((tb ((x >>> (8 * k)) &&& 255)).1 + 8 * k + 1) := by
        rw [e8_byte x k hk, ht.2]
        have := shr8 x k ((tb ((x >>> (8 * k)) &&& 255)).1 + 1) ht.1.2.1
        rw [show (tb ((x >>> (8 * k)) &&& 255)).1 + 8 * k + 1 = 8 * k + ((tb ((x >>> (8 * k)) &&& 255)).1 + 1) from by ring, this]
        ring
      have e : w64Step x k t = if ps x ((tb ((x >>> (8 * k)) &&& 255)).1 + 8 * k + 1) < t.2 then
          ((tb ((x >>> (8 * k)) &&& 255)).1 + 8 * k, ps x ((tb ((x >>> (8 * k)) &&& 255)).1 + 8 * k + 1)) else t := by
        rw [← hv]; rfl
      refine ⟨by omega, fun _ => ?_⟩
      rw [e]
      generalize (tb ((x >>> (8 * k)) &&& 255)).1 = i at *
      rw [show 8 * k + i = i + 8 * k from by ring, show 8 * k + 8 = 8 * (k+1) from by ring, Nat.add_zero] at hsh
      rcases Nat.eq_zero_or_pos k with h0 | h0
      · subst h0
        have := ps_le x (i + 8 * 0 + 1)
        have := hsh.2.1
        rw [if_pos (by rw [h2 rfl]; push_cast at *; omega)]
        exact ⟨hsh, rfl⟩
      · obtain ⟨g1, g2⟩ := h3 h0
        have hm := isLM_merge g1 hsh
        by_cases hlt : ps x (i + 8 * k + 1) < t.2
        · rw [if_pos hlt]
          rw [if_pos (by rw [← g2]; exact hlt)] at hm
          exact ⟨hm, rfl⟩
        · rw [if_neg hlt]
          rw [if_neg (by rw [← g2]; exact hlt)] at hm
          exact ⟨hm, g2⟩)
  exact this.2 (by omega)

end Verif.Rmq
