import Verif.SubsetConv.Model
import Verif.Bitwise.Props
import Mathlib.Algebra.BigOperators.Pi
/-!
# C31: subset convolution
-/
namespace Verif.SubsetConv
open Finset Verif.Bitwise

variable {T : Type} {L : Nat}

/-! ### Specification -/

/-- Sum over the subsets `t` of `S` of `a t * b (S \ t)`; for `t ⊆ S` the difference is `S ^^^ t`. -/
def subsetSpec [CommRing T] (n : Nat) (a b : Nat → T) (S : Nat) : T :=
  ∑ t ∈ range (2^n), if t &&& S = t then a t * b (S ^^^ t) else 0

/-! ### Counting bits -/

theorem ones_or_and : ∀ m i j, BitManip.ones m i + BitManip.ones m j = BitManip.ones m (i ||| j) + BitManip.ones m (i &&& j) := by
  intro m
  induction m with
  | zero => intro i j; rfl
  | succ m ih =>
    intro i j
    simp only [BitManip.ones]
    have h := ih (i/2) (j/2)
    rw [Nat.or_div_two, Nat.and_div_two]
    have h1 : (i ||| j) % 2^1 = i % 2^1 ||| j % 2^1 := Nat.or_mod_two_pow
    have h2 : (i &&& j) % 2^1 = i % 2^1 &&& j % 2^1 := Nat.and_mod_two_pow
    rw [Nat.pow_one] at h1 h2
    rcases Nat.mod_two_eq_zero_or_one i with hi | hi <;> rcases Nat.mod_two_eq_zero_or_one j with hj | hj <;>
      rw [hi, hj] at h1 h2 <;> simp only [show (0 ||| 0 : Nat) = 0 from rfl, show (1 ||| 0 : Nat) = 1 from rfl, show (0 ||| 1 : Nat) = 1 from rfl,
      show (1 ||| 1 : Nat) = 1 from rfl, show (0 &&& 0 : Nat) = 0 from rfl, show (1 &&& 0 : Nat) = 0 from rfl, show (0 &&& 1 : Nat) = 0 from rfl,
      show (1 &&& 1 : Nat) = 1 from rfl] at h1 h2 <;> rw [hi, hj, h1, h2] <;> omega

theorem ones_eq_zero : ∀ m x, x < 2^m → BitManip.ones m x = 0 → x = 0 := by
  intro m
  induction m with
  | zero => intro x hx _; simp at hx; exact hx
  | succ m ih =>
    intro x hx h
    rw [BitManip.ones] at h
    have := ih (x/2) (by rw [Nat.pow_succ] at hx; omega) (by omega)
    omega

theorem ones_zero : ∀ m, BitManip.ones m 0 = 0 := by
  intro m
  induction m with
  | zero => rfl
  | succ m ih => rw [BitManip.ones, Nat.zero_div, ih]

theorem ones_le_of_lt : ∀ m n x, x < 2^n → BitManip.ones m x ≤ n := by
  intro m
  induction m with
  | zero => intro n x _; exact Nat.zero_le _
  | succ m ih =>
    intro n x hx
    cases n with
    | zero =>
      have : x = 0 := by simpa using hx
      subst this; rw [ones_zero]
    | succ n =>
      have := ih n (x/2) (by rw [Nat.pow_succ] at hx; omega)
      rw [BitManip.ones]; omega

theorem disjoint_iff {n i j S : Nat} (hn : n ≤ 64) (hi : i < 2^n) (hj : j < 2^n) :
    (i ||| j = S ∧ BitManip.ones 64 i + BitManip.ones 64 j = BitManip.ones 64 S) ↔ (i &&& S = i ∧ j = S ^^^ i) := by
  have h64 : 2^n ≤ 2^64 := Nat.pow_le_pow_right (by omega) hn
  constructor
  · rintro ⟨rfl, h⟩
    rw [ones_or_and] at h
    have h0 : i &&& j = 0 := ones_eq_zero 64 _ (Nat.lt_of_lt_of_le (Nat.and_lt_two_pow i hj) h64) (by omega)
    have hb : ∀ k, (i.testBit k && j.testBit k) = false := by
      intro k; rw [← Nat.testBit_and, h0, Nat.zero_testBit]
    constructor
    · exact (or_sub.1 (Nat.and_self _)).1
    · apply Nat.eq_of_testBit_eq
      intro k
      rw [Nat.testBit_xor, Nat.testBit_or]
      have := hb k
      cases h1 : i.testBit k <;> cases h2 : j.testBit k <;> simp_all
  · rintro ⟨h1, rfl⟩
    have hor : i ||| (S ^^^ i) = S := by
      apply Nat.eq_of_testBit_eq
      intro k
      have := sub_iff.1 h1 k
      rw [Nat.testBit_or, Nat.testBit_xor]
      cases hk : i.testBit k <;> cases hS : S.testBit k <;> simp_all
    refine ⟨hor, ?_⟩
    have hand : i &&& (S ^^^ i) = 0 := by
      apply Nat.eq_of_testBit_eq
      intro k
      have := sub_iff.1 h1 k
      rw [Nat.testBit_and, Nat.testBit_xor, Nat.zero_testBit]
      cases hk : i.testBit k <;> cases hS : S.testBit k <;> simp_all
    rw [ones_or_and, hor, hand, ones_zero, Nat.add_zero]

/-! ### Arrays -/

/-- View of an array on all naturals. -/
def av [Zero T] (a : Arr T L) (d : Nat) : T := if h : d < L+1 then a ⟨d, h⟩ else 0

theorem aget_eq [Zero T] (a : Arr T L) {d : Nat} (h : d ≤ L) : aget a d = some (av a d) := by
  unfold aget av; rw [dif_pos (by omega), dif_pos (by omega)]

theorem aset_eq [Zero T] (a : Arr T L) {d : Nat} (h : d ≤ L) (x : T) :
    ∃ a', aset a d x = some a' ∧ ∀ e, e ≤ L → av a' e = if e = d then x else av a e := by
  refine ⟨_, by unfold aset; rw [if_pos (by omega)], ?_⟩
  intro e he
  unfold av
  rw [dif_pos (by omega), dif_pos (by omega)]

theorem av_ext [Zero T] {a b : Arr T L} (h : ∀ d, d ≤ L → av a d = av b d) : a = b := by
  funext ⟨d, hd⟩
  have := h d (by omega)
  unfold av at this
  rwa [dif_pos hd, dif_pos hd] at this

/-! ### The ranked array -/

/-- The part of `a` at sets of size `r`. -/
def part [Zero T] (a : Nat → T) (r y : Nat) : T := if BitManip.ones 64 y = r then a y else 0

/-- Array with `a y` at the size of `y`. -/
def ranked [Zero T] (a : Nat → T) (y : Nat) : Arr T L := fun d => part a d.val y

theorem rankAll_ok [CommRing T] {n : Nat} (hL : n ≤ L) : ∀ (A : List T) (i : Nat) (out : List (Arr T L)) (f : Nat → Arr T L), Rep out (2^n) f →
    i + A.length ≤ 2^n → ∃ out', rankAll i A out = some out' ∧
      Rep out' (2^n) (fun y => if i ≤ y ∧ y < i + A.length then ranked (fun z => A.getD (z-i) 0) y else f y) := by
  intro A
  induction A with
  | nil =>
    intro i out f h _
    exact ⟨out, rfl, h.congr (fun y _ => by rw [if_neg (by simp)])⟩
  | cons x A ih =>
    intro i out f h hlen
    rw [List.length_cons] at hlen
    have hpc : BitManip.popcnt i ≤ L := by
      rw [BitManip.C27_popcnt]; exact Nat.le_trans (ones_le_of_lt 64 n i (by omega)) hL
    obtain ⟨a, e1, h1⟩ := aset_eq (fun _ => (0 : T) : Arr T L) hpc x
    obtain ⟨o1, e2, h2⟩ := h.wr (i := i) (by omega) a
    obtain ⟨o2, e3, h3⟩ := ih (i+1) o1 _ h2 (by omega)
    refine ⟨o2, ?_, h3.congr ?_⟩
    · rw [rankAll, rankEntry, e1, Option.bind_some, e2, Option.bind_some, e3]
    · intro y hy
      rw [List.length_cons]
      by_cases hyi : y = i
      · subst hyi
        rw [if_neg (by omega), upd_same, if_pos (by omega)]
        apply av_ext
        intro d hd
        rw [h1 d hd]
        unfold av ranked part
        rw [dif_pos (by omega), dif_pos (by omega), ← BitManip.C27_popcnt]
        by_cases hdp : d = BitManip.popcnt y
        · rw [if_pos hdp, if_pos hdp.symm]; dsimp only; rw [Nat.sub_self]; rfl
        · rw [if_neg hdp, if_neg (fun h => hdp h.symm)]
      · by_cases hin : i + 1 ≤ y ∧ y < i + 1 + A.length
        · rw [if_pos hin, if_pos (by omega)]
          unfold ranked part
          funext d
          dsimp only
          rw [show y - i = (y - (i+1)) + 1 by omega, List.getD_cons_succ]
        · rw [if_neg hin, upd_ne _ _ hyi, if_neg (by omega)]

theorem rankedZeta_ok [CommRing T] {n : Nat} (hL : n ≤ L) (hn : n < 31) (A : List T) (hA : A.length ≤ 2^n) :
    ∃ zA, rankedZeta (L := L) n A = some zA ∧ Rep zA (2^n) (subsetSum n (ranked (fun z => A.getD z 0))) := by
  obtain ⟨o, e1, h1⟩ := rankAll_ok hL A 0 _ _ (Rep.replicate (2^n) (fun _ => (0 : T) : Arr T L)) (by omega)
  obtain ⟨zA, e2, h2⟩ := transform_ok zetaStep_ok h1
  refine ⟨zA, ?_, h2.congr ?_⟩
  · rw [rankedZeta, if_pos ⟨hL, hn⟩, e1, Option.bind_some, e2]
  · intro x hx
    rw [tr_zeta_lt _ hx]
    unfold subsetSum
    apply Finset.sum_congr rfl
    intro y hy
    refine if_congr Iff.rfl ?_ rfl
    dsimp only
    by_cases h : y < A.length
    · rw [if_pos (by omega)]; simp only [Nat.sub_zero]
    · rw [if_neg (by omega)]
      funext d
      unfold ranked part
      dsimp only
      rw [List.getD_eq_getElem?_getD, List.getElem?_eq_none (by omega)]
      simp

/-! ### Rows -/

theorem row_ok [CommRing T] {n : Nat} (hL : n ≤ L) (za zb tmp zt : Arr T L) :
    ∃ tmp1 tmp2 z, forRange 0 (n+1) clearStep tmp = some tmp1 ∧ forRange 0 (n+1) (outerStep n za zb) tmp1 = some tmp2 ∧
      forRange 0 (n+1) (copyStep tmp2) zt = some z ∧ ∀ d, d ≤ n → av z d = ∑ r ∈ range (d+1), av za r * av zb (d-r) := by
  obtain ⟨tmp1, e1, h1⟩ := forRange_inv (body := clearStep) (s := tmp) (fun i (t : Arr T L) => ∀ d, d < i → av t d = 0) (Nat.zero_le (n+1))
    (fun d hd => absurd hd (by omega)) (fun i t _ hi ht => by
      obtain ⟨t', e, h⟩ := aset_eq t (d := i) (by omega) 0
      refine ⟨t', e, fun d hd => ?_⟩
      rw [h d (by omega)]
      split
      · rfl
      · exact ht d (by omega))
  obtain ⟨tmp2, e2, h2⟩ := forRange_inv (body := outerStep n za zb) (s := tmp1)
    (fun j (t : Arr T L) => ∀ d, d ≤ n → av t d = ∑ r ∈ range (min j (d+1)), av za r * av zb (d-r)) (Nat.zero_le (n+1))
    (fun d hd => by rw [h1 d (by omega)]; simp) (fun j t _ hj ht => by
      unfold outerStep
      rw [aget_eq za (by omega), Option.bind_some]
      obtain ⟨t', e, h⟩ := forRange_inv (body := innerStep (av za j) zb j) (s := t)
        (fun k (t' : Arr T L) => ∀ d, d ≤ n → av t' d = if j ≤ d ∧ d < j + k then av t d + av za j * av zb (d-j) else av t d) (Nat.zero_le (n-j+1))
        (fun d hd => by rw [if_neg (by omega)]) (fun k t1 _ hk ht1 => by
          obtain ⟨t2, e, h⟩ := aset_eq t1 (d := j+k) (by omega) (av t1 (j+k) + av za j * av zb k)
          refine ⟨t2, ?_, ?_⟩
          · rw [innerStep, aget_eq t1 (by omega), Option.bind_some, aget_eq zb (by omega), Option.bind_some, e]
          · intro d hd
            rw [h d (by omega)]
            by_cases hdk : d = j + k
            · rw [if_pos hdk, if_pos (by omega), ht1 _ (by omega), if_neg (by omega), hdk, Nat.add_sub_cancel_left]
            · rw [if_neg hdk, ht1 d hd]
              by_cases hin : j ≤ d ∧ d < j + k
              · rw [if_pos hin, if_pos (by omega)]
              · rw [if_neg hin, if_neg (by omega)])
      refine ⟨t', e, ?_⟩
      intro d hd
      rw [h d hd, ht d hd]
      by_cases hjd : j ≤ d
      · rw [if_pos (by omega), show min j (d+1) = j by omega, show min (j+1) (d+1) = j+1 by omega, Finset.sum_range_succ]
      · rw [if_neg (by omega), show min j (d+1) = d+1 by omega, show min (j+1) (d+1) = d+1 by omega])
  obtain ⟨z, e3, h3⟩ := forRange_inv (body := copyStep tmp2) (s := zt) (fun i (t : Arr T L) => ∀ d, d < i → av t d = av tmp2 d) (Nat.zero_le (n+1))
    (fun d hd => absurd hd (by omega)) (fun i t _ hi ht => by
      obtain ⟨t', e, h⟩ := aset_eq t (d := i) (by omega) (av tmp2 i)
      refine ⟨t', by rw [copyStep, aget_eq tmp2 (by omega), Option.bind_some, e], fun d hd => ?_⟩
      rw [h d (by omega)]
      split
      · rename_i hdi; rw [hdi]
      · exact ht d (by omega))
  refine ⟨tmp1, tmp2, z, e1, e2, e3, ?_⟩
  intro d hd
  rw [h3 d (by omega), h2 d hd, show min (n+1) (d+1) = d+1 by omega]

theorem pointwise_ok [CommRing T] {n : Nat} (hL : n ≤ L) {zA zB : List (Arr T L)} {F G : Nat → Arr T L} (hA : Rep zA (2^n) F) (hB : Rep zB (2^n) G) :
    ∃ C H, pointwise n zA zB = some C ∧ Rep C (2^n) H ∧
      ∀ x d, x < 2^n → d ≤ n → av (H x) d = ∑ r ∈ range (d+1), av (F x) r * av (G x) (d-r) := by
  obtain ⟨s, e, ⟨H, h1, h2, h3⟩⟩ := forRange_inv (body := rowStep n zB) (s := (zA, fun _ => (0 : T)))
    (fun i s => ∃ H : Nat → Arr T L, Rep s.1 (2^n) H ∧ (∀ x, i ≤ x → x < 2^n → H x = F x) ∧
      ∀ x d, x < i → d ≤ n → av (H x) d = ∑ r ∈ range (d+1), av (F x) r * av (G x) (d-r)) (Nat.zero_le (2^n))
    ⟨F, hA, fun _ _ _ => rfl, fun x d hx => absurd hx (by omega)⟩
    (by
      rintro i ⟨C, tmp⟩ _ hi ⟨H, h1, h2, h3⟩
      obtain ⟨t1, t2, z, e1, e2, e3, hz⟩ := row_ok hL (H i) (G i) tmp (H i)
      obtain ⟨C', e4, h4⟩ := h1.wr hi z
      refine ⟨(C', t2), ?_, upd H i z, h4, ?_, ?_⟩
      · unfold rowStep
        rw [h1.val i hi, Option.bind_some, hB.val i hi, Option.bind_some, e1, Option.bind_some, e2, Option.bind_some, e3, Option.bind_some, e4]
        rfl
      · intro x hx1 hx2
        rw [upd_ne _ _ (by omega)]
        exact h2 x (by omega) hx2
      · intro x d hx hd
        by_cases hxi : x = i
        · subst hxi
          rw [upd_same, hz d hd, h2 x (Nat.le_refl x) hi]
        · rw [upd_ne _ _ hxi]
          exact h3 x d (by omega) hd)
  refine ⟨s.1, H, ?_, h1, fun x d hx hd => h3 x d hx hd⟩
  rw [pointwise, if_pos ⟨hL, hA.len, hB.len⟩, e]; rfl

/-! ### Putting it together -/

theorem level_av [CommRing T] (k : Nat) (F : Nat → Arr T L) {d : Nat} (hd : d ≤ L) (x : Nat) :
    av (level (fun a _ => a) (fun a b => b - a) k F x) d = level (fun a _ => a) (fun a b => b - a) k (fun y => av (F y) d) x := by
  unfold level
  split
  · unfold av
    dsimp only
    rw [dif_pos (by omega), dif_pos (by omega), dif_pos (by omega)]; rfl
  · rfl

theorem tr_av [CommRing T] {d : Nat} (hd : d ≤ L) : ∀ (n : Nat) (F : Nat → Arr T L) (x : Nat),
    av (tr (fun a _ => a) (fun a b => b - a) n F x) d = tr (fun a _ => a) (fun a b => b - a) n (fun y => av (F y) d) x := by
  intro n
  induction n with
  | zero => intro F x; rfl
  | succ n ih =>
    intro F x
    show av (level _ _ n _ x) d = level _ _ n _ x
    rw [level_av n _ hd]
    congr 1
    funext y
    exact ih F y

theorem subsetSum_av [CommRing T] (n : Nat) (a : Nat → T) (x : Nat) {d : Nat} (hd : d ≤ L) :
    av (subsetSum n (ranked (L := L) a) x) d = subsetSum n (part a d) x := by
  unfold av subsetSum
  rw [dif_pos (by omega), Finset.sum_apply]
  apply Finset.sum_congr rfl
  intro y _
  split <;> rfl

/-- Products with sizes adding up to `d`. -/
def mixed [CommRing T] (n : Nat) (a b : Nat → T) (d k : Nat) : T := ∑ r ∈ range (d+1), orSpec n (part a r) (part b (d-r)) k

theorem mixed_sum [CommRing T] (n : Nat) (a b : Nat → T) (d x : Nat) :
    ∑ r ∈ range (d+1), subsetSum n (part a r) x * subsetSum n (part b (d-r)) x = subsetSum n (mixed n a b d) x := by
  have h : ∀ r ∈ range (d+1), subsetSum n (part a r) x * subsetSum n (part b (d-r)) x = subsetSum n (orSpec n (part a r) (part b (d-r))) x :=
    fun r _ => (subsetSum_or n _ _ x).symm
  rw [Finset.sum_congr rfl h]
  unfold subsetSum mixed
  rw [Finset.sum_comm]
  apply Finset.sum_congr rfl
  intro y _
  split
  · rfl
  · simp

theorem part_mul [CommRing T] (a b : Nat → T) (d i j : Nat) :
    ∑ r ∈ range (d+1), part a r i * part b (d-r) j = if BitManip.ones 64 i + BitManip.ones 64 j = d then a i * b j else 0 := by
  unfold part
  by_cases h : BitManip.ones 64 i + BitManip.ones 64 j = d
  · rw [if_pos h, Finset.sum_eq_single (BitManip.ones 64 i)]
    · rw [if_pos rfl, if_pos (by omega)]
    · intro r _ hr; rw [if_neg (fun h => hr h.symm), zero_mul]
    · intro hr; exact absurd (Finset.mem_range.2 (by omega)) hr
  · rw [if_neg h]
    apply Finset.sum_eq_zero
    intro r hr
    rw [Finset.mem_range] at hr
    by_cases h1 : BitManip.ones 64 i = r
    · rw [if_neg (by omega : ¬ BitManip.ones 64 j = d - r), mul_zero]
    · rw [if_neg h1, zero_mul]

theorem mixed_eq [CommRing T] {n : Nat} (hn : n ≤ 64) (a b : Nat → T) {S : Nat} (hS : S < 2^n) :
    mixed n a b (BitManip.ones 64 S) S = subsetSpec n a b S := by
  unfold mixed orSpec subsetSpec
  rw [Finset.sum_comm]
  apply Finset.sum_congr rfl
  intro i hi
  rw [Finset.mem_range] at hi
  rw [Finset.sum_comm]
  have h1 : ∀ j ∈ range (2^n), (∑ r ∈ range (BitManip.ones 64 S + 1), if i ||| j = S then part a r i * part b (BitManip.ones 64 S - r) j else 0) =
      if j = S ^^^ i then (if i &&& S = i then a i * b j else 0) else 0 := by
    intro j hj
    rw [Finset.mem_range] at hj
    have hd := disjoint_iff (S := S) hn hi hj
    by_cases h : i ||| j = S
    · simp only [if_pos h]
      rw [part_mul]
      by_cases h2 : BitManip.ones 64 i + BitManip.ones 64 j = BitManip.ones 64 S
      · rw [if_pos h2, if_pos (hd.1 ⟨h, h2⟩).2, if_pos (hd.1 ⟨h, h2⟩).1]
      · rw [if_neg h2]
        split
        · rename_i h3
          rw [if_neg]
          intro h4
          exact h2 (hd.2 ⟨h4, h3⟩).2
        · rfl
    · simp only [if_neg h, Finset.sum_const_zero]
      split
      · rename_i h3
        rw [if_neg]
        intro h4
        exact h (hd.2 ⟨h4, h3⟩).1
      · rfl
  rw [Finset.sum_congr rfl h1, Finset.sum_ite_eq', if_pos (Finset.mem_range.2 (Nat.xor_lt_two_pow hS hi))]

theorem convolutionMobius_ok [CommRing T] {n : Nat} (hL : n ≤ L) (hn : n < 31) {zA zB : List (Arr T L)} {a b : Nat → T}
    (hA : Rep zA (2^n) (subsetSum n (ranked a))) (hB : Rep zB (2^n) (subsetSum n (ranked b))) :
    ∃ C, convolutionMobius n zA zB = some C ∧ Rep C (2^n) (subsetSpec n a b) := by
  obtain ⟨P, H, e1, h1, h2⟩ := pointwise_ok hL hA hB
  obtain ⟨M, e2, h3⟩ := transform_ok mobiusStep_ok h1
  obtain ⟨C, e3, h4⟩ := forRange_inv (body := outEntry M) (s := []) (fun i C => Rep C i (subsetSpec n a b)) (Nat.zero_le (2^n))
    ⟨rfl, fun i hi => absurd hi (by omega)⟩
    (fun i C _ hi hC => by
      have hle := ones_le_of_lt 64 n i hi
      have hv : av (tr (fun a _ => a) (fun a b => b - a) n H i) (BitManip.ones 64 i) = subsetSpec n a b i := by
        rw [tr_av (by omega), tr_congr (g := tr (fun a _ => a) (fun a b => b + a) n (mixed n a b (BitManip.ones 64 i))), mobius_zeta,
          mixed_eq (by omega) a b hi]
        intro y hy
        rw [Nat.div_eq_of_lt hi] at hy
        have hy' : y < 2^n := by
          rcases Nat.div_eq_zero_iff.1 hy with h | h
          · exact absurd h (Nat.ne_of_gt (Nat.two_pow_pos n))
          · exact h
        rw [h2 y _ hy' hle, tr_zeta_lt _ hy', ← mixed_sum]
        apply Finset.sum_congr rfl
        intro r hr
        rw [Finset.mem_range] at hr
        rw [subsetSum_av n a y (by omega), subsetSum_av n b y (by omega)]
      refine ⟨C ++ [subsetSpec n a b i], ?_, ?_, ?_⟩
      · rw [outEntry, h3.val i hi, Option.bind_some, BitManip.C27_popcnt, aget_eq _ (by omega), hv]; rfl
      · rw [List.length_append, hC.len]; rfl
      · intro x hx
        by_cases hxi : x = i
        · subst hxi
          rw [List.getElem?_append_right (by rw [hC.len]), hC.len, Nat.sub_self]; rfl
        · rw [List.getElem?_append_left (by rw [hC.len]; omega)]
          exact hC.val x (by omega))
  refine ⟨C, ?_, h4⟩
  rw [convolutionMobius, e1, Option.bind_some, rankedMobius, if_pos ⟨hL, h1.len⟩, e2, Option.bind_some, e3]

/-- **C31.** For arrays of any lengths (padded with zeros to `2^n`), when `n ≤ LIM`. -/
theorem C31_subset_convolution [CommRing T] (L : Nat) (A B : List T) (h0 : max A.length B.length ≠ 0)
    (hL : lg (max A.length B.length) ≤ L) (hn : lg (max A.length B.length) < 31) :
    ∃ C, subsetConvolution L A B = some C ∧
      Rep C (2^(lg (max A.length B.length))) (subsetSpec (lg (max A.length B.length)) (fun i => A.getD i 0) (fun i => B.getD i 0)) := by
  have hle := le_lg h0
  have hA : A.length ≤ 2^(lg (max A.length B.length)) := Nat.le_trans (Nat.le_max_left _ _) hle
  have hB : B.length ≤ 2^(lg (max A.length B.length)) := Nat.le_trans (Nat.le_max_right _ _) hle
  unfold subsetConvolution
  dsimp only
  generalize lg (max A.length B.length) = n at *
  obtain ⟨zA, e1, h1⟩ := rankedZeta_ok hL hn A hA
  obtain ⟨zB, e2, h2⟩ := rankedZeta_ok hL hn B hB
  obtain ⟨C, e3, h3⟩ := convolutionMobius_ok hL hn h1 h2
  exact ⟨C, by rw [e1, Option.bind_some, e2, Option.bind_some, e3], h3⟩

/-- **C31, square.** -/
theorem C31_square [CommRing T] (L : Nat) (A : List T) (h0 : A.length ≠ 0) (hL : lg A.length ≤ L) (hn : lg A.length < 31) :
    ∃ C, subsetConvolutionSquare L A = some C ∧
      Rep C (2^(lg A.length)) (subsetSpec (lg A.length) (fun i => A.getD i 0) (fun i => A.getD i 0)) := by
  have hA := le_lg h0
  unfold subsetConvolutionSquare
  dsimp only
  generalize lg A.length = n at *
  obtain ⟨zA, e1, h1⟩ := rankedZeta_ok hL hn A hA
  obtain ⟨C, e3, h3⟩ := convolutionMobius_ok hL hn h1 h1
  exact ⟨C, by rw [e1, Option.bind_some, e3], h3⟩

/-- `assert(n <= LIM)` fails for longer arrays. -/
theorem C31_limit_needed : subsetConvolution 1 [1, 2, 3, (4 : Int)] [1, 1, 1, 1] = none := by decide +kernel

example : subsetConvolution 3 [1, 2, 3, (4 : Int)] [5, 6, 7, 8] = some [5, 16, 22, 60] := by decide +kernel
example : subsetConvolution 3 [1, 2, (3 : Int)] [5, 6] = some [5, 16, 15, 18] := by decide +kernel
example : subsetSpec 2 (fun i => (i : Int) + 1) (fun i => i + 5) 3 = 60 := by decide +kernel
example : lg (max 3 2) ≤ 3 ∧ lg (max 3 2) < 31 := by decide

end Verif.SubsetConv
