import Verif.SparseTable.Disjoint
import Verif.SparseTable.DualSpec
import Mathlib.Algebra.BigOperators.Intervals
/-! C11, second half: DualDisjointSparseTable. -/
namespace Verif.SparseTable
open Verif

/-- A value stored in entry `k` of level `p` belongs to element `i`. -/
def Cov (p k i : Nat) : Prop := k / 2^p = i / 2^p ∧ (if k / 2^p % 2 = 0 then k ≤ i else i ≤ k)

instance (p k i : Nat) : Decidable (Cov p k i) := by unfold Cov; infer_instance

theorem cov_zero {k i : Nat} : Cov 0 k i ↔ k = i := by
  unfold Cov
  simp only [Nat.pow_zero, Nat.div_one]
  constructor
  · exact fun h => h.1
  · rintro rfl; simp

section monoid
variable {M : Type} [CommMonoid M]

/-- Contribution of level `p` to element `i`. -/
def W (g : Nat → Nat → M) (N p i : Nat) : M := ∏ k ∈ Finset.range N, if Cov p k i then g p k else 1

/-- Contribution of the first `R` levels to element `i`. -/
def V (g : Nat → Nat → M) (R N i : Nat) : M := ∏ p ∈ Finset.range R, W g N p i

theorem V_upd (g : Nat → Nat → M) {R N p k : Nat} (hp : p < R) (hk : k < N) (a : M) (i : Nat) :
    V (upd2 g p k (g p k * a)) R N i = V g R N i * (if Cov p k i then a else 1) := by
  have hW : ∀ q, W (upd2 g p k (g p k * a)) N q i = W g N q i * (if q = p then (if Cov p k i then a else 1) else 1) := by
    intro q
    by_cases hq : q = p
    · subst hq
      rw [if_pos rfl]
      unfold W
      have : ∀ j ∈ Finset.range N, (if Cov q j i then upd2 g q k (g q k * a) q j else 1) =
          (if Cov q j i then g q j else 1) * (if j = k then (if Cov q k i then a else 1) else 1) := by
        intro j _
        by_cases hj : j = k
        · subst hj
          rw [upd2_same]
          by_cases hc : Cov q j i <;> simp [hc]
        · rw [upd2_ne _ _ (by omega)]; simp [hj]
      rw [Finset.prod_congr rfl this, Finset.prod_mul_distrib, Finset.prod_ite_eq', if_pos (by simpa using hk)]
    · rw [if_neg hq, mul_one]
      unfold W
      apply Finset.prod_congr rfl
      intro j _
      rw [upd2_ne _ _ (by omega)]
  unfold V
  rw [Finset.prod_congr rfl (fun q _ => hW q), Finset.prod_mul_distrib, Finset.prod_ite_eq', if_pos (by simpa using hp)]

theorem W_zero (g : Nat → Nat → M) {N i : Nat} (hi : i < N) : W g N 0 i = g 0 i := by
  unfold W
  rw [Finset.prod_eq_single i]
  · rw [if_pos (cov_zero.2 rfl)]
  · intro b _ hb
    rw [if_neg (fun h => hb (cov_zero.1 h))]
  · intro h; exact absurd (by simpa using hi) h

theorem div_left {p b i : Nat} (h1 : b * (2^p*2) ≤ i) (h2 : i < b * (2^p*2) + 2^p) : i / 2^p = 2*b := by
  have e2 : 2*b*2^p = b * (2^p*2) := by rw [Nat.mul_comm 2 b, Nat.mul_assoc, Nat.mul_comm 2]
  apply Nat.div_eq_of_lt_le
  · rw [e2]; exact h1
  · rw [Nat.add_mul, e2]; omega

theorem div_right {p b i : Nat} (h1 : b * (2^p*2) + 2^p ≤ i) (h2 : i < b * (2^p*2) + 2^p*2) : i / 2^p = 2*b+1 := by
  have e2 : 2*b*2^p = b * (2^p*2) := by rw [Nat.mul_comm 2 b, Nat.mul_assoc, Nat.mul_comm 2]
  apply Nat.div_eq_of_lt_le
  · rw [Nat.add_mul, e2]; omega
  · rw [Nat.add_mul, Nat.add_mul, e2]; omega

theorem div_block {p q i : Nat} : i / 2^p = q ↔ q * 2^p ≤ i ∧ i < q * 2^p + 2^p := by
  have hp : 0 < 2^p := Nat.two_pow_pos p
  rw [Nat.div_eq_iff hp]
  omega

theorem W_left (g : Nat → Nat → M) {N p b i : Nat} (h1 : b * (2^p*2) ≤ i) (h2 : i < b * (2^p*2) + 2^p) (hN : i < N) :
    W g N p i = ∏ k ∈ Finset.Ico (b * (2^p*2)) (i+1), g p k := by
  have hi := div_left h1 h2
  have e2 : 2*b*2^p = b * (2^p*2) := by rw [Nat.mul_comm 2 b, Nat.mul_assoc, Nat.mul_comm 2]
  unfold W
  rw [← Finset.prod_filter]
  apply Finset.prod_congr _ (fun _ _ => rfl)
  ext k
  simp only [Finset.mem_filter, Finset.mem_range, Finset.mem_Ico, Cov, hi]
  constructor
  · rintro ⟨_, hk, hc⟩
    rw [hk, if_pos (by omega)] at hc
    have := div_block.1 hk
    rw [e2] at this
    omega
  · intro h
    have hk : k / 2^p = 2*b := div_block.2 (by rw [e2]; omega)
    rw [hk, if_pos (by omega)]
    omega

theorem W_right (g : Nat → Nat → M) {N p b i : Nat} (h1 : b * (2^p*2) + 2^p ≤ i) (h2 : i < b * (2^p*2) + 2^p*2)
    (hN : b * (2^p*2) + 2^p*2 ≤ N) :
    W g N p i = ∏ k ∈ Finset.Ico i (b * (2^p*2) + 2^p*2), g p k := by
  have hi := div_right h1 h2
  have e2 : (2*b+1)*2^p = b * (2^p*2) + 2^p := by rw [Nat.add_mul, Nat.one_mul, Nat.mul_comm 2 b, Nat.mul_assoc, Nat.mul_comm 2]
  unfold W
  rw [← Finset.prod_filter]
  apply Finset.prod_congr _ (fun _ _ => rfl)
  ext k
  simp only [Finset.mem_filter, Finset.mem_range, Finset.mem_Ico, Cov, hi]
  constructor
  · rintro ⟨_, hk, hc⟩
    rw [hk, if_neg (by omega)] at hc
    have := div_block.1 hk
    rw [e2] at this
    omega
  · intro h
    have hk : k / 2^p = 2*b+1 := div_block.2 (by rw [e2]; omega)
    rw [hk, if_neg (by omega)]
    omega

theorem vApply_spec {t : Table M} {L : Nat} {g : Nat → Nat → M} (hn : t.size = 2^L) (hL : t.logN = L)
    (hr : Rep2 t.table (max L 1) (2^L) g) (o : Nat × Nat × M) (hv : DValid (2^L) o) :
    ∃ t' g', vApply (· * ·) t o.1 o.2.1 o.2.2 = some t' ∧ t'.size = 2^L ∧ t'.logN = L ∧ Rep2 t'.table (max L 1) (2^L) g' ∧
      ∀ i, V g' (max L 1) (2^L) i = V g (max L 1) (2^L) i * (if o.1 ≤ i ∧ i < o.2.1 then o.2.2 else 1) := by
  obtain ⟨l, r, a⟩ := o
  unfold vApply
  simp only
  by_cases hlr : l ≥ r
  · rw [if_pos hlr]
    refine ⟨t, g, rfl, hn, hL, hr, fun i => ?_⟩
    rw [if_neg (by omega), mul_one]
  · rw [if_neg hlr]
    have hrn : r ≤ 2^L := hv (by simpa using hlr)
    by_cases h1 : r - l = 1
    · rw [if_pos h1]
      obtain ⟨t1, e1, r1⟩ := hr.wr (i := 0) (j := l) (by omega) (by omega) (g 0 l * a)
      rw [hr.rd (by omega) (by omega)]
      simp only [Option.bind_eq_bind, Option.bind_some, e1]
      refine ⟨_, _, rfl, hn, hL, r1, fun i => ?_⟩
      rw [V_upd g (by omega) (by omega)]
      congr 1
      by_cases hi : l = i
      · rw [if_pos (cov_zero.2 hi), if_pos (by omega)]
      · rw [if_neg (fun h => hi (cov_zero.1 h)), if_neg (by omega)]
    · rw [if_neg h1]
      have hx0 : (r-1) ^^^ l ≠ 0 := by
        intro h
        have : r - 1 = l := by
          calc r - 1 = (r-1) ^^^ (l ^^^ l) := by rw [Nat.xor_self, Nat.xor_zero]
            _ = ((r-1) ^^^ l) ^^^ l := by rw [Nat.xor_assoc]
            _ = l := by rw [h, Nat.zero_xor]
        omega
      have hp1 := Nat.log2_self_le hx0
      have hp2 := @Nat.lt_log2_self ((r-1) ^^^ l)
      have hxl : (r-1) ^^^ l < 2^L := Nat.xor_lt_two_pow (by omega) (by omega)
      have hdL : Nat.log2 ((r-1) ^^^ l) < L := (Nat.log2_lt hx0).2 hxl
      unfold msb
      rw [if_neg hx0]
      generalize Nat.log2 ((r-1) ^^^ l) = d at *
      rw [Nat.xor_comm] at hp1 hp2
      obtain ⟨q, hq1, hq2⟩ := xor_msb (by omega) hp1 hp2
      have hne : l ≠ r - 1 := by omega
      obtain ⟨t1, e1, r1⟩ := hr.wr (i := d) (j := l) (by omega) (by omega) (g d l * a)
      obtain ⟨t2, e2, r2⟩ := r1.wr (i := d) (j := r-1) (by omega) (by omega) (upd2 g d l (g d l * a) d (r-1) * a)
      simp only [Option.bind_eq_bind, Option.bind_some, hr.rd (show d < max L 1 by omega) (show l < 2^L by omega), e1,
        r1.rd (show d < max L 1 by omega) (show r - 1 < 2^L by omega), e2]
      refine ⟨_, _, rfl, hn, hL, r2, fun i => ?_⟩
      rw [V_upd _ (by omega) (by omega), V_upd _ (by omega) (by omega), mul_assoc]
      congr 1
      have c1 : Cov d l i ↔ i / 2^d = 2*q ∧ l ≤ i := by
        unfold Cov; rw [hq1, if_pos (by omega)]; omega
      have c2 : Cov d (r-1) i ↔ i / 2^d = 2*q+1 ∧ i ≤ r - 1 := by
        unfold Cov; rw [hq2, if_neg (by omega)]; omega
      have b1 := div_block.1 hq1
      have b2 := div_block.1 hq2
      have hm : (2*q+1) * 2^d = 2*q*2^d + 2^d := by rw [Nat.add_mul, Nat.one_mul]
      rw [div_block] at c1 c2
      by_cases k1 : Cov d l i
      · have k1' := c1.1 k1
        have k2 : ¬ Cov d (r-1) i := fun h => by have := c2.1 h; omega
        rw [if_pos k1, if_neg k2, if_pos (by omega), mul_one]
      · by_cases k2 : Cov d (r-1) i
        · have k2' := c2.1 k2
          rw [if_neg k1, if_pos k2, if_pos (by omega), one_mul]
        · rw [if_neg k1, if_neg k2, if_neg (fun h => by
            by_cases hh : i < 2*q*2^d + 2^d
            · exact k1 (c1.2 (by omega))
            · exact k2 (c2.2 (by omega))), mul_one]

/-- Row 0 holds levels `< I`, and level `I` for positions `< K`; other rows are unchanged. -/
structure VInv (g g' : Nat → Nat → M) (N I K : Nat) : Prop where
  lo : ∀ i, i < K → i < N → g' 0 i = V g (I+1) N i
  hi : ∀ i, K ≤ i → i < N → g' 0 i = V g I N i
  rest : ∀ p k, 0 < p → g' p k = g p k

theorem vBuildBlock_spec {g : Nat → Nat → M} {m n I b : Nat}
    (hI : 0 < I) (hIm : I < m) {t : List (List M)} {g' : Nat → Nat → M} (hrep : Rep2 t m n g')
    (hb : b * (2^I*2) + 2^I*2 ≤ n) (hinv : VInv g g' n I (b * (2^I*2))) :
    ∃ t' g'', vBuildBlock (· * ·) 1 I (b * (2^I*2)) t = some t' ∧ Rep2 t' m n g'' ∧ VInv g g'' n I ((b+1) * (2^I*2)) := by
  have hd : 0 < 2^I := Nat.two_pow_pos I
  rw [mul2d]
  have hL := fun i h1 h2 h3 => W_left g (N := n) (p := I) (b := b) (i := i) h1 h2 h3
  have hR := fun i h1 h2 => W_right g (N := n) (p := I) (b := b) (i := i) h1 h2 hb
  have hVs : ∀ i, V g (I+1) n i = V g I n i * W g n I i := fun i => Finset.prod_range_succ _ _
  unfold vBuildBlock
  simp only
  generalize b * (2^I*2) = j at *
  generalize 2^I = d at *
  have left := forRange_inv (fun k (s : M × List (List M)) => s.1 = ∏ k' ∈ Finset.Ico j k, g I k' ∧
      ∃ g', Rep2 s.2 m n g' ∧ VInv g g' n I k)
    (body := fun k (s : M × List (List M)) => (rd2 s.2 I k).bind fun x => (rd2 s.2 0 k).bind fun y =>
      (wr2 s.2 0 k (y * (s.1 * x))).bind fun tb => some (s.1 * x, tb))
    (a := j) (b := j+d) (s := (1, t)) (by omega) ⟨by simp, g', hrep, hinv⟩ (by
      rintro k ⟨ml, tb⟩ h1 h2 ⟨hm, g1, r1, i1⟩
      simp only at hm
      obtain ⟨t', e', r'⟩ := r1.wr (i := 0) (j := k) (by omega) (by omega) (g1 0 k * (ml * g1 I k))
      refine ⟨(ml * g1 I k, t'), ?_, ?_, _, r', ?_, ?_, ?_⟩
      · simp [r1.rd hIm (show k < n by omega), r1.rd (show 0 < m by omega) (show k < n by omega), e']
      · simp only
        rw [Finset.prod_Ico_succ_top h1, hm, i1.rest _ _ hI]
      · intro i hik hin
        by_cases hk : i = k
        · subst hk
          rw [upd2_same, hVs, hL i h1 h2 hin, i1.hi i (by omega) hin, Finset.prod_Ico_succ_top h1, hm, i1.rest _ _ hI]
        · rw [upd2_ne _ _ (by omega)]; exact i1.lo i (by omega) hin
      · intro i hik hin
        rw [upd2_ne _ _ (by omega)]; exact i1.hi i (by omega) hin
      · intro p q hp
        rw [upd2_ne _ _ (by omega)]; exact i1.rest p q hp)
  obtain ⟨⟨ml, t2⟩, e2, _, g2, r2, i2⟩ := left
  simp only [Option.bind_eq_bind]
  rw [e2]
  simp only [Option.bind_some]
  have right := forRangeDown_inv (fun k (s : M × List (List M)) => s.1 = ∏ k' ∈ Finset.Ico k (j+d*2), g I k' ∧
      ∃ g', Rep2 s.2 m n g' ∧ (∀ i, i < j+d → i < n → g' 0 i = V g (I+1) n i) ∧
        (∀ i, j+d ≤ i → i < k → i < n → g' 0 i = V g I n i) ∧
        (∀ i, k ≤ i → i < j+d*2 → i < n → g' 0 i = V g (I+1) n i) ∧
        (∀ i, j+d*2 ≤ i → i < n → g' 0 i = V g I n i) ∧ (∀ p k, 0 < p → g' p k = g p k))
    (body := fun k (s : M × List (List M)) => (rd2 s.2 I k).bind fun x => (rd2 s.2 0 k).bind fun y =>
      (wr2 s.2 0 k (y * (s.1 * x))).bind fun tb => some (s.1 * x, tb))
    (a := j+d) (b := j+d*2) (s := (1, t2)) (by omega) ⟨by simp, g2, r2, i2.lo, fun i h1 _ h3 => i2.hi i h1 h3,
      fun i h1 h2 _ => by omega, fun i h1 h2 => i2.hi i (by omega) h2, i2.rest⟩ (by
      rintro k ⟨mr, tb⟩ h1 h2 ⟨hm, g1, r1, a1, a2, a3, a4, a5⟩
      simp only at hm
      obtain ⟨t', e', r'⟩ := r1.wr (i := 0) (j := k) (by omega) (by omega) (g1 0 k * (mr * g1 I k))
      have hp : mr * g1 I k = ∏ k' ∈ Finset.Ico k (j+d*2), g I k' := by
        rw [Finset.prod_eq_prod_Ico_succ_bot h2, hm, a5 _ _ hI, mul_comm]
      refine ⟨(mr * g1 I k, t'), ?_, ?_, _, r', ?_, ?_, ?_, ?_, ?_⟩
      · simp [r1.rd hIm (show k < n by omega), r1.rd (show 0 < m by omega) (show k < n by omega), e']
      · exact hp
      · intro i hik hin
        rw [upd2_ne _ _ (by omega)]; exact a1 i hik hin
      · intro i hik hin h3
        rw [upd2_ne _ _ (by omega)]; exact a2 i hik (by omega) h3
      · intro i hik h3 hin
        by_cases hk : i = k
        · subst hk
          rw [upd2_same, hVs, hR i h1 h2, a2 i h1 (by omega) hin, hp]
        · rw [upd2_ne _ _ (by omega)]; exact a3 i (by omega) h3 hin
      · intro i hik hin
        rw [upd2_ne _ _ (by omega)]; exact a4 i hik hin
      · intro p q hp
        rw [upd2_ne _ _ (by omega)]; exact a5 p q hp)
  obtain ⟨⟨mr, t4⟩, e4, _, g4, r4, a1, a2, a3, a4, a5⟩ := right
  rw [e4]
  refine ⟨t4, g4, rfl, r4, ?_, ?_, a5⟩
  · intro i h1 h2
    by_cases h : i < j + d
    · exact a1 i h h2
    · exact a3 i (by omega) h1 h2
  · exact a4

theorem vBuild_spec {t : Table M} {L : Nat} {g : Nat → Nat → M} (hL : t.logN = L)
    (hr : Rep2 t.table (max L 1) (2^L) g) :
    ∃ t' g', vBuild (· * ·) 1 t = some t' ∧ Rep2 t'.table (max L 1) (2^L) g' ∧
      ∀ i, i < 2^L → g' 0 i = V g (max L 1) (2^L) i := by
  unfold vBuild
  rw [hL]
  have main : ∃ tb, forRange 1 L (fun i tb => forRange 0 (2^(L-1-i)) (fun b tb => vBuildBlock (· * ·) 1 i (b * (2^i*2)) tb) tb) t.table = some tb ∧
      ∃ g', Rep2 tb (max L 1) (2^L) g' ∧ VInv g g' (2^L) (max L 1) 0 := by
    have init : VInv g g (2^L) 1 0 := ⟨fun i h => by omega, fun i _ h => by
      unfold V; rw [Finset.prod_range_one, W_zero g h], fun _ _ _ => rfl⟩
    by_cases h0 : L = 0
    · subst h0
      exact ⟨t.table, rfl, g, hr, init⟩
    · obtain ⟨tb, e, g', r', i'⟩ := forRange_inv (fun I tb => ∃ g', Rep2 tb (max L 1) (2^L) g' ∧ VInv g g' (2^L) I 0)
        (body := fun i tb => forRange 0 (2^(L-1-i)) (fun b tb => vBuildBlock (· * ·) 1 i (b * (2^i*2)) tb) tb)
        (a := 1) (b := L) (s := t.table) (by omega) ⟨g, hr, init⟩ (by
        rintro I tb h1 h2 ⟨g1, r1, i1⟩
        have hpow : 2^(L-1-I) * (2^I*2) = 2^L := by
          rw [← Nat.pow_succ, ← Nat.pow_add]; congr 1; omega
        obtain ⟨tb', e', g', r', i'⟩ := forRange_inv (fun b tb => ∃ g', Rep2 tb (max L 1) (2^L) g' ∧ VInv g g' (2^L) I (b * (2^I*2)))
          (body := fun b tb => vBuildBlock (· * ·) 1 I (b * (2^I*2)) tb)
          (a := 0) (b := 2^(L-1-I)) (s := tb) (Nat.zero_le _) ⟨g1, r1, by simpa using i1⟩ (by
          rintro b tb _ hb ⟨g2, r2, i2⟩
          have hbn : b * (2^I*2) + 2^I*2 ≤ 2^L := by
            rw [← mul2d, ← hpow]; exact Nat.mul_le_mul_right _ hb
          obtain ⟨t', g'', e, r, i⟩ := vBuildBlock_spec h1 (by omega) r2 hbn i2
          exact ⟨t', e, g'', r, i⟩)
        refine ⟨tb', e', g', r', ?_, ?_, i'.rest⟩
        · intro i h; omega
        · intro i _ h
          rw [i'.lo i (by rw [hpow]; exact h) h])
      rw [show max L 1 = L by omega] at *
      exact ⟨tb, e, g', r', i'⟩
  obtain ⟨tb, e, g', r', i'⟩ := main
  simp only [Option.bind_eq_bind]
  rw [e]
  exact ⟨_, g', rfl, r', fun i h => i'.hi i (by omega) h⟩

end monoid

variable {T : Type}

/-- Model: construct, apply everything, build. -/
def vApplyAll (op : T → T → T) : Table T → List (Nat × Nat × T) → Option (Table T)
  | t, [] => some t
  | t, o :: ops => (vApply op t o.1 o.2.1 o.2.2).bind (fun t => vApplyAll op t ops)

/-- Model: the two constructors. -/
def vStart (e : T) : DStart T → Option (Table T)
  | .size n => vInit e n
  | .range xs => vOfRange e xs

/-- Model of a whole use of the table. -/
def vRun (op : T → T → T) (e : T) (st : DStart T) (ops : List (Nat × Nat × T)) : Option (Table T) := do
  let t ← vStart e st
  let t ← vApplyAll op t ops
  vBuild op e t

theorem vApplyAll_spec [CommMonoid T] {L n : Nat} (hnL : n ≤ 2^L) :
    ∀ (ops : List (Nat × Nat × T)) (t : Table T) (g : Nat → Nat → T) (vs : List T), t.size = 2^L → t.logN = L →
      Rep2 t.table (max L 1) (2^L) g → vs.length = n → (∀ o ∈ ops, DValid n o) →
      (∀ i, i < n → V g (max L 1) (2^L) i = vs.getD i 1) →
      ∃ t' g', vApplyAll (· * ·) t ops = some t' ∧ t'.size = 2^L ∧ t'.logN = L ∧ Rep2 t'.table (max L 1) (2^L) g' ∧
        ∀ i, i < n → V g' (max L 1) (2^L) i = (plainAll (· * ·) vs ops).getD i 1
  | [], t, g, vs, h1, h2, h3, _, _, h5 => ⟨t, g, rfl, h1, h2, h3, h5⟩
  | o :: ops, t, g, vs, h1, h2, h3, hl, hv, h5 => by
    obtain ⟨t', g', e', s', l', r', b'⟩ := vApply_spec h1 h2 h3 o (fun h => Nat.le_trans (hv o (by simp) h) hnL)
    have := vApplyAll_spec hnL ops t' g' (plainApply (· * ·) vs o) s' l' r' (by simp [plainApply, hl])
      (fun o ho => hv o (by simp [ho])) (by
        intro i hi
        rw [b' i, h5 i hi]
        unfold plainApply
        rw [List.getD_eq_getElem?_getD, List.getD_eq_getElem?_getD, List.getElem?_mapIdx, List.getElem?_eq_getElem (by omega)]
        simp only [Option.getD_some, Option.map_some]
        split <;> simp)
    obtain ⟨t'', g'', e'', rest⟩ := this
    exact ⟨t'', g'', by simp [vApplyAll, e', e''], rest⟩

theorem V_row0 [CommMonoid T] {g : Nat → Nat → T} {R N i : Nat} (hR : 0 < R) (hi : i < N) (h : ∀ p k, 0 < p → g p k = 1) :
    V g R N i = g 0 i := by
  unfold V
  rw [Finset.prod_eq_single 0, W_zero g hi]
  · intro p _ hp
    unfold W
    apply Finset.prod_eq_one
    intro k _
    rw [h p k (by omega)]; simp
  · intro h; exact absurd (by simpa using hR) h

theorem vRun_monoid [CommMonoid T] (st : DStart T) (ops : List (Nat × Nat × T))
    (hne : (st.values 1).length ≠ 0) (hv : ∀ o ∈ ops, DValid (st.values 1).length o) :
    ∃ t, vRun (· * ·) 1 st ops = some t ∧ ∀ i, i < (st.values 1).length →
      uGet t i = (plainAll (· * ·) (st.values 1) ops)[i]? := by
  generalize hn : (st.values 1).length = n at *
  have hlt := lt_two_pow_bitWidth (n - 1)
  generalize hL : bitWidth (n-1) = L at *
  have start : ∃ t g, vStart 1 st = some t ∧ t.size = 2^L ∧
      t.logN = L ∧ Rep2 t.table (max L 1) (2^L) g ∧ 
      ∀ i, i < n → V g (max L 1) (2^L) i = (st.values 1).getD i 1 := by
    cases st with
    | size m =>
      have hmn : m = n := by simpa [DStart.values] using hn
      subst hmn
      refine ⟨⟨2^L, L, _⟩, fun _ _ => 1, ?_, rfl, rfl, Rep2.replicate _ _ _, ?_⟩
      · simp only [vStart, vInit, if_neg hne, hL]
      · intro i hi
        rw [V_row0 (by omega) (by omega) (fun _ _ _ => rfl)]
        simp [DStart.values, List.getD_eq_getElem?_getD, List.getElem?_replicate, hi]
    | range xs =>
      have hmn : xs.length = n := by simpa [DStart.values] using hn
      subst hmn
      obtain ⟨t0, g0, e0, r0, z0, n0⟩ := copyRow0_spec (m := max L 1) (n := 2^L) (by omega) xs (by omega) 1
      refine ⟨⟨2^L, L, t0⟩, g0, ?_, rfl, rfl, r0, ?_⟩
      · simp only [vStart, vOfRange, vInit, if_neg hne, hL, Option.bind_eq_bind, Option.bind_some, e0]
      · intro i hi
        rw [V_row0 (by omega) (by omega) n0, z0]; rfl
  obtain ⟨t, g, e, h1, h2, h3, h5⟩ := start
  obtain ⟨t', g', e', h1', h2', h3', h5'⟩ := vApplyAll_spec (by omega) ops t g (st.values 1) h1 h2 h3 hn hv h5
  obtain ⟨t'', g'', e'', r'', b''⟩ := vBuild_spec h2' h3'
  refine ⟨t'', ?_, fun i hi => ?_⟩
  · unfold vRun
    rw [e]
    simp only [Option.bind_eq_bind, Option.bind_some, e']
    exact e''
  · unfold uGet
    rw [r''.rd (by omega) (by omega), b'' i (by omega), h5' i hi]
    have hlen := plainAll_length (· * ·) ops (st.values (1 : T))
    rw [List.getD_eq_getElem?_getD, List.getElem?_eq_getElem (by omega)]
    rfl

/-- C11 (DualDisjointSparseTable): for an associative, commutative operation with identity, construction of a
non-empty table, any `apply` calls and `build` run without out-of-range access and `get(i)` is the value
obtained by applying every call to every element it covers. -/
theorem C11_dual_disjoint (op : T → T → T) (e : T) (hassoc : ∀ x y z, op (op x y) z = op x (op y z))
    (hcomm : ∀ x y, op x y = op y x) (he : ∀ x, op e x = x)
    (st : DStart T) (ops : List (Nat × Nat × T)) (hne : st.values e ≠ []) (hv : ∀ o ∈ ops, DValid (st.values e).length o) :
    ∃ t, vRun op e st ops = some t ∧ ∀ i, i < (st.values e).length → uGet t i = (plainAll op (st.values e) ops)[i]? := by
  letI : CommMonoid T := { mul := op, one := e, mul_assoc := hassoc, mul_comm := hcomm, one_mul := he,
                           mul_one := fun x => (hcomm x e).trans (he x) }
  exact vRun_monoid st ops (fun h => hne (List.length_eq_zero_iff.1 h)) hv

example : ∀ o ∈ [(1, 5, 7), (0, 2, 3), (4, 4, (9 : Nat))], DValid ((DStart.size 6).values 0).length o := by
  simp [DValid, DStart.values]
example : (vRun Nat.add 0 (.size 6) [(1, 5, 7), (0, 2, 3)]).bind (fun t => uGet t 1) = some 10 := by decide

end Verif.SparseTable
