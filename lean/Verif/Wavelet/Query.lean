import Verif.Wavelet.Proofs
/-!
Correctness of the queries.
-/
namespace Verif.Wavelet
open Verif.BitManip Verif.Succinct

/-- `x` and `v` agree from bit `k` upwards. -/
def hi (k v x : Nat) : Bool := decide (x / 2^k = v / 2^k)

theorem div_succ (x k : Nat) : x / 2^k = 2 * (x / 2^(k+1)) + (x.testBit k).toNat := by
  rw [Nat.pow_succ, ← Nat.div_div_eq_div_mul, Nat.testBit_eq_decide_div_mod_eq]
  have := Nat.div_add_mod (x / 2^k) 2
  rcases Nat.mod_two_eq_zero_or_one (x / 2^k) with h | h <;> simp [h] <;> omega

theorem hi_succ (k v x : Nat) : hi k v x = (hi (k+1) v x && hb k (v.testBit k) x) := by
  unfold hi hb
  rw [div_succ x k, div_succ v k, Bool.eq_iff_iff]
  simp only [beq_iff_eq, Bool.and_eq_true, decide_eq_true_eq]
  cases x.testBit k <;> cases v.testBit k <;> simp <;> omega

theorem hi_filter (k v : Nat) (M : List Nat) : (M.filter (hi (k+1) v)).filter (hb k (v.testBit k)) = M.filter (hi k v) := by
  rw [List.filter_filter]
  apply List.filter_congr
  intro x _
  rw [hi_succ k v x, Bool.and_comm]

theorem hi_zero (v x : Nat) : hi 0 v x = (x == v) := by unfold hi; rw [Bool.eq_iff_iff]; simp

theorem hi_top {h v : Nat} {M : List Nat} (hM : ∀ x ∈ M, x < 2^h) (hv : v < 2^h) : M.filter (hi h v) = M := by
  rw [List.filter_eq_self]
  intro x hx
  unfold hi
  rw [Nat.div_eq_of_lt (hM x hx), Nat.div_eq_of_lt hv]; simp

theorem hi_zero_nil {k v : Nat} {M : List Nat} (h : M.filter (hi k v) = []) : M.filter (hi 0 v) = [] := by
  rw [List.filter_eq_nil_iff] at *
  intro x hx hc
  refine h x hx ?_
  rw [hi_zero] at hc
  have : x = v := by simpa using hc
  subst this
  unfold hi; simp

theorem cbit_nat (v k : Nat) : cbit (v : Int) k = v.testBit k := by
  unfold cbit
  rw [Nat.testBit_eq_decide_div_mod_eq]
  have : ((v : Int) / 2^k % 2 = 1) ↔ (v / 2^k % 2 = 1) := by norm_cast
  exact decide_eq_decide.mpr this

/-- The part `[l, r)` of a sequence. -/
def slice (S : List Nat) (l r : Nat) : List Nat := (S.drop l).take (r - l)

theorem slice_split {S : List Nat} {l r : Nat} (h1 : l ≤ r) (h2 : r ≤ S.length) : S = S.take l ++ slice S l r ++ S.drop r ∧ (slice S l r).length = r - l := by
  constructor
  · unfold slice
    conv => lhs; rw [← List.take_append_drop l S]
    rw [List.append_assoc]
    congr 1
    conv => lhs; rw [← List.take_append_drop (r - l) (S.drop l)]
    rw [List.drop_drop, show l + (r - l) = r by omega]
  · unfold slice; simp; omega

theorem slice_mem {S : List Nat} {l r x : Nat} (h : x ∈ slice S l r) : x ∈ S := List.mem_of_mem_drop (List.mem_of_mem_take h)

theorem Sg.start {w : WM} {S : List Nat} {l r : Nat} (h1 : l ≤ r) (h2 : r ≤ S.length) : Sg w S 0 l r (slice S l r) := by
  obtain ⟨e, el⟩ := slice_split h1 h2
  exact ⟨S.take l, S.drop r, e, by simp; omega, by rw [el]; omega⟩

theorem Sg.le {w : WM} {S : List Nat} {t l r : Nat} {M : List Nat} (h : Sg w S t l r M) : l ≤ r ∧ r - l = M.length := by
  obtain ⟨A, C, _, _, e⟩ := h
  omega

theorem Sg.usub {w : WM} {S : List Nat} {t l r : Nat} {M : List Nat} (h : Sg w S t l r M) : usub r l = some M.length := by
  unfold Wavelet.usub
  rw [if_pos h.le.1, h.le.2]

theorem Sg.ne {w : WM} {S : List Nat} {t l r : Nat} {M : List Nat} (h : Sg w S t l r M) (hM : M ≠ []) : S ≠ [] := by
  obtain ⟨A, C, e, _, _⟩ := h
  intro hS
  have hl := lev_length w.h S t
  rw [e, hS] at hl
  simp at hl
  exact hM hl.2.1

theorem ne_nil_of_lt {w : WM} {S : List Nat} {t l r : Nat} {M : List Nat} (h : Sg w S t l r M) (hlt : l < r) : M ≠ [] := by
  intro hM
  have := h.le.2
  rw [hM] at this
  simp at this
  omega

/-! ### range_rank -/

theorem rrLoop_ok {w : WM} {S : List Nat} (ok : Ok w S) (v : Nat) (M : List Nat) : ∀ (k l r : Nat), k ≤ w.h → Sg w S (w.h - k) l r (M.filter (hi k v)) →
    ∃ l', w.rrLoop v k l r = some (l', l' + (M.filter (hi 0 v)).length)
  | 0, l, r, _, hs => by
      rw [WM.rrLoop]
      obtain ⟨A, C, _, _, e⟩ := hs
      exact ⟨l, by rw [e]⟩
  | k+1, l, r, hk, hs => by
      rw [WM.rrLoop]
      by_cases c : l < r
      · rw [if_pos c, cbit_nat]
        obtain ⟨l', r', e, h'⟩ := ok.tie (hs.ne (ne_nil_of_lt hs c)) (by omega) hs (v.testBit k)
        rw [show w.h - 1 - (w.h - (k + 1)) = k by omega, hi_filter] at h'
        rw [show w.h - 1 - k = w.h - (k + 1) by omega, e, Option.bind_some]
        rw [show w.h - (k + 1) + 1 = w.h - k by omega] at h'
        exact rrLoop_ok ok v M k l' r' (by omega) h'
      · rw [if_neg c]
        have hn : M.filter (hi (k+1) v) = [] := by
          have := hs.le
          exact List.length_eq_zero_iff.mp (by omega)
        rw [hi_zero_nil hn]
        have := hs.le
        exact ⟨l, by rw [show r = l by omega]; rfl⟩

theorem rangeRank_ok {w : WM} {S : List Nat} (ok : Ok w S) {v l r : Nat} (hv : v < 2^w.h) (h1 : l ≤ r) (h2 : r ≤ S.length) :
    w.rangeRank v l r = some ((slice S l r).count v) := by
  have hs := Sg.start (w := w) h1 h2
  rw [← hi_top (fun x hx => ok.lt x (slice_mem hx)) hv] at hs
  obtain ⟨l', e⟩ := rrLoop_ok ok v (slice S l r) w.h l r (Nat.le_refl _) (by rw [Nat.sub_self]; exact hs)
  unfold WM.rangeRank
  rw [e, Option.bind_some]
  show usub (l' + _) l' = _
  unfold usub
  rw [if_pos (by omega), Nat.add_sub_cancel_left, List.count, List.countP_eq_length_filter]
  congr 2
  apply List.filter_congr
  intro x _
  exact hi_zero v x

/-! ### rank_3way -/

/-- Counting is additive. -/
theorem len_add {p q r : Nat → Bool} : ∀ (M : List Nat), (∀ x ∈ M, (p x).toNat = (q x).toNat + (r x).toNat) →
    (M.filter p).length = (M.filter q).length + (M.filter r).length
  | [], _ => rfl
  | x :: M, h => by
      have ih := len_add M (fun y hy => h y (List.mem_cons_of_mem _ hy))
      have hx := h x List.mem_cons_self
      rw [List.filter_cons, List.filter_cons, List.filter_cons]
      cases e1 : p x <;> cases e2 : q x <;> cases e3 : r x <;> rw [e1, e2, e3] at hx <;> simp at hx ⊢ <;> omega

/-- `x` is below (above) `v` when only the bits from `k` are looked at. -/
def ltB (k v x : Nat) : Bool := decide (x / 2^k < v / 2^k)
def gtB (k v x : Nat) : Bool := decide (v / 2^k < x / 2^k)

theorem dn (p : Prop) [Decidable p] : (decide p).toNat = if p then 1 else 0 := by by_cases c : p <;> simp [c]

theorem lt_step (k v : Nat) (M : List Nat) :
    (M.filter (ltB k v)).length + (if v.testBit k then (M.filter (hi k v)).length else 0) =
      (M.filter (ltB (k+1) v)).length + (if v.testBit k then (M.filter (hi (k+1) v)).length else 0) := by
  have key : ∀ x, (ltB k v x).toNat + (if v.testBit k then (hi k v x).toNat else 0) =
      (ltB (k+1) v x).toNat + (if v.testBit k then (hi (k+1) v x).toNat else 0) := by
    intro x
    unfold ltB hi
    rw [div_succ x k, div_succ v k]
    generalize x / 2^(k+1) = a
    generalize v / 2^(k+1) = b
    cases x.testBit k <;> cases v.testBit k <;> simp only [Bool.toNat_true, Bool.toNat_false, if_pos, Bool.false_eq_true, if_false, dn] <;>
      split_ifs <;> omega
  induction M with
  | nil => simp
  | cons x M ih =>
    have hx := key x
    simp only [List.filter_cons]
    cases e0 : v.testBit k <;> cases e1 : ltB k v x <;> cases e2 : hi k v x <;> cases e3 : ltB (k+1) v x <;> cases e4 : hi (k+1) v x <;>
      rw [e0, e1, e2, e3, e4] at hx <;> rw [e0] at ih <;> simp at hx ih ⊢ <;> omega

theorem gt_step (k v : Nat) (M : List Nat) :
    (M.filter (gtB k v)).length + (if v.testBit k then 0 else (M.filter (hi k v)).length) =
      (M.filter (gtB (k+1) v)).length + (if v.testBit k then 0 else (M.filter (hi (k+1) v)).length) := by
  have key : ∀ x, (gtB k v x).toNat + (if v.testBit k then 0 else (hi k v x).toNat) =
      (gtB (k+1) v x).toNat + (if v.testBit k then 0 else (hi (k+1) v x).toNat) := by
    intro x
    unfold gtB hi
    rw [div_succ x k, div_succ v k]
    generalize x / 2^(k+1) = a
    generalize v / 2^(k+1) = b
    cases x.testBit k <;> cases v.testBit k <;> simp only [Bool.toNat_true, Bool.toNat_false, if_pos, Bool.false_eq_true, if_false, dn] <;>
      split_ifs <;> omega
  induction M with
  | nil => simp
  | cons x M ih =>
    have hx := key x
    simp only [List.filter_cons]
    cases e0 : v.testBit k <;> cases e1 : gtB k v x <;> cases e2 : hi k v x <;> cases e3 : gtB (k+1) v x <;> cases e4 : hi (k+1) v x <;>
      rw [e0, e1, e2, e3, e4] at hx <;> rw [e0] at ih <;> simp at hx ih ⊢ <;> omega

theorem hi_len_le (k v : Nat) (M : List Nat) : (M.filter (hi k v)).length ≤ (M.filter (hi (k+1) v)).length := by
  rw [← hi_filter]; exact List.length_filter_le _ _

theorem lt_gt_empty (v : Nat) (M : List Nat) : ∀ k, M.filter (hi k v) = [] →
    (M.filter (ltB 0 v)).length = (M.filter (ltB k v)).length ∧ (M.filter (gtB 0 v)).length = (M.filter (gtB k v)).length
  | 0, _ => ⟨rfl, rfl⟩
  | k+1, h => by
      have h1 := lt_step k v M
      have h2 := gt_step k v M
      have h3 := hi_len_le k v M
      rw [h, List.length_nil] at h1 h2 h3
      have h4 : (M.filter (hi k v)).length = 0 := by omega
      have ih := lt_gt_empty v M k (List.length_eq_zero_iff.mp h4)
      rw [h4] at h1 h2
      simp only [ite_self, Nat.add_zero] at h1 h2
      omega

theorem r3Loop_ok {w : WM} {S : List Nat} (ok : Ok w S) (v : Nat) (M : List Nat) : ∀ (k l r : Nat), k ≤ w.h → Sg w S (w.h - k) l r (M.filter (hi k v)) →
    w.r3Loop v k l r (M.filter (ltB k v)).length (M.filter (gtB k v)).length =
      some ((M.filter (ltB 0 v)).length, (M.filter (hi 0 v)).length, (M.filter (gtB 0 v)).length)
  | 0, l, r, _, hs => by rw [WM.r3Loop, hs.usub]; rfl
  | k+1, l, r, hk, hs => by
      rw [WM.r3Loop, hs.usub, Option.bind_some]
      by_cases c : (M.filter (hi (k+1) v)).length = 0
      · rw [if_pos c]
        have hn := List.length_eq_zero_iff.mp c
        obtain ⟨a, b⟩ := lt_gt_empty v M (k+1) hn
        rw [a, b, hn, hi_zero_nil hn]
      · rw [if_neg c, cbit_nat]
        obtain ⟨l', r', e, h'⟩ := ok.tie (hs.ne (fun hh => c (by rw [hh]; rfl))) (by omega) hs (v.testBit k)
        rw [show w.h - 1 - (w.h - (k + 1)) = k by omega, hi_filter, show w.h - (k + 1) + 1 = w.h - k by omega] at h'
        have hl := hi_len_le k v M
        have hu : usub (M.filter (hi (k+1) v)).length (M.filter (hi k v)).length =
            some ((M.filter (hi (k+1) v)).length - (M.filter (hi k v)).length) := by unfold usub; rw [if_pos hl]
        rw [show w.h - 1 - k = w.h - (k + 1) by omega, e, Option.bind_some, h'.usub, Option.bind_some, hu, Option.bind_some]
        have h1 := lt_step k v M
        have h2 := gt_step k v M
        have ih := r3Loop_ok ok v M k l' r' (by omega) h'
        cases cb : v.testBit k
        · rw [cb] at h1 h2
          simp only [Bool.false_eq_true, if_false] at h1 h2 ⊢
          rw [← ih]
          congr 1 <;> omega
        · rw [cb] at h1 h2
          simp only [if_pos] at h1 h2 ⊢
          rw [← ih]
          congr 1 <;> omega

theorem rank3_ok {w : WM} {S : List Nat} (ok : Ok w S) {v l r : Nat} (hv : v < 2^w.h) (h1 : l ≤ r) (h2 : r ≤ S.length) :
    w.rank3 v l r = some (((slice S l r).filter (fun x => decide (x < v))).length, (slice S l r).count v,
      ((slice S l r).filter (fun x => decide (v < x))).length) := by
  have hs := Sg.start (w := w) h1 h2
  have hm : ∀ x ∈ slice S l r, x < 2^w.h := fun x hx => ok.lt x (slice_mem hx)
  rw [← hi_top hm hv] at hs
  have e := r3Loop_ok ok v (slice S l r) w.h l r (Nat.le_refl _) (by rw [Nat.sub_self]; exact hs)
  have z1 : (slice S l r).filter (ltB w.h v) = [] := by
    rw [List.filter_eq_nil_iff]
    intro x hx
    unfold ltB
    rw [Nat.div_eq_of_lt (hm x hx), Nat.div_eq_of_lt hv]; simp
  have z2 : (slice S l r).filter (gtB w.h v) = [] := by
    rw [List.filter_eq_nil_iff]
    intro x hx
    unfold gtB
    rw [Nat.div_eq_of_lt (hm x hx), Nat.div_eq_of_lt hv]; simp
  rw [z1, z2] at e
  have e0 : (slice S l r).filter (hi 0 v) = (slice S l r).filter (· == v) := List.filter_congr (fun x _ => hi_zero v x)
  unfold WM.rank3
  rw [List.count, List.countP_eq_length_filter, ← e0]
  have el : (slice S l r).filter (ltB 0 v) = (slice S l r).filter (fun x => decide (x < v)) :=
    List.filter_congr (fun x _ => by unfold ltB; simp)
  have eg : (slice S l r).filter (gtB 0 v) = (slice S l r).filter (fun x => decide (v < x)) :=
    List.filter_congr (fun x _ => by unfold gtB; simp)
  rw [el, eg] at e
  exact e

/-! ### quantile -/

theorem or_bit {c d : Nat} (hc : c % 2^(d+1) = 0) : c ||| 2^d = c + 2^d := by
  have h := Nat.two_pow_add_eq_or_of_lt (i := d + 1) (b := 2^d) (by rw [Nat.pow_succ]; have := Nat.two_pow_pos d; omega) (c / 2^(d+1))
  have e : 2^(d+1) * (c / 2^(d+1)) = c := Nat.mul_div_cancel' (Nat.dvd_of_mod_eq_zero hc)
  rw [e] at h
  exact h.symm

/-- Setting bit `d` of a multiple of `2^(d+1)`. -/
theorem ext_bit {c d : Nat} (hc : c % 2^(d+1) = 0) (b : Bool) :
    (if b then c ||| 2^d else c) % 2^d = 0 ∧ (if b then c ||| 2^d else c).testBit d = b ∧ (if b then c ||| 2^d else c) / 2^(d+1) = c / 2^(d+1) := by
  obtain ⟨q, rfl⟩ := Nat.dvd_of_mod_eq_zero hc
  have hp := Nat.two_pow_pos d
  have e1 : 2^(d+1) * q = 2^d * (2 * q) := by rw [Nat.pow_succ, Nat.mul_assoc]
  cases b
  · simp only [Bool.false_eq_true, if_false, and_true]
    refine ⟨by rw [e1, Nat.mul_mod_right], ?_⟩
    rw [Nat.testBit_eq_decide_div_mod_eq, e1, Nat.mul_div_cancel_left _ hp]; simp
  · simp only [if_pos]
    rw [or_bit hc, e1]
    refine ⟨?_, ?_, ?_⟩
    · rw [Nat.mul_add_mod, Nat.mod_self]
    · rw [Nat.testBit_eq_decide_div_mod_eq, Nat.mul_add_div hp, Nat.div_self hp]; simp
    · rw [Nat.pow_succ, ← Nat.div_div_eq_div_mul, Nat.mul_add_div hp, Nat.div_self hp, ← Nat.div_div_eq_div_mul, Nat.mul_div_cancel_left _ hp]; omega

theorem hi_congr {k v v' : Nat} (h : v / 2^k = v' / 2^k) : hi k v = hi k v' := by funext x; unfold hi; rw [h]
theorem ltB_congr {k v v' : Nat} (h : v / 2^k = v' / 2^k) : ltB k v = ltB k v' := by funext x; unfold ltB; rw [h]

/-- The state of `quantile` with `d` bits to go: `k` is the index in the range, among the elements that agree with `c`. -/
structure QInv (w : WM) (S M : List Nat) (K d l r k c : Nat) : Prop where
  sg : Sg w S (w.h - d) l r (M.filter (hi d c))
  c0 : c % 2^d = 0
  idx : (M.filter (ltB d c)).length + k = K
  lt : k < (M.filter (hi d c)).length

theorem rk_diff {w : WM} {S : List Nat} (ok : Ok w S) {t l r : Nat} {M : List Nat} (ht : t < w.h) (hs : Sg w S t l r M) (hM : M ≠ []) :
    ∃ a b, w.rk r = some a ∧ w.rk l = some b ∧ usub a b = some ((M.filter (hb (w.h - 1 - t) true)).length) ∧
      usub M.length ((M.filter (hb (w.h - 1 - t) true)).length) = some ((M.filter (hb (w.h - 1 - t) false)).length) := by
  have hne := hs.ne hM
  obtain ⟨A, C, e, rfl, rfl⟩ := hs
  have hlen := lev_length w.h S t
  rw [e, List.length_append, List.length_append] at hlen
  have hle : S.length * (t + 1) ≤ S.length * w.h := Nat.mul_le_mul_left _ ht
  rw [Nat.mul_add, Nat.mul_one] at hle
  have c1 := ok.cnt ht true A.length (by omega)
  have c2 := ok.cnt ht true (A.length + M.length) (by omega)
  rw [e, List.append_assoc, List.take_append_of_le_length (Nat.le_refl _), List.take_length] at c1
  rw [e, List.take_append_of_le_length (by rw [List.length_append]), ← List.length_append, List.take_length, List.filter_append, List.length_append, List.length_append,
    ← Nat.add_assoc] at c2
  refine ⟨_, _, ok.le hne (by omega), ok.le hne (by omega), ?_, ?_⟩
  · unfold usub
    rw [c1, c2, if_pos (by omega)]
    congr 1
    omega
  · unfold usub
    have := filter_split_length (w.h - 1 - t) M
    rw [if_pos (by omega)]
    congr 1
    omega

/-- One bit of `quantile`. -/
theorem q_step {w : WM} {S M : List Nat} (ok : Ok w S) {K d l r k c : Nat} (hd : d < w.h) (h : QInv w S M K (d+1) l r k c) {zs : Nat}
    (hz : zs = ((M.filter (hi (d+1) c)).filter (hb d false)).length) :
    ∃ l' r', w.tie (w.h - 1 - d) l r (decide (zs ≤ k)) = some (l', r') ∧
      QInv w S M K d l' r' (if zs ≤ k then k - zs else k) (if zs ≤ k then c ||| 2^d else c) ∧ l' < r' := by
  have hM : M.filter (hi (d+1) c) ≠ [] := by intro hh; have := h.lt; rw [hh] at this; simp at this
  obtain ⟨l', r', e, h'⟩ := ok.tie (h.sg.ne hM) (by omega) h.sg (decide (zs ≤ k))
  obtain ⟨e1, e2, e3⟩ := ext_bit h.c0 (decide (zs ≤ k))
  have e0 : (if decide (zs ≤ k) = true then c ||| 2^d else c) = if zs ≤ k then c ||| 2^d else c := by simp
  rw [e0] at e1 e2 e3
  rw [show w.h - 1 - (w.h - (d + 1)) = d by omega, show w.h - (d + 1) + 1 = w.h - d by omega] at h'
  have hc' := h.idx
  have hlt := h.lt
  rw [ltB_congr e3.symm] at hc'
  rw [hi_congr e3.symm] at h' hlt hz
  generalize (if zs ≤ k then c ||| 2^d else c) = c' at *
  have hsp := filter_split_length d (M.filter (hi (d+1) c'))
  rw [← e2, hi_filter] at h'
  have hst := lt_step d c' M
  have hf := hi_filter d c' M
  rw [e2] at hst hf
  refine ⟨l', r', by rw [show w.h - 1 - d = w.h - (d + 1) by omega]; exact e, ?_⟩
  by_cases cz : zs ≤ k
  · simp only [cz, if_true, decide_true] at hst hf e2 ⊢
    rw [hf] at hsp
    have hl : k - zs < (M.filter (hi d c')).length := by omega
    refine ⟨⟨h', e1, by omega, hl⟩, ?_⟩
    have := h'.le; omega
  · simp only [cz, if_false, decide_false, Bool.false_eq_true] at hst hf e2 ⊢
    rw [hf] at hsp hz
    have hl : k < (M.filter (hi d c')).length := by omega
    refine ⟨⟨h', e1, by omega, hl⟩, ?_⟩
    have := h'.le; omega

theorem qLoop_ok {w : WM} {S M : List Nat} (ok : Ok w S) {K : Nat} : ∀ (d l r k c : Nat), d < w.h → QInv w S M K (d+1) l r k c →
    ∃ l' r' k' c', w.qLoop d l r k c = some (l', r', k', c') ∧ QInv w S M K 1 l' r' k' c'
  | 0, l, r, k, c, _, h => ⟨l, r, k, c, rfl, h⟩
  | d+1, l, r, k, c, hd, h => by
      have hM : M.filter (hi (d+1+1) c) ≠ [] := by intro hh; have := h.lt; rw [hh] at this; simp at this
      obtain ⟨a, b, ea, eb, e1, e2⟩ := rk_diff ok (by omega) h.sg hM
      obtain ⟨l', r', et, hq, hlt⟩ := q_step ok hd h rfl
      rw [show w.h - 1 - (w.h - (d + 1 + 1)) = d + 1 by omega] at e1 e2
      rw [WM.qLoop, ea, Option.bind_some, eb, Option.bind_some, e1, Option.bind_some, h.sg.usub, Option.bind_some, e2, Option.bind_some]
      generalize ((M.filter (hi (d+1+1) c)).filter (hb (d+1) false)).length = zs at *
      by_cases cz : zs ≤ k
      · simp only [cz, if_true, decide_true] at et hq
        rw [if_neg (by omega), et, Option.bind_some, if_pos hlt]
        exact qLoop_ok ok d l' r' _ _ (by omega) hq
      · simp only [cz, if_false, decide_false] at et hq
        rw [if_pos (by omega), et, Option.bind_some, if_pos hlt]
        exact qLoop_ok ok d l' r' _ _ (by omega) hq

theorem quantile_fin {w : WM} {S M : List Nat} {K l r k v : Nat} (hq : QInv w S M K 0 l r k v) :
    v ∈ M ∧ (M.filter (fun x => decide (x < v))).length ≤ K ∧ K < (M.filter (fun x => decide (x ≤ v))).length := by
  have hk2 := hq.idx
  have hl2 := hq.lt
  have el : M.filter (ltB 0 v) = M.filter (fun x => decide (x < v)) :=
    List.filter_congr (fun x _ => by unfold ltB; simp)
  have hle := len_add (p := fun x => decide (x ≤ v)) (q := fun x => decide (x < v)) (r := hi 0 v) M (by
    intro x _
    unfold hi
    simp only [dn, Nat.pow_zero, Nat.div_one]
    split_ifs <;> omega)
  rw [el] at hk2
  refine ⟨?_, by omega, by omega⟩
  have hne : M.filter (hi 0 v) ≠ [] := by intro hh; rw [hh] at hl2; simp at hl2
  obtain ⟨x, hx⟩ := List.exists_mem_of_ne_nil _ hne
  rw [List.mem_filter, hi_zero] at hx
  have : x = v := by simpa using hx.2
  rw [← this]; exact hx.1

theorem quantile_ok {w : WM} {S : List Nat} (ok : Ok w S) {l r k : Nat} (h1 : l ≤ r) (h2 : r ≤ S.length) (hk : k < r - l) :
    ∃ v, w.quantile l r k = some v ∧ v ∈ slice S l r ∧ ((slice S l r).filter (fun x => decide (x < v))).length ≤ k ∧
      k < ((slice S l r).filter (fun x => decide (x ≤ v))).length := by
  have hs := Sg.start (w := w) h1 h2
  have hh1 := ok.h1
  have hm : ∀ x ∈ slice S l r, x < 2^w.h := fun x hx => ok.lt x (slice_mem hx)
  have hl := (slice_split h1 h2).2
  rw [← hi_top hm (Nat.two_pow_pos _)] at hs
  have z1 : (slice S l r).filter (ltB w.h 0) = [] := by
    rw [List.filter_eq_nil_iff]
    intro x hx
    unfold ltB
    simp
  have q0 : QInv w S (slice S l r) k (w.h - 1 + 1) l r k 0 := by
    rw [show w.h - 1 + 1 = w.h by omega]
    exact ⟨by rw [Nat.sub_self]; exact hs, Nat.zero_mod _, by rw [z1]; simp, by rw [hi_top hm (Nat.two_pow_pos _), hl]; exact hk⟩
  obtain ⟨l', r', k', c', e, q1⟩ := qLoop_ok ok (w.h - 1) l r k 0 (by omega) q0
  have hM : (slice S l r).filter (hi 1 c') ≠ [] := by intro hh; have := q1.lt; rw [hh] at this; simp at this
  obtain ⟨a, b, ea, eb, e1, e2⟩ := rk_diff ok (by omega) q1.sg hM
  obtain ⟨l2, r2, et, hq, hlt⟩ := q_step (d := 0) ok (by omega) q1 rfl
  rw [show w.h - 1 - (w.h - 1) = 0 by omega] at e1 e2
  have eu : usub r l = some (r - l) := by unfold usub; rw [if_pos h1]
  unfold WM.quantile
  rw [eu, Option.bind_some, if_pos hk, e, Option.bind_some]
  unfold WM.qLast
  dsimp only
  rw [ea, Option.bind_some, eb, Option.bind_some, e1, Option.bind_some, q1.sg.usub, Option.bind_some, e2]
  rw [Nat.pow_zero] at hq
  exact ⟨_, rfl, quantile_fin hq⟩

/-! ### get -/

theorem high_step (x k : Nat) : (if x.testBit k then 2^(k+1) * (x / 2^(k+1)) ||| 2^k else 2^(k+1) * (x / 2^(k+1))) = 2^k * (x / 2^k) := by
  have e := div_succ x k
  have e2 : 2^(k+1) * (x / 2^(k+1)) = 2^k * (2 * (x / 2^(k+1))) := by rw [Nat.pow_succ, Nat.mul_assoc]
  cases c : x.testBit k
  · rw [c] at e
    simp only [Bool.false_eq_true, if_false]
    rw [e2, e]; rfl
  · rw [c] at e
    simp only [if_pos]
    rw [or_bit (Nat.mul_mod_right _ _), e2, e, Nat.mul_add]; simp

theorem Sg.get {w : WM} {S : List Nat} {t j x : Nat} (h : Sg w S t j (j+1) [x]) : ∃ i, j = S.length * t + i ∧ (lev w.h S t)[i]? = some x := by
  obtain ⟨A, C, e, rfl, _⟩ := h
  exact ⟨A.length, rfl, by rw [e]; simp⟩

theorem Ok.bitAt {w : WM} {S : List Nat} (ok : Ok w S) {t j x : Nat} (ht : t < w.h) (h : Sg w S t j (j+1) [x]) : w.B.get j = some (x.testBit (w.h - 1 - t)) := by
  obtain ⟨i, rfl, hx⟩ := h.get
  exact (ok.bit ht hx).2.1

theorem Ok.next {w : WM} {S : List Nat} (ok : Ok w S) {t j x : Nat} (ht : t < w.h) (h : Sg w S t j (j+1) [x]) :
    ∃ j', w.child t j (x.testBit (w.h - 1 - t)) = some j' ∧ Sg w S (t + 1) j' (j'+1) [x] := by
  obtain ⟨l', r', e, h'⟩ := ok.tie (h.ne (by simp)) ht h (x.testBit (w.h - 1 - t))
  have e1 : [x].filter (hb (w.h - 1 - t) (x.testBit (w.h - 1 - t))) = [x] := by simp [hb]
  rw [e1] at h'
  unfold WM.tie at e
  obtain ⟨a, ea, e⟩ := Option.bind_eq_some_iff.mp e
  obtain ⟨b, eb, e⟩ := Option.map_eq_some_iff.mp e
  have h3 : a = l' := congrArg Prod.fst e
  have := h'.le
  simp at this
  refine ⟨l', by rw [ea, h3], ?_⟩
  rwa [show r' = l' + 1 by omega] at h'

theorem getLoop_ok {w : WM} {S : List Nat} (ok : Ok w S) (x : Nat) : ∀ (k j : Nat), k < w.h → Sg w S (w.h - (k+1)) j (j+1) [x] →
    ∃ j', w.getLoop k j (2^(k+1) * (x / 2^(k+1))) = some (j', 2^1 * (x / 2^1)) ∧ Sg w S (w.h - 1) j' (j'+1) [x]
  | 0, j, _, h => ⟨j, rfl, h⟩
  | k+1, j, hk, h => by
      have hb := ok.bitAt (by omega) h
      obtain ⟨j', e, h'⟩ := ok.next (by omega) h
      rw [show w.h - 1 - (w.h - (k + 1 + 1)) = k + 1 by omega] at hb e
      rw [show w.h - (k + 1 + 1) + 1 = w.h - (k + 1) by omega] at h'
      rw [WM.getLoop, hb, Option.bind_some, show w.h - 1 - (k + 1) = w.h - (k + 1 + 1) by omega, e, Option.bind_some, high_step]
      exact getLoop_ok ok x k j' (by omega) h'

theorem get_ok' {w : WM} {S : List Nat} (ok : Ok w S) {i x : Nat} (hx : S[i]? = some x) : w.get i = some x := by
  have hi : i < S.length := (List.getElem?_eq_some_iff.mp hx).1
  have hh1 := ok.h1
  have hmem : x ∈ S := List.mem_of_getElem? hx
  have hs : Sg w S (w.h - (w.h - 1 + 1)) i (i+1) [x] := by
    rw [show w.h - (w.h - 1 + 1) = 0 by omega]
    refine ⟨S.take i, S.drop (i+1), ?_, by simp; omega, rfl⟩
    show S = _
    conv => lhs; rw [← List.take_append_drop i S]
    rw [List.append_assoc, List.drop_eq_getElem_cons hi]
    have : S[i] = x := by rw [List.getElem?_eq_getElem hi] at hx; exact Option.some.inj hx
    rw [this]; rfl
  obtain ⟨j', e, h'⟩ := getLoop_ok ok x (w.h - 1) i (by omega) hs
  rw [show w.h - 1 + 1 = w.h by omega, Nat.div_eq_of_lt (ok.lt x hmem), Nat.mul_zero] at e
  have hb := ok.bitAt (by omega) h'
  rw [show w.h - 1 - (w.h - 1) = 0 by omega] at hb
  unfold WM.get
  rw [e, Option.bind_some]
  dsimp only
  rw [hb, Option.map_some]
  have := high_step x 0
  rw [Nat.zero_add, Nat.pow_zero, Nat.div_one, Nat.one_mul] at this
  rw [this]

/-! ### range_freq -/

/-- Elements of the query range below the queue item. -/
def ival (w : WM) (M : List Nat) (q : Nat × Nat × Nat) : List Nat := M.filter (hi (w.h - q.1 / w.n) q.2.2)

structure IOk (w : WM) (S M : List Nat) (q : Nat × Nat × Nat) : Prop where
  lv : q.1 / w.n ≤ w.h
  sg : Sg w S (q.1 / w.n) q.1 q.2.1 (ival w M q)
  lt : q.1 < q.2.1
  c0 : q.2.2 % 2^(w.h - q.1 / w.n) = 0

theorem Sg.level {w : WM} {S : List Nat} (ok : Ok w S) {t l r : Nat} {M : List Nat} (h : Sg w S t l r M) (hlt : l < r) : l / w.n = t := by
  have hl := h.le
  obtain ⟨A, C, e, rfl, _⟩ := h
  have hlen := lev_length w.h S t
  rw [e, List.length_append, List.length_append] at hlen
  rw [ok.n, Nat.mul_add_div (by omega), Nat.div_eq_of_lt (by omega), Nat.add_zero]

/-- Work left for an item. -/
def wt (w : WM) (q : Nat × Nat × Nat) : Nat := (q.2.1 - q.1) * (w.h + 1 - q.1 / w.n)

theorem rf_child {w : WM} {S M : List Nat} (ok : Ok w S) {l r c : Nat} (h : IOk w S M (l, r, c)) (hlv : l / w.n < w.h) (b : Bool) (R : Nat → Bool)
    (q : List (Nat × Nat × Nat)) (hq : ∀ i ∈ q, IOk w S M i) :
    ∃ p, w.tie (l / w.n) l r b = some p ∧
      (∀ i ∈ pushIf q p.1 p.2 (if b then c ||| 2^(w.h - 1 - l / w.n) else c), IOk w S M i) ∧
      ((pushIf q p.1 p.2 (if b then c ||| 2^(w.h - 1 - l / w.n) else c)).map (wt w)).sum =
        (q.map (wt w)).sum + ((ival w M (l, r, c)).filter (hb (w.h - 1 - l / w.n) b)).length * (w.h - l / w.n) ∧
      ((pushIf q p.1 p.2 (if b then c ||| 2^(w.h - 1 - l / w.n) else c)).map (fun i => ((ival w M i).filter R).length)).sum =
        (q.map (fun i => ((ival w M i).filter R).length)).sum + (((ival w M (l, r, c)).filter (hb (w.h - 1 - l / w.n) b)).filter R).length := by
  have hM := ne_nil_of_lt h.sg h.lt
  obtain ⟨l', r', e, h'⟩ := ok.tie (h.sg.ne hM) hlv h.sg b
  refine ⟨(l', r'), e, ?_⟩
  have hc0 : c % 2^(w.h - 1 - l / w.n + 1) = 0 := by
    have := h.c0
    rwa [show w.h - l / w.n = w.h - 1 - l / w.n + 1 by omega] at this
  obtain ⟨e1, e2, e3⟩ := ext_bit hc0 b
  dsimp only
  generalize (if b then c ||| 2^(w.h - 1 - l / w.n) else c) = c' at *
  have hval : (ival w M (l, r, c)).filter (hb (w.h - 1 - l / w.n) b) = M.filter (hi (w.h - (l / w.n + 1)) c') := by
    unfold ival
    dsimp only
    rw [show w.h - l / w.n = w.h - 1 - l / w.n + 1 by omega, hi_congr e3.symm, ← e2, hi_filter, show w.h - 1 - l / w.n = w.h - (l / w.n + 1) by omega]
  rw [hval] at h' ⊢
  have hle := h'.le
  unfold pushIf
  by_cases c1 : l' < r'
  · rw [if_pos c1]
    have hlev : l' / w.n = l / w.n + 1 := h'.level ok c1
    have hiv : ival w M (l', r', c') = M.filter (hi (w.h - (l / w.n + 1)) c') := by unfold ival; dsimp only; rw [hlev]
    refine ⟨?_, ?_, ?_⟩
    · intro i hi
      rcases List.mem_append.mp hi with hi | hi
      · exact hq i hi
      · rw [List.mem_singleton] at hi
        subst hi
        refine ⟨by dsimp only; omega, ?_, c1, ?_⟩
        · rw [hiv]; dsimp only; rw [hlev]; exact h'
        · dsimp only
          rw [hlev, show w.h - (l / w.n + 1) = w.h - 1 - l / w.n by omega]; exact e1
    · rw [List.map_append, List.sum_append]
      simp only [List.map_cons, List.map_nil, List.sum_cons, List.sum_nil, wt, Nat.add_zero]
      rw [hlev, hle.2, show w.h + 1 - (l / w.n + 1) = w.h - l / w.n by omega]
    · rw [List.map_append, List.sum_append]
      simp only [List.map_cons, List.map_nil, List.sum_cons, List.sum_nil, Nat.add_zero]
      rw [hiv]
  · rw [if_neg c1]
    have hz : M.filter (hi (w.h - (l / w.n + 1)) c') = [] := List.length_eq_zero_iff.mp (by omega)
    rw [hz]
    exact ⟨hq, by simp, by simp⟩

theorem filter_comm' (p q : Nat → Bool) (L : List Nat) : (L.filter p).filter q = (L.filter q).filter p := by
  rw [List.filter_filter, List.filter_filter]
  exact List.filter_congr (fun x _ => Bool.and_comm _ _)

theorem rfLoop_ok {w : WM} {S M : List Nat} (ok : Ok w S) (h64 : w.h < 64) (x y : Int) : ∀ (fuel : Nat) (q : List (Nat × Nat × Nat)) (freq : Nat),
    (∀ i ∈ q, IOk w S M i) → (q.map (wt w)).sum ≤ fuel →
    w.rfLoop x y fuel q freq = some (freq + (q.map (fun i => ((ival w M i).filter (fun (v : Nat) => decide (x ≤ (v : Int) ∧ (v : Int) < y))).length)).sum)
  | fuel, [], freq, _, _ => by cases fuel <;> simp [WM.rfLoop]
  | 0, (l, r, c) :: q, freq, hq, hf => by
      have h := hq _ List.mem_cons_self
      have hlv := h.lv
      have hlt := h.lt
      rw [List.map_cons, List.sum_cons] at hf
      have : 0 < wt w (l, r, c) := Nat.mul_pos (by dsimp only at *; omega) (by dsimp only at *; omega)
      omega
  | fuel+1, (l, r, c) :: q, freq, hq, hf => by
      have h := hq _ List.mem_cons_self
      have hq' : ∀ i ∈ q, IOk w S M i := fun i hi => hq i (List.mem_cons_of_mem _ hi)
      have hlv : l / w.n ≤ w.h := h.lv
      have hlt : l < r := h.lt
      have hM := ne_nil_of_lt h.sg h.lt
      have hS := h.sg.ne hM
      have hn0 : w.n ≠ 0 := by rw [ok.n]; intro hh; exact hS (List.length_eq_zero_iff.mp hh)
      rw [List.map_cons, List.sum_cons] at hf
      have hlen : r - l = (ival w M (l, r, c)).length := h.sg.le.2
      have hw0 : 0 < wt w (l, r, c) := Nat.mul_pos (by dsimp only; omega) (by dsimp only; omega)
      have hpos := Nat.two_pow_pos (w.h - l / w.n)
      have hc0 : c % 2^(w.h - l / w.n) = 0 := h.c0
      have hchi : c ||| (2^(w.h - l / w.n) - 1) = c + (2^(w.h - l / w.n) - 1) := by
        have := Nat.two_pow_add_eq_or_of_lt (i := w.h - l / w.n) (b := 2^(w.h - l / w.n) - 1) (by omega) (c / 2^(w.h - l / w.n))
        rw [Nat.mul_div_cancel' (Nat.dvd_of_mod_eq_zero hc0)] at this
        exact this.symm
      have hbnd : ∀ v ∈ ival w M (l, r, c), c ≤ v ∧ v ≤ c + (2^(w.h - l / w.n) - 1) := by
        intro v hv
        have := (List.mem_filter.mp hv).2
        unfold hi at this
        dsimp only at this
        have this := of_decide_eq_true this
        have d1 := Nat.div_add_mod v (2^(w.h - l / w.n))
        have d2 := Nat.div_add_mod c (2^(w.h - l / w.n))
        have d3 := Nat.mod_lt v hpos
        rw [this] at d1
        generalize 2^(w.h - l / w.n) * (c / 2^(w.h - l / w.n)) = z at *
        omega
      rw [WM.rfLoop, if_pos ⟨hlt, hn0, Nat.lt_of_le_of_lt (Nat.sub_le _ _) h64⟩, hchi, List.map_cons, List.sum_cons]
      by_cases c1 : (((c + (2^(w.h - l / w.n) - 1) : Nat) : Int) < x ∨ y ≤ (c : Int))
      · rw [if_pos c1, rfLoop_ok ok h64 x y fuel q freq hq' (by omega)]
        have hz : (ival w M (l, r, c)).filter (fun (v : Nat) => decide (x ≤ (v : Int) ∧ (v : Int) < y)) = [] := by
          rw [List.filter_eq_nil_iff]
          intro v hv hd
          have hd := of_decide_eq_true hd
          have := hbnd v hv
          omega
        rw [hz, List.length_nil, Nat.zero_add]
      · rw [if_neg c1]
        by_cases c2 : x ≤ (c : Int) ∧ ((c + (2^(w.h - l / w.n) - 1) : Nat) : Int) < y
        · rw [if_pos c2, rfLoop_ok ok h64 x y fuel q (freq + (r - l)) hq' (by omega)]
          have hz : (ival w M (l, r, c)).filter (fun (v : Nat) => decide (x ≤ (v : Int) ∧ (v : Int) < y)) = ival w M (l, r, c) := by
            rw [List.filter_eq_self]
            intro v hv
            have := hbnd v hv
            exact decide_eq_true (by omega)
          rw [hz, hlen, Nat.add_assoc]
        · rw [if_neg c2]
          have hlv2 : l / w.n < w.h := by
            by_contra hc
            have : w.h - l / w.n = 0 := by omega
            rw [this] at c1 c2
            simp at c1 c2
            omega
          obtain ⟨p0, t0, a0, b0, d0⟩ := rf_child ok h hlv2 false (fun (v : Nat) => decide (x ≤ (v : Int) ∧ (v : Int) < y)) q hq'
          obtain ⟨p1, t1, a1, b1, d1⟩ := rf_child ok h hlv2 true (fun (v : Nat) => decide (x ≤ (v : Int) ∧ (v : Int) < y)) _ a0
          simp only [Bool.false_eq_true, if_false] at a0 b0 d0 a1 b1 d1
          simp only [if_pos] at a1 b1 d1
          have ec : w.rfChildren l r c q = some (pushIf (pushIf q p0.1 p0.2 c) p1.1 p1.2 (c ||| 2^(w.h - 1 - l / w.n))) := by
            unfold WM.rfChildren
            rw [if_pos hlv2, t0, Option.bind_some, t1]; rfl
          have hsp := filter_split_length (w.h - 1 - l / w.n) (ival w M (l, r, c))
          have hsp2 := filter_split_length (w.h - 1 - l / w.n) ((ival w M (l, r, c)).filter (fun (v : Nat) => decide (x ≤ (v : Int) ∧ (v : Int) < y)))
          rw [filter_comm' _ (hb _ false), filter_comm' _ (hb _ true)] at hsp2
          have hwt : wt w (l, r, c) = (ival w M (l, r, c)).length * (w.h - l / w.n) + (ival w M (l, r, c)).length := by
            unfold wt
            dsimp only
            rw [hlen, show w.h + 1 - l / w.n = w.h - l / w.n + 1 by omega, Nat.mul_add, Nat.mul_one]
          rw [ec, Option.bind_some, rfLoop_ok ok h64 x y fuel _ freq a1 (by
            rw [b1, b0, Nat.add_assoc, ← Nat.add_mul, hsp]
            omega)]
          rw [d1, d0]
          congr 1
          omega

theorem rangeFreq_ok {w : WM} {S : List Nat} (ok : Ok w S) (h64 : w.h < 64) {l r : Nat} (h1 : l ≤ r) (h2 : r ≤ S.length) (x y : Int) :
    w.rangeFreq l r x y = some ((slice S l r).filter (fun (v : Nat) => decide (x ≤ (v : Int) ∧ (v : Int) < y))).length := by
  unfold WM.rangeFreq
  have hl := (slice_split h1 h2).2
  by_cases c : l = r
  · rw [if_pos c]
    have : slice S l r = [] := List.length_eq_zero_iff.mp (by omega)
    rw [this]; rfl
  · rw [if_neg c]
    have hm : ∀ x ∈ slice S l r, x < 2^w.h := fun x hx => ok.lt x (slice_mem hx)
    have hs := Sg.start (w := w) h1 h2
    have hlev := hs.level ok (by omega)
    have hiv : ival w (slice S l r) (l, r, 0) = slice S l r := by
      unfold ival
      dsimp only
      rw [hlev, Nat.sub_zero, hi_top hm (Nat.two_pow_pos _)]
    have hi0 : IOk w S (slice S l r) (l, r, 0) := by
      refine ⟨by dsimp only; omega, ?_, by dsimp only; omega, Nat.zero_mod _⟩
      rw [hiv]; dsimp only; rw [hlev]; exact hs
    have := rfLoop_ok (M := slice S l r) ok h64 x y ((r - l) * (w.h + 1) + 1) [(l, r, 0)] 0 (by
      intro i hi; rw [List.mem_singleton] at hi; subst hi; exact hi0) (by
      simp only [List.map_cons, List.map_nil, List.sum_cons, List.sum_nil, wt, Nat.add_zero]
      rw [hlev]
      simp)
    rw [this]
    simp only [List.map_cons, List.map_nil, List.sum_cons, List.sum_nil, Nat.add_zero, Nat.zero_add]
    rw [hiv]

/-! ### range_select -/

theorem Ok.up {w : WM} {S : List Nat} (ok : Ok w S) {t l v : Nat} {P Q : List Nat} {r l' r' : Nat} (ht : t < w.h) (hs : Sg w S t l r (P ++ v :: Q))
    (e : w.tie t l r (v.testBit (w.h - 1 - t)) = some (l', r')) :
    w.parent t (l' + (P.filter (hb (w.h - 1 - t) (v.testBit (w.h - 1 - t)))).length) (v.testBit (w.h - 1 - t)) = some (l + P.length) ∧
      w.B.get (l + P.length) = some (v.testBit (w.h - 1 - t)) := by
  have hne := hs.ne (by simp)
  obtain ⟨A, C, el, rfl, _⟩ := hs
  have hs1 : Sg w S t (S.length * t + A.length) (S.length * t + A.length + P.length) P := ⟨A, v :: Q ++ C, by rw [el]; simp, rfl, rfl⟩
  obtain ⟨l1, r1, e1, h1⟩ := ok.tie hne ht hs1 (v.testBit (w.h - 1 - t))
  unfold WM.tie at e e1
  obtain ⟨a, ea, e⟩ := Option.bind_eq_some_iff.mp e
  obtain ⟨b, eb, e⟩ := Option.map_eq_some_iff.mp e
  have ha : a = l' := congrArg Prod.fst e
  rw [ea, Option.bind_some] at e1
  obtain ⟨b1, eb1, e1⟩ := Option.map_eq_some_iff.mp e1
  have ha1 : a = l1 := congrArg Prod.fst e1
  have hb1 : b1 = r1 := congrArg Prod.snd e1
  have hx : (lev w.h S t)[A.length + P.length]? = some v := by
    rw [el, show A ++ (P ++ v :: Q) ++ C = (A ++ P) ++ (v :: (Q ++ C)) by simp, List.getElem?_append_right (by simp)]
    simp
  have hle := h1.le
  rw [Nat.add_assoc] at eb1 ⊢
  have := ok.parent ht hx eb1
  rw [← ha, ha1, show l1 + (P.filter (hb (w.h - 1 - t) (v.testBit (w.h - 1 - t)))).length = b1 by omega]
  exact ⟨this, (ok.bit ht hx).2.1⟩

theorem filter_hi_split {v k : Nat} {P Q : List Nat} : (P ++ v :: Q).filter (hi k v) = P.filter (hi k v) ++ v :: Q.filter (hi k v) := by
  rw [List.filter_append, List.filter_cons, if_pos (by unfold hi; simp)]

theorem selDown_none {w : WM} {S : List Nat} (ok : Ok w S) (v i : Nat) (M : List Nat) (hM : (M.filter (hi 0 v)).length ≤ i) : ∀ (k l r : Nat), k ≤ w.h →
    Sg w S (w.h - k) l r (M.filter (hi k v)) → i < (M.filter (hi k v)).length → w.selDown v i k l r = some none
  | 0, l, r, _, _, hi => by omega
  | k+1, l, r, hk, hs, hi => by
      obtain ⟨l', r', e, h'⟩ := ok.tie (hs.ne (by intro hh; rw [hh] at hi; simp at hi)) (by omega) hs (v.testBit k)
      rw [show w.h - 1 - (w.h - (k + 1)) = k by omega, hi_filter, show w.h - (k + 1) + 1 = w.h - k by omega] at h'
      rw [WM.selDown, cbit_nat, show w.h - 1 - k = w.h - (k + 1) by omega, e, Option.bind_some, h'.usub, Option.bind_some]
      by_cases c : (M.filter (Wavelet.hi k v)).length ≤ i
      · rw [if_pos c]
      · rw [if_neg c]
        exact selDown_none ok v i M hM k l' r' (by omega) h' (by omega)

theorem hi_len_le' (k v : Nat) (M : List Nat) : (M.filter (hi 0 v)).length ≤ (M.filter (hi k v)).length := by
  induction k with
  | zero => exact Nat.le_refl _
  | succ k ih => exact Nat.le_trans ih (hi_len_le k v M)

theorem selDown_some {w : WM} {S : List Nat} (ok : Ok w S) (v i : Nat) (P Q : List Nat) (hi : (P.filter (hi 0 v)).length = i) : ∀ (k l r : Nat), k ≤ w.h →
    Sg w S (w.h - k) l r ((P ++ v :: Q).filter (Wavelet.hi k v)) →
    ∃ l' r', w.selDown v i k l r = some (some (l', r')) ∧ forRange 0 k (w.selUp v) (l' + i) = some (l + (P.filter (Wavelet.hi k v)).length)
  | 0, l, r, _, _ => ⟨l, r, rfl, by rw [forRange_nil (Nat.le_refl _), hi]⟩
  | k+1, l, r, hk, hs => by
      obtain ⟨l', r', e, h'⟩ := ok.tie (hs.ne (by rw [filter_hi_split]; simp)) (by omega) hs (v.testBit k)
      have hs2 := hs
      rw [filter_hi_split] at hs2
      have hup := ok.up (l' := l') (r' := r') (by omega) hs2 (by rw [show w.h - 1 - (w.h - (k + 1)) = k by omega]; exact e)
      rw [show w.h - 1 - (w.h - (k + 1)) = k by omega, hi_filter] at hup
      rw [show w.h - 1 - (w.h - (k + 1)) = k by omega, hi_filter, show w.h - (k + 1) + 1 = w.h - k by omega] at h'
      have hgt : i < ((P ++ v :: Q).filter (Wavelet.hi k v)).length := by
        have := hi_len_le' k v P
        rw [filter_hi_split]
        simp
        omega
      obtain ⟨l2, r2, e2, h2⟩ := selDown_some ok v i P Q hi k l' r' (by omega) h'
      refine ⟨l2, r2, ?_, ?_⟩
      · rw [WM.selDown, cbit_nat, show w.h - 1 - k = w.h - (k + 1) by omega, e, Option.bind_some, h'.usub, Option.bind_some, if_neg (by omega)]
        exact e2
      · rw [forRange_last (Nat.zero_le _), h2, Option.bind_some]
        unfold WM.selUp
        rw [cbit_nat, show w.h - 1 - k = w.h - (k + 1) by omega, hup.1, Option.bind_some, hup.2, Option.bind_some, if_pos rfl]

theorem split_ith (v : Nat) : ∀ (M : List Nat) (i : Nat), i < M.count v → ∃ P Q, M = P ++ v :: Q ∧ P.count v = i
  | [], i, h => by simp at h
  | x :: M, i, h => by
      by_cases c : x = v
      · subst c
        rw [List.count_cons_self] at h
        cases i with
        | zero => exact ⟨[], M, rfl, rfl⟩
        | succ i =>
          obtain ⟨P, Q, e, e2⟩ := split_ith x M i (by omega)
          exact ⟨x :: P, Q, by rw [e]; rfl, by rw [List.count_cons_self, e2]⟩
      · rw [List.count_cons_of_ne c] at h
        obtain ⟨P, Q, e, e2⟩ := split_ith v M i h
        exact ⟨x :: P, Q, by rw [e]; rfl, by rw [List.count_cons_of_ne c, e2]⟩

theorem count_hi (v : Nat) (M : List Nat) : (M.filter (hi 0 v)).length = M.count v := by
  rw [List.count, List.countP_eq_length_filter]
  congr 1
  exact List.filter_congr (fun x _ => hi_zero v x)

theorem rangeSelect_ok {w : WM} {S : List Nat} (ok : Ok w S) {v l r : Nat} (hv : v < 2^w.h) (h1 : l ≤ r) (h2 : r ≤ S.length) (i : Nat) :
    (i < (slice S l r).count v → ∃ p, w.rangeSelect v l r i = some p ∧ l ≤ p ∧ p < r ∧ S[p]? = some v ∧ (slice S l p).count v = i) ∧
    ((slice S l r).count v ≤ i → w.rangeSelect v l r i = some S.length) := by
  obtain ⟨es, hl⟩ := slice_split h1 h2
  have hm : ∀ x ∈ slice S l r, x < 2^w.h := fun x hx => ok.lt x (slice_mem hx)
  have hs := Sg.start (w := w) h1 h2
  have hs' := hs
  rw [← hi_top hm hv] at hs'
  unfold WM.rangeSelect
  rw [hs.usub, Option.bind_some, ok.n]
  constructor
  · intro hi
    have hcl := List.count_le_length (a := v) (l := slice S l r)
    rw [if_neg (by omega)]
    obtain ⟨P, Q, e, eP⟩ := split_ith v _ i hi
    rw [e] at hs'
    obtain ⟨l', r', e1, e2⟩ := selDown_some ok v i P Q (by rw [count_hi, eP]) w.h l r (Nat.le_refl _) (by rw [Nat.sub_self]; exact hs')
    rw [e1, Option.bind_some]
    have hP : P.filter (Wavelet.hi w.h v) = P := hi_top (fun x hx => hm x (by rw [e]; exact List.mem_append_left _ hx)) hv
    rw [hP] at e2
    have hlen : P.length < r - l := by rw [← hl, e]; simp
    refine ⟨l + P.length, e2, by omega, by omega, ?_, ?_⟩
    · rw [es, e, show S.take l ++ (P ++ v :: Q) ++ S.drop r = (S.take l ++ P) ++ (v :: Q ++ S.drop r) by simp, List.getElem?_append_right (by simp)]
      have : (S.take l).length = l := by simp; omega
      rw [List.length_append, this, Nat.sub_self]; rfl
    · have : slice S l (l + P.length) = P := by
        unfold slice at e ⊢
        rw [show l + P.length - l = P.length by omega]
        have h3 : ((S.drop l).take (r - l)).take P.length = P := by rw [e]; simp
        rw [List.take_take, Nat.min_eq_left (by omega)] at h3
        exact h3
      rw [this, eP]
  · intro hi
    by_cases c : (slice S l r).length ≤ i
    · rw [if_pos c]
    · rw [if_neg c, selDown_none ok v i (slice S l r) (by rw [count_hi]; exact hi) w.h l r (Nat.le_refl _) (by rw [Nat.sub_self]; exact hs')
        (by rw [hi_top hm hv]; omega)]
      rfl

end Verif.Wavelet
