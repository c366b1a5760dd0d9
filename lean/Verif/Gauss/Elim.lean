import Verif.Gauss.Model
import Mathlib.Algebra.BigOperators.Group.Finset.Basic
import Mathlib.Algebra.BigOperators.Ring.Finset
import Mathlib.Algebra.Field.Basic
import Mathlib.Tactic.Ring
import Mathlib.Tactic.FieldSimp
import Mathlib.Tactic.SplitIfs
/-!
What the loops of the elimination do, on matrices seen as functions.
-/
namespace Verif.Gauss
open Verif Verif.MatrixM

variable {K : Type} [Field K] [DecidableEq K] {R W : Nat} {x : Mat K} {G : Nat → Nat → K}

theorem findRow_ok (h : Rep2 x R W G) {c : Nat} (hc : c < W) : ∀ (f j : Nat), j + f ≤ R →
    ∃ j', findRow x c f j = some j' ∧ j ≤ j' ∧ j' ≤ j + f ∧ (∀ k, j ≤ k → k < j' → G k c = 0) ∧ (j' < j + f → G j' c ≠ 0) := by
  intro f
  induction f with
  | zero => intro j _; exact ⟨j, rfl, le_refl _, le_refl _, fun k h1 h2 => by omega, fun h => by omega⟩
  | succ f ih =>
    intro j hj
    rw [findRow, h.rd (by omega) hc, Option.bind_some]
    by_cases hv : G j c = 0
    · rw [if_pos hv]
      obtain ⟨j', h1, h2, h3, h4, h5⟩ := ih (j+1) (by omega)
      refine ⟨j', h1, by omega, by omega, fun k hk1 hk2 => ?_, fun hlt => h5 (by omega)⟩
      by_cases hkj : k = j
      · subst hkj; exact hv
      · exact h4 k (by omega) hk2
    · rw [if_neg hv]
      exact ⟨j, rfl, le_refl _, by omega, fun k h1 h2 => by omega, fun _ => hv⟩

/-- Two rows exchanged. -/
def swapG (G : Nat → Nat → K) (a b : Nat) (i : Nat) : Nat → K := if i = a then G b else if i = b then G a else G i

theorem swapRows_ok (h : Rep2 x R W G) {a b : Nat} (ha : a < R) (hb : b < R) (hab : a ≠ b) : ∃ x', swapRows x a b = some x' ∧ Rep2 x' R W (swapG G a b) := by
  obtain ⟨ra, ea, ha'⟩ := h.row a ha
  obtain ⟨rb, eb, hb'⟩ := h.row b hb
  refine ⟨(x.set a rb).set b ra, ?_, by simp [h.len], ?_⟩
  · unfold swapRows
    rw [ea, Option.bind_some, eb, Option.bind_some]
    unfold wr
    rw [if_pos (by rw [h.len]; exact ha), Option.bind_some, if_pos (by rw [List.length_set, h.len]; exact hb)]
  · intro i hi
    unfold swapG
    by_cases hib : i = b
    · subst hib
      rw [if_neg (Ne.symm hab), if_pos rfl]
      exact ⟨ra, List.getElem?_set_self (by rw [List.length_set, h.len]; exact hb), ha'⟩
    · rw [if_neg hib, List.getElem?_set_ne (Ne.symm hib)]
      by_cases hia : i = a
      · subst hia
        rw [if_pos rfl]
        exact ⟨rb, List.getElem?_set_self (by rw [h.len]; exact ha), hb'⟩
      · rw [if_neg hia, List.getElem?_set_ne (Ne.symm hia)]
        exact h.row i hi

theorem recip_ok {v : K} (h : v ≠ 0) : recip v = some (1 / v) := by unfold recip; rw [if_neg h]

theorem subRow_ok (h : Rep2 x R W G) {j i lo hi : Nat} (hj : j < R) (hi' : i < R) (hij : j ≠ i) (hlo : lo ≤ hi) (hW : hi ≤ W) (factor : K) :
    ∃ x', subRow x j i lo hi factor = some x' ∧ Rep2 x' R W (fun a b => if a = j ∧ lo ≤ b ∧ b < hi then G j b - factor * G i b else G a b) := by
  have key := forRange_inv (σ := Mat K) (fun k x' => Rep2 x' R W (fun a b => if a = j ∧ lo ≤ b ∧ b < k then G j b - factor * G i b else G a b))
    (body := fun k x => (rd2 x j k).bind (fun a => (rd2 x i k).bind (fun b => wr2 x j k (a - factor * b)))) hlo (s := x) (h.congr (fun a b _ _ => by rw [if_neg (by omega)])) ?_
  · exact key
  · intro k x' h1 h2 hx
    rw [hx.rd hj (show k < W by omega), Option.bind_some, hx.rd hi' (show k < W by omega), Option.bind_some, if_neg (by omega), if_neg (fun e => hij e.1.symm)]
    obtain ⟨x2, e2, h2'⟩ := hx.wr hj (show k < W by omega) (G j k - factor * G i k)
    refine ⟨x2, e2, h2'.congr (fun a b _ _ => ?_)⟩
    simp only [upd2]
    by_cases hc : a = j ∧ b = k
    · rw [if_pos hc, if_pos (by omega), hc.2]
    · rw [if_neg hc]
      by_cases hd : a = j ∧ lo ≤ b ∧ b < k
      · rw [if_pos hd, if_pos (by omega)]
      · rw [if_neg hd, if_neg (by omega)]

theorem scaleRow_ok (h : Rep2 x R W G) {r i w : Nat} (hr : r < R) (hi : i < w) (hw : w ≤ W) (hne : G r i ≠ 0) :
    ∃ x', scaleRow x r i w = some x' ∧ Rep2 x' R W (fun a b => if a = r then (if b = i then 1 else if i < b ∧ b < w then G r b * (1 / G r i) else G r b) else G a b) := by
  unfold scaleRow
  rw [h.rd hr (by omega), Option.bind_some, recip_ok hne, Option.bind_some]
  obtain ⟨x1, e1, h1⟩ := h.wr hr (show i < W by omega) 1
  rw [e1, Option.bind_some]
  have key := forRange_inv (σ := Mat K) (fun k x' => Rep2 x' R W (fun a b => if a = r then (if b = i then 1 else if i < b ∧ b < k then G r b * (1 / G r i) else G r b) else G a b))
    (body := fun j x => (rd2 x r j).bind (fun v => wr2 x r j (v * (1 / G r i)))) (show i + 1 ≤ w by omega) (s := x1) (h1.congr (fun a b _ _ => ?_)) ?_
  · exact key
  · unfold upd2
    by_cases ha : a = r
    · subst ha
      rw [if_pos rfl]
      by_cases hb : b = i
      · rw [if_pos ⟨rfl, hb⟩, if_pos hb]
      · rw [if_neg (fun e => hb e.2), if_neg hb, if_neg (by omega)]
    · rw [if_neg (fun e => ha e.1), if_neg ha]
  · intro k x' h1 h2 hx
    rw [hx.rd hr (show k < W by omega), Option.bind_some, if_pos rfl, if_neg (by omega), if_neg (by omega)]
    obtain ⟨x2, e2, h2'⟩ := hx.wr hr (show k < W by omega) (G r k * (1 / G r i))
    refine ⟨x2, e2, h2'.congr (fun a b _ _ => ?_)⟩
    simp only [upd2]
    by_cases ha : a = r
    · subst ha
      rw [if_pos rfl, if_pos rfl]
      by_cases hb : b = i
      · rw [if_pos hb, if_pos hb, if_neg (by omega)]
      · rw [if_neg hb, if_neg hb]
        by_cases hbk : b = k
        · rw [if_pos ⟨rfl, hbk⟩, if_pos (by omega), hbk]
        · rw [if_neg (fun e => hbk e.2)]
          by_cases hlt : i < b ∧ b < k
          · rw [if_pos hlt, if_pos (by omega)]
          · rw [if_neg hlt, if_neg (by omega)]
    · rw [if_neg (fun e => ha e.1), if_neg ha, if_neg ha]

/-- One row after the elimination of column `i` with row `r`. -/
def elimG (G : Nat → Nat → K) (r i w j : Nat) (b : Nat) : K := if b = i then 0 else if i < b ∧ b < w then G j b - G j i * G r b else G j b

theorem elimRow_ok (h : Rep2 x R W G) {j r i w : Nat} (hj : j < R) (hr : r < R) (hjr : j ≠ r) (hi : i < w) (hw : w ≤ W) :
    ∃ x', elimRow x j r i w = some x' ∧ Rep2 x' R W (fun a b => if a = j then elimG G r i w j b else G a b) := by
  unfold elimRow
  rw [h.rd hj (by omega), Option.bind_some]
  obtain ⟨x1, e1, h1⟩ := h.wr hj (show i < W by omega) 0
  rw [e1, Option.bind_some]
  obtain ⟨x2, e2, h2⟩ := subRow_ok h1 hj hr hjr (show i + 1 ≤ w by omega) hw (G j i)
  refine ⟨x2, e2, h2.congr (fun a b _ _ => ?_)⟩
  unfold elimG upd2
  by_cases ha : a = j
  · subst ha
    rw [if_pos rfl]
    by_cases hb : b = i
    · rw [if_neg (by omega), if_pos ⟨rfl, hb⟩, if_pos hb]
    · by_cases hlt : i < b ∧ b < w
      · rw [if_pos (by omega), if_neg (by omega), if_neg (fun e => hjr e.1.symm), if_neg hb, if_pos hlt]
      · rw [if_neg (by omega), if_neg (fun e => hb e.2), if_neg hb, if_neg hlt]
  · rw [if_neg (fun e => ha e.1), if_neg (fun e => ha e.1), if_neg ha]

theorem elimAll_ok (h : Rep2 x R W G) {row r i w : Nat} (hrow : row ≤ R) (hr : r < row) (hi : i < w) (hw : w ≤ W) :
    ∃ x', elimAll x row r i w = some x' ∧ Rep2 x' R W (fun a b => if a < row ∧ a ≠ r then elimG G r i w a b else G a b) := by
  have key := forRange_inv (σ := Mat K) (fun j x' => Rep2 x' R W (fun a b => if a < j ∧ a ≠ r then elimG G r i w a b else G a b))
    (body := fun j x => if j ≠ r then elimRow x j r i w else some x) (Nat.zero_le row) (s := x) (h.congr (fun a b _ _ => by rw [if_neg (by omega)])) ?_
  · exact key
  · intro j x' _ hj hx
    by_cases hjr : j = r
    · rw [if_neg (fun e => e hjr)]
      refine ⟨x', rfl, hx.congr (fun a b _ _ => ?_)⟩
      by_cases hc : a < j ∧ a ≠ r
      · rw [if_pos hc, if_pos (by omega)]
      · rw [if_neg hc, if_neg (by omega)]
    · rw [if_pos hjr]
      obtain ⟨x2, e2, h2⟩ := elimRow_ok hx (show j < R by omega) (show r < R by omega) hjr hi hw
      refine ⟨x2, e2, h2.congr (fun a b _ _ => ?_)⟩
      by_cases haj : a = j
      · subst haj
        rw [if_pos rfl, if_pos (by omega)]
        simp only [elimG, lt_irrefl, false_and, if_false, ne_eq, not_true, and_false]
      · rw [if_neg haj]
        by_cases hc : a < j ∧ a ≠ r
        · rw [if_pos hc, if_pos (by omega)]
        · rw [if_neg hc, if_neg (by omega)]

/-! ### Reduced echelon form -/

/-- `y` is orthogonal to the rows of `G`. -/
def Ker (row w : Nat) (G : Nat → Nat → K) (y : Nat → K) : Prop := ∀ a < row, ∑ b ∈ Finset.range w, G a b * y b = 0

theorem Ker.congr {row w : Nat} {G G' : Nat → Nat → K} {y : Nat → K} (h : ∀ a < row, ∀ b < w, G a b = G' a b) : Ker row w G y ↔ Ker row w G' y := by
  unfold Ker
  refine forall_congr' fun a => forall_congr' fun ha => ?_
  rw [Finset.sum_congr rfl (fun b hb => by rw [h a ha b (Finset.mem_range.1 hb)])]

theorem Ker.swap {row w : Nat} {G : Nat → Nat → K} {y : Nat → K} {a b : Nat} (ha : a < row) (hb : b < row) : Ker row w (swapG G a b) y ↔ Ker row w G y := by
  constructor
  · intro h c hc
    by_cases hca : c = a
    · subst hca
      have := h b hb
      unfold swapG at this
      by_cases hbc : b = c
      · subst hbc; simpa using this
      · simpa [hbc] using this
    · by_cases hcb : c = b
      · subst hcb
        have := h a ha
        unfold swapG at this
        simpa using this
      · have := h c hc
        unfold swapG at this
        simpa [hca, hcb] using this
  · intro h c hc
    unfold swapG
    by_cases hca : c = a
    · rw [if_pos hca]; exact h b hb
    · rw [if_neg hca]
      by_cases hcb : c = b
      · rw [if_pos hcb]; exact h a ha
      · rw [if_neg hcb]; exact h c hc

theorem Ker.elim {row w r i : Nat} {G G' : Nat → Nat → K} {y : Nat → K} (hr : r < row) (hd : G r i ≠ 0)
    (h1 : ∀ b < w, G' r b = G r b * (1 / G r i)) (h2 : ∀ a < row, a ≠ r → ∀ b < w, G' a b = G a b - G a i * (G r b * (1 / G r i))) : Ker row w G' y ↔ Ker row w G y := by
  have s1 : ∑ b ∈ Finset.range w, G' r b * y b = (∑ b ∈ Finset.range w, G r b * y b) * (1 / G r i) := by
    rw [Finset.sum_mul]
    refine Finset.sum_congr rfl fun b hb => ?_
    rw [h1 b (Finset.mem_range.1 hb)]; ring
  have s2 : ∀ a < row, a ≠ r → ∑ b ∈ Finset.range w, G' a b * y b = (∑ b ∈ Finset.range w, G a b * y b) - G a i * ((∑ b ∈ Finset.range w, G r b * y b) * (1 / G r i)) := by
    intro a ha har
    rw [Finset.sum_mul, Finset.mul_sum, ← Finset.sum_sub_distrib]
    refine Finset.sum_congr rfl fun b hb => ?_
    rw [h2 a ha har b (Finset.mem_range.1 hb)]; ring
  have hd' : (1 / G r i) ≠ 0 := one_div_ne_zero hd
  constructor
  · intro h
    have hr0 : ∑ b ∈ Finset.range w, G r b * y b = 0 := by
      have := h r hr
      rw [s1] at this
      exact (mul_eq_zero.1 this).resolve_right hd'
    intro a ha
    by_cases har : a = r
    · subst har; exact hr0
    · have := h a ha
      rw [s2 a ha har, hr0, zero_mul, mul_zero, sub_zero] at this
      exact this
  · intro h a ha
    by_cases har : a = r
    · subst har; rw [s1, h a ha, zero_mul]
    · rw [s2 a ha har, h a ha, h r hr, zero_mul, mul_zero, sub_zero]

/-- The columns below `i` are in reduced echelon form with pivots `p 0 < … < p (rank-1)`; the kernel is that of `G0`. -/
structure RI (row w i rank : Nat) (p : Nat → Nat) (G0 G : Nat → Nat → K) : Prop where
  ker : ∀ y, Ker row w G y ↔ Ker row w G0 y
  le : rank ≤ i
  ler : rank ≤ row
  mono : ∀ a b, a < b → b < rank → p a < p b
  lt : ∀ k < rank, p k < i
  one : ∀ k < rank, G k (p k) = 1
  zero : ∀ k < rank, ∀ j < row, j ≠ k → G j (p k) = 0
  left : ∀ k < rank, ∀ c < p k, G k c = 0
  low : ∀ j, rank ≤ j → j < row → ∀ c < i, G j c = 0

variable {row w i rank : Nat} {p : Nat → Nat} {G0 : Nat → Nat → K}

theorem RI.skip (I : RI row w i rank p G0 G) (h : ∀ j, rank ≤ j → j < row → G j i = 0) : RI row w (i+1) rank p G0 G :=
  ⟨I.ker, Nat.le_succ_of_le I.le, I.ler, I.mono, fun k hk => Nat.lt_succ_of_lt (I.lt k hk), I.one, I.zero, I.left, fun j h1 h2 c hc => by
    rcases Nat.lt_succ_iff_lt_or_eq.1 hc with h' | rfl
    · exact I.low j h1 h2 c h'
    · exact h j h1 h2⟩

theorem RI.swap (I : RI row w i rank p G0 G) {a : Nat} (h1 : rank ≤ a) (h2 : a < row) : RI row w i rank p G0 (swapG G a rank) := by
  have e : ∀ k, k < rank → swapG G a rank k = G k := fun k hk => by
    unfold swapG; rw [if_neg (by omega), if_neg (by omega)]
  refine ⟨fun y => (Ker.swap h2 (by omega)).trans (I.ker y), I.le, I.ler, I.mono, I.lt, ?_, ?_, ?_, ?_⟩
  · intro k hk; rw [e k hk]; exact I.one k hk
  · intro k hk j hj hjk
    unfold swapG
    split_ifs with c1 c2
    · exact I.zero k hk rank (by omega) (by omega)
    · exact I.zero k hk a h2 (by omega)
    · exact I.zero k hk j hj hjk
  · intro k hk; rw [e k hk]; exact I.left k hk
  · intro j h3 h4 c hc
    unfold swapG
    split_ifs with c1 c2
    · exact I.low rank (le_refl _) (by omega) c hc
    · exact I.low a h1 h2 c hc
    · exact I.low j h3 h4 c hc

theorem RI.pivot (I : RI row w i rank p G0 G) (hr : rank < row) (hi : i < w) (hd : G rank i ≠ 0) {G' : Nat → Nat → K}
    (h1 : ∀ b < w, G' rank b = if b = i then 1 else if i < b ∧ b < w then G rank b * (1 / G rank i) else G rank b)
    (h2 : ∀ a < row, a ≠ rank → ∀ b < w, G' a b = if b = i then 0 else if i < b ∧ b < w then G a b - G a i * (G rank b * (1 / G rank i)) else G a b) :
    RI row w (i+1) (rank+1) (upd p rank i) G0 G' := by
  have pe : ∀ k < rank, upd p rank i k = p k := fun k hk => upd_ne _ _ (by omega)
  have hold : ∀ a < row, ∀ b, b < i → G' a b = G a b := by
    intro a ha b hb
    by_cases har : a = rank
    · subst har; rw [h1 b (by omega), if_neg (by omega), if_neg (by omega)]
    · rw [h2 a ha har b (by omega), if_neg (by omega), if_neg (by omega)]
  have hki : ∀ a < row, a ≠ rank → G' a i = 0 := fun a ha har => by rw [h2 a ha har i hi, if_pos rfl]
  refine ⟨fun y => (Ker.elim (r := rank) (i := i) (G := G) hr hd ?_ ?_).trans (I.ker y), Nat.succ_le_succ I.le, hr, ?_, ?_, ?_, ?_, ?_, ?_⟩
  · intro b hb
    rw [h1 b hb]
    by_cases hbi : b = i
    · rw [if_pos hbi, hbi, mul_one_div_cancel hd]
    · rw [if_neg hbi]
      by_cases hlt : i < b ∧ b < w
      · rw [if_pos hlt]
      · rw [if_neg hlt, I.low rank (le_refl _) hr b (by omega), zero_mul]
  · intro a ha har b hb
    rw [h2 a ha har b hb]
    by_cases hbi : b = i
    · rw [if_pos hbi, hbi, mul_one_div_cancel hd, mul_one, sub_self]
    · rw [if_neg hbi]
      by_cases hlt : i < b ∧ b < w
      · rw [if_pos hlt]
      · rw [if_neg hlt, I.low rank (le_refl _) hr b (by omega), zero_mul, mul_zero, sub_zero]
  · intro a b hab hb
    rcases Nat.lt_succ_iff_lt_or_eq.1 hb with hb' | rfl
    · rw [pe a (by omega), pe b hb']; exact I.mono a b hab hb'
    · rw [pe a hab, upd_same]; exact I.lt a hab
  · intro k hk
    rcases Nat.lt_succ_iff_lt_or_eq.1 hk with hk' | rfl
    · rw [pe k hk']; exact Nat.lt_succ_of_lt (I.lt k hk')
    · rw [upd_same]; omega
  · intro k hk
    rcases Nat.lt_succ_iff_lt_or_eq.1 hk with hk' | rfl
    · rw [pe k hk', hold k (by omega) _ (I.lt k hk')]; exact I.one k hk'
    · rw [upd_same, h1 i hi, if_pos rfl]
  · intro k hk j hj hjk
    rcases Nat.lt_succ_iff_lt_or_eq.1 hk with hk' | rfl
    · rw [pe k hk', hold j hj _ (I.lt k hk')]; exact I.zero k hk' j hj hjk
    · rw [upd_same]; exact hki j hj hjk
  · intro k hk c hc
    rcases Nat.lt_succ_iff_lt_or_eq.1 hk with hk' | rfl
    · rw [pe k hk'] at hc
      rw [hold k (by omega) c (lt_trans hc (I.lt k hk'))]; exact I.left k hk' c hc
    · rw [upd_same] at hc
      rw [hold k hr c hc]; exact I.low k (le_refl _) hr c hc
  · intro j hj1 hj2 c hc
    rcases Nat.lt_succ_iff_lt_or_eq.1 hc with hc' | rfl
    · rw [hold j hj2 c hc']; exact I.low j (by omega) hj2 c hc'
    · exact hki j hj2 (by omega)

/-- What `*principal` holds. -/
def PI (row l rank : Nat) (p : Nat → Nat) (q : Option (List Nat)) : Prop := ∀ v, q = some v → Rep v (row+1) (fun k => if k < rank then p k else l)

theorem gaussStep_ok {l : Nat} {q : Option (List Nat)} (hrow : row ≤ R) (hw : w ≤ W) (hi : i < w) (h : Rep2 x R W G) (I : RI row w i rank p G0 G) (P : PI row l rank p q) :
    ∃ x' rank' p' G' q', gaussStep row w i (x, rank, q) = some (x', rank', q') ∧ q'.isSome = q.isSome ∧ Rep2 x' R W G' ∧ RI row w (i+1) rank' p' G0 G' ∧ PI row l rank' p' q' := by
  unfold gaussStep
  dsimp only
  by_cases hr : rank < row
  · rw [if_pos hr]
    obtain ⟨a, e, ha1, ha2, ha3, ha4⟩ := findRow_ok h (show i < W by omega) (row - rank) rank (by omega)
    rw [e, Option.bind_some]
    by_cases har : a = row
    · rw [if_pos har]
      exact ⟨x, rank, p, G, q, rfl, rfl, h, I.skip (fun j h1 h2 => ha3 j h1 (by omega)), P⟩
    · rw [if_neg har]
      have hd := ha4 (by omega)
      have hsw : ∃ x1, (if a ≠ rank then swapRows x a rank else some x) = some x1 ∧ Rep2 x1 R W (swapG G a rank) := by
        by_cases hne : a = rank
        · rw [if_neg (fun e => e hne)]
          refine ⟨x, rfl, h.congr (fun c b _ _ => ?_)⟩
          unfold swapG
          subst hne
          by_cases hc : c = a
          · rw [if_pos hc, hc]
          · rw [if_neg hc, if_neg hc]
        · rw [if_pos hne]
          exact swapRows_ok h (by omega) (by omega) hne
      obtain ⟨x1, e1, h1⟩ := hsw
      have I1 := I.swap ha1 (show a < row by omega)
      have hd1 : swapG G a rank rank i ≠ 0 := by
        unfold swapG
        by_cases hne : rank = a
        · rw [if_pos hne, hne]; exact hd
        · rw [if_neg hne, if_pos rfl]; exact hd
      have hq : ∃ q', setP q rank i = some q' ∧ q'.isSome = q.isSome ∧ PI row l (rank+1) (upd p rank i) q' := by
        cases q with
        | none => exact ⟨none, rfl, rfl, fun v hv => by cases hv⟩
        | some v =>
          obtain ⟨v', ev, hv'⟩ := (P v rfl).wr (show rank < row + 1 by omega) i
          refine ⟨some v', by unfold setP; dsimp only; rw [ev]; rfl, rfl, ?_⟩
          intro v2 hv2
          cases hv2
          refine hv'.congr (fun k _ => ?_)
          by_cases hk : k = rank
          · subst hk; rw [upd_same, if_pos (by omega), upd_same]
          · rw [upd_ne _ _ hk, upd_ne _ _ hk]
            by_cases hlt : k < rank
            · rw [if_pos hlt, if_pos (by omega)]
            · rw [if_neg hlt, if_neg (by omega)]
      obtain ⟨q', eq', hq0, hq'⟩ := hq
      obtain ⟨x2, e2, h2⟩ := scaleRow_ok h1 (show rank < R by omega) hi hw hd1
      obtain ⟨x3, e3, h3⟩ := elimAll_ok h2 hrow hr hi hw
      refine ⟨x3, rank+1, upd p rank i, _, q', ?_, hq0, h3, I1.pivot hr hi hd1 ?_ ?_, hq'⟩
      · unfold Gauss.pivot
        dsimp only
        rw [e1, Option.bind_some, eq', Option.bind_some, e2, Option.bind_some, e3]
        rfl
      · intro b hb
        rw [if_neg (fun e => e.2 rfl), if_pos rfl]
      · intro c hc hcr b hb
        rw [if_pos ⟨hc, hcr⟩]
        simp only [elimG, if_neg hcr, if_true]
        by_cases hbi : b = i
        · rw [if_pos hbi, if_pos hbi]
        · rw [if_neg hbi, if_neg hbi]
          by_cases hlt : i < b ∧ b < w
          · rw [if_pos hlt, if_pos hlt, if_neg hbi, if_pos hlt]
          · simp only [if_neg hlt, if_neg hbi]
  · rw [if_neg hr]
    have := I.ler
    exact ⟨x, rank, p, G, q, rfl, rfl, h, I.skip (fun j h1 h2 => by omega), P⟩

/-- The elimination. -/
theorem gauss_ok {l r : Nat} (hrow : row ≤ R) (hw : l + r ≤ W) (h : Rep2 x R W G) (q : Option (List Nat)) (hq : q = none ∨ q = some []) :
    ∃ x' rank p G' q', gauss row l r x q = some (x', rank, q') ∧ q'.isSome = q.isSome ∧ Rep2 x' R W G' ∧ RI row (l + r) l rank p G G' ∧ PI row l rank p q' := by
  have h0 : RI row (l + r) 0 0 (fun _ => 0) G G :=
    ⟨fun _ => Iff.rfl, le_refl _, Nat.zero_le _, fun a b _ hb => by omega, fun k hk => by omega, fun k hk => by omega, fun k hk => by omega, fun k hk => by omega, fun j _ _ c hc => by omega⟩
  have hP : PI row l 0 (fun _ => 0) (q.map (fun v => resize v (row+1) l)) := by
    intro v hv
    rcases hq with rfl | rfl
    · cases hv
    · cases hv
      unfold resize
      simp only [List.take_nil, List.length_nil, List.nil_append]
      exact (Rep.replicate _ _).congr (fun k _ => by rw [if_neg (by omega)])
  have key := forRange_inv (σ := Mat K × Nat × Option (List Nat)) (fun i s => ∃ p G', s.2.2.isSome = q.isSome ∧ Rep2 s.1 R W G' ∧ RI row (l + r) i s.2.1 p G G' ∧ PI row l s.2.1 p s.2.2)
    (body := gaussStep row (l + r)) (Nat.zero_le l) (s := (x, 0, q.map (fun v => resize v (row+1) l))) ⟨fun _ => 0, G, by cases q <;> rfl, h, h0, hP⟩ ?_
  · obtain ⟨⟨x', rank, q'⟩, e, p, G', h1, h2, h3, h4⟩ := key
    exact ⟨x', rank, p, G', q', e, h1, h2, h3, h4⟩
  · rintro i ⟨x1, rank1, q1⟩ _ hi ⟨p, G', h1, h2, h3, h4⟩
    obtain ⟨x2, rank2, p2, G2, q2, a1, a2, a3, a4, a5⟩ := gaussStep_ok hrow hw (by omega) h2 h3 h4
    exact ⟨(x2, rank2, q2), a1, p2, G2, by rw [a2]; exact h1, a3, a4, a5⟩

end Verif.Gauss
