import Verif.LiChao.Proofs
import Verif.BitManip.Props
import Mathlib.Data.List.GetD
/-!
# C46: the Li Chao tree returns the optimum over the added lines and segments
-/
namespace Verif.LiChao
open Verif.Cht

theorem leaves_ok {n : Nat} (h0 : 0 < n) (hn : n ≤ 2^63) : ∃ H, leaves n = some (2^H) ∧ n ≤ 2^H := by
  unfold leaves
  rw [if_neg (by omega)]
  by_cases h1 : n = 1
  · subst h1
    refine ⟨0, ?_, Nat.le_refl _⟩
    rw [(BitManip.C27_clz (1-1) (by decide)).1 rfl]; rfl
  · obtain ⟨k, e, hk, h2, h3⟩ := BitManip.clz_spec (x := n-1) (by omega) (by omega)
    have hk0 : 0 < k := by
      rcases Nat.eq_zero_or_pos k with h | h
      · subst h
        rw [Nat.sub_zero] at h2
        omega
      · exact h
    refine ⟨64 - k, ?_, by omega⟩
    rw [e, Option.bind_some, if_pos (by omega)]

theorem lowerBound_spec : ∀ (xs : List Int) (y : Int), xs.Pairwise (· < ·) →
    lowerBound xs y ≤ xs.length ∧ ∀ i, i < xs.length → (i < lowerBound xs y ↔ xs.getD i 0 < y) := by
  intro xs y
  unfold lowerBound
  induction xs with
  | nil => intro _; simp
  | cons a xs ih =>
    intro hs
    rw [List.pairwise_cons] at hs
    obtain ⟨ih1, ih2⟩ := ih hs.2
    by_cases ha : a < y
    · rw [List.takeWhile_cons_of_pos (by simpa using ha)]
      refine ⟨by simpa using ih1, ?_⟩
      intro i hi
      cases i with
      | zero => simp [ha]
      | succ i =>
        rw [List.length_cons] at hi ⊢
        rw [Nat.succ_lt_succ_iff, List.getD_cons_succ]
        exact ih2 i (by omega)
    · rw [List.takeWhile_cons_of_neg (by simpa using ha)]
      refine ⟨Nat.zero_le _, ?_⟩
      intro i hi
      cases i with
      | zero => simp [ha]
      | succ i =>
        rw [List.length_cons] at hi
        have hi' : i < xs.length := by omega
        have := hs.1 xs[i] (List.getElem_mem hi')
        rw [List.getD_cons_succ, List.getD_eq_getElem _ _ hi', List.length_nil]
        constructor
        · intro h; omega
        · intro h; omega

/-! ### Specification -/

inductive Op
  | addLine (q : Line)
  | addSegmentIdx (q : Line) (l r : Nat)
  | addSegment (q : Line) (xl xr : Int)
  | getIdx (i : Nat)
  | get (y : Int)

/-- The lines covering each index. -/
abbrev Cover := Nat → Line → Prop

/-- The coverage after an operation. -/
def coverage (xs : List Int) : Op → Cover → Cover
  | .addLine q, S => fun i p => S i p ∨ p = q
  | .addSegmentIdx q l r, S => fun i p => S i p ∨ (p = q ∧ l ≤ i ∧ i < r)
  | .addSegment q xl xr, S => fun i p => S i p ∨ (p = q ∧ xl ≤ xs.getD i 0 ∧ xs.getD i 0 < xr)
  | _, S => S

/-- The line's intercept and its values on the covered coordinates differ from `INV` (and are on the better side of it). -/
def Fine (up : Bool) (inv : Int) (q : Line) (y : Int) : Prop := q.2 ≠ inv ∧ lt up inv (val q y)

/-- Admissible arguments. -/
def OpOk (up : Bool) (inv : Int) (xs : List Int) : Op → Prop
  | .addLine q => ∀ i, i < xs.length → Fine up inv q (xs.getD i 0)
  | .addSegmentIdx q l r => l ≤ r ∧ r ≤ xs.length ∧ ∀ i, l ≤ i → i < r → Fine up inv q (xs.getD i 0)
  | .addSegment q xl xr => xl ≤ xr ∧ ∀ i, i < xs.length → xl ≤ xs.getD i 0 → xs.getD i 0 < xr → Fine up inv q (xs.getD i 0)
  | .getIdx i => i < xs.length
  | .get y => y ∈ xs

/-- `v` is the optimum over the lines covering index `i`, or `INV` if there is none. -/
def Optimum (up : Bool) (inv : Int) (xs : List Int) (S : Cover) (i : Nat) (v : Int) : Prop :=
  ((∃ q, S i q ∧ v = val q (xs.getD i 0)) ∨ (v = inv ∧ ∀ q, ¬ S i q)) ∧ ∀ q, S i q → ¬ lt up v (val q (xs.getD i 0))

/-- The admissible answers of one operation. -/
def OpAns (up : Bool) (inv : Int) (xs : List Int) (S : Cover) : Op → Option Int → Prop
  | .getIdx i, a => ∃ v, a = some v ∧ Optimum up inv xs S i v
  | .get y, a => ∃ v i, a = some v ∧ i < xs.length ∧ xs.getD i 0 = y ∧ Optimum up inv xs S i v
  | _, a => a = none

def Answers (up : Bool) (inv : Int) (xs : List Int) : List Op → Cover → List (Option Int) → Prop
  | [], _, as => as = []
  | o :: os, S, as => ∃ a as', as = a :: as' ∧ OpAns up inv xs S o a ∧ Answers up inv xs os (coverage xs o S) as'

def step (up : Bool) (inv : Int) : Op → Tree → Option (Tree × Option Int)
  | .addLine q, t => (addLine up inv t q).map (fun t => (t, none))
  | .addSegmentIdx q l r, t => (addSegmentIdx up inv t q l r).map (fun t => (t, none))
  | .addSegment q xl xr, t => (addSegment up inv t q xl xr).map (fun t => (t, none))
  | .getIdx i, t => (getIdx up inv t i).map (fun v => (t, some v))
  | .get y, t => (get up inv t y).map (fun v => (t, some v))

def run (up : Bool) (inv : Int) : List Op → Tree → Option (List (Option Int))
  | [], _ => some []
  | o :: os, t => (step up inv o t).bind (fun r => (run up inv os r.1).map (fun as => r.2 :: as))

/-! ### Proof -/

structure Inv (up : Bool) (inv : Int) (xs : List Int) (H : Nat) (S : Cover) (t : Tree) : Prop where
  n : t.n = xs.length
  N : t.N = 2^H
  X : t.X = xs
  ctx : Ctx up inv xs.length H (fun i => xs.getD i 0) S
  good : ∃ Z, Good inv xs.length H S t.seg Z ∧ ∀ i q, i < xs.length → S i q → Cov up H (fun i => xs.getD i 0) Z i (val q (xs.getD i 0))

theorem Good.mono {inv : Int} {n H : Nat} {S S' : Cover} {seg : List Line} {Z : Nat → Line} (h : Good inv n H S seg Z) (hS : ∀ i q, S i q → S' i q) :
    Good inv n H S' seg Z :=
  ⟨h.rep, fun u k l a b => (h.sound u k l a b).imp id (fun h i c d e => hS i _ (h i c d e)), h.empty⟩

theorem Ctx.mono' {up : Bool} {inv : Int} {n H : Nat} {x : Nat → Int} {S S' : Cover} (h : Ctx up inv n H x S)
    (hS : ∀ i q, i < n → S' i q → S i q ∨ (q.2 ≠ inv ∧ lt up inv (val q (x i)))) : Ctx up inv n H x S' := by
  refine ⟨h.mono, h.size, ?_⟩
  intro i q hi hq
  rcases hS i q hi hq with h' | h'
  · exact h.real i q hi h'
  · exact h'

theorem Inv.addLine {up : Bool} {inv : Int} {xs : List Int} {H : Nat} {S : Cover} {t : Tree} (h : Inv up inv xs H S t) {q : Line}
    (hq : ∀ i, i < xs.length → Fine up inv q (xs.getD i 0)) :
    ∃ t', addLine up inv t q = some t' ∧ Inv up inv xs H (fun i p => S i p ∨ p = q) t' := by
  obtain ⟨Z, hG, hcov⟩ := h.good
  have hC : Ctx up inv xs.length H (fun i => xs.getD i 0) (fun i p => S i p ∨ p = q) := h.ctx.mono' (by
    rintro i p hi (hp | rfl)
    · exact Or.inl hp
    · exact Or.inr (hq i hi))
  obtain ⟨seg', Z', e, hG', hk, hc⟩ := addAux_ok hC (Rep.ofList xs 0) H (2^H + 1) q 1 0 t.seg Z (by have := @Nat.lt_two_pow_self H; omega) (by omega) (by omega)
    (hG.mono (fun _ _ h => Or.inl h)) (Or.inr (fun _ _ _ _ => Or.inr rfl))
  rw [Nat.zero_add] at e hc
  refine ⟨{ t with seg := seg' }, ?_, h.n, h.N, h.X, hC, Z', hG', ?_⟩
  · rw [Verif.LiChao.addLine, h.n, h.N, h.X, e]; rfl
  · rintro i p hi (hp | rfl)
    · exact hk i _ hi (hcov i p hi hp)
    · exact hc i (Nat.zero_le _) (by have := h.ctx.size; omega) hi

theorem Inv.addSegmentIdx {up : Bool} {inv : Int} {xs : List Int} {H : Nat} {S : Cover} {t : Tree} (h : Inv up inv xs H S t) {q : Line} {l r : Nat}
    (hlr : l ≤ r) (hr : r ≤ xs.length) (hq : ∀ i, l ≤ i → i < r → Fine up inv q (xs.getD i 0)) :
    ∃ t', addSegmentIdx up inv t q l r = some t' ∧ Inv up inv xs H (fun i p => S i p ∨ (p = q ∧ l ≤ i ∧ i < r)) t' := by
  obtain ⟨Z, hG, hcov⟩ := h.good
  have hsz := h.ctx.size
  have hC : Ctx up inv xs.length H (fun i => xs.getD i 0) (fun i p => S i p ∨ (p = q ∧ l ≤ i ∧ i < r)) := h.ctx.mono' (by
    rintro i p hi (hp | ⟨rfl, h1, h2⟩)
    · exact Or.inl hp
    · exact Or.inr (hq i h1 h2))
  have hadd : AddOk up inv xs.length H (fun i => xs.getD i 0) (fun i p => S i p ∨ (p = q ∧ l ≤ i ∧ i < r)) q l r
      (addAux up inv xs.length xs (2^H + 1) q) := by
    intro k u l' seg Z hu hl' hll hrr hG
    have hkH : k < 2^H + 1 := by
      have h1 : 2^k ≤ 2^H := by omega
      have h2 := (Nat.pow_le_pow_iff_right (a := 2) (by omega)).1 h1
      have := @Nat.lt_two_pow_self H
      omega
    exact addAux_ok hC (Rep.ofList xs 0) k (2^H + 1) q u l' seg Z hkH hu hl' hG (Or.inr (fun i a b _ => Or.inr ⟨rfl, by omega, by omega⟩))
  obtain ⟨seg', Z', e, hG', hk, hc⟩ := segLoop_ok (by omega) hadd (r + 2^H + 1) 0 (l + 2^H) (r + 2^H) l r t.seg Z (by omega)
    (by rw [Nat.pow_zero, Nat.mul_one]) (by rw [Nat.pow_zero, Nat.mul_one]) hlr (Nat.le_refl _) (Nat.le_refl _) (hG.mono (fun _ _ h => Or.inl h))
  rw [Nat.pow_zero] at e
  refine ⟨{ t with seg := seg' }, ?_, h.n, h.N, h.X, hC, Z', hG', ?_⟩
  · rw [Verif.LiChao.addSegmentIdx, h.n, h.N, h.X, e]; rfl
  · rintro i p hi (hp | ⟨rfl, h1, h2⟩)
    · exact hk i _ hi (hcov i p hi hp)
    · exact hc i h1 h2 hi

theorem Inv.addSegment {up : Bool} {inv : Int} {xs : List Int} (hs : xs.Pairwise (· < ·)) {H : Nat} {S : Cover} {t : Tree} (h : Inv up inv xs H S t)
    {q : Line} {xl xr : Int} (hlr : xl ≤ xr) (hq : ∀ i, i < xs.length → xl ≤ xs.getD i 0 → xs.getD i 0 < xr → Fine up inv q (xs.getD i 0)) :
    ∃ t', addSegment up inv t q xl xr = some t' ∧ Inv up inv xs H (fun i p => S i p ∨ (p = q ∧ xl ≤ xs.getD i 0 ∧ xs.getD i 0 < xr)) t' := by
  obtain ⟨a1, a2⟩ := lowerBound_spec xs xl hs
  obtain ⟨b1, b2⟩ := lowerBound_spec xs xr hs
  have hle : lowerBound xs xl ≤ lowerBound xs xr := by
    by_contra hlt
    have h1 : lowerBound xs xr < xs.length := by omega
    have h2 := (a2 _ h1).1 (by omega)
    have h3 := (b2 _ h1).2 (by omega)
    omega
  have hiff : ∀ i, i < xs.length → ((lowerBound xs xl ≤ i ∧ i < lowerBound xs xr) ↔ (xl ≤ xs.getD i 0 ∧ xs.getD i 0 < xr)) := by
    intro i hi
    have h1 := a2 i hi
    have h2 := b2 i hi
    rw [← h2, ← Int.not_lt, ← h1, Nat.not_lt]
  obtain ⟨t', e, hI⟩ := h.addSegmentIdx (q := q) hle b1 (fun i h1 h2 => by
    have := (hiff i (by omega)).1 ⟨h1, h2⟩
    exact hq i (by omega) this.1 this.2)
  refine ⟨t', by rw [Verif.LiChao.addSegment, if_pos hlr, h.X, e], hI.n, hI.N, hI.X, ?_, ?_⟩
  · refine hI.ctx.mono' ?_
    rintro i p hi (hp | ⟨rfl, hp⟩)
    · exact Or.inl (Or.inl hp)
    · exact Or.inr (hq i hi hp.1 hp.2)
  · obtain ⟨Z, hG, hcov⟩ := hI.good
    refine ⟨Z, ⟨hG.rep, ?_, hG.empty⟩, ?_⟩
    · intro u k l e1 e2
      rcases hG.sound u k l e1 e2 with h' | h'
      · exact Or.inl h'
      · refine Or.inr (fun i c d hi => ?_)
        rcases h' i c d hi with h'' | ⟨h1, h2⟩
        · exact Or.inl h''
        · exact Or.inr ⟨h1, (hiff i hi).1 h2⟩
    · rintro i p hi (hp | ⟨rfl, hp⟩)
      · exact hcov i p hi (Or.inl hp)
      · exact hcov i p hi (Or.inr ⟨rfl, (hiff i hi).2 hp⟩)

theorem Inv.getIdx {up : Bool} {inv : Int} {xs : List Int} {H : Nat} {S : Cover} {t : Tree} (h : Inv up inv xs H S t) {i : Nat} (hi : i < xs.length) :
    ∃ v, getIdx up inv t i = some v ∧ Optimum up inv xs S i v := by
  obtain ⟨Z, hG, hcov⟩ := h.good
  have hsz := h.ctx.size
  obtain ⟨v, e, h1, h2, h3⟩ := getLoop_ok (up := up) (x := xs.getD i 0) hG.rep (i + 2^H + 1) (i + 2^H) inv (by omega) (by omega)
  have hall : ∀ q, S i q → ¬ lt up v (val q (xs.getD i 0)) := by
    intro q hq
    obtain ⟨m, hm, hv⟩ := hcov i q hi hq
    refine le_trans hv (h2 m ?_)
    apply Nat.div_pos _ (Nat.two_pow_pos m)
    have : 2^m ≤ 2^H := Nat.pow_le_pow_right (by omega) hm
    omega
  have hinv : v = inv → ∀ q, ¬ S i q := by
    rintro rfl q hq
    exact hall q hq (h.ctx.real i q hi hq).2
  refine ⟨v, ?_, ?_, hall⟩
  · rw [Verif.LiChao.getIdx, h.X, List.getElem?_eq_getElem hi, Option.bind_some, h.N, ← List.getD_eq_getElem xs 0 hi, e]
  · rcases h3 with h3 | ⟨j, hpos, h3⟩
    · exact Or.inr ⟨h3, hinv h3⟩
    · generalize hu : (i + 2^H) / 2^j = u at *
      have hp := Nat.two_pow_pos j
      have hj : j ≤ H := by
        by_contra hlt
        have h4 : 2^(H+1) ≤ 2^j := Nat.pow_le_pow_right (by omega) (by omega)
        rw [Nat.pow_succ] at h4
        rw [Nat.div_eq_of_lt (by omega)] at hu
        omega
      have h5 : u * 2^j ≤ i + 2^H := by rw [← hu]; exact Nat.div_mul_le_self _ _
      have h6 : 2^H ≤ u * 2^j := by
        have h7 : 2^(H - j) ≤ u := by
          rw [← hu, Nat.le_div_iff_mul_le hp, ← Nat.pow_add, Nat.sub_add_cancel hj]
          omega
        calc 2^H = 2^(H-j) * 2^j := by rw [← Nat.pow_add, Nat.sub_add_cancel hj]
          _ ≤ u * 2^j := Nat.mul_le_mul_right _ h7
      have h8 : u < 2^(H + 1 - j) := by
        rw [← hu, Nat.div_lt_iff_lt_mul hp, ← Nat.pow_add, show H + 1 - j + j = H + 1 by omega, Nat.pow_succ]
        omega
      have h9 : (u + 1) * 2^j ≤ 2^(H+1-j) * 2^j := Nat.mul_le_mul_right _ h8
      rw [← Nat.pow_add, show H + 1 - j + j = H + 1 by omega, Nat.pow_succ, Nat.add_mul, Nat.one_mul] at h9
      have h10 : i + 2^H < (u + 1) * 2^j := by
        rw [← hu, Nat.add_mul, Nat.one_mul]
        exact Nat.lt_div_mul_add hp
      rw [Nat.add_mul, Nat.one_mul] at h10
      rcases hG.sound u j (u * 2^j - 2^H) (by omega) (by omega) with h' | h'
      · rw [h', show val (0, inv) (xs.getD i 0) = inv by simp [val]] at h3
        exact Or.inr ⟨h3, hinv h3⟩
      · exact Or.inl ⟨Z u, h' i (by omega) (by omega) hi, h3⟩

theorem Inv.get {up : Bool} {inv : Int} {xs : List Int} (hs : xs.Pairwise (· < ·)) {H : Nat} {S : Cover} {t : Tree} (h : Inv up inv xs H S t) {y : Int}
    (hy : y ∈ xs) : ∃ v i, get up inv t y = some v ∧ i < xs.length ∧ xs.getD i 0 = y ∧ Optimum up inv xs S i v := by
  obtain ⟨a1, a2⟩ := lowerBound_spec xs y hs
  obtain ⟨i, hi, hiy⟩ := List.getElem_of_mem hy
  have hiy' : xs.getD i 0 = y := by rw [List.getD_eq_getElem _ _ hi]; exact hiy
  have hge : ¬ i < lowerBound xs y := by rw [a2 i hi, hiy']; omega
  have hlb : lowerBound xs y = i := by
    by_contra hne
    have h1 : lowerBound xs y < xs.length := by omega
    have h2 : ¬ xs.getD (lowerBound xs y) 0 < y := by rw [← a2 _ h1]; omega
    have h3 : xs.getD (lowerBound xs y) 0 < xs.getD i 0 := by
      rw [List.getD_eq_getElem _ _ hi, List.getD_eq_getElem _ _ h1]
      exact List.pairwise_iff_getElem.1 hs _ _ h1 hi (by omega)
    omega
  obtain ⟨v, e, ho⟩ := h.getIdx hi
  exact ⟨v, i, by rw [Verif.LiChao.get, h.X, hlb, if_pos hi, e], hi, hiy', ho⟩

theorem history {up : Bool} {inv : Int} {xs : List Int} (hs : xs.Pairwise (· < ·)) {H : Nat} : ∀ (os : List Op) (S : Cover) (t : Tree),
    Inv up inv xs H S t → (∀ o ∈ os, OpOk up inv xs o) → ∃ as, run up inv os t = some as ∧ Answers up inv xs os S as := by
  intro os
  induction os with
  | nil => intro S t _ _; exact ⟨[], rfl, rfl⟩
  | cons o os ih =>
    intro S t hI hok
    have ho := hok o List.mem_cons_self
    suffices ∃ t' a, step up inv o t = some (t', a) ∧ OpAns up inv xs S o a ∧ Inv up inv xs H (coverage xs o S) t' by
      obtain ⟨t', a, e, hA, hI'⟩ := this
      obtain ⟨as, e2, hA2⟩ := ih _ t' hI' (fun o' h' => hok o' (List.mem_cons_of_mem o h'))
      exact ⟨a :: as, by rw [run, e, Option.bind_some, e2]; rfl, a, as, rfl, hA, hA2⟩
    cases o with
    | addLine q =>
      obtain ⟨t', e, hI'⟩ := hI.addLine ho
      exact ⟨t', none, by rw [step, e]; rfl, rfl, hI'⟩
    | addSegmentIdx q l r =>
      obtain ⟨t', e, hI'⟩ := hI.addSegmentIdx ho.1 ho.2.1 ho.2.2
      exact ⟨t', none, by rw [step, e]; rfl, rfl, hI'⟩
    | addSegment q xl xr =>
      obtain ⟨t', e, hI'⟩ := hI.addSegment hs ho.1 ho.2
      exact ⟨t', none, by rw [step, e]; rfl, rfl, hI'⟩
    | getIdx i =>
      obtain ⟨v, e, hO⟩ := hI.getIdx ho
      exact ⟨t, some v, by rw [step, e]; rfl, ⟨v, rfl, hO⟩, hI⟩
    | get y =>
      obtain ⟨v, i, e, h1, h2, hO⟩ := hI.get hs ho
      exact ⟨t, some v, by rw [step, e]; rfl, ⟨v, i, rfl, h1, h2, hO⟩, hI⟩

/-- **C46.** For every nonempty strictly increasing coordinate list (any length) and every history of admissible operations: nothing is
undefined, and every `get_idx` / `get` returns the optimum over the lines and segments covering that coordinate (or `INV` if none does). -/
theorem C46_history (up : Bool) (inv : Int) (xs : List Int) (hs : xs.Pairwise (· < ·)) (h0 : xs ≠ []) (hn : xs.length ≤ 2^63) (os : List Op)
    (hok : ∀ o ∈ os, OpOk up inv xs o) : ∃ t as, new inv xs = some t ∧ run up inv os t = some as ∧ Answers up inv xs os (fun _ _ => False) as := by
  obtain ⟨H, e, hsz⟩ := leaves_ok (List.length_pos_iff.2 h0) hn
  have hI : Inv up inv xs H (fun _ _ => False) ⟨xs.length, 2^H, xs, List.replicate (2^H*2) (0, inv)⟩ := by
    refine ⟨rfl, rfl, rfl, ⟨?_, hsz, fun _ _ _ h => h.elim⟩, fun _ => (0, inv), ⟨Rep.replicate _ _, fun _ _ _ _ _ => Or.inl rfl, fun _ _ _ _ _ _ => rfl⟩,
      fun _ _ _ h => h.elim⟩
    intro i j hij hj
    rcases Nat.eq_or_lt_of_le hij with h | h
    · subst h; exact Int.le_refl _
    · rw [List.getD_eq_getElem _ _ hj, List.getD_eq_getElem _ _ (by omega)]
      exact Int.le_of_lt (List.pairwise_iff_getElem.1 hs i j (by omega) hj h)
  obtain ⟨as, e2, hA⟩ := history hs os _ _ hI hok
  exact ⟨_, as, by rw [new, e]; rfl, e2, hA⟩

/-- Without coordinates `add_line` recurses without end: no fuel is enough. -/
theorem C46_empty (f : Nat) (a b : Int) (hb : b ≠ -1000) : ∀ u, addAux true (-1000) 0 [] f (a, b) u 0 0 [] = none := by
  induction f with
  | zero => intro u; rfl
  | succ f ih =>
    intro u
    rw [addAux, if_neg hb]
    exact ih (2*u+1)

/-- The exclusion of `INV` as intercept is needed: the line 100x - 1000 is dropped although its value at 1 is not `INV`. -/
theorem C46_inv_needed : ((new (-1000) [0, 1]).bind (run true (-1000) [.addLine (100, -1000), .getIdx 1])) = some [none, some (-1000)] ∧
    ¬ Optimum true (-1000) [0, 1] (fun _ p => p = (100, -1000)) 1 (-1000) := by
  refine ⟨by decide +kernel, fun h => ?_⟩
  exact absurd (h.2 _ rfl) (by decide)

example : ((new (-1000) [-3, 0, 1, 4, 6, 10]).bind (run true (-1000) [.getIdx 2, .addLine (1, 0), .addLine (-2, 1), .addSegmentIdx (0, 50) 1 4,
    .addSegment (3, 7) 4 7, .getIdx 0, .getIdx 5, .get 6, .getIdx 1, .get 4])) =
    some [some (-1000), none, none, none, none, some 7, some 10, some 25, some 50, some 50] := by decide +kernel
example : ((new 1000 [0, 1, 2]).bind (run false 1000 [.addLine (1, 0), .addLine (-2, 1), .getIdx 0, .get 2])) = some [none, none, some 0, some (-3)] := by
  decide +kernel
example : OpOk true (-1000) [-3, 0, 1, 4, 6, 10] (.addSegment (3, 7) 4 7) := by
  refine ⟨by decide, ?_⟩
  intro i hi
  have : ∀ i, i < 6 → Fine true (-1000) (3, 7) ([-3, 0, 1, 4, 6, 10].getD i 0) := by unfold Fine; decide
  exact fun _ _ => this i hi

end Verif.LiChao
