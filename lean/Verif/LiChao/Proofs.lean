import Verif.LiChao.Model
import Mathlib.Tactic.Linarith
import Mathlib.Tactic.Ring
/-!
Proofs about the Li Chao tree.
-/
namespace Verif.LiChao
open Verif.Cht

/-! ### Lines cross at most once -/

theorem aff_pos_right {α β x y z : Int} (h1 : α * x + β ≤ 0) (h2 : 0 < α * y + β) (hxy : x ≤ y) (hyz : y ≤ z) : 0 < α * z + β := by
  have ha : 0 ≤ α := by
    by_contra h
    have : 0 ≤ (-α) * (y - x) := mul_nonneg (by omega) (by omega)
    nlinarith
  have : 0 ≤ α * (z - y) := mul_nonneg ha (by omega)
  nlinarith

theorem aff_nonpos_right {α β x y z : Int} (h1 : 0 < α * x + β) (h2 : α * y + β ≤ 0) (hxy : x ≤ y) (hyz : y ≤ z) : α * z + β ≤ 0 := by
  have ha : α ≤ 0 := by
    by_contra h
    have : 0 ≤ α * (y - x) := mul_nonneg (by omega) (by omega)
    nlinarith
  have : 0 ≤ (-α) * (z - y) := mul_nonneg (by omega) (by omega)
  nlinarith

theorem aff_pos_mid {α β x y z : Int} (h1 : 0 < α * x + β) (h2 : 0 < α * z + β) (hxy : x ≤ y) (hyz : y ≤ z) : 0 < α * y + β := by
  rcases Int.le_total 0 α with ha | ha
  · have : 0 ≤ α * (y - x) := mul_nonneg ha (by omega)
    nlinarith
  · have : 0 ≤ (-α) * (z - y) := mul_nonneg (by omega) (by omega)
    nlinarith

theorem aff_nonpos_mid {α β x y z : Int} (h1 : α * x + β ≤ 0) (h2 : α * z + β ≤ 0) (hxy : x ≤ y) (hyz : y ≤ z) : α * y + β ≤ 0 := by
  rcases Int.le_total 0 α with ha | ha
  · have : 0 ≤ α * (z - y) := mul_nonneg ha (by omega)
    nlinarith
  · have : 0 ≤ (-α) * (y - x) := mul_nonneg (by omega) (by omega)
    nlinarith

/-- The comparison of two lines is the sign of a line. -/
theorem lt_aff (up : Bool) (p q : Line) : ∃ α β : Int, ∀ x, lt up (val p x) (val q x) ↔ 0 < α * x + β := by
  cases up
  · refine ⟨p.1 - q.1, p.2 - q.2, fun x => ?_⟩
    simp only [lt, Bool.false_eq_true, if_false, val, sub_mul]
    constructor <;> intro h <;> linarith
  · refine ⟨q.1 - p.1, q.2 - p.2, fun x => ?_⟩
    simp only [lt, if_true, val, sub_mul]
    constructor <;> intro h <;> linarith

theorem lt_right {up : Bool} {p q : Line} {x y z : Int} (h1 : ¬ lt up (val p x) (val q x)) (h2 : lt up (val p y) (val q y)) (hxy : x ≤ y) (hyz : y ≤ z) :
    lt up (val p z) (val q z) := by
  obtain ⟨α, β, h⟩ := lt_aff up p q
  rw [h] at *
  exact aff_pos_right (by omega) h2 hxy hyz

theorem nlt_right {up : Bool} {p q : Line} {x y z : Int} (h1 : lt up (val p x) (val q x)) (h2 : ¬ lt up (val p y) (val q y)) (hxy : x ≤ y) (hyz : y ≤ z) :
    ¬ lt up (val p z) (val q z) := by
  obtain ⟨α, β, h⟩ := lt_aff up p q
  rw [h] at *
  have := aff_nonpos_right h1 (Int.not_lt.1 h2) hxy hyz
  omega

theorem lt_mid {up : Bool} {p q : Line} {x y z : Int} (h1 : lt up (val p x) (val q x)) (h2 : lt up (val p z) (val q z)) (hxy : x ≤ y) (hyz : y ≤ z) :
    lt up (val p y) (val q y) := by
  obtain ⟨α, β, h⟩ := lt_aff up p q
  rw [h] at *
  exact aff_pos_mid h1 h2 hxy hyz

theorem nlt_mid {up : Bool} {p q : Line} {x y z : Int} (h1 : ¬ lt up (val p x) (val q x)) (h2 : ¬ lt up (val p z) (val q z)) (hxy : x ≤ y) (hyz : y ≤ z) :
    ¬ lt up (val p y) (val q y) := by
  obtain ⟨α, β, h⟩ := lt_aff up p q
  rw [h] at *
  have := aff_nonpos_mid (Int.not_lt.1 h1) (Int.not_lt.1 h2) hxy hyz
  omega

/-! ### The tree -/

/-- Parameters: sorted coordinates, and for each index the set of lines that cover it. -/
structure Ctx (up : Bool) (inv : Int) (n H : Nat) (x : Nat → Int) (S : Nat → Line → Prop) : Prop where
  mono : ∀ i j, i ≤ j → j < n → x i ≤ x j
  size : n ≤ 2^H
  real : ∀ i q, i < n → S i q → q.2 ≠ inv ∧ lt up inv (val q (x i))

/-- State of the nodes: every node is empty or holds a line that covers its whole range; nodes whose middle is out of range are empty. -/
structure Good (inv : Int) (n H : Nat) (S : Nat → Line → Prop) (seg : List Line) (Z : Nat → Line) : Prop where
  rep : Rep seg (2^H * 2) Z
  sound : ∀ u k l, u * 2^k = l + 2^H → l + 2^k ≤ 2^H → Z u = (0, inv) ∨ ∀ i, l ≤ i → i < l + 2^k → i < n → S i (Z u)
  empty : ∀ u k l, u * 2^k = l + 2^H → l + 2^k ≤ 2^H → n ≤ l + 2^k / 2 → Z u = (0, inv)

/-- At index `i` some ancestor is at least as good as `v`. -/
def Cov (up : Bool) (H : Nat) (x : Nat → Int) (Z : Nat → Line) (i : Nat) (v : Int) : Prop :=
  ∃ m, m ≤ H ∧ ¬ lt up (val (Z ((i + 2^H) / 2^m)) (x i)) v

/-- Nothing is lost. -/
def Keeps (up : Bool) (n H : Nat) (x : Nat → Int) (Z Z' : Nat → Line) : Prop := ∀ i v, i < n → Cov up H x Z i v → Cov up H x Z' i v

theorem Keeps.refl {up : Bool} {n H : Nat} {x : Nat → Int} (Z : Nat → Line) : Keeps up n H x Z Z := fun _ _ _ h => h

theorem Keeps.trans {up : Bool} {n H : Nat} {x : Nat → Int} {Z Z' Z'' : Nat → Line} (h1 : Keeps up n H x Z Z') (h2 : Keeps up n H x Z' Z'') :
    Keeps up n H x Z Z'' := fun i v hi h => h2 i v hi (h1 i v hi h)

/-- A leaf of the range of `u` has `u` as ancestor. -/
theorem anc_div {H u k l i : Nat} (hu : u * 2^k = l + 2^H) (hil : l ≤ i) (hir : i < l + 2^k) : (i + 2^H) / 2^k = u := by
  refine Nat.div_eq_of_lt_le (by omega) ?_
  rw [Nat.add_mul]; omega

/-- The node determines its level. -/
theorem level_unique {H u k k' l l' : Nat} (h1 : u * 2^k = l + 2^H) (h2 : l + 2^k ≤ 2^H) (h1' : u * 2^k' = l' + 2^H) (h2' : l' + 2^k' ≤ 2^H) :
    k = k' ∧ l = l' := by
  have key : ∀ a b c d : Nat, u * 2^a = c + 2^H → u * 2^b = d + 2^H → d + 2^b ≤ 2^H → ¬ a < b := by
    intro a b c d e1 e2 e3 hab
    have hp := Nat.two_pow_pos b
    have : 2 * 2^a ≤ 2^b := by
      rw [← Nat.pow_succ']
      exact Nat.pow_le_pow_right (by omega) hab
    have h3 := Nat.mul_le_mul_left u this
    rw [show u * (2 * 2^a) = 2 * (u * 2^a) by ring] at h3
    omega
  have hk : k = k' := by
    rcases Nat.lt_trichotomy k k' with h | h | h
    · exact absurd h (key k k' l l' h1 h1' h2')
    · exact h
    · exact absurd h (key k' k l' l h1' h1 h2)
  subst hk
  omega

theorem place_good {up : Bool} {inv : Int} {n H : Nat} {x : Nat → Int} {S : Nat → Line → Prop} {seg : List Line} {Z : Nat → Line}
    (hG : Good inv n H S seg Z) {line : Line} {u k l : Nat} (hu : u * 2^k = l + 2^H) (hl : l + 2^k ≤ 2^H)
    (hline : ∀ i, l ≤ i → i < l + 2^k → i < n → S i line) (hmid : l + 2^k / 2 < n) (hx : lt up (val (Z u) (x (l + 2^k/2))) (val line (x (l + 2^k/2)))) :
    ∃ seg', place true line u seg = some (Z u, seg') ∧ Good inv n H S seg' (upd Z u line) := by
  have hp := Nat.two_pow_pos k
  have hu2 : u < 2^H * 2 := by
    have : u ≤ u * 2^k := Nat.le_mul_of_pos_right _ hp
    omega
  obtain ⟨seg', e, h⟩ := hG.rep.wr hu2 line
  refine ⟨seg', by rw [place, if_pos rfl, hG.rep.val u hu2, Option.bind_some, e]; rfl, h, ?_, ?_⟩
  · intro w k' l' hw hl'
    by_cases hwu : w = u
    · subst hwu
      obtain ⟨rfl, rfl⟩ := level_unique hu hl hw hl'
      rw [upd_same]
      exact Or.inr hline
    · rw [upd_ne _ _ hwu]; exact hG.sound w k' l' hw hl'
  · intro w k' l' hw hl' hm
    by_cases hwu : w = u
    · subst hwu
      obtain ⟨rfl, rfl⟩ := level_unique hu hl hw hl'
      omega
    · rw [upd_ne _ _ hwu]; exact hG.empty w k' l' hw hl' hm

theorem enabled_ok {up : Bool} {n : Nat} {x : Nat → Int} {X : List Int} (hX : Rep X n x) {seg : List Line} {m : Nat} {Z : Nat → Line} (hZ : Rep seg m Z)
    {u : Nat} (hu : u < m) (line : Line) (p : Nat) :
    enabled up n X seg u line p = some (decide (p < n ∧ lt up (val (Z u) (x p)) (val line (x p)))) := by
  unfold enabled
  by_cases hp : p < n
  · rw [if_pos hp, hX.val p hp, Option.bind_some, hZ.val u hu, Option.map_some]
    simp [hp]
  · rw [if_neg hp]; simp [hp]

/-- After exchanging `Z u` and `line`, both are still available: one at `u`, the other in hand. -/
theorem swap_cov {up : Bool} {n H : Nat} {x : Nat → Int} {Z Z' : Nat → Line} {u : Nat} {line : Line}
    (hk : Keeps up n H x (upd Z u line) Z') (hold : ∀ i, i < n → (∃ m, m ≤ H ∧ (i + 2^H) / 2^m = u) → Cov up H x Z' i (val (Z u) (x i))) :
    Keeps up n H x Z Z' := by
  intro i v hi ⟨m, hm, hv⟩
  by_cases hmu : (i + 2^H) / 2^m = u
  · rw [hmu] at hv
    obtain ⟨m', hm', hv'⟩ := hold i hi ⟨m, hm, hmu⟩
    exact ⟨m', hm', le_trans hv hv'⟩
  · refine hk i v hi ⟨m, hm, ?_⟩
    rw [upd_ne _ _ hmu]; exact hv

theorem cov_at {up : Bool} {H : Nat} {x : Nat → Int} {Z : Nat → Line} {u k l i : Nat} (hu : u * 2^k = l + 2^H) (hl : l + 2^k ≤ 2^H) (hil : l ≤ i)
    (hir : i < l + 2^k) {v : Int} (h : ¬ lt up (val (Z u) (x i)) v) : Cov up H x Z i v := by
  refine ⟨k, ?_, by rw [anc_div hu hil hir]; exact h⟩
  have : 2^k ≤ 2^H := by omega
  exact (Nat.pow_le_pow_iff_right (by omega)).1 this

/-- An ancestor at any level has `i` in its range. -/
theorem anc_range {H u k l i m : Nat} (hu : u * 2^k = l + 2^H) (hl : l + 2^k ≤ 2^H) (hi : i < 2^H) (hm : m ≤ H) (h : (i + 2^H) / 2^m = u) :
    l ≤ i ∧ i < l + 2^k := by
  have hp := Nat.two_pow_pos m
  have h1 : u * 2^m ≤ i + 2^H := by rw [← h]; exact Nat.div_mul_le_self _ _
  have h2 : i + 2^H < (u + 1) * 2^m := by
    rw [← h, Nat.add_mul, Nat.one_mul]
    exact Nat.lt_div_mul_add hp
  have h3 : 2^H ≤ u * 2^m := by
    have h4 : 2^(H - m) ≤ u := by
      rw [← h, Nat.le_div_iff_mul_le hp, ← Nat.pow_add, Nat.sub_add_cancel hm]
      omega
    calc 2^H = 2^(H-m) * 2^m := by rw [← Nat.pow_add, Nat.sub_add_cancel hm]
      _ ≤ u * 2^m := Nat.mul_le_mul_right _ h4
  have h5 : u * 2^m = (u * 2^m - 2^H) + 2^H := by omega
  have h6 : u * 2^m - 2^H + 2^m ≤ 2^H := by
    -- (u+1) * 2^m is a multiple of 2^m with (u)*2^m < 2^(H+1)
    have h7 : u < 2^(H + 1 - m) := by
      rw [← h, Nat.div_lt_iff_lt_mul hp, ← Nat.pow_add, show H + 1 - m + m = H + 1 by omega, Nat.pow_succ]
      omega
    have h8 : (u + 1) * 2^m ≤ 2^(H+1-m) * 2^m := Nat.mul_le_mul_right _ h7
    rw [← Nat.pow_add, show H + 1 - m + m = H + 1 by omega, Nat.pow_succ, Nat.add_mul, Nat.one_mul] at h8
    omega
  obtain ⟨e1, e2⟩ := level_unique h5 h6 hu hl
  subst e1
  rw [Nat.add_mul] at h2
  omega

theorem addAux_ok {up : Bool} {inv : Int} {n H : Nat} {x : Nat → Int} {S : Nat → Line → Prop} (hC : Ctx up inv n H x S) {X : List Int} (hX : Rep X n x) :
    ∀ (k f : Nat) (line : Line) (u l : Nat) (seg : List Line) (Z : Nat → Line), k < f → u * 2^k = l + 2^H → l + 2^k ≤ 2^H → Good inv n H S seg Z →
      (line = (0, inv) ∨ ∀ i, l ≤ i → i < l + 2^k → i < n → S i line) →
      ∃ seg' Z', addAux up inv n X f line u l (l + 2^k) seg = some seg' ∧ Good inv n H S seg' Z' ∧ Keeps up n H x Z Z' ∧
        ∀ i, l ≤ i → i < l + 2^k → i < n → Cov up H x Z' i (val line (x i)) := by
  intro k
  induction k with
  | zero =>
    intro f line u l seg Z hf hu hl hG hline
    obtain ⟨f, rfl⟩ : ∃ g, f = g + 1 := ⟨f - 1, by omega⟩
    rw [addAux]
    rw [Nat.pow_zero] at *
    have hu2 : u < 2^H * 2 := by omega
    by_cases hd : line.2 = inv
    · rw [if_pos hd]
      refine ⟨seg, Z, rfl, hG, Keeps.refl Z, ?_⟩
      intro i h1 h2 h3
      have hval : line = (0, inv) := by
        rcases hline with h | h
        · exact h
        · exact absurd hd (hC.real i line h3 (h i h1 h2 h3)).1
      refine cov_at (k := 0) hu hl h1 h2 ?_
      rcases hG.sound u 0 l hu hl with h | h
      · rw [h, hval]; exact lt_irrefl
      · have := (hC.real i _ h3 (h i h1 h2 h3)).2
        rw [hval, show val (0, inv) (x i) = inv by simp [val]]
        exact lt_asymm this
    · rw [if_neg hd]
      have hS : ∀ i, l ≤ i → i < l + 1 → i < n → S i line := by
        rcases hline with h | h
        · rw [h] at hd; exact absurd rfl hd
        · exact h
      rw [show l + (l + 1 - l) / 2 = l by omega, enabled_ok hX hG.rep hu2, Option.bind_some, Option.bind_some]
      by_cases hen : l < n ∧ lt up (val (Z u) (x l)) (val line (x l))
      · rw [decide_eq_true hen]
        obtain ⟨seg', e, hG'⟩ := place_good (up := up) (x := x) (k := 0) hG hu hl hS (by simpa using hen.1) (by simpa using hen.2)
        rw [e, Option.bind_some, if_pos (by omega)]
        refine ⟨seg', _, rfl, hG', ?_, ?_⟩
        · refine swap_cov (Keeps.refl _) ?_
          rintro i hi ⟨m, hm, hmu⟩
          obtain ⟨a1, a2⟩ := anc_range (k := 0) hu hl (by have := hC.size; omega) hm hmu
          have hil : i = l := by omega
          subst hil
          refine cov_at (k := 0) hu hl (Nat.le_refl _) (by omega) ?_
          rw [upd_same]; exact lt_asymm hen.2
        · intro i h1 h2 h3
          refine cov_at (k := 0) hu hl h1 h2 ?_
          rw [upd_same]; exact lt_irrefl
      · rw [decide_eq_false hen, place, if_neg (by simp), Option.bind_some, if_pos (by omega)]
        refine ⟨seg, Z, rfl, hG, Keeps.refl Z, ?_⟩
        intro i h1 h2 h3
        have hil : i = l := by omega
        subst hil
        exact cov_at (k := 0) hu hl h1 h2 (fun h => hen ⟨h3, h⟩)
  | succ k ih =>
    intro f line u l seg Z hf hu hl hG hline
    obtain ⟨f, rfl⟩ : ∃ g, f = g + 1 := ⟨f - 1, by omega⟩
    have hp := Nat.two_pow_pos k
    have hpk : 2^(k+1) = 2 * 2^k := by rw [Nat.pow_succ]; ring
    have hu2 : u < 2^H * 2 := by
      have : u ≤ u * 2^(k+1) := Nat.le_mul_of_pos_right _ (Nat.two_pow_pos _)
      omega
    rw [addAux]
    by_cases hd : line.2 = inv
    · rw [if_pos hd]
      refine ⟨seg, Z, rfl, hG, Keeps.refl Z, ?_⟩
      intro i h1 h2 h3
      have hval : line = (0, inv) := by
        rcases hline with h | h
        · exact h
        · exact absurd hd (hC.real i line h3 (h i h1 h2 h3)).1
      refine cov_at hu hl h1 h2 ?_
      rcases hG.sound u _ l hu hl with h | h
      · rw [h, hval]; exact lt_irrefl
      · have := (hC.real i _ h3 (h i h1 h2 h3)).2
        rw [hval, show val (0, inv) (x i) = inv by simp [val]]
        exact lt_asymm this
    · rw [if_neg hd]
      have hS : ∀ i, l ≤ i → i < l + 2^(k+1) → i < n → S i line := by
        rcases hline with h | h
        · rw [h] at hd; exact absurd rfl hd
        · exact h
      have hmid : l + (l + 2^(k+1) - l) / 2 = l + 2^k := by omega
      have hmid' : l + 2^(k+1) / 2 = l + 2^k := by omega
      have hcl : 2 * u * 2^k = l + 2^H := by rw [← hu, hpk]; ring
      have hcr : (2 * u + 1) * 2^k = (l + 2^k) + 2^H := by rw [Nat.add_mul, hcl]; omega
      have hr : l + 2^(k+1) = (l + 2^k) + 2^k := by omega
      rw [hmid, enabled_ok hX hG.rep hu2, Option.bind_some, enabled_ok hX hG.rep hu2, Option.bind_some]
      generalize hel : decide (l < n ∧ lt up (val (Z u) (x l)) (val line (x l))) = el
      by_cases hem : l + 2^k < n ∧ lt up (val (Z u) (x (l + 2^k))) (val line (x (l + 2^k)))
      · rw [decide_eq_true hem]
        have hln : l < n := by omega
        obtain ⟨seg1, e, hG1⟩ := place_good (up := up) (x := x) hG hu hl hS (by rw [hmid']; exact hem.1) (by rw [hmid']; exact hem.2)
        rw [e, Option.bind_some]
        dsimp only
        rw [if_neg (by omega)]
        have hold := hG.sound u _ l hu hl
        have hnew : ∀ i, l ≤ i → i < l + 2^(k+1) → Cov up H x (upd Z u line) i (val line (x i)) := by
          intro i h1 h2
          refine cov_at hu hl h1 h2 ?_
          rw [upd_same]; exact lt_irrefl
        by_cases hlt : lt up (val (Z u) (x l)) (val line (x l))
        · -- the new line wins at both points: the old one may only win on the right
          have : el = true := by rw [← hel]; exact decide_eq_true ⟨hln, hlt⟩
          rw [this, if_neg (by simp), hr]
          obtain ⟨seg', Z', e2, hG2, hk2, hc2⟩ := ih f (Z u) (2*u+1) (l + 2^k) seg1 _ (by omega) hcr (by omega) hG1
            (hold.imp id (fun h i a b c => h i (by omega) (by omega) c))
          refine ⟨seg', Z', e2, hG2, swap_cov hk2 ?_, fun i h1 h2 h3 => hk2 i _ h3 (hnew i h1 (by omega))⟩
          rintro i hi ⟨m, hm, hmu⟩
          obtain ⟨a1, a2⟩ := anc_range hu hl (by have := hC.size; omega) hm hmu
          rcases Nat.lt_or_ge i (l + 2^k) with h | h
          · obtain ⟨m', hm', hv⟩ := hk2 i _ hi (hnew i a1 a2)
            refine ⟨m', hm', le_trans ?_ hv⟩
            exact lt_asymm (lt_mid hlt hem.2 (hC.mono l i a1 hi) (hC.mono i _ (by omega) hem.1))
          · exact hc2 i h (by omega) hi
        · have : el = false := by rw [← hel]; exact decide_eq_false (fun h => hlt h.2)
          rw [this, if_pos (by simp)]
          obtain ⟨seg', Z', e2, hG2, hk2, hc2⟩ := ih f (Z u) (2*u) l seg1 _ (by omega) hcl (by omega) hG1
            (hold.imp id (fun h i a b c => h i (by omega) (by omega) c))
          refine ⟨seg', Z', e2, hG2, swap_cov hk2 ?_, fun i h1 h2 h3 => hk2 i _ h3 (hnew i h1 h2)⟩
          rintro i hi ⟨m, hm, hmu⟩
          obtain ⟨a1, a2⟩ := anc_range hu hl (by have := hC.size; omega) hm hmu
          rcases Nat.lt_or_ge i (l + 2^k) with h | h
          · exact hc2 i a1 h hi
          · obtain ⟨m', hm', hv⟩ := hk2 i _ hi (hnew i a1 a2)
            refine ⟨m', hm', le_trans ?_ hv⟩
            exact lt_asymm (lt_right hlt hem.2 (hC.mono l _ (by omega) hem.1) (hC.mono _ i h hi))
      · rw [decide_eq_false hem, place, if_neg (by simp), Option.bind_some]
        dsimp only
        rw [if_neg (by omega)]
        by_cases hlt : l < n ∧ lt up (val (Z u) (x l)) (val line (x l))
        · have : el = true := by rw [← hel]; exact decide_eq_true hlt
          rw [this, if_pos (by simp)]
          obtain ⟨seg', Z', e2, hG2, hk2, hc2⟩ := ih f line (2*u) l seg _ (by omega) hcl (by omega) hG
            (Or.inr (fun i a b c => hS i a (by omega) c))
          refine ⟨seg', Z', e2, hG2, hk2, ?_⟩
          intro i a1 a2 hi
          rcases Nat.lt_or_ge i (l + 2^k) with h | h
          · exact hc2 i a1 h hi
          · refine hk2 i _ hi (cov_at hu hl a1 a2 ?_)
            exact nlt_right hlt.2 (fun h => hem ⟨by omega, h⟩) (hC.mono l _ (by omega) (by omega)) (hC.mono _ i h hi)
        · have : el = false := by rw [← hel]; exact decide_eq_false hlt
          rw [this, if_neg (by simp), hr]
          obtain ⟨seg', Z', e2, hG2, hk2, hc2⟩ := ih f line (2*u+1) (l + 2^k) seg _ (by omega) hcr (by omega) hG
            (Or.inr (fun i a b c => hS i (by omega) (by omega) c))
          refine ⟨seg', Z', e2, hG2, hk2, ?_⟩
          intro i a1 a2 hi
          rcases Nat.lt_or_ge i (l + 2^k) with h | h
          · have hln : l < n := by omega
            rcases Nat.lt_or_ge (l + 2^k) n with hmn | hmn
            · refine hk2 i _ hi (cov_at hu hl a1 (by omega) ?_)
              exact nlt_mid (fun h => hlt ⟨hln, h⟩) (fun h => hem ⟨hmn, h⟩) (hC.mono l i a1 hi) (hC.mono i _ (by omega) hmn)
            · exfalso
              have hz := hG.empty u _ l hu hl (by omega)
              apply hlt
              refine ⟨hln, ?_⟩
              rw [hz, show val (0, inv) (x l) = inv by simp [val]]
              exact (hC.real l line hln (hS l (Nat.le_refl _) (by omega) hln)).2
          · exact hc2 i h (by omega) hi

/-! ### add_segment_idx -/

/-- What adding at a node is known to do. -/
def AddOk (up : Bool) (inv : Int) (n H : Nat) (x : Nat → Int) (S : Nat → Line → Prop) (line : Line) (l0 r0 : Nat)
    (add : Nat → Nat → Nat → List Line → Option (List Line)) : Prop :=
  ∀ (k u l : Nat) (seg : List Line) (Z : Nat → Line), u * 2^k = l + 2^H → l + 2^k ≤ 2^H → l0 ≤ l → l + 2^k ≤ r0 → Good inv n H S seg Z →
    ∃ seg' Z', add u l (l + 2^k) seg = some seg' ∧ Good inv n H S seg' Z' ∧ Keeps up n H x Z Z' ∧
      ∀ i, l ≤ i → i < l + 2^k → i < n → Cov up H x Z' i (val line (x i))

theorem segLoop_ok {up : Bool} {inv : Int} {n H : Nat} {x : Nat → Int} {S : Nat → Line → Prop} {line : Line} {l0 r0 : Nat} (hr0 : r0 ≤ 2^H)
    {add : Nat → Nat → Nat → List Line → Option (List Line)} (hadd : AddOk up inv n H x S line l0 r0 add) :
    ∀ (f k u v L R : Nat) (seg : List Line) (Z : Nat → Line), v < f → u * 2^k = L + 2^H → v * 2^k = R + 2^H → L ≤ R → l0 ≤ L → R ≤ r0 →
      Good inv n H S seg Z → ∃ seg' Z', segLoop add f u v L R (2^k) seg = some seg' ∧ Good inv n H S seg' Z' ∧ Keeps up n H x Z Z' ∧
        ∀ i, L ≤ i → i < R → i < n → Cov up H x Z' i (val line (x i)) := by
  intro f
  induction f with
  | zero => intro k u v L R seg Z h; omega
  | succ f ih =>
    intro k u v L R seg Z hf hu hv hLR hl hr hG
    have hp := Nat.two_pow_pos k
    have hpk : 2^k * 2 = 2^(k+1) := by rw [Nat.pow_succ]
    rw [segLoop]
    by_cases huv : u < v
    · rw [if_pos huv]
      have hstep : L + 2^k ≤ R := by
        have := Nat.mul_le_mul_right (2^k) huv
        rw [Nat.succ_mul] at this
        omega
      -- left node
      obtain ⟨u1, L1, s1, Z1, e1, hu1, hu1e, hL1, hL1R, hu1v, hG1, hk1, hc1⟩ : ∃ u1 L1 s1 Z1, stepU add u L (2^k) seg = some (u1, L1, s1) ∧
          u1 * 2^k = L1 + 2^H ∧ u1 % 2 = 0 ∧ L ≤ L1 ∧ L1 ≤ R ∧ u1 ≤ v ∧ Good inv n H S s1 Z1 ∧ Keeps up n H x Z Z1 ∧
          ∀ i, L ≤ i → i < L1 → i < n → Cov up H x Z1 i (val line (x i)) := by
        unfold stepU
        by_cases hodd : u % 2 = 1
        · rw [if_pos hodd]
          obtain ⟨s1, Z1, e, hG1, hk, hc⟩ := hadd k u L seg Z hu (by omega) hl (by omega) hG
          exact ⟨u + 1, L + 2^k, s1, Z1, by rw [e]; rfl, by rw [Nat.succ_mul]; omega, by omega, by omega, hstep, huv, hG1, hk, hc⟩
        · rw [if_neg hodd]
          exact ⟨u, L, seg, Z, rfl, hu, by omega, Nat.le_refl _, hLR, by omega, hG, Keeps.refl Z, fun i a b => by omega⟩
      obtain ⟨v1, R1, s2, Z2, e2, hv1, hv1e, hR1, hL1R1, hu1v1, hv1v, hG2, hk2, hc2⟩ : ∃ v1 R1 s2 Z2, stepV add v R (2^k) s1 = some (v1, R1, s2) ∧
          v1 * 2^k = R1 + 2^H ∧ v1 % 2 = 0 ∧ R1 ≤ R ∧ L1 ≤ R1 ∧ u1 ≤ v1 ∧ v1 ≤ v ∧ Good inv n H S s2 Z2 ∧ Keeps up n H x Z1 Z2 ∧
          ∀ i, R1 ≤ i → i < R → i < n → Cov up H x Z2 i (val line (x i)) := by
        unfold stepV
        by_cases hodd : v % 2 = 1
        · rw [if_pos hodd]
          have h1 : u1 ≤ v - 1 := by omega
          have h2 : (v - 1) * 2^k = R - 2^k + 2^H := by
            rw [Nat.sub_mul, hv, Nat.one_mul]; omega
          have h3 : L1 ≤ R - 2^k := by
            have := Nat.mul_le_mul_right (2^k) h1
            omega
          obtain ⟨s2, Z2, e, hG2, hk, hc⟩ := hadd k (v-1) (R - 2^k) s1 Z1 h2 (by omega) (by omega) (by omega) hG1
          exact ⟨v - 1, R - 2^k, s2, Z2, by rw [e]; rfl, h2, by omega, by omega, h3, h1, by omega, hG2, hk, fun i a b => hc i a (by omega)⟩
        · rw [if_neg hodd]
          exact ⟨v, R, s1, Z1, rfl, hv, by omega, Nat.le_refl _, hL1R, hu1v, Nat.le_refl _, hG1, Keeps.refl _, fun i a b => by omega⟩
      rw [e1, Option.bind_some]
      dsimp only
      rw [e2, Option.bind_some, hpk]
      dsimp only
      obtain ⟨s3, Z3, e3, hG3, hk3, hc3⟩ := ih (k+1) (u1/2) (v1/2) L1 R1 s2 Z2 (by omega)
        (by rw [Nat.pow_succ, ← hu1, show u1 / 2 * (2^k * 2) = (u1 / 2 * 2) * 2^k by ring, show u1 / 2 * 2 = u1 by omega])
        (by rw [Nat.pow_succ, ← hv1, show v1 / 2 * (2^k * 2) = (v1 / 2 * 2) * 2^k by ring, show v1 / 2 * 2 = v1 by omega])
        hL1R1 (by omega) (by omega) hG2
      refine ⟨s3, Z3, e3, hG3, (hk1.trans hk2).trans hk3, ?_⟩
      intro i a b c
      rcases Nat.lt_or_ge i L1 with h | h
      · exact hk3 i _ c (hk2 i _ c (hc1 i a h c))
      · rcases Nat.lt_or_ge i R1 with h' | h'
        · exact hc3 i h h' c
        · exact hk3 i _ c (hc2 i h' b c)
    · rw [if_neg huv]
      have hLR' : L = R := by
        have := Nat.mul_le_mul_right (2^k) (Nat.not_lt.1 huv)
        omega
      rw [if_pos hLR']
      exact ⟨seg, Z, rfl, hG, Keeps.refl Z, fun i a b => by omega⟩

/-! ### get -/

theorem getLoop_ok {up : Bool} {x : Int} {seg : List Line} {m : Nat} {Z : Nat → Line} (hZ : Rep seg m Z) : ∀ (f u : Nat) (ret : Int), u < f → u < m →
    ∃ v, getLoop up x seg f u ret = some v ∧ ¬ lt up v ret ∧ (∀ j, 0 < u / 2^j → ¬ lt up v (val (Z (u / 2^j)) x)) ∧
      (v = ret ∨ ∃ j, 0 < u / 2^j ∧ v = val (Z (u / 2^j)) x) := by
  intro f
  induction f with
  | zero => intro u ret h; omega
  | succ f ih =>
    intro u ret hf hm
    rw [getLoop]
    by_cases hu : 0 < u
    · rw [if_pos hu, hZ.val u hm, Option.bind_some]
      obtain ⟨v, e, h1, h2, h3⟩ := ih (u/2) (if lt up ret (val (Z u) x) then val (Z u) x else ret) (by omega) (by omega)
      have hj : ∀ j, u / 2 / 2^j = u / 2^(j+1) := by
        intro j; rw [Nat.div_div_eq_div_mul, Nat.pow_succ, Nat.mul_comm]
      refine ⟨v, e, ?_, ?_, ?_⟩
      · split at h1
        · next h => exact le_trans (lt_asymm h) h1
        · exact h1
      · intro j hpos
        cases j with
        | zero =>
          rw [Nat.pow_zero, Nat.div_one]
          split at h1
          · exact h1
          · next h => exact le_trans h h1
        | succ j =>
          rw [← hj] at hpos ⊢
          exact h2 j hpos
      · rcases h3 with h3 | ⟨j, hpos, h3⟩
        · split at h3
          · exact Or.inr ⟨0, by simpa using hu, by simpa using h3⟩
          · exact Or.inl h3
        · rw [hj] at hpos h3
          exact Or.inr ⟨j+1, hpos, h3⟩
    · rw [if_neg hu]
      refine ⟨ret, rfl, lt_irrefl, ?_, Or.inl rfl⟩
      intro j hpos
      rw [show u = 0 by omega, Nat.zero_div] at hpos
      omega

end Verif.LiChao
