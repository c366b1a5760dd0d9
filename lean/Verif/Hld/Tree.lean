import Mathlib.Algebra.BigOperators.Group.Finset.Basic
import Mathlib.Algebra.Order.BigOperators.Group.Finset
import Mathlib.Data.Finset.Card
import Mathlib.Data.Finset.Union
/-!
Rooted trees, given by the parent of every vertex.
-/
namespace Verif.Hld

/-- `P` is the parent function of a tree with root `r` on the vertices `0, …, n-1`. -/
structure Tree (n r : Nat) (P : Nat → Option Nat) : Prop where
  root_lt : r < n
  root : P r = none
  par : ∀ v, v < n → v ≠ r → ∃ p, p < n ∧ P v = some p
  acyclic : ∃ h : Nat → Nat, ∀ v p, v < n → P v = some p → h p < h v

/-- `x` is an ancestor of `y`, or `y` itself. -/
inductive Anc (P : Nat → Option Nat) (x : Nat) : Nat → Prop where
  | refl : Anc P x x
  | step {y z : Nat} (h : P y = some z) (ih : Anc P x z) : Anc P x y

variable {n r : Nat} {P : Nat → Option Nat}

theorem Tree.par_lt (T : Tree n r P) {v p : Nat} (hv : v < n) (h : P v = some p) : p < n := by
  by_cases hr : v = r
  · subst hr; rw [T.root] at h; cases h
  · obtain ⟨q, hq, e⟩ := T.par v hv hr
    rw [e] at h
    cases h
    exact hq

theorem Anc.trans {x y z : Nat} (h : Anc P x y) (h' : Anc P y z) : Anc P x z := by
  induction h' with
  | refl => exact h
  | step e _ ih => exact Anc.step e ih

theorem Anc.lt {x y : Nat} (T : Tree n r P) (h : Anc P x y) : y < n → x < n := by
  induction h with
  | refl => exact id
  | step e _ ih => exact fun hy => ih (T.par_lt hy e)

theorem Anc.cases' {x y : Nat} (a : Anc P x y) : y = x ∨ ∃ c, P c = some x ∧ Anc P c y := by
  induction a with
  | refl => exact Or.inl rfl
  | @step y z e b ih =>
    right
    rcases ih with rfl | ⟨c, h1, h2⟩
    · exact ⟨y, e, Anc.refl⟩
    · exact ⟨c, h1, Anc.step e h2⟩

/-- Two ancestors are comparable. -/
theorem Anc.total {x x' y : Nat} (a : Anc P x y) (b : Anc P x' y) : Anc P x x' ∨ Anc P x' x := by
  induction a with
  | refl => exact Or.inr b
  | step e a ih =>
    cases b with
    | refl => exact Or.inl (Anc.step e a)
    | step e' b' =>
      rw [e] at e'
      cases e'
      exact ih b'

theorem Anc.height {x y : Nat} (T : Tree n r P) {h : Nat → Nat} (hh : ∀ v p, v < n → P v = some p → h p < h v) (a : Anc P x y) : y < n → h x ≤ h y := by
  induction a with
  | refl => exact fun _ => le_refl _
  | step e _ ih =>
    intro hy
    have := ih (T.par_lt hy e)
    have := hh _ _ hy e
    omega

theorem Anc.antisymm {x y : Nat} (T : Tree n r P) (hy : y < n) (a : Anc P x y) (b : Anc P y x) : x = y := by
  cases a with
  | refl => rfl
  | step e a =>
    exfalso
    obtain ⟨h, hh⟩ := T.acyclic
    have h1 := hh _ _ hy e
    have h2 := a.height T hh (T.par_lt hy e)
    have hx := (Anc.step e a).lt T hy
    have h3 := b.height T hh hx
    omega

/-- A vertex is no ancestor of its parent. -/
theorem Tree.not_anc_par (T : Tree n r P) {v p : Nat} (hv : v < n) (h : P v = some p) : ¬ Anc P v p := by
  intro a
  have hp := T.par_lt hv h
  have := a.antisymm T hp (Anc.step h Anc.refl)
  subst this
  obtain ⟨g, hg⟩ := T.acyclic
  have := hg v v hv h
  omega

theorem Tree.par_ne (T : Tree n r P) {v p : Nat} (hv : v < n) (h : P v = some p) : p ≠ v := by
  rintro rfl
  exact T.not_anc_par hv h Anc.refl

/-- The root is an ancestor of everything. -/
theorem Tree.root_anc (T : Tree n r P) {v : Nat} (hv : v < n) : Anc P r v := by
  obtain ⟨h, hh⟩ := T.acyclic
  have key : ∀ k v, h v = k → v < n → Anc P r v := by
    intro k
    induction k using Nat.strong_induction_on with
    | _ k ih =>
      intro v hk hv
      by_cases hr : v = r
      · subst hr; exact Anc.refl
      · obtain ⟨p, hp, e⟩ := T.par v hv hr
        exact Anc.step e (ih (h p) (by rw [← hk]; exact hh v p hv e) p rfl hp)
  exact key _ v rfl hv

/-- Different children of a vertex have no common descendants. -/
theorem Tree.children_disjoint (T : Tree n r P) {v c c' w : Nat} (hc : c < n) (hc' : c' < n) (h : P c = some v) (h' : P c' = some v) (a : Anc P c w) (a' : Anc P c' w) : c = c' := by
  rcases a.total a' with b | b
  · cases b with
    | refl => rfl
    | step e b =>
      rw [h'] at e
      cases e
      exact absurd b (T.not_anc_par hc h)
  · cases b with
    | refl => rfl
    | step e b =>
      rw [h] at e
      cases e
      exact absurd b (T.not_anc_par hc' h')

open Classical in
/-- The subtree of `v`. -/
noncomputable def desc (n : Nat) (P : Nat → Option Nat) (v : Nat) : Finset Nat := (Finset.range n).filter (fun y => Anc P v y)

theorem mem_desc {v y : Nat} : y ∈ desc n P v ↔ y < n ∧ Anc P v y := by
  classical
  unfold desc
  rw [Finset.mem_filter, Finset.mem_range]

/-- The number of vertices in the subtree of `v`. -/
noncomputable def sz (n : Nat) (P : Nat → Option Nat) (v : Nat) : Nat := (desc n P v).card

/-- The list of neighbours of `v`, in any order. -/
structure Adj (n : Nat) (P : Nat → Option Nat) (v : Nat) (ev : List Nat) : Prop where
  nodup : ev.Nodup
  mem : ∀ w, w ∈ ev ↔ (w < n ∧ P w = some v) ∨ P v = some w

theorem Adj.perm {v : Nat} {ev ev' : List Nat} (A : Adj n P v ev) (h : ev'.Perm ev) : Adj n P v ev' :=
  ⟨h.nodup_iff.2 A.nodup, fun w => by rw [h.mem_iff]; exact A.mem w⟩

/-- What a neighbour contributes to the size. -/
noncomputable def wt (n : Nat) (P : Nat → Option Nat) (v w : Nat) : Nat := if some w = P v then 0 else sz n P w

theorem Tree.not_both (T : Tree n r P) {v w : Nat} (hw : w < n) (h : P w = some v) : P v ≠ some w := by
  intro h'
  exact T.not_anc_par hw h (Anc.step h' Anc.refl)

theorem Adj.child {v w : Nat} {ev : List Nat} (A : Adj n P v ev) (h : w ∈ ev) (hp : ¬ some w = P v) : w < n ∧ P w = some v := by
  rcases (A.mem w).1 h with h | h
  · exact h
  · exact absurd h.symm hp

theorem sz_pos {v : Nat} (hv : v < n) : 1 ≤ sz n P v := Finset.card_pos.2 ⟨v, mem_desc.2 ⟨hv, Anc.refl⟩⟩

theorem sz_le {v : Nat} : sz n P v ≤ n := by
  classical
  unfold sz desc
  refine le_trans (Finset.card_le_card (Finset.filter_subset _ _)) ?_
  rw [Finset.card_range]

theorem Tree.sz_child (T : Tree n r P) {c v : Nat} (hc : c < n) (h : P c = some v) : sz n P c < sz n P v := by
  unfold sz
  refine Finset.card_lt_card ?_
  rw [Finset.ssubset_iff_of_subset]
  · refine ⟨v, mem_desc.2 ⟨T.par_lt hc h, Anc.refl⟩, fun hm => ?_⟩
    exact T.not_anc_par hc h (mem_desc.1 hm).2
  · intro y hy
    obtain ⟨h1, h2⟩ := mem_desc.1 hy
    exact mem_desc.2 ⟨h1, (Anc.step h Anc.refl).trans h2⟩

theorem Tree.sz_sum (T : Tree n r P) {v : Nat} {ev : List Nat} (hv : v < n) (A : Adj n P v ev) : sz n P v = 1 + (ev.map (wt n P v)).sum := by
  classical
  have e : desc n P v = insert v (ev.toFinset.biUnion (fun c => if some c = P v then ∅ else desc n P c)) := by
    ext y
    rw [mem_desc, Finset.mem_insert, Finset.mem_biUnion]
    constructor
    · rintro ⟨hy, a⟩
      rcases a.cases' with h | ⟨c, h1, h2⟩
      · exact Or.inl h
      · right
        have hc := h2.lt T hy
        refine ⟨c, List.mem_toFinset.2 ((A.mem c).2 (Or.inl ⟨hc, h1⟩)), ?_⟩
        rw [if_neg (fun h => T.not_both hc h1 h.symm)]
        exact mem_desc.2 ⟨hy, h2⟩
    · rintro (h | ⟨c, hc, hy⟩)
      · subst h; exact ⟨hv, Anc.refl⟩
      · rw [List.mem_toFinset] at hc
        by_cases hp : some c = P v
        · rw [if_pos hp] at hy; cases hy
        · rw [if_neg hp] at hy
          obtain ⟨hy1, hy2⟩ := mem_desc.1 hy
          exact ⟨hy1, (Anc.step (A.child hc hp).2 Anc.refl).trans hy2⟩
  have hnot : v ∉ ev.toFinset.biUnion (fun c => if some c = P v then ∅ else desc n P c) := by
    intro hy
    obtain ⟨c, hc, hy⟩ := Finset.mem_biUnion.1 hy
    rw [List.mem_toFinset] at hc
    by_cases hp : some c = P v
    · rw [if_pos hp] at hy; cases hy
    · rw [if_neg hp] at hy
      obtain ⟨h1, h2⟩ := A.child hc hp
      exact T.not_anc_par h1 h2 (mem_desc.1 hy).2
  unfold sz
  rw [e, Finset.card_insert_of_notMem hnot, Finset.card_biUnion, List.sum_toFinset _ A.nodup, Nat.add_comm]
  · congr 2
    refine List.map_congr_left fun c _ => ?_
    unfold wt sz
    by_cases hp : some c = P v
    · rw [if_pos hp, if_pos hp]; rfl
    · rw [if_neg hp, if_neg hp]
  · intro c hc c' hc' hne
    rw [Finset.mem_coe, List.mem_toFinset] at hc hc'
    show Disjoint _ _
    by_cases hp : some c = P v
    · simp [hp]
    · by_cases hp' : some c' = P v
      · simp [hp']
      · simp only [if_neg hp, if_neg hp']
        rw [Finset.disjoint_left]
        intro y hy hy'
        obtain ⟨h1, h2⟩ := A.child hc hp
        obtain ⟨h1', h2'⟩ := A.child hc' hp'
        exact hne (T.children_disjoint h1 h1' h2 h2' (mem_desc.1 hy).2 (mem_desc.1 hy').2)

end Verif.Hld
