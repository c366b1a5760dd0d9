import Verif.IntSet.Model
import Verif.Trie.Del
import Verif.Trie.Rest
/-! The invariant of the threaded trie, and the queries. -/
namespace Verif.IntSet
open Verif
open Verif.Trie (Lf bit pre bit_lt pre_succ pre_W pre_zero pre_mono lt_of_pre pre_half pre_eq_of_le Has Ext Ex IsMin IsMax IsNext IsPrev Above Below Ptr LOk Top ex_of no_of_succ)

variable {V : Type} {W x y z i j p : Nat} {K : Finset Nat} {s : St V} {val : Nat → Option V}

/-- Mask and proper children of a node. -/
def Fl (W : Nat) (K : Finset Nat) (i p : Nat) (u : Nd) : Prop :=
  ∀ b < 2, (u.mask b = true ↔ Has W K (i+1) (2 * p + b)) ∧ (Has W K (i+1) (2 * p + b) → u.ch b = .down)

/-- The thread on side `b` of a node. -/
def Thr (W : Nat) (K : Finset Nat) (b i p : Nat) (c : Ch) : Prop := (K = ∅ ∧ c = .thr none) ∨ ∃ y, c = .thr (some y) ∧ Ext W K b i p y

def Th (W : Nat) (K : Finset Nat) (i p : Nat) (u : Nd) : Prop := ∀ b < 2, ¬ Has W K (i+1) (2 * p + b) → Thr W K b i p (u.ch b)

structure Inv (W : Nat) (s : St V) (K : Finset Nat) (val : Nat → Option V) : Prop where
  mem : ∀ x, x ∈ K ↔ (val x).isSome = true
  lt : ∀ x ∈ K, x < 2 ^ W
  node : ∀ i < W, ∀ p, Ex W K i p → ∃ u, s.node i p = some u ∧ Fl W K i p u ∧ Th W K i p u
  leaf : ∀ a, Ptr K a → ∃ l, s.leaf a = some l ∧ LOk K val a l
  size : s.size = K.card
  tb : ∀ i p, s.tb i p = true ↔ (1 ≤ i ∧ i ≤ W ∧ Has W K i p) ∨ (i = 0 ∧ p = 0)

theorem init_inv (W : Nat) : Inv W (init : St V) ∅ (fun _ => none) := by
  have hh : ∀ i p, ¬ Has W ∅ i p := by rintro i p ⟨z, hz, _⟩; cases hz
  refine ⟨by simp, by simp, ?_, ?_, rfl, ?_⟩
  · rintro i hi p (h | ⟨rfl, rfl⟩)
    · exact absurd h (hh _ _)
    · exact ⟨⟨fun _ => false, fun _ => .thr none⟩, rfl, fun b hb => ⟨⟨fun h => Bool.noConfusion h, fun h => absurd h (hh _ _)⟩, fun h => absurd h (hh _ _)⟩, fun b hb _ => Or.inl ⟨rfl, rfl⟩⟩
  · intro a ha
    cases a with
    | some x => cases ha
    | none => exact ⟨⟨none, none, none⟩, rfl, (fun z hz => absurd hz.1 (Finset.notMem_empty z)), (fun z hz => absurd hz.1 (Finset.notMem_empty z)), rfl⟩
  · intro i p
    simp only [init, Bool.and_eq_true, beq_iff_eq]
    constructor
    · exact Or.inr
    · rintro (⟨_, _, h⟩ | h)
      · exact absurd h (hh _ _)
      · exact h

theorem Inv.at (I : Inv W s K val) (hi : i < W) (hx : x < 2 ^ W) (h : i = 0 ∨ Has W K i (pre W x i)) :
    ∃ u, s.node i (pre W x i) = some u ∧ Fl W K i (pre W x i) u ∧ Th W K i (pre W x i) u ∧ (u.mask (bit W x i) = true ↔ Has W K (i+1) (pre W x (i+1))) := by
  obtain ⟨u, e, f, g⟩ := I.node i hi _ (ex_of hx h)
  exact ⟨u, e, f, g, by rw [pre_succ hi]; exact (f _ (bit_lt _ _ _)).1⟩

theorem search_ok (htb : ∀ i p, s.tb i p = true ↔ (1 ≤ i ∧ i ≤ W ∧ Has W K i p) ∨ (i = 0 ∧ p = 0)) : ∀ f l h, l < h → h ≤ W + 1 → (l = 0 ∨ Has W K l (pre W x l)) → (∀ j, h ≤ j → j ≤ W → ¬ Has W K j (pre W x j)) → h - l ≤ f →
    ∃ r, search W s x f l h (l, pre W x l) = some (r, (r, pre W x r)) ∧ Top W K x r := by
  intro f
  induction f with
  | zero => intro l h h1 _ _ _ h2; omega
  | succ f ih =>
    intro l h hlh hW hl hh hf
    unfold search
    by_cases c : l + 1 < h
    · rw [if_pos c]
      have hm : l < (l + h) / 2 ∧ (l + h) / 2 < h := by omega
      generalize (l + h) / 2 = m at hm ⊢
      have htb := htb m (pre W x m)
      by_cases ht : s.tb m (pre W x m) = true
      · rw [if_pos ht]
        refine ih m h hm.2 hW (Or.inr ?_) hh (by omega)
        rcases htb.1 ht with ⟨_, _, h1⟩ | ⟨h1, _⟩
        · exact h1
        · omega
      · rw [if_neg ht]
        refine ih l m hm.1 (by omega) hl (fun j h1 h2 h3 => ht (htb.2 (Or.inl ⟨by omega, by omega, h3.up h1 h2⟩))) (by omega)
    · rw [if_neg c]
      exact ⟨l, rfl, by omega, hl, fun j h1 h2 => hh j (by omega) h2⟩

theorem search_root (htb : ∀ i p, s.tb i p = true ↔ (1 ≤ i ∧ i ≤ W ∧ Has W K i p) ∨ (i = 0 ∧ p = 0)) (hx : x < 2 ^ W) : ∃ r, search W s x (W + 2) 0 (W + 1) (0, 0) = some (r, (r, pre W x r)) ∧ Top W K x r := by
  have := search_ok htb (x := x) (W + 2) 0 (W + 1) (by omega) (le_refl _) (Or.inl rfl) (fun j h1 h2 => by omega) (by omega)
  rwa [pre_zero hx] at this

/-- The outermost key under the prefix where the path of an absent key ends is its neighbour. -/
theorem prev_of_ext (hi : i < W) (hno : ¬ Has W K (i+1) (pre W x (i+1))) (hb : bit W x i = 1) (h : Ext W K 1 i (pre W x i) y) : IsPrev K (some x) (some y) := by
  obtain ⟨hy, hyp, hext⟩ := h
  have hys := pre_succ (x := y) hi
  have hxs := pre_succ (x := x) hi
  have h3 : bit W y i ≠ bit W x i := fun h4 => hno ⟨y, hy, by rw [hys, hxs, hyp, h4]⟩
  have h2 := bit_lt W y i
  refine ⟨⟨hy, lt_of_pre (W := W) (i := i+1) (by omega)⟩, ?_⟩
  rintro z ⟨hz, hzx⟩
  have h1 := pre_mono (W := W) (i := i) (le_of_lt hzx)
  rcases Nat.lt_or_eq_of_le h1 with h1 | h1
  · exact le_of_lt (lt_of_pre (W := W) (i := i) (by omega))
  · exact (hext z hz h1).1 rfl

theorem next_of_ext (hi : i < W) (hno : ¬ Has W K (i+1) (pre W x (i+1))) (hb : bit W x i = 0) (h : Ext W K 0 i (pre W x i) y) : IsNext K (some x) (some y) := by
  obtain ⟨hy, hyp, hext⟩ := h
  have hys := pre_succ (x := y) hi
  have hxs := pre_succ (x := x) hi
  have h3 : bit W y i ≠ bit W x i := fun h4 => hno ⟨y, hy, by rw [hys, hxs, hyp, h4]⟩
  have h2 := bit_lt W y i
  refine ⟨⟨hy, lt_of_pre (W := W) (i := i+1) (by omega)⟩, ?_⟩
  rintro z ⟨hz, hzx⟩
  have h1 := pre_mono (W := W) (i := i) (le_of_lt hzx)
  rcases Nat.lt_or_eq_of_le h1 with h1 | h1
  · exact le_of_lt (lt_of_pre (W := W) (i := i) (by omega))
  · exact (hext z hz h1.symm).2 rfl

/-- The thread at the node where the path of an absent key ends. -/
theorem fork_ok (I : Inv W s K val) (hx : x < 2 ^ W) (h : Top W K x i) (hi : i < W) :
    ∃ u j, s.node i (pre W x i) = some u ∧ Fl W K i (pre W x i) u ∧ Th W K i (pre W x i) u ∧ u.ch (bit W x i) = .thr j ∧
      (bit W x i = 1 → IsPrev K (some x) j) ∧ (bit W x i = 0 → IsNext K (some x) j) ∧ u.mask (bit W x i) = false ∧ Ptr K j := by
  obtain ⟨u, e, fl, g, hc⟩ := I.at hi hx h.has
  have hno := h.no (i+1) (by omega) hi
  have hcf : u.mask (bit W x i) = false := by
    cases hh : u.mask (bit W x i) with
    | false => rfl
    | true => exact absurd (hc.1 hh) hno
  have hb := bit_lt W x i
  rcases g _ hb (by rw [← pre_succ hi]; exact hno) with ⟨hK, et⟩ | ⟨y, et, hext⟩
  · refine ⟨u, none, e, fl, g, et, fun _ z hz => ?_, fun _ z hz => ?_, hcf, trivial⟩
    · rw [hK] at hz; exact absurd hz.1 (Finset.notMem_empty z)
    · rw [hK] at hz; exact absurd hz.1 (Finset.notMem_empty z)
  · exact ⟨u, some y, e, fl, g, et, fun h1 => prev_of_ext hi hno h1 (h1 ▸ hext), fun h0 => next_of_ext hi hno h0 (h0 ▸ hext), hcf, hext.1⟩

theorem lowerBound_ok (I : Inv W s K val) (hW : 0 < W) (hx : x < 2 ^ W) : ∃ r, lowerBound W s x = some r ∧ IsMin (fun z => z ∈ K ∧ x ≤ z) r := by
  obtain ⟨i, e, t⟩ := search_root I.tb hx
  unfold lowerBound
  rw [e, Option.bind_some]
  dsimp only
  by_cases hi : i = W
  · rw [if_pos hi]
    subst hi
    rw [pre_W]
    exact ⟨_, rfl, ⟨(t.mem hW).2 rfl, le_refl _⟩, fun z hz => hz.2⟩
  · rw [if_neg hi]
    have hxK : x ∉ K := fun h => hi ((t.mem hW).1 h)
    have hle : ∀ z, z ∈ K ∧ Above (some x) z ↔ z ∈ K ∧ x ≤ z := fun z => by
      simp only [Above]
      constructor
      · rintro ⟨a, b⟩; exact ⟨a, by omega⟩
      · rintro ⟨a, b⟩
        have : z ≠ x := fun e => hxK (e ▸ a)
        exact ⟨a, by omega⟩
    obtain ⟨u, j, e1, _, _, e2, h1, h0, _, hp⟩ := fork_ok I hx t (by have := t.le; omega)
    rw [e1, Option.bind_some]
    by_cases c : bit W x i = 0
    · rw [if_pos c]
      rw [c] at e2
      exact ⟨j, by rw [e2]; rfl, (h0 c).congr hle⟩
    · rw [if_neg c]
      have c1 : bit W x i = 1 := by have := bit_lt W x i; omega
      rw [c1] at e2
      obtain ⟨l, el, _, hn, _⟩ := I.leaf j hp
      exact ⟨l.next, by rw [e2, thread, Option.bind_some, el]; rfl, IsMin.congr (Trie.next_of_prev hxK (h1 c1) hn) hle⟩

theorem keyOf_ok (I : Inv W s K val) (hy : y ∈ K) : keyOf s (some y) = some y := by
  obtain ⟨l, el, _, _, lv⟩ := I.leaf (some y) hy
  obtain ⟨v, ev⟩ := Option.isSome_iff_exists.1 ((I.mem y).1 hy)
  unfold keyOf
  rw [Option.bind_some, el, Option.bind_some, lv, Option.bind_some, ev]; rfl

theorem upperBound_ok (I : Inv W s K val) (hW : 0 < W) (hx : x < 2 ^ W) : ∃ r, upperBound W s x = some r ∧ IsMin (fun z => z ∈ K ∧ x < z) r := by
  obtain ⟨r, e, h⟩ := lowerBound_ok I hW hx
  unfold upperBound
  rw [e, Option.bind_some]
  cases r with
  | none => exact ⟨none, rfl, fun z hz => h z ⟨hz.1, by omega⟩⟩
  | some y =>
    rw [if_pos (by simp), keyOf_ok I h.1.1, Option.bind_some]
    by_cases c : y = x
    · rw [if_pos c]
      subst c
      obtain ⟨l, el, _, hnx, _⟩ := I.leaf (some y) h.1.1
      exact ⟨l.next, by rw [el]; rfl, hnx⟩
    · rw [if_neg c]
      exact ⟨some y, rfl, ⟨h.1.1, by have := h.1.2; omega⟩, fun z hz => h.2 z ⟨hz.1, by omega⟩⟩

theorem begin_ok (I : Inv W s K val) : ∃ b, begin s = some b ∧ IsNext K none b := by
  obtain ⟨l, el, _, hn, _⟩ := I.leaf none trivial
  exact ⟨l.next, by unfold begin; rw [el]; rfl, hn⟩

theorem predecessor_ok (I : Inv W s K val) (hW : 0 < W) (hx : x < 2 ^ W) : ∃ r, predecessor W s x = some r ∧ IsPrev K (some x) r := by
  obtain ⟨r, e, h⟩ := lowerBound_ok I hW hx
  obtain ⟨b, eb, hb⟩ := begin_ok I
  unfold predecessor
  rw [e, Option.bind_some, eb, Option.bind_some]
  have hr : Ptr K r := by
    cases r with
    | none => trivial
    | some y => exact h.1.1
  have key : ∀ z, z ∈ K ∧ Below r z ↔ z ∈ K ∧ Below (some x) z := fun z => by
    cases r with
    | none =>
      simp only [Below, and_true]
      exact ⟨fun hz => ⟨hz, by have := h z; simp only [hz, true_and] at this; omega⟩, fun hz => hz.1⟩
    | some y =>
      simp only [Below]
      constructor
      · rintro ⟨hz, hlt⟩
        refine ⟨hz, ?_⟩
        by_contra hc
        have := h.2 z ⟨hz, by omega⟩
        omega
      · rintro ⟨hz, hlt⟩; exact ⟨hz, by have := h.1.2; omega⟩
  by_cases c : r = b
  · rw [if_neg (by simpa using c)]
    subst c
    refine ⟨none, rfl, fun z hz => ?_⟩
    have hz' := (key z).2 hz
    cases r with
    | none => exact hb z ⟨hz.1, trivial⟩
    | some y =>
      have h1 := hb.2 z ⟨hz.1, trivial⟩
      have h2 : z < y := hz'.2
      omega
  · rw [if_pos c]
    obtain ⟨l, el, hp, _, _⟩ := I.leaf r hr
    exact ⟨l.prev, by rw [el]; rfl, IsMax.congr hp key⟩

theorem find_ok (I : Inv W s K val) (hW : 0 < W) : find W s x = if x ∈ K then some x else none := by
  unfold find
  have h : s.tb W x = true ↔ x ∈ K := by
    rw [I.tb]
    constructor
    · rintro (⟨_, _, z, hz, e⟩ | ⟨h, _⟩)
      · rw [pre_W] at e; exact e ▸ hz
      · omega
    · intro h; exact Or.inl ⟨by omega, le_refl _, x, h, pre_W⟩
  simp only [h]

theorem descend_ok (I : Inv W s K val) (hx : x < 2 ^ W) : ∀ k i, i + k = W → (i = 0 ∨ Has W K i (pre W x i)) → ∃ r, descend W s x k i (pre W x i) = some (r, pre W x r) ∧ Top W K x r := by
  intro k
  induction k with
  | zero => intro i hi h; exact ⟨i, rfl, by omega, h, fun j h1 h2 => by omega⟩
  | succ k ih =>
    intro i hi h
    obtain ⟨u, e, _, _, hc⟩ := I.at (by omega) hx h
    unfold descend
    rw [e, Option.bind_some]
    by_cases c : u.mask (bit W x i) = true
    · rw [if_pos c, ← pre_succ (by omega)]
      exact ih (i+1) (by omega) (Or.inr (hc.1 c))
    · rw [if_neg c]
      exact ⟨i, rfl, by omega, h, no_of_succ (by omega) fun h1 => c (hc.2 h1)⟩

open Verif.Trie in
theorem walk_ok (I : Inv W s K val) : ∀ f a, Ptr K a → (rest K a).card < f →
    ∃ l, IntSet.walk s f a = some l ∧ (l.map Prod.fst).Pairwise (· < ·) ∧ ∀ y w, (y, w) ∈ l ↔ y ∈ rest K a ∧ val y = some w
  | 0, a, _, h => absurd h (Nat.not_lt_zero _)
  | f+1, none, _, _ => ⟨[], rfl, List.Pairwise.nil, fun y w => by simp [rest]⟩
  | f+1, some x, hx, h => by
    obtain ⟨l, el, lp, ln, lv⟩ := I.leaf (some x) hx
    obtain ⟨h1, h2⟩ := rest_next hx ln
    rw [h1, Finset.card_insert_of_notMem h2] at h
    obtain ⟨r, er, hs, hm⟩ := walk_ok I f l.next ln.ptr (by omega)
    obtain ⟨v, ev⟩ := Option.isSome_iff_exists.1 ((I.mem x).1 hx)
    have lv' : l.v = some v := by rw [lv]; exact ev
    refine ⟨(x, v) :: r, ?_, ?_, ?_⟩
    · unfold IntSet.walk
      dsimp only
      rw [el, Option.bind_some, lv', Option.bind_some, er]
      rfl
    · rw [List.map_cons, List.pairwise_cons]
      refine ⟨fun y hy => ?_, hs⟩
      obtain ⟨⟨y', w⟩, ha, rfl⟩ := List.mem_map.1 hy
      have hr := ((hm y' w).1 ha).1
      cases hnx : l.next with
      | none => rw [hnx] at hr; exact absurd hr (Finset.notMem_empty _)
      | some n =>
        rw [hnx] at hr ln
        have h3 : x < n := ln.1.2
        simp only [rest, Finset.mem_filter] at hr
        show x < y'
        omega
    · intro y w
      rw [List.mem_cons, hm, h1, Finset.mem_insert]
      constructor
      · rintro (e | ⟨a, b⟩)
        · injection e with e1 e2
          subst e1 e2
          exact ⟨Or.inl rfl, ev⟩
        · exact ⟨Or.inr a, b⟩
      · rintro ⟨rfl | a, b⟩
        · rw [ev] at b
          injection b with b
          exact Or.inl (by rw [b])
        · exact Or.inr ⟨a, b⟩

theorem elements_ok (I : Inv W s K val) : ∃ l, elements s = some l ∧ (l.map Prod.fst).Pairwise (· < ·) ∧ ∀ y w, (y, w) ∈ l ↔ val y = some w := by
  obtain ⟨b, eb, hb⟩ := begin_ok I
  have hr := Trie.rest_first hb
  obtain ⟨r, er, hs, hm⟩ := walk_ok I (s.size + 1) b hb.ptr (by rw [hr, I.size]; omega)
  refine ⟨r, by unfold elements; rw [eb, Option.bind_some, er], hs, fun y w => ?_⟩
  rw [hm, hr]
  exact ⟨fun a => a.2, fun a => ⟨(I.mem y).2 (by rw [a]; rfl), a⟩⟩

end Verif.IntSet
