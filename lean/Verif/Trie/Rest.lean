import Verif.Trie.Del
import Verif.Trie.Emplace
/-! Erasure by key or iterator, `operator[]`, iteration, `traverse(rule)`. -/
namespace Verif.Trie
open Verif

variable {V : Type} {W x y z i j p q h d : Nat} {K : Finset Nat} {rt xf : Bool} {s : St V} {val : Nat → Option V} {v : V}

theorem eraseAt_ok (hW : 0 < W) (I : Inv W rt s K val) (hx : x ∈ K) (xf : Bool) : ∃ s' nx, eraseLeaf xf W s x = some (s', nx) ∧ Inv W rt s' (K.erase x) (upd val x none) ∧ IsNext K (some x) nx := by
  have I' : Inv W rt s (insert x (K.erase x)) val := by rw [Finset.insert_erase hx]; exact I
  obtain ⟨s', nx, e, J, hn⟩ := eraseLeaf_ok hW I' (Finset.notMem_erase x K) xf
  refine ⟨s', nx, e, J, ?_⟩
  have := next_ins_x hn
  rwa [Finset.insert_erase hx] at this

theorem erase_ok (hW : 0 < W) (I : Inv W rt s K val) (hx : x < 2 ^ W) (xf : Bool) : ∃ s', erase xf W s x = some (s', decide (x ∈ K)) ∧ Inv W rt s' (K.erase x) (upd val x none) := by
  unfold erase
  rw [find_ok I hW hx xf, Option.bind_some]
  by_cases c : x ∈ K
  · rw [if_pos c]
    obtain ⟨s', nx, e, J, _⟩ := eraseAt_ok hW I c xf
    dsimp only
    rw [e]
    exact ⟨s', by simp [c], J⟩
  · rw [if_neg c]
    have hv : upd val x none = val := by
      funext y
      by_cases e : y = x
      · subst e
        rw [upd_same]
        have := I.mem y
        cases hc : val y with
        | none => rfl
        | some w => exact absurd (this.2 (by rw [hc]; rfl)) c
      · rw [upd_ne _ _ e]
    refine ⟨s, by simp [c], ?_⟩
    rw [hv, Finset.erase_eq_of_notMem c]
    exact I

/-! ### values -/

theorem setVal_ok (I : Inv W rt s K val) (hx : x ∈ K) (v : V) : ∃ s', modLeaf s (some x) (fun l => { l with v := some v }) = some s' ∧ Inv W rt s' K (upd val x (some v)) := by
  obtain ⟨l, el, lp, ln, lv⟩ := I.leaf (some x) hx
  refine ⟨setLeaf s (some x) (some { l with v := some v }), by unfold modLeaf; rw [el]; rfl, ?_, I.lt, I.node, ?_, I.size, I.tb⟩
  · intro y
    by_cases c : y = x
    · subst c; simp [upd_same, hx]
    · rw [upd_ne _ _ c]; exact I.mem y
  · intro a ha
    unfold setLeaf
    dsimp only
    by_cases c : a = some x
    · subst c
      rw [if_pos rfl]
      exact ⟨_, rfl, lp, ln, by simp [upd_same]⟩
    · rw [if_neg c]
      obtain ⟨w, ew, wp, wn, wv⟩ := I.leaf a ha
      refine ⟨w, ew, wp, wn, ?_⟩
      rw [wv]
      cases a with
      | none => rfl
      | some y => exact (upd_ne _ _ (fun e => c (by rw [e]))).symm

theorem valueAt_ok (I : Inv W rt s K val) (hx : x ∈ K) : valueAt s (some x) = val x := by
  obtain ⟨l, el, lp, ln, lv⟩ := I.leaf (some x) hx
  unfold valueAt
  rw [el]
  exact lv

/-- What `operator[]` leaves: the old value, or the default one for a new key. -/
theorem ref_ok (I : Inv W rt s K val) (hW : 0 < W) (hx : x < 2 ^ W) (xf : Bool) (hrt : xf = true → rt = true) (d : V) :
    ∃ s', ref xf W s x d = some s' ∧ Inv W rt s' (insert x K) (if x ∈ K then val else upd val x (some d)) := by
  obtain ⟨r, er, hr⟩ := lowerBound_ok I hW hx xf
  unfold ref
  rw [er, Option.bind_some]
  have hp : Ptr K r := by
    cases r with
    | none => trivial
    | some y => exact hr.1.1
  by_cases c : r = none ∨ x < keyOf r
  · rw [if_pos c]
    exact emplaceHint_ok I hW hx xf hrt hp d
  · rw [if_neg c]
    have hm : x ∈ K := by
      cases r with
      | none => exact absurd (Or.inl rfl) c
      | some y =>
        have h1 : ¬ x < y := fun h => c (Or.inr h)
        have h2 : x ≤ y := hr.1.2
        have : y = x := by omega
        rw [← this]; exact hr.1.1
    rw [if_pos hm, Finset.insert_eq_of_mem hm]
    exact ⟨s, rfl, I⟩

theorem assign_ok (I : Inv W rt s K val) (hW : 0 < W) (hx : x < 2 ^ W) (xf : Bool) (hrt : xf = true → rt = true) (d v : V) :
    ∃ s', assign xf W s x d v = some s' ∧ Inv W rt s' (insert x K) (upd val x (some v)) := by
  obtain ⟨s1, e1, I1⟩ := ref_ok I hW hx xf hrt d
  obtain ⟨s2, e2, I2⟩ := setVal_ok I1 (Finset.mem_insert_self x K) v
  refine ⟨s2, by unfold assign; rw [e1, Option.bind_some, e2], ?_⟩
  have : upd (if x ∈ K then val else upd val x (some d)) x (some v) = upd val x (some v) := by
    funext y
    by_cases c : y = x
    · subst c; rw [upd_same, upd_same]
    · rw [upd_ne _ _ c, upd_ne _ _ c]
      split
      · rfl
      · rw [upd_ne _ _ c]
  rwa [this] at I2

/-! ### iteration -/

/-- The keys from a pointer on. -/
def rest (K : Finset Nat) : Option Nat → Finset Nat
  | none => ∅
  | some x => K.filter (x ≤ ·)

theorem mem_rest_next {nx : Option Nat} (hx : x ∈ K) (hn : IsNext K (some x) nx) : z ∈ rest K (some x) ↔ z = x ∨ z ∈ rest K nx := by
  cases nx with
  | none =>
    simp only [rest, Finset.mem_filter, Finset.notMem_empty, or_false]
    constructor
    · rintro ⟨a, b⟩
      by_contra e
      exact hn z ⟨a, by show x < z; omega⟩
    · rintro rfl; exact ⟨hx, le_refl _⟩
  | some y =>
    have hy : x < y := hn.1.2
    simp only [rest, Finset.mem_filter]
    constructor
    · rintro ⟨a, b⟩
      by_cases e : z = x
      · exact Or.inl e
      · exact Or.inr ⟨a, hn.2 z ⟨a, by show x < z; omega⟩⟩
    · rintro (rfl | ⟨a, b⟩)
      · exact ⟨hx, le_refl _⟩
      · exact ⟨a, by omega⟩

theorem rest_next {nx : Option Nat} (hx : x ∈ K) (hn : IsNext K (some x) nx) : rest K (some x) = insert x (rest K nx) ∧ x ∉ rest K nx := by
  refine ⟨?_, ?_⟩
  · ext z
    rw [Finset.mem_insert]
    exact mem_rest_next hx hn
  · cases nx with
    | none => exact Finset.notMem_empty x
    | some y =>
      have hy : x < y := hn.1.2
      simp only [rest, Finset.mem_filter, not_and, not_le]
      exact fun _ => hy

theorem walk_ok (I : Inv W rt s K val) : ∀ f a, Ptr K a → (rest K a).card < f →
    ∃ l, walk s f a = some l ∧ (l.map Prod.fst).Pairwise (· < ·) ∧ ∀ y w, (y, w) ∈ l ↔ y ∈ rest K a ∧ val y = some w
  | 0, a, _, h => absurd h (Nat.not_lt_zero _)
  | f+1, none, _, _ => ⟨[], rfl, List.Pairwise.nil, fun y w => by simp [rest]⟩
  | f+1, some x, hx, h => by
    obtain ⟨l, el, lp, ln, lv⟩ := I.leaf (some x) hx
    obtain ⟨h1, h2⟩ := rest_next hx ln
    rw [h1, Finset.card_insert_of_notMem h2] at h
    obtain ⟨r, er, hs, hm⟩ := walk_ok I f l.next ln.ptr (by omega)
    obtain ⟨v, ev⟩ := Option.isSome_iff_exists.1 ((I.mem x).1 hx)
    have lv' : l.v = some v := by rw [lv]; exact ev
    refine ⟨(x, v) :: r, ?_, ?_, ?_⟩
    · unfold walk
      dsimp only
      rw [el, Option.bind_some, lv', Option.bind_some, er]
      rfl
    · rw [List.map_cons, List.pairwise_cons]
      refine ⟨fun y hy => ?_, hs⟩
      obtain ⟨⟨y', w⟩, ha, rfl⟩ := List.mem_map.1 hy
      have hr := ((hm y' w).1 ha).1
      cases hnx : l.next with
      | none => rw [hnx] at hr; exact absurd hr (Finset.notMem_empty _)
      | some n =>
        rw [hnx] at hr ln
        have h3 : x < n := ln.1.2
        simp only [rest, Finset.mem_filter] at hr
        show x < y'
        omega
    · intro y w
      rw [List.mem_cons, hm, h1, Finset.mem_insert]
      constructor
      · rintro (e | ⟨a, b⟩)
        · injection e with e1 e2
          subst e1 e2
          exact ⟨Or.inl rfl, ev⟩
        · exact ⟨Or.inr a, b⟩
      · rintro ⟨rfl | a, b⟩
        · rw [ev] at b
          injection b with b
          exact Or.inl (by rw [b])
        · exact Or.inr ⟨a, b⟩

theorem rest_first {nx : Option Nat} (hn : IsNext K none nx) : rest K nx = K := by
  cases nx with
  | none =>
    ext z
    exact ⟨fun h => absurd h (Finset.notMem_empty z), fun h => absurd ⟨h, trivial⟩ (hn z)⟩
  | some y =>
    ext z
    simp only [rest, Finset.mem_filter]
    exact ⟨fun h => h.1, fun h => ⟨h, hn.2 z ⟨h, trivial⟩⟩⟩

theorem elements_ok (I : Inv W rt s K val) : ∃ l, elements s = some l ∧ (l.map Prod.fst).Pairwise (· < ·) ∧ ∀ y w, (y, w) ∈ l ↔ val y = some w := by
  obtain ⟨l, el, lp, ln, lv⟩ := I.leaf none trivial
  have hr := rest_first ln
  obtain ⟨r, er, hs, hm⟩ := walk_ok I (s.size + 1) l.next ln.ptr (by rw [hr, I.size]; omega)
  refine ⟨r, by unfold elements; rw [el, Option.bind_some, er], hs, fun y w => ?_⟩
  rw [hm, hr]
  exact ⟨fun a => a.2, fun a => ⟨(I.mem y).2 (by rw [a]; rfl), a⟩⟩

theorem unlink_all (I : Inv W rt s K val) : ∀ f a, Ptr K a → (rest K a).card < f → unlink s f a = some ()
  | 0, a, _, h => absurd h (Nat.not_lt_zero _)
  | f+1, none, _, _ => rfl
  | f+1, some x, hx, h => by
    obtain ⟨l, el, lp, ln, lv⟩ := I.leaf (some x) hx
    obtain ⟨h1, h2⟩ := rest_next hx ln
    rw [h1, Finset.card_insert_of_notMem h2] at h
    unfold unlink
    dsimp only
    rw [el, Option.bind_some]
    exact unlink_all I f l.next ln.ptr (by omega)

theorem deinit_ok (I : Inv W rt s K val) : deinit (some s) = some () := by
  obtain ⟨l, el, lp, ln, lv⟩ := I.leaf none trivial
  have hr := rest_first ln
  unfold deinit
  dsimp only
  rw [el, Option.bind_some]
  exact unlink_all I _ _ ln.ptr (by rw [hr, I.size]; omega)

/-! ### `traverse(rule)` -/

/-- A rule that never asks for a missing child when one is there. -/
def Sound (rule : Nat → Bool → Bool → Nat) : Prop := ∀ k l r, (l || r) = true → (rule k l r = 0 ∧ l = true) ∨ (rule k l r = 1 ∧ r = true)

open Classical in
theorem follow_ok (I : Inv W rt s K val) {rule : Nat → Bool → Bool → Nat} (hr : Sound rule) : ∀ k i p, i + k = W → Has W K i p →
    ∃ y, follow W s rule k i p = some y ∧ y ∈ K ∧ pre W y i = p ∧
      ∀ j, i ≤ j → j < W → bit W y j = rule (W - 1 - j) (decide (∃ z ∈ K, pre W z (j+1) = 2 * pre W y j)) (decide (∃ z ∈ K, pre W z (j+1) = 2 * pre W y j + 1))
  | 0, i, p, hi, ⟨z, hz, ez⟩ => by
    have : i = W := by omega
    subst this
    rw [pre_W] at ez
    subst ez
    exact ⟨z, rfl, hz, pre_W, fun j a b => by omega⟩
  | k+1, i, p, hi, hp => by
    obtain ⟨u, eu, fu, ju⟩ := I.node i (by omega) p (Or.inl hp)
    have h0 : u.c0 = decide (∃ z ∈ K, pre W z (i+1) = 2 * p) := by
      have := fu 0 (by omega)
      rw [Bool.eq_iff_iff, decide_eq_true_iff]
      exact this
    have h1 : u.c1 = decide (∃ z ∈ K, pre W z (i+1) = 2 * p + 1) := by
      have := fu 1 (by omega)
      rw [Bool.eq_iff_iff, decide_eq_true_iff]
      exact this
    have hor : (u.c0 || u.c1) = true := by
      obtain ⟨z, hz, ez⟩ := hp
      have hps := pre_succ (x := z) (W := W) (i := i) (by omega)
      have hb := bit_lt W z i
      rcases (by omega : bit W z i = 0 ∨ bit W z i = 1) with c | c
      · have : u.c0 = true := by rw [h0, decide_eq_true_iff]; exact ⟨z, hz, by omega⟩
        rw [this]; rfl
      · have : u.c1 = true := by rw [h1, decide_eq_true_iff]; exact ⟨z, hz, by omega⟩
        rw [this, Bool.or_true]
    have hb2 : rule (W - 1 - i) u.c0 u.c1 < 2 ∧ child u (rule (W - 1 - i) u.c0 u.c1) = true := by
      rcases hr (W - 1 - i) _ _ hor with ⟨e, c⟩ | ⟨e, c⟩
      · rw [e]; exact ⟨by omega, c⟩
      · rw [e]; exact ⟨by omega, c⟩
    obtain ⟨y, e, hy, hpy, hrest⟩ := follow_ok I hr k (i+1) _ (by omega) ((fu _ hb2.1).1 hb2.2)
    have hps := pre_succ (x := y) (W := W) (i := i) (by omega)
    have hby := bit_lt W y i
    have hyp : pre W y i = p := by omega
    refine ⟨y, ?_, hy, hyp, fun j a b => ?_⟩
    · unfold follow
      rw [eu, Option.bind_some, if_pos hb2.2, e]
    · by_cases c : j = i
      · subst c
        rw [hyp, ← h0, ← h1]
        omega
      · exact hrest j (by omega) b

end Verif.Trie
