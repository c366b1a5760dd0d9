import Verif.IntSetY.Model
import Verif.Yft.Props
/-! The operations of the Y-fast trie of integer_set.hpp under its invariant. -/
namespace Verif.IntSetY
open Verif
open Verif.Treap (Sorted hasKey below above from_ first last sInsert sErase inorder belowIt fromIt goodIt hintNear)
open Verif.Trie (IsMin IsMax Has pre)
open Verif.Yft (kmax It Buckets ItOk kmax_lt hasKey_mem first_min last_max first_filter last_filter IsMax.unique mem_sErase mem_sInsert hasKey_sInsert lower_first find_mem around fromIt_first)

variable {V : Type} {W p q x : Nat} {m : Nat → Option (Treap.Treap Nat V)} {L : List (Nat × V)} {T R : Treap.Treap Nat V} {K : Finset Nat}
  {xf : X V} {s : Y V} {it : It} {a : Option Nat}

/-- The invariant: the X-fast trie holds the buckets `m`, and the buckets hold `L`. -/
structure Inv (W : Nat) (s : Y V) (K : Finset Nat) (m : Nat → Option (Treap.Treap Nat V)) (L : List (Nat × V)) : Prop where
  tri : IntSet.Inv W s.xft K m
  B : Buckets W m L
  size : s.size = L.length

theorem setVal_ok (I : IntSet.Inv W xf K m) (hx : x ∈ K) (v : Treap.Treap Nat V) : ∃ s', IntSet.modLeaf xf (some x) (fun l => { l with v := some v }) = some s' ∧ IntSet.Inv W s' K (upd m x (some v)) := by
  obtain ⟨l, el, lp, ln, lv⟩ := I.leaf (some x) hx
  refine ⟨{ xf with leaf := fun b => if b = some x then some { l with v := some v } else xf.leaf b }, by unfold IntSet.modLeaf; rw [el]; rfl, ?_, I.lt, I.node, ?_, I.size, I.tb⟩
  · intro y
    by_cases c : y = x
    · subst c; simp [upd_same, hx]
    · rw [upd_ne _ _ c]; exact I.mem y
  · intro a ha
    dsimp only
    by_cases c : a = some x
    · subst c
      rw [if_pos rfl]
      exact ⟨_, rfl, lp, ln, by simp [upd_same]⟩
    · rw [if_neg c]
      obtain ⟨w, ew, wp, wn, wv⟩ := I.leaf a ha
      refine ⟨w, ew, wp, wn, ?_⟩
      rw [wv]
      cases a with
      | none => rfl
      | some y => exact (upd_ne _ _ (fun e => c (by rw [e]))).symm

theorem bucket_eq (tri : IntSet.Inv W xf K m) (h : m p = some T) : bucket xf p = some T := by
  obtain ⟨l, el, lp, ln, lv⟩ := tri.leaf (some p) ((tri.mem p).2 (by rw [h]; rfl))
  unfold bucket
  rw [el, Option.bind_some, lv]
  exact h

theorem set_eq (tri : IntSet.Inv W xf K m) (h : m p = some T) (T' : Treap.Treap Nat V) : ∃ xf', setBucket xf p T' = some xf' ∧ IntSet.Inv W xf' K (upd m p (some T')) :=
  setVal_ok tri ((tri.mem p).2 (by rw [h]; rfl)) T'

theorem nextLeaf_eq (tri : IntSet.Inv W xf K m) (h : m p = some T) : ∃ r, nextLeaf xf (some p) = some r ∧ IsMin (fun z => (m z).isSome = true ∧ p < z) r := by
  obtain ⟨l, el, lp, ln, lv⟩ := tri.leaf (some p) ((tri.mem p).2 (by rw [h]; rfl))
  refine ⟨l.next, by unfold nextLeaf; rw [el]; rfl, Trie.IsMin.congr ln (fun z => ?_)⟩
  rw [tri.mem]; rfl

theorem prevLeaf_eq (tri : IntSet.Inv W xf K m) (h : m p = some T) : ∃ r, prevLeaf xf (some p) = some r ∧ IsMax (fun z => (m z).isSome = true ∧ z < p) r := by
  obtain ⟨l, el, lp, ln, lv⟩ := tri.leaf (some p) ((tri.mem p).2 (by rw [h]; rfl))
  refine ⟨l.prev, by unfold prevLeaf; rw [el]; rfl, Trie.IsMax.congr lp (fun z => ?_)⟩
  rw [tri.mem]; rfl

theorem firstLeaf_eq (tri : IntSet.Inv W xf K m) : ∃ r, nextLeaf xf none = some r ∧ IsMin (fun z => (m z).isSome = true ∧ True) r := by
  obtain ⟨l, el, lp, ln, lv⟩ := tri.leaf none trivial
  refine ⟨l.next, by unfold nextLeaf; rw [el]; rfl, Trie.IsMin.congr ln (fun z => ?_)⟩
  rw [tri.mem]; rfl

theorem lastLeaf_eq (tri : IntSet.Inv W xf K m) (ht : (m (kmax W)).isSome) (hl : ∀ p, (m p).isSome → p ≤ kmax W) : prevLeaf xf none = some (some (kmax W)) := by
  obtain ⟨l, el, lp, ln, lv⟩ := tri.leaf none trivial
  have h : IsMax (fun z => z ∈ K ∧ Trie.Below none z) (some (kmax W)) :=
    ⟨⟨(tri.mem _).2 ht, trivial⟩, fun z hz => hl z ((tri.mem _).1 hz.1)⟩
  have : l.prev = some (kmax W) := IsMax.unique lp h
  unfold prevLeaf; rw [el, Option.map_some, this]

theorem end_eq (I : Inv W s K m L) : end_ s = some ⟨kmax W, none⟩ := by
  unfold end_
  rw [lastLeaf_eq I.tri I.B.top I.B.lt]
  rfl

theorem lowerLeaf (I : Inv W s K m L) (hW : 0 < W) (hx : x < 2 ^ W) :
    ∃ p T, IntSet.lowerBound W s.xft x = some (some p) ∧ IsMin (fun z => (m z).isSome = true ∧ x ≤ z) (some p) ∧ m p = some T := by
  obtain ⟨r, e, h⟩ := IntSet.lowerBound_ok I.tri hW hx
  have h' := Trie.IsMin.congr h (Q := fun z => (m z).isSome = true ∧ x ≤ z) (fun z => by rw [I.tri.mem])
  obtain ⟨p, T, rfl, hT⟩ := I.B.exists_home hx h'
  exact ⟨p, T, e, h', hT⟩

/-! ### queries -/

theorem lowerBound_ok (I : Inv W s K m L) (hW : 0 < W) (hx : x < 2 ^ W) : ∃ it, lowerBound W s x = some it ∧ ItOk W m (first (from_ L x)) it := by
  obtain ⟨p, T, e, hp, hT⟩ := lowerLeaf I hW hx
  obtain ⟨h1, h2⟩ := I.B.up_first (P := fun z => x ≤ z) (fun a b h1 h2 => le_trans h1 h2) hp hT (first_filter (I.B.srt p T hT))
  have h3 : first (from_ L x) = first (from_ (inorder T.root) x) := (first_filter I.B.ls).unique h1
  have h2 : ItOk W m (first (from_ (inorder T.root) x)) ⟨p, first (from_ (inorder T.root) x)⟩ := h2
  unfold lowerBound
  rw [e, Option.bind_some, Option.bind_some, bucket_eq I.tri hT, Option.bind_some, lower_first x (I.B.srt p T hT), h3]
  cases c : first (from_ (inorder T.root) x) with
  | some y => rw [c] at h2; exact ⟨_, rfl, h2⟩
  | none =>
    rw [c] at h2
    have hpk : p = kmax W := by have := congrArg It.x (show (⟨p, none⟩ : It) = ⟨kmax W, none⟩ from h2); exact this
    obtain ⟨r, er, hr⟩ := nextLeaf_eq I.tri hT
    have : r = none := by
      cases r with
      | none => rfl
      | some q => have := I.B.lt q hr.1.1; have := hr.1.2; omega
    subst this
    refine ⟨_, ?_, rfl⟩
    dsimp only
    rw [er, Option.bind_some, if_pos rfl, end_eq I]

theorem begin_ok (I : Inv W s K m L) : ∃ it, begin_ s = some it ∧ ItOk W m (first L) it := by
  obtain ⟨r, e, h⟩ := firstLeaf_eq I.tri
  unfold begin_
  rw [e, Option.bind_some]
  cases r with
  | none => exact absurd ⟨I.B.top, trivial⟩ (h (kmax W))
  | some p =>
    obtain ⟨T, hT⟩ := Option.isSome_iff_exists.1 h.1.1
    obtain ⟨h1, h2⟩ := I.B.up_first (P := fun _ => True) (fun a b h1 h2 => trivial) h hT
      (Trie.IsMin.congr (first_min (I.B.srt p T hT)) (fun z => by simp))
    refine ⟨_, by rw [Option.bind_some, bucket_eq I.tri hT, Option.map_some], ?_⟩
    rw [Treap.begin_eq]
    rw [show first L = first (inorder T.root) from (first_min I.B.ls).unique (Trie.IsMin.congr h1 (fun z => by simp))]
    exact h2

theorem find_ok (I : Inv W s K m L) (hW : 0 < W) (hx : x < 2 ^ W) : ∃ it, find W s x = some it ∧ ItOk W m (if hasKey L x then some x else none) it := by
  obtain ⟨p, T, e, hp, hT⟩ := lowerLeaf I hW hx
  unfold find
  rw [e, Option.bind_some, Option.bind_some, bucket_eq I.tri hT, Option.bind_some, Treap.find_eq x _ (I.B.srt p T hT), Treap.find_key, I.B.homeKey hp hT]
  cases c : hasKey (inorder T.root) x with
  | true => exact ⟨_, rfl, rfl, T, hT, c⟩
  | false => exact ⟨_, end_eq I, rfl⟩

theorem deref_ok (I : Inv W s K m L) {k : Nat} (h : ItOk W m (some k) it) : ∃ v, (k, v) ∈ L ∧ deref s it = some (k, v) := by
  obtain ⟨h1, T, hT, hk⟩ := h
  obtain ⟨v, hv⟩ := hasKey_mem.1 hk
  refine ⟨v, (I.B.mem k v).2 ⟨_, T, hT, hv⟩, ?_⟩
  unfold deref
  rw [bucket_eq I.tri hT, Option.bind_some, h1, Treap.deref_ok (I.B.srt _ T hT) hk, find_mem (I.B.srt _ T hT) hv]

theorem next_ok (I : Inv W s K m L) {k : Nat} (h : ItOk W m (some k) it) : ∃ it', next s it = some it' ∧ ItOk W m (first (above L k)) it' := by
  obtain ⟨h1, T, hT, hk⟩ := h
  have hsT := I.B.srt _ T hT
  have hf := first_filter (P := fun z => k < z) hsT
  have hkp := I.B.kle hT hk
  unfold next
  rw [bucket_eq I.tri hT, Option.bind_some, h1, Treap.next_ok hsT hk, Option.bind_some]
  have hf' : IsMin (fun z => hasKey (inorder T.root) z = true ∧ k < z) (first (above (inorder T.root) k)) := hf
  cases c : first (above (inorder T.root) k) with
  | some k' =>
    rw [c] at hf'
    have hk' := I.B.kle hT hf'.1.1
    have hkk : k < k' := hf'.1.2
    have hmin : IsMin (fun z => (m z).isSome = true ∧ k < z) (some it.x) := by
      refine ⟨⟨by rw [hT]; rfl, by omega⟩, ?_⟩
      rintro z ⟨hz, hkz⟩
      by_contra c
      have := I.B.kgt hT hz (by omega) hk
      omega
    obtain ⟨h3, h4⟩ := I.B.up_first (fun a b h1 h2 => lt_of_lt_of_le h1 h2) hmin hT hf'
    exact ⟨_, rfl, by rw [show first (above L k) = some k' from (first_filter I.B.ls).unique h3]; exact h4⟩
  | none =>
    rw [c] at hf'
    obtain ⟨r, e, hr⟩ := nextLeaf_eq I.tri hT
    dsimp only
    rw [e, Option.bind_some]
    cases r with
    | none =>
      have hx : it.x = kmax W := by
        by_contra c
        have := I.B.lt it.x (by rw [hT]; rfl)
        exact hr (kmax W) ⟨I.B.top, by omega⟩
      refine ⟨_, rfl, ?_⟩
      have : IsMin (fun z => hasKey L z = true ∧ k < z) none := by
        rintro z ⟨hz, hkz⟩
        obtain ⟨q, R, g1, g2⟩ := I.B.key.1 hz
        have g3 := I.B.lt q (by rw [g1]; rfl)
        have g4 := I.B.kle g1 g2
        by_cases d : q = it.x
        · rw [d, hT] at g1; cases g1; exact hf' z ⟨g2, hkz⟩
        · have := I.B.kgt hT (by rw [g1]; rfl) (by omega) hk
          omega
      rw [show first (above L k) = none from (first_filter I.B.ls).unique this, hx]
      rfl
    | some q =>
      have hpk : it.x ≠ kmax W := by
        have := I.B.lt q hr.1.1
        have := hr.1.2
        omega
      have hkp' : k = it.x := by
        by_contra d
        exact hf' it.x ⟨I.B.piv _ T hT hpk, by omega⟩
      obtain ⟨R, hR⟩ := Option.isSome_iff_exists.1 hr.1.1
      have hall : ∀ z, hasKey (inorder R.root) z = true → k < z := by
        intro z hz
        rw [hkp']
        exact I.B.kgt hR (by rw [hT]; rfl) hr.1.2 hz
      obtain ⟨h3, h4⟩ := I.B.up_first (P := fun z => k < z) (fun a b h1 h2 => lt_of_lt_of_le h1 h2) (by rw [hkp']; exact hr) hR
        (Trie.IsMin.congr (first_min (I.B.srt q R hR)) (fun z => ⟨fun h => ⟨h, hall z h⟩, fun h => h.1⟩))
      refine ⟨_, by dsimp only; rw [bucket_eq I.tri hR, Option.map_some], ?_⟩
      rw [Treap.begin_eq, show first (above L k) = first (inorder R.root) from (first_filter I.B.ls).unique h3]
      exact h4

/-- The elements an iterator can step back to. -/
theorem prev_ok (I : Inv W s K m L) (h : ItOk W m a it) {k : Nat} (hl : last (belowIt L a) = some k) : ∃ it', prev s it = some it' ∧ ItOk W m (some k) it' := by
  -- the bucket of the iterator
  obtain ⟨T, hT, hg⟩ : ∃ T, m it.x = some T ∧ it.t = a ∧ (∀ y, a = some y → hasKey (inorder T.root) y = true) ∧ (a = none → it.x = kmax W) := by
    cases a with
    | none =>
      rw [show it = ⟨kmax W, none⟩ from h]
      obtain ⟨T, hT⟩ := Option.isSome_iff_exists.1 I.B.top
      exact ⟨T, hT, rfl, by simp, fun _ => rfl⟩
    | some y =>
      obtain ⟨h1, T, hT, hk⟩ := h
      exact ⟨T, hT, h1, by rintro _ ⟨⟩; exact hk, by simp⟩
  obtain ⟨ht, hy, hn⟩ := hg
  have hsT := I.B.srt _ T hT
  have hmax : IsMax (fun z => hasKey L z = true ∧ Trie.Below a z) (some k) := by
    rw [← hl]
    cases a with
    | none => exact Trie.IsMax.congr (last_max I.B.ls) (fun z => ⟨fun h => ⟨h, trivial⟩, fun h => h.1⟩)
    | some y => exact last_filter (P := fun z => z < y) I.B.ls
  unfold prev
  rw [bucket_eq I.tri hT, Option.bind_some, ht, Treap.begin_eq]
  have hb : ∀ z, hasKey (inorder T.root) z = true → Trie.Below a z → a ≠ (inorder T.root).head?.map Prod.fst := by
    intro z hz hbz e
    have := first_min hsT
    rw [show first (inorder T.root) = a from e.symm] at this
    cases a with
    | none => exact this z hz
    | some y => have := this.2 z hz; have : z < y := hbz; omega
  by_cases c : a = (inorder T.root).head?.map Prod.fst
  · rw [if_pos c]
    obtain ⟨q0, S, g1, g2⟩ := I.B.key.1 hmax.1.1
    have hq0 : q0 < it.x := by
      have hne : q0 ≠ it.x := by
        rintro rfl
        rw [hT] at g1; cases g1
        exact hb k g2 hmax.1.2 c
      rcases Nat.lt_or_gt_of_ne hne with d | d
      · exact d
      · exfalso
        cases a with
        | none => have := hn rfl; have := I.B.lt q0 (by rw [g1]; rfl); omega
        | some y =>
          have := I.B.kgt g1 (by rw [hT]; rfl) d g2
          have := I.B.kle hT (hy y rfl)
          have : k < y := hmax.1.2
          omega
    obtain ⟨r, e, hr⟩ := prevLeaf_eq I.tri hT
    rw [e, Option.bind_some]
    cases r with
    | none => exact absurd ⟨by rw [g1]; rfl, hq0⟩ (hr q0)
    | some q =>
      have hqx : q < it.x := hr.1.2
      have hxk := I.B.lt it.x (by rw [hT]; rfl)
      obtain ⟨R, hR⟩ := Option.isSome_iff_exists.1 hr.1.1
      have hRq := I.B.piv q R hR (by omega)
      have hRk : hasKey (inorder R.root) k = true ∧ ∀ z, hasKey (inorder R.root) z = true → z ≤ k := by
        have hle : ∀ z, hasKey (inorder R.root) z = true → z ≤ k := by
          intro z hz
          refine hmax.2 z ⟨I.B.key.2 ⟨q, R, hR, hz⟩, ?_⟩
          cases a with
          | none => trivial
          | some y =>
            have := I.B.kle hR hz
            have := I.B.kgt hT (by rw [hR]; rfl) hqx (hy y rfl)
            show z < y
            omega
        refine ⟨?_, hle⟩
        have h1 := hle q hRq
        have h2 := hr.2 q0 ⟨by rw [g1]; rfl, hq0⟩
        have h3 := I.B.kle g1 g2
        have : q0 = q := by omega
        subst this
        rw [hR] at g1; cases g1; exact g2
      have hl : last (inorder R.root) = some k := IsMax.unique (last_max (I.B.srt q R hR)) ⟨hRk.1, hRk.2⟩
      refine ⟨⟨q, some k⟩, ?_, rfl, R, hR, hRk.1⟩
      rw [Option.bind_some, bucket_eq I.tri hR, Option.bind_some, Treap.prev_end, hl]; rfl
  · rw [if_neg c]
    -- something of the same bucket is before the iterator
    obtain ⟨z, hz, hbz⟩ : ∃ z, hasKey (inorder T.root) z = true ∧ Trie.Below a z := by
      have hm := first_min hsT
      cases d : first (inorder T.root) with
      | none =>
        rw [d] at hm
        cases a with
        | none => exact absurd d.symm c
        | some y => exact absurd (hy y rfl) (hm y)
      | some z =>
        rw [d] at hm
        refine ⟨z, hm.1, ?_⟩
        cases a with
        | none => trivial
        | some y =>
          have := hm.2 y (hy y rfl)
          have : z ≠ y := by rintro rfl; exact c d.symm
          show z < y
          omega
    have hTk : hasKey (inorder T.root) k = true := by
      obtain ⟨q0, S, g1, g2⟩ := I.B.key.1 hmax.1.1
      have g3 := hmax.2 z ⟨I.B.key.2 ⟨_, T, hT, hz⟩, hbz⟩
      rcases Nat.lt_trichotomy q0 it.x with d | d | d
      · have := I.B.kgt hT (by rw [g1]; rfl) d hz
        have := I.B.kle g1 g2
        omega
      · rw [d, hT] at g1; cases g1; exact g2
      · exfalso
        cases a with
        | none => have := hn rfl; have := I.B.lt q0 (by rw [g1]; rfl); omega
        | some y =>
          have := I.B.kgt g1 (by rw [hT]; rfl) d g2
          have := I.B.kle hT (hy y rfl)
          have : k < y := hmax.1.2
          omega
    refine ⟨⟨it.x, some k⟩, ?_, rfl, T, hT, hTk⟩
    cases a with
    | none =>
      have hl : last (inorder T.root) = some k := IsMax.unique (last_max hsT) ⟨hTk, fun z hz => hmax.2 z ⟨I.B.key.2 ⟨_, T, hT, hz⟩, trivial⟩⟩
      rw [Treap.prev_end, hl]; rfl
    | some y =>
      have hl : last (below (inorder T.root) y) = some k :=
        IsMax.unique (last_filter (P := fun z => z < y) hsT) ⟨⟨hTk, hmax.1.2⟩, fun z hz => hmax.2 z ⟨I.B.key.2 ⟨_, T, hT, hz.1⟩, hz.2⟩⟩
      rw [Treap.prev_ok hsT (hy y rfl), hl]; rfl

theorem upperBound_ok (I : Inv W s K m L) (hW : 0 < W) (hx : x < 2 ^ W) : ∃ it, upperBound W s x = some it ∧ ItOk W m (first (above L x)) it := by
  obtain ⟨it, e, h⟩ := lowerBound_ok I hW hx
  have hmin : IsMin (fun z => hasKey L z = true ∧ x ≤ z) (first (from_ L x)) := first_filter I.B.ls
  have hup : IsMin (fun z => hasKey L z = true ∧ x < z) (first (above L x)) := first_filter I.B.ls
  unfold upperBound
  rw [e, Option.bind_some, end_eq I, Option.bind_some]
  cases c : first (from_ L x) with
  | none =>
    rw [c] at h hmin
    have : first (above L x) = none := hup.unique (show IsMin _ none from fun z hz => hmin z ⟨hz.1, by omega⟩)
    rw [this]
    exact ⟨it, if_neg (fun d => d h), h⟩
  | some k =>
    rw [c] at h hmin
    obtain ⟨v, _, ed⟩ := deref_ok I h
    rw [if_pos h.ne_end, ed, Option.bind_some]
    dsimp only
    by_cases d : k = x
    · subst d
      rw [if_pos rfl]
      exact next_ok I h
    · have hk := hmin.1.2
      have : first (above L x) = some k := hup.unique (show IsMin _ (some k) from ⟨⟨hmin.1.1, by omega⟩, fun z hz => hmin.2 z ⟨hz.1, by omega⟩⟩)
      rw [if_neg d, this]
      exact ⟨it, rfl, h⟩

theorem itT (h : ItOk W m a it) : it.t = a := by
  cases a with
  | none => rw [show it = ⟨kmax W, none⟩ from h]
  | some k => exact h.1

theorem itEq (B : Buckets W m L) {i j : It} (h : ItOk W m a i) (h' : ItOk W m a j) : i = j := by
  cases a with
  | none => exact (show i = ⟨kmax W, none⟩ from h).trans (show j = ⟨kmax W, none⟩ from h').symm
  | some k =>
    obtain ⟨h1, T, hT, hk⟩ := h
    obtain ⟨h2, R, hR, hk'⟩ := h'
    have := B.disj hT hR hk hk'
    cases i; cases j
    simp only at *
    rw [this, h1, h2]

theorem itGood (B : Buckets W m L) (h : ItOk W m a it) : goodIt L a = true := by
  cases a with
  | none => rfl
  | some k => exact Yft.ItOk.key B h

theorem below_max (hs : Sorted L) (a : Option Nat) : IsMax (fun z => hasKey L z = true ∧ Trie.Below a z) (last (belowIt L a)) := by
  cases a with
  | none => exact Trie.IsMax.congr (last_max hs) (fun z => ⟨fun h => ⟨h, trivial⟩, fun h => h.1⟩)
  | some y => exact last_filter (P := fun z => z < y) hs

/-- Only `begin()` has nothing before it. -/
theorem prev_exists (hs : Sorted L) (hg : goodIt L a = true) (hne : a ≠ first L) : ∃ k, last (belowIt L a) = some k := by
  cases c : last (belowIt L a) with
  | some k => exact ⟨k, rfl⟩
  | none =>
    have h := below_max hs a
    rw [c] at h
    refine absurd (Trie.IsMin.unique (P := fun z => hasKey L z = true) ?_ (first_min hs)) hne
    cases a with
    | none => exact fun z hz => h z ⟨hz, trivial⟩
    | some y => exact ⟨hg, fun z hz => Nat.le_of_not_lt fun hzy => h z ⟨hz, hzy⟩⟩

theorem predecessor_ok (I : Inv W s K m L) (hW : 0 < W) (hx : x < 2 ^ W) : ∃ it, predecessor W s x = some it ∧ ItOk W m (last (below L x)) it := by
  obtain ⟨it, e, h⟩ := lowerBound_ok I hW hx
  obtain ⟨b, eb, hb⟩ := begin_ok I
  have hmin : IsMin (fun z => hasKey L z = true ∧ x ≤ z) (first (from_ L x)) := first_filter I.B.ls
  have hlast : IsMax (fun z => hasKey L z = true ∧ z < x) (last (below L x)) := last_filter I.B.ls
  have hB := below_max I.B.ls (first (from_ L x))
  have hBx : ∀ z, hasKey L z = true → (Trie.Below (first (from_ L x)) z ↔ z < x) := by
    intro z hz
    cases c : first (from_ L x) with
    | none =>
      rw [c] at hmin
      exact ⟨fun _ => Nat.lt_of_not_le fun d => hmin z ⟨hz, d⟩, fun _ => trivial⟩
    | some y =>
      rw [c] at hmin
      have := hmin.1.2
      exact ⟨fun (d : z < y) => Nat.lt_of_not_le fun d' => by have := hmin.2 z ⟨hz, d'⟩; omega, fun d => by show z < y; omega⟩
  have e2 : last (belowIt L (first (from_ L x))) = last (below L x) :=
    IsMax.unique (Trie.IsMax.congr hB (fun z => ⟨fun hz => ⟨hz.1, (hBx z hz.1).1 hz.2⟩, fun hz => ⟨hz.1, (hBx z hz.1).2 hz.2⟩⟩)) hlast
  unfold predecessor
  rw [e, Option.bind_some, eb, Option.bind_some]
  by_cases c : it = b
  · rw [if_neg (fun d => d c)]
    refine ⟨_, end_eq I, ?_⟩
    have hf : first (from_ L x) = first L := by rw [← itT h, ← itT hb, c]
    have : last (below L x) = none := by
      refine IsMax.unique hlast ?_
      rintro z ⟨hz, hzx⟩
      have g := first_min I.B.ls
      rw [← hf] at g
      cases d : first (from_ L x) with
      | none => rw [d] at g; exact g z hz
      | some y => rw [d] at g hmin; have := g.2 z hz; have := hmin.1.2; omega
    rw [this]
    rfl
  · rw [if_pos c]
    obtain ⟨k, hk⟩ := prev_exists I.B.ls (itGood I.B h) (fun d => c (itEq I.B h (by rw [d]; exact hb)))
    rw [← e2, hk]
    exact prev_ok I h hk

theorem walk_ok (I : Inv W s K m L) : ∀ (f : Nat) (a : Option Nat) (it : It), ItOk W m a it → (fromIt L a).length < f → walk s ⟨kmax W, none⟩ f it = some (fromIt L a)
  | 0, _, _, _, h => absurd h (Nat.not_lt_zero _)
  | f+1, none, it, h, _ => by
    rw [show it = ⟨kmax W, none⟩ from h, walk, if_pos rfl]; rfl
  | f+1, some k, it, h, hf => by
    rw [walk, if_neg h.ne_end]
    obtain ⟨v, hv, e⟩ := deref_ok I h
    obtain ⟨it', e', h'⟩ := next_ok I h
    obtain ⟨a1, a2, a3, v', hv', a4⟩ := around I.B.ls (h.key I.B)
    have : v' = v := by
      have h1 := find_mem I.B.ls hv
      rw [find_mem I.B.ls hv'] at h1
      injection h1 with h1; injection h1
    subst this
    have hf' : (fromIt L (first (above L k))).length < f := by
      rw [show fromIt L (some k) = from_ L k from rfl, a4, List.length_cons] at hf
      rw [a1]; omega
    rw [e, Option.bind_some, e', Option.bind_some, walk_ok I f _ it' h' hf', Option.map_some, a1]
    exact congrArg some a4.symm

/-- Iteration gives the elements in increasing order. -/
theorem elements_ok (I : Inv W s K m L) : elements s = some L := by
  obtain ⟨it, e, h⟩ := begin_ok I
  unfold elements
  rw [e, Option.bind_some, end_eq I, Option.bind_some]
  have := walk_ok I (s.size + 1) _ it h (by rw [fromIt_first I.B.ls, I.size]; omega)
  rw [fromIt_first I.B.ls] at this
  exact this

end Verif.IntSetY
