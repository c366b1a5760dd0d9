import Verif.Yft.Abs
/-! The operations of the Y-fast trie under its invariant. -/
namespace Verif.Yft
open Verif
open Verif.Treap (Sorted hasKey below above from_ first last sInsert sErase sAssign inorder belowIt fromIt goodIt hintNear)
open Verif.Trie (IsMin IsMax)

variable {V : Type} {W p q x : Nat} {m : Nat → Option (Treap.Treap Nat V)} {L : List (Nat × V)} {T R : Treap.Treap Nat V} {K : Finset Nat}
  {xf : Trie.St (Treap.Treap Nat V)} {s : Y V} {it : It} {a : Option Nat}

/-- The invariant: the X-fast trie holds the buckets `m`, and the buckets hold `L`. -/
structure Inv (W : Nat) (s : Y V) (K : Finset Nat) (m : Nat → Option (Treap.Treap Nat V)) (L : List (Nat × V)) : Prop where
  tri : Trie.Inv W true s.xft K m
  B : Buckets W m L
  size : s.size = L.length

theorem kmax_lt : kmax W < 2 ^ W := by have : 0 < 2 ^ W := Nat.two_pow_pos W; unfold kmax; omega

theorem bucket_eq (tri : Trie.Inv W true xf K m) (h : m p = some T) : bucket xf p = some T := by
  unfold bucket
  rw [Trie.valueAt_ok tri ((tri.mem p).2 (by rw [h]; rfl)), h]

theorem set_eq (tri : Trie.Inv W true xf K m) (h : m p = some T) (T' : Treap.Treap Nat V) : ∃ xf', setBucket xf p T' = some xf' ∧ Trie.Inv W true xf' K (upd m p (some T')) :=
  Trie.setVal_ok tri ((tri.mem p).2 (by rw [h]; rfl)) T'

theorem nextLeaf_eq (tri : Trie.Inv W true xf K m) (h : m p = some T) : ∃ r, nextLeaf xf (some p) = some r ∧ IsMin (fun z => (m z).isSome = true ∧ p < z) r := by
  obtain ⟨l, el, lp, ln, lv⟩ := tri.leaf (some p) ((tri.mem p).2 (by rw [h]; rfl))
  refine ⟨l.next, by unfold nextLeaf; rw [el]; rfl, Trie.IsMin.congr ln (fun z => ?_)⟩
  rw [tri.mem]; rfl

theorem prevLeaf_eq (tri : Trie.Inv W true xf K m) (h : m p = some T) : ∃ r, prevLeaf xf (some p) = some r ∧ IsMax (fun z => (m z).isSome = true ∧ z < p) r := by
  obtain ⟨l, el, lp, ln, lv⟩ := tri.leaf (some p) ((tri.mem p).2 (by rw [h]; rfl))
  refine ⟨l.prev, by unfold prevLeaf; rw [el]; rfl, Trie.IsMax.congr lp (fun z => ?_)⟩
  rw [tri.mem]; rfl

theorem firstLeaf_eq (tri : Trie.Inv W true xf K m) : ∃ r, nextLeaf xf none = some r ∧ IsMin (fun z => (m z).isSome = true ∧ True) r := by
  obtain ⟨l, el, lp, ln, lv⟩ := tri.leaf none trivial
  refine ⟨l.next, by unfold nextLeaf; rw [el]; rfl, Trie.IsMin.congr ln (fun z => ?_)⟩
  rw [tri.mem]; rfl

theorem lastLeaf_eq (tri : Trie.Inv W true xf K m) (ht : (m (kmax W)).isSome) (hl : ∀ p, (m p).isSome → p ≤ kmax W) : prevLeaf xf none = some (some (kmax W)) := by
  obtain ⟨l, el, lp, ln, lv⟩ := tri.leaf none trivial
  have h : IsMax (fun z => z ∈ K ∧ Trie.Below none z) (some (kmax W)) :=
    ⟨⟨(tri.mem _).2 ht, trivial⟩, fun z hz => hl z ((tri.mem _).1 hz.1)⟩
  have : l.prev = some (kmax W) := IsMax.unique lp h
  unfold prevLeaf; rw [el, Option.map_some, this]

theorem end_eq (I : Inv W s K m L) : end_ s = some ⟨kmax W, none⟩ := by
  unfold end_
  rw [lastLeaf_eq I.tri I.B.top I.B.lt]
  rfl

theorem lowerLeaf (I : Inv W s K m L) (hW : 0 < W) (hx : x < 2 ^ W) :
    ∃ p T, Trie.lowerBound true W s.xft x = some (some p) ∧ IsMin (fun z => (m z).isSome = true ∧ x ≤ z) (some p) ∧ m p = some T := by
  obtain ⟨r, e, h⟩ := Trie.lowerBound_ok I.tri hW hx true
  have h' := Trie.IsMin.congr h (Q := fun z => (m z).isSome = true ∧ x ≤ z) (fun z => by rw [I.tri.mem])
  obtain ⟨p, T, rfl, hT⟩ := I.B.exists_home hx h'
  exact ⟨p, T, e, h', hT⟩

/-! ### queries -/

theorem lower_first (x : Nat) (h : Sorted (inorder T.root)) : Treap.lowerT x T.root none = first (from_ (inorder T.root) x) := by
  rw [Treap.lower_eq x _ _ h, Option.or_none]; unfold first from_; rw [← List.head?_filter]

theorem upper_first (x : Nat) (h : Sorted (inorder T.root)) : Treap.upperT x T.root none = first (above (inorder T.root) x) := by
  rw [Treap.upper_eq x _ _ h, Option.or_none]; unfold first above; rw [← List.head?_filter]

theorem lowerBound_ok (I : Inv W s K m L) (hW : 0 < W) (hx : x < 2 ^ W) : ∃ it, lowerBound W s x = some it ∧ ItOk W m (first (from_ L x)) it := by
  obtain ⟨p, T, e, hp, hT⟩ := lowerLeaf I hW hx
  obtain ⟨h1, h2⟩ := I.B.up_first (P := fun z => x ≤ z) (fun a b h1 h2 => le_trans h1 h2) hp hT (first_filter (I.B.srt p T hT))
  refine ⟨_, by unfold lowerBound; rw [e, Option.bind_some, Option.bind_some, bucket_eq I.tri hT, Option.map_some], ?_⟩
  rw [lower_first x (I.B.srt p T hT), show first (from_ L x) = first (from_ (inorder T.root) x) from (first_filter I.B.ls).unique h1]
  exact h2

theorem upperBound_ok (I : Inv W s K m L) (hW : 0 < W) (hx : x < 2 ^ W) : ∃ it, upperBound W s x = some it ∧ ItOk W m (first (above L x)) it := by
  obtain ⟨r, e, h⟩ := Trie.upperBound_ok I.tri hW hx true
  have h' := Trie.IsMin.congr h (Q := fun z => (m z).isSome = true ∧ x < z) (fun z => by rw [I.tri.mem])
  unfold upperBound
  rw [e, Option.bind_some]
  cases r with
  | none =>
    refine ⟨_, end_eq I, ?_⟩
    have : IsMin (fun z => hasKey L z = true ∧ x < z) none := by
      rintro z ⟨hz, hxz⟩
      obtain ⟨q, R, h1, h2⟩ := I.B.key.1 hz
      have h3 := I.B.kle h1 h2
      exact h' q ⟨by rw [h1]; rfl, by omega⟩
    rw [show first (above L x) = none from (first_filter I.B.ls).unique this]
    rfl
  | some p =>
    obtain ⟨T, hT⟩ := Option.isSome_iff_exists.1 h'.1.1
    obtain ⟨h1, h2⟩ := I.B.up_first (P := fun z => x < z) (fun a b h1 h2 => lt_of_lt_of_le h1 h2) h' hT (first_filter (I.B.srt p T hT))
    refine ⟨_, by dsimp only; rw [bucket_eq I.tri hT, Option.map_some], ?_⟩
    rw [upper_first x (I.B.srt p T hT), show first (above L x) = first (above (inorder T.root) x) from (first_filter I.B.ls).unique h1]
    exact h2

theorem begin_ok (I : Inv W s K m L) : ∃ it, begin_ s = some it ∧ ItOk W m (first L) it := by
  obtain ⟨r, e, h⟩ := firstLeaf_eq I.tri
  unfold begin_
  rw [e, Option.bind_some]
  cases r with
  | none => exact absurd ⟨I.B.top, trivial⟩ (h (kmax W))
  | some p =>
    obtain ⟨T, hT⟩ := Option.isSome_iff_exists.1 h.1.1
    obtain ⟨h1, h2⟩ := I.B.up_first (P := fun _ => True) (fun a b h1 h2 => trivial) h hT
      (Trie.IsMin.congr (first_min (I.B.srt p T hT)) (fun z => by simp))
    refine ⟨_, by rw [Option.bind_some, bucket_eq I.tri hT, Option.map_some], ?_⟩
    rw [Treap.begin_eq]
    rw [show first L = first (inorder T.root) from (first_min I.B.ls).unique (Trie.IsMin.congr h1 (fun z => by simp))]
    exact h2

theorem find_ok (I : Inv W s K m L) (hW : 0 < W) (hx : x < 2 ^ W) : ∃ it, find W s x = some it ∧ ItOk W m (if hasKey L x then some x else none) it := by
  obtain ⟨p, T, e, hp, hT⟩ := lowerLeaf I hW hx
  unfold find
  rw [e, Option.bind_some, Option.bind_some, bucket_eq I.tri hT, Option.bind_some, Treap.find_eq x _ (I.B.srt p T hT), Treap.find_key, I.B.homeKey hp hT]
  cases c : hasKey (inorder T.root) x with
  | true => exact ⟨_, rfl, rfl, T, hT, c⟩
  | false => exact ⟨_, end_eq I, rfl⟩

theorem find_mem {k : Nat} {v : V} (hs : Sorted L) (h : (k, v) ∈ L) : L.find? (fun q => decide (q.1 = k)) = some (k, v) := by
  obtain ⟨A, C, rfl⟩ := List.append_of_mem h
  exact Treap.find_at hs

theorem deref_ok (I : Inv W s K m L) {k : Nat} (h : ItOk W m (some k) it) : ∃ v, (k, v) ∈ L ∧ deref s it = some (k, v) := by
  obtain ⟨h1, T, hT, hk⟩ := h
  obtain ⟨v, hv⟩ := hasKey_mem.1 hk
  refine ⟨v, (I.B.mem k v).2 ⟨_, T, hT, hv⟩, ?_⟩
  unfold deref
  rw [bucket_eq I.tri hT, Option.bind_some, h1, Treap.deref_ok (I.B.srt _ T hT) hk, find_mem (I.B.srt _ T hT) hv]

theorem ItOk.key (B : Buckets W m L) {k : Nat} (h : ItOk W m (some k) it) : hasKey L k = true := by
  obtain ⟨_, T, hT, hk⟩ := h
  exact B.key.2 ⟨_, T, hT, hk⟩

theorem ItOk.ne_end {k : Nat} (h : ItOk W m (some k) it) : it ≠ ⟨kmax W, none⟩ := by
  rintro rfl
  cases h.1

theorem next_ok (I : Inv W s K m L) {k : Nat} (h : ItOk W m (some k) it) : ∃ it', next s it = some it' ∧ ItOk W m (first (above L k)) it' := by
  obtain ⟨h1, T, hT, hk⟩ := h
  have hsT := I.B.srt _ T hT
  have hf := first_filter (P := fun z => k < z) hsT
  have hkp := I.B.kle hT hk
  unfold next
  rw [bucket_eq I.tri hT, Option.bind_some, h1, Treap.next_ok hsT hk, Option.bind_some]
  have hf' : IsMin (fun z => hasKey (inorder T.root) z = true ∧ k < z) (first (above (inorder T.root) k)) := hf
  cases c : first (above (inorder T.root) k) with
  | some k' =>
    rw [c] at hf'
    have hk' := I.B.kle hT hf'.1.1
    have hkk : k < k' := hf'.1.2
    have hmin : IsMin (fun z => (m z).isSome = true ∧ k < z) (some it.x) := by
      refine ⟨⟨by rw [hT]; rfl, by omega⟩, ?_⟩
      rintro z ⟨hz, hkz⟩
      by_contra c
      have := I.B.kgt hT hz (by omega) hk
      omega
    obtain ⟨h3, h4⟩ := I.B.up_first (fun a b h1 h2 => lt_of_lt_of_le h1 h2) hmin hT hf'
    exact ⟨_, rfl, by rw [show first (above L k) = some k' from (first_filter I.B.ls).unique h3]; exact h4⟩
  | none =>
    rw [c] at hf'
    obtain ⟨r, e, hr⟩ := nextLeaf_eq I.tri hT
    dsimp only
    rw [e, Option.bind_some]
    cases r with
    | none =>
      have hx : it.x = kmax W := by
        by_contra c
        have := I.B.lt it.x (by rw [hT]; rfl)
        exact hr (kmax W) ⟨I.B.top, by omega⟩
      refine ⟨_, rfl, ?_⟩
      have : IsMin (fun z => hasKey L z = true ∧ k < z) none := by
        rintro z ⟨hz, hkz⟩
        obtain ⟨q, R, g1, g2⟩ := I.B.key.1 hz
        have g3 := I.B.lt q (by rw [g1]; rfl)
        have g4 := I.B.kle g1 g2
        by_cases d : q = it.x
        · rw [d, hT] at g1; cases g1; exact hf' z ⟨g2, hkz⟩
        · have := I.B.kgt hT (by rw [g1]; rfl) (by omega) hk
          omega
      rw [show first (above L k) = none from (first_filter I.B.ls).unique this, hx]
      rfl
    | some q =>
      have hpk : it.x ≠ kmax W := by
        have := I.B.lt q hr.1.1
        have := hr.1.2
        omega
      have hkp' : k = it.x := by
        by_contra d
        exact hf' it.x ⟨I.B.piv _ T hT hpk, by omega⟩
      obtain ⟨R, hR⟩ := Option.isSome_iff_exists.1 hr.1.1
      have hall : ∀ z, hasKey (inorder R.root) z = true → k < z := by
        intro z hz
        rw [hkp']
        exact I.B.kgt hR (by rw [hT]; rfl) hr.1.2 hz
      obtain ⟨h3, h4⟩ := I.B.up_first (P := fun z => k < z) (fun a b h1 h2 => lt_of_lt_of_le h1 h2) (by rw [hkp']; exact hr) hR
        (Trie.IsMin.congr (first_min (I.B.srt q R hR)) (fun z => ⟨fun h => ⟨h, hall z h⟩, fun h => h.1⟩))
      refine ⟨_, by dsimp only; rw [bucket_eq I.tri hR, Option.map_some], ?_⟩
      rw [Treap.begin_eq, show first (above L k) = first (inorder R.root) from (first_filter I.B.ls).unique h3]
      exact h4

/-- The elements an iterator can step back to. -/
theorem prev_ok (I : Inv W s K m L) (h : ItOk W m a it) {k : Nat} (hl : last (belowIt L a) = some k) : ∃ it', prev s it = some it' ∧ ItOk W m (some k) it' := by
  -- the bucket of the iterator
  obtain ⟨T, hT, hg⟩ : ∃ T, m it.x = some T ∧ it.t = a ∧ (∀ y, a = some y → hasKey (inorder T.root) y = true) ∧ (a = none → it.x = kmax W) := by
    cases a with
    | none =>
      rw [show it = ⟨kmax W, none⟩ from h]
      obtain ⟨T, hT⟩ := Option.isSome_iff_exists.1 I.B.top
      exact ⟨T, hT, rfl, by simp, fun _ => rfl⟩
    | some y =>
      obtain ⟨h1, T, hT, hk⟩ := h
      exact ⟨T, hT, h1, by rintro _ ⟨⟩; exact hk, by simp⟩
  obtain ⟨ht, hy, hn⟩ := hg
  have hsT := I.B.srt _ T hT
  have hmax : IsMax (fun z => hasKey L z = true ∧ Trie.Below a z) (some k) := by
    rw [← hl]
    cases a with
    | none => exact Trie.IsMax.congr (last_max I.B.ls) (fun z => ⟨fun h => ⟨h, trivial⟩, fun h => h.1⟩)
    | some y => exact last_filter (P := fun z => z < y) I.B.ls
  unfold prev
  rw [bucket_eq I.tri hT, Option.bind_some, ht, Treap.begin_eq]
  have hb : ∀ z, hasKey (inorder T.root) z = true → Trie.Below a z → a ≠ (inorder T.root).head?.map Prod.fst := by
    intro z hz hbz e
    have := first_min hsT
    rw [show first (inorder T.root) = a from e.symm] at this
    cases a with
    | none => exact this z hz
    | some y => have := this.2 z hz; have : z < y := hbz; omega
  by_cases c : a = (inorder T.root).head?.map Prod.fst
  · rw [if_pos c]
    obtain ⟨q0, S, g1, g2⟩ := I.B.key.1 hmax.1.1
    have hq0 : q0 < it.x := by
      have hne : q0 ≠ it.x := by
        rintro rfl
        rw [hT] at g1; cases g1
        exact hb k g2 hmax.1.2 c
      rcases Nat.lt_or_gt_of_ne hne with d | d
      · exact d
      · exfalso
        cases a with
        | none => have := hn rfl; have := I.B.lt q0 (by rw [g1]; rfl); omega
        | some y =>
          have := I.B.kgt g1 (by rw [hT]; rfl) d g2
          have := I.B.kle hT (hy y rfl)
          have : k < y := hmax.1.2
          omega
    obtain ⟨r, e, hr⟩ := prevLeaf_eq I.tri hT
    rw [e, Option.bind_some]
    cases r with
    | none => exact absurd ⟨by rw [g1]; rfl, hq0⟩ (hr q0)
    | some q =>
      have hqx : q < it.x := hr.1.2
      have hxk := I.B.lt it.x (by rw [hT]; rfl)
      obtain ⟨R, hR⟩ := Option.isSome_iff_exists.1 hr.1.1
      have hRq := I.B.piv q R hR (by omega)
      have hRk : hasKey (inorder R.root) k = true ∧ ∀ z, hasKey (inorder R.root) z = true → z ≤ k := by
        have hle : ∀ z, hasKey (inorder R.root) z = true → z ≤ k := by
          intro z hz
          refine hmax.2 z ⟨I.B.key.2 ⟨q, R, hR, hz⟩, ?_⟩
          cases a with
          | none => trivial
          | some y =>
            have := I.B.kle hR hz
            have := I.B.kgt hT (by rw [hR]; rfl) hqx (hy y rfl)
            show z < y
            omega
        refine ⟨?_, hle⟩
        have h1 := hle q hRq
        have h2 := hr.2 q0 ⟨by rw [g1]; rfl, hq0⟩
        have h3 := I.B.kle g1 g2
        have : q0 = q := by omega
        subst this
        rw [hR] at g1; cases g1; exact g2
      have hl : last (inorder R.root) = some k := IsMax.unique (last_max (I.B.srt q R hR)) ⟨hRk.1, hRk.2⟩
      refine ⟨⟨q, some k⟩, ?_, rfl, R, hR, hRk.1⟩
      rw [Option.bind_some, bucket_eq I.tri hR, Option.bind_some, Treap.prev_end, hl]; rfl
  · rw [if_neg c]
    -- something of the same bucket is before the iterator
    obtain ⟨z, hz, hbz⟩ : ∃ z, hasKey (inorder T.root) z = true ∧ Trie.Below a z := by
      have hm := first_min hsT
      cases d : first (inorder T.root) with
      | none =>
        rw [d] at hm
        cases a with
        | none => exact absurd d.symm c
        | some y => exact absurd (hy y rfl) (hm y)
      | some z =>
        rw [d] at hm
        refine ⟨z, hm.1, ?_⟩
        cases a with
        | none => trivial
        | some y =>
          have := hm.2 y (hy y rfl)
          have : z ≠ y := by rintro rfl; exact c d.symm
          show z < y
          omega
    have hTk : hasKey (inorder T.root) k = true := by
      obtain ⟨q0, S, g1, g2⟩ := I.B.key.1 hmax.1.1
      have g3 := hmax.2 z ⟨I.B.key.2 ⟨_, T, hT, hz⟩, hbz⟩
      rcases Nat.lt_trichotomy q0 it.x with d | d | d
      · have := I.B.kgt hT (by rw [g1]; rfl) d hz
        have := I.B.kle g1 g2
        omega
      · rw [d, hT] at g1; cases g1; exact g2
      · exfalso
        cases a with
        | none => have := hn rfl; have := I.B.lt q0 (by rw [g1]; rfl); omega
        | some y =>
          have := I.B.kgt g1 (by rw [hT]; rfl) d g2
          have := I.B.kle hT (hy y rfl)
          have : k < y := hmax.1.2
          omega
    refine ⟨⟨it.x, some k⟩, ?_, rfl, T, hT, hTk⟩
    cases a with
    | none =>
      have hl : last (inorder T.root) = some k := IsMax.unique (last_max hsT) ⟨hTk, fun z hz => hmax.2 z ⟨I.B.key.2 ⟨_, T, hT, hz⟩, trivial⟩⟩
      rw [Treap.prev_end, hl]; rfl
    | some y =>
      have hl : last (below (inorder T.root) y) = some k :=
        IsMax.unique (last_filter (P := fun z => z < y) hsT) ⟨⟨hTk, hmax.1.2⟩, fun z hz => hmax.2 z ⟨I.B.key.2 ⟨_, T, hT, hz.1⟩, hz.2⟩⟩
      rw [Treap.prev_ok hsT (hy y rfl), hl]; rfl

/-! ### around a key of a sorted list -/

theorem around {L : List (Nat × V)} {x : Nat} (hs : Sorted L) (hx : hasKey L x = true) :
    fromIt L (first (above L x)) = above L x ∧ belowIt L (first (above L x)) = L.filter (fun q => decide (q.1 ≤ x)) ∧ goodIt L (first (above L x)) = true ∧
      ∃ v, (x, v) ∈ L ∧ from_ L x = (x, v) :: above L x := by
  obtain ⟨v, hv⟩ := hasKey_mem.1 hx
  obtain ⟨A, C, rfl⟩ := List.append_of_mem hv
  obtain ⟨f1, f2, f3, f4⟩ := Treap.split_facts hs
  obtain ⟨s1, s2, s3, s4⟩ := Treap.sorted_split hs
  have hA : (A ++ (x, v) :: C).filter (fun q => decide (q.1 ≤ x)) = A ++ [(x, v)] := by
    rw [List.filter_append, Treap.filter_all (fun q hq => by have := s1 q hq; simp; omega), List.filter_cons_of_pos (by simp),
      Treap.filter_none (fun q hq => by have := s2 q hq; simp; omega)]
  rw [f2, f3, hA]
  cases C with
  | nil => exact ⟨rfl, rfl, rfl, v, hv, rfl⟩
  | cons c C =>
    obtain ⟨y, w⟩ := c
    have hs' : Sorted ((A ++ [(x, v)]) ++ (y, w) :: C) := by simpa using hs
    obtain ⟨g1, g2, g3, g4⟩ := Treap.split_facts hs'
    refine ⟨?_, ?_, ?_, v, hv, rfl⟩
    · show from_ _ y = _
      rw [show A ++ (x, v) :: (y, w) :: C = (A ++ [(x, v)]) ++ (y, w) :: C by simp, g3]
    · show below _ y = _
      rw [show A ++ (x, v) :: (y, w) :: C = (A ++ [(x, v)]) ++ (y, w) :: C by simp, g1]
    · exact hasKey_mem.2 ⟨w, by simp⟩

theorem walk_ok (I : Inv W s K m L) : ∀ (f : Nat) (a : Option Nat) (it : It), ItOk W m a it → (fromIt L a).length < f → walk s ⟨kmax W, none⟩ f it = some (fromIt L a)
  | 0, _, _, _, h => absurd h (Nat.not_lt_zero _)
  | f+1, none, it, h, _ => by
    rw [show it = ⟨kmax W, none⟩ from h, walk, if_pos rfl]; rfl
  | f+1, some k, it, h, hf => by
    rw [walk, if_neg h.ne_end]
    obtain ⟨v, hv, e⟩ := deref_ok I h
    obtain ⟨it', e', h'⟩ := next_ok I h
    obtain ⟨a1, a2, a3, v', hv', a4⟩ := around I.B.ls (h.key I.B)
    have : v' = v := by
      have h1 := find_mem I.B.ls hv
      rw [find_mem I.B.ls hv'] at h1
      injection h1 with h1; injection h1
    subst this
    have hf' : (fromIt L (first (above L k))).length < f := by
      rw [show fromIt L (some k) = from_ L k from rfl, a4, List.length_cons] at hf
      rw [a1]; omega
    rw [e, Option.bind_some, e', Option.bind_some, walk_ok I f _ it' h' hf', Option.map_some, a1]
    exact congrArg some a4.symm

theorem fromIt_first (h : Sorted L) : fromIt L (first L) = L := by
  cases L with
  | nil => rfl
  | cons c L => obtain ⟨k, v⟩ := c; exact (Treap.split_facts (A := []) h).2.2.1

/-- Iteration gives the elements in increasing order. -/
theorem elements_ok (I : Inv W s K m L) : elements s = some L := by
  obtain ⟨it, e, h⟩ := begin_ok I
  unfold elements
  rw [e, Option.bind_some, end_eq I, Option.bind_some]
  have := walk_ok I (s.size + 1) _ it h (by rw [fromIt_first I.B.ls, I.size]; omega)
  rw [fromIt_first I.B.ls] at this
  exact this

/-! ### updates -/

theorem sErase_self (h : hasKey L x = false) : sErase L x = L := by
  unfold sErase
  rw [List.filter_eq_self]
  rintro ⟨k, v⟩ hk
  have : k ≠ x := by rintro rfl; rw [hasKey_mem.2 ⟨v, hk⟩] at h; cases h
  simpa using this

theorem Buckets.same (B : Buckets W m L) (hT : m p = some T) {T' : Treap.Treap Nat V} (e : inorder T'.root = inorder T.root) : Buckets W (upd m p (some T')) L := by
  refine B.replace hT (by rw [e]; exact B.srt p T hT) (by rw [e]; exact B.le p T hT) (by rw [e]; exact B.gt p T hT) (by rw [e]; exact B.piv p T hT) B.ls ?_
  intro k v
  rw [e]
  constructor
  · intro h
    by_cases c : (k, v) ∈ inorder T.root
    · exact Or.inl c
    · exact Or.inr ⟨h, c⟩
  · rintro (h | h)
    · exact (B.mem k v).2 ⟨p, T, hT, h⟩
    · exact h.1

theorem activate_ok (tri : Trie.Inv W true s.xft K m) (B : Buckets W m L) (hsz : s.size + 1 = L.length) (hW : 0 < W) (hx : x < 2 ^ W) (hT : m p = some T) (hk : hasKey (inorder T.root) x = true)
    {coin : Bool} (hc : coin = true → x < p) : ∃ s' it K' m', activate W s coin x p (some x) = some (s', it) ∧ Inv W s' K' m' L ∧ ItOk W m' (some x) it := by
  unfold activate
  cases coin with
  | false => exact ⟨_, _, K, m, rfl, ⟨tri, B, hsz⟩, rfl, T, hT, hk⟩
  | true =>
    have hxp := hc rfl
    have hsT := B.srt p T hT
    obtain ⟨a1, a2, a3, v, hv, a4⟩ := around hsT hk
    obtain ⟨T', S', e, i1, i2, -, -⟩ := Treap.split_ok T (first (above (inorder T.root) x)) hsT a3
    obtain ⟨xf, e1, tri1⟩ := set_eq tri hT T'
    have hmx : m x = none := by
      cases c : m x with
      | none => rfl
      | some U => have := B.kgt hT (by rw [c]; rfl) hxp hk; omega
    have hxK : x ∉ K := by rw [tri.mem, hmx]; simp
    have hpK : p ∈ K := by rw [tri.mem, hT]; rfl
    obtain ⟨xf2, e2, tri2⟩ := Trie.emplaceHint_ok tri1 hW hx true (fun _ => rfl) (hint := some p) hpK S'
    rw [if_neg hxK] at tri2
    refine ⟨⟨xf2, s.size + 1⟩, ⟨x, some x⟩, _, _, ?_, ⟨tri2, B.split hT hk hxp (by rw [i1, a1]) (by rw [i2, a2]), hsz⟩, rfl, S', upd_same _ _ _, ?_⟩
    · rw [if_pos rfl, bucket_eq tri hT, Option.bind_some, Treap.next_ok hsT hk, Option.bind_some, e, Option.bind_some, e1, Option.bind_some, e2, Option.map_some]
    · rw [i2, a2]
      exact hasKey_mem.2 ⟨v, List.mem_filter.2 ⟨hv, by simp⟩⟩

/-- A new key is before the pivot of its bucket, unless it is the largest key. -/
theorem Buckets.new_lt (B : Buckets W m L) (hp : IsMin (fun z => (m z).isSome = true ∧ x ≤ z) (some p)) (hT : m p = some T) (hn : hasKey L x = false) (hx : x ≠ kmax W) : x < p := by
  have := hp.1.2
  by_contra c
  have hpx : p = x := by omega
  have := B.piv p T hT (by omega)
  rw [B.homeKey hp hT] at hn
  rw [hpx, hn] at this
  cases this

theorem insert_ok (I : Inv W s K m L) (hW : 0 < W) (hx : x < 2 ^ W) (pr : Nat) {coin : Bool} (v : V) (hc : hasKey L x = false → x = kmax W → coin = false) :
    ∃ s' it K' m', insert W s pr coin x v = some (s', it, !hasKey L x) ∧ Inv W s' K' m' (sInsert L x v) ∧ ItOk W m' (some x) it := by
  obtain ⟨p, T, e, hp, hT⟩ := lowerLeaf I hW hx
  obtain ⟨i1, i2, -⟩ := Treap.insert_ok T pr x v (I.B.srt p T hT)
  obtain ⟨xf, e1, tri1⟩ := set_eq I.tri hT (Treap.insert T pr x v).1
  have hh := I.B.homeKey hp hT
  unfold insert
  rw [e, Option.bind_some, Option.bind_some, bucket_eq I.tri hT, Option.bind_some, e1, Option.bind_some, i2, ← hh]
  cases c : hasKey L x with
  | true =>
    have e2 : sInsert L x v = L := by unfold sInsert; rw [if_pos c]
    have e3 : inorder (Treap.insert T pr x v).1.root = inorder T.root := by rw [i1]; unfold sInsert; rw [if_pos (hh ▸ c)]
    rw [e2]
    exact ⟨_, _, K, _, rfl, ⟨tri1, I.B.same hT e3, I.size⟩, rfl, _, upd_same _ _ _, by rw [e3, ← hh, c]⟩
  | false =>
    have hx' : coin = true → x < p := by
      intro h
      refine I.B.new_lt hp hT c ?_
      intro d
      rw [hc c d] at h
      cases h
    obtain ⟨s', it, K', m', g1, g2, g3⟩ := activate_ok (s := ⟨xf, s.size⟩) tri1 (I.B.insert hp hT c i1) (by rw [Treap.length_insert I.B.ls (by rw [c]; simp), I.size]) hW hx
      (upd_same _ _ _) (by rw [i1]; exact hasKey_sInsert) hx'
    refine ⟨s', it, K', m', ?_, g2, g3⟩
    show (if true = true then _ else _) = _
    rw [if_pos rfl, g1]; rfl

theorem emplaceUnique_ok (I : Inv W s K m L) (hW : 0 < W) (hx : x < 2 ^ W) (pr : Nat) {coin : Bool} (v : V) (hn : hasKey L x = false) (hc : x = kmax W → coin = false)
    (hp : IsMin (fun z => (m z).isSome = true ∧ x ≤ z) (some it.x)) (hT : m it.x = some T) (hg : goodIt (inorder T.root) it.t = true) (hh : hintNear (inorder T.root) x it.t = true) :
    ∃ s' it' K' m', emplaceUnique W s it pr coin x v = some (s', it') ∧ Inv W s' K' m' (sInsert L x v) ∧ ItOk W m' (some x) it' := by
  obtain ⟨T', i1, i2, -⟩ := Treap.insertHint_ok T it.t pr x v (I.B.srt _ T hT) hg hh
  obtain ⟨xf, e1, tri1⟩ := set_eq I.tri hT T'
  have hx' : coin = true → x < it.x := by
    intro h
    refine I.B.new_lt hp hT hn ?_
    intro d
    rw [hc d] at h
    cases h
  obtain ⟨s', it', K', m', g1, g2, g3⟩ := activate_ok (s := ⟨xf, s.size⟩) tri1 (I.B.insert hp hT hn i2) (by rw [Treap.length_insert I.B.ls (by rw [hn]; simp), I.size]) hW hx
    (upd_same _ _ _) (by rw [i2]; exact hasKey_sInsert) hx'
  refine ⟨s', it', K', m', ?_, g2, g3⟩
  unfold emplaceUnique
  rw [bucket_eq I.tri hT, Option.bind_some, i1, Option.bind_some, e1, Option.bind_some, Option.bind_some, g1]

/-- `emplace_hint` with `lower_bound(x)`. -/
theorem emplaceHint_ok (I : Inv W s K m L) (hW : 0 < W) (hx : x < 2 ^ W) (pr : Nat) {coin : Bool} (v : V) (hc : hasKey L x = false → x = kmax W → coin = false)
    (h : ItOk W m (first (from_ L x)) it) :
    ∃ s' it' K' m', emplaceHint W s it pr coin x v = some (s', it') ∧ Inv W s' K' m' (sInsert L x v) ∧ ItOk W m' (some x) it' := by
  have hmin : IsMin (fun z => hasKey L z = true ∧ x ≤ z) (first (from_ L x)) := first_filter I.B.ls
  unfold emplaceHint
  rw [end_eq I, Option.bind_some]
  cases c : first (from_ L x) with
  | none =>
    rw [c] at h hmin
    have hit : it = ⟨kmax W, none⟩ := h
    have hn : hasKey L x = false := by
      cases d : hasKey L x with
      | false => rfl
      | true => exact absurd ⟨d, le_refl _⟩ (hmin x)
    obtain ⟨T, hT⟩ := Option.isSome_iff_exists.1 I.B.top
    rw [if_pos hit]
    refine emplaceUnique_ok (T := T) I hW hx pr v hn (hc hn) ?_ (by rw [hit]; exact hT) (by rw [hit]; rfl) (by rw [hit]; rfl)
    rw [hit]
    refine ⟨⟨I.B.top, by show x ≤ kmax W; unfold kmax; omega⟩, ?_⟩
    rintro z ⟨hz, hxz⟩
    by_contra d
    obtain ⟨R, hR⟩ := Option.isSome_iff_exists.1 hz
    have := I.B.piv z R hR (by show z ≠ kmax W; simp only at d; omega)
    exact hmin z ⟨I.B.key.2 ⟨z, R, hR, this⟩, hxz⟩
  | some k =>
    rw [c] at h hmin
    obtain ⟨w, hw, e⟩ := deref_ok I h
    rw [if_neg h.ne_end, e, Option.bind_some]
    dsimp only
    by_cases d : x = k
    · rw [if_pos d]
      have hk : hasKey L x = true := d ▸ hmin.1.1
      have e2 : sInsert L x v = L := by unfold sInsert; rw [if_pos hk]
      rw [e2]
      exact ⟨s, it, K, m, rfl, I, d ▸ h⟩
    · have hxk : x < k := by have := hmin.1.2; omega
      rw [if_neg d, if_pos hxk]
      have hn : hasKey L x = false := by
        cases d : hasKey L x with
        | false => rfl
        | true => have := hmin.2 x ⟨d, le_refl _⟩; omega
      obtain ⟨ht, T, hT, hk⟩ := h
      refine emplaceUnique_ok (T := T) I hW hx pr v hn (hc hn) ?_ hT (by rw [ht]; exact hk) ?_
      · refine ⟨⟨by rw [hT]; rfl, by have := I.B.kle hT hk; omega⟩, ?_⟩
        rintro z ⟨hz, hxz⟩
        by_contra d
        have h1 := I.B.lt it.x (by rw [hT]; rfl)
        obtain ⟨R, hR⟩ := Option.isSome_iff_exists.1 hz
        have h2 := I.B.piv z R hR (by omega)
        have h3 := hmin.2 z ⟨I.B.key.2 ⟨z, R, hR, h2⟩, hxz⟩
        have h4 := I.B.kgt hT hz (by omega) hk
        omega
      · rw [ht]
        unfold hintNear
        rw [List.all_eq_true]
        rintro ⟨y, u⟩ hy
        have hyL : hasKey L y = true := I.B.key.2 ⟨_, T, hT, hasKey_mem.2 ⟨u, hy⟩⟩
        simp only [decide_eq_true_eq]
        refine ⟨fun h1 => ?_, fun h1 => by omega⟩
        by_contra h2
        have := hmin.2 y ⟨hyL, by omega⟩
        omega

theorem ref_ok (I : Inv W s K m L) (hW : 0 < W) (hx : x < 2 ^ W) (pr : Nat) {coin : Bool} (d : V) (hc : hasKey L x = false → x = kmax W → coin = false) :
    ∃ s' it K' m', ref W s pr coin x d = some (s', it) ∧ Inv W s' K' m' (sInsert L x d) ∧ ItOk W m' (some x) it := by
  obtain ⟨it, e, h⟩ := lowerBound_ok I hW hx
  have g := emplaceHint_ok I hW hx pr d hc h
  have hmin : IsMin (fun z => hasKey L z = true ∧ x ≤ z) (first (from_ L x)) := first_filter I.B.ls
  unfold ref
  rw [e, Option.bind_some, end_eq I, Option.bind_some]
  by_cases c : it = ⟨kmax W, none⟩
  · rw [if_pos c]; exact g
  · rw [if_neg c]
    cases b : first (from_ L x) with
    | none => rw [b] at h; exact absurd h c
    | some k =>
      rw [b] at h hmin
      obtain ⟨w, hw, e'⟩ := deref_ok I h
      rw [e', Option.bind_some]
      dsimp only
      by_cases b' : x < k
      · rw [if_pos b']; exact g
      · rw [if_neg b']
        have hxk : x = k := by have := hmin.1.2; omega
        have hk : hasKey L x = true := hxk ▸ hmin.1.1
        have e2 : sInsert L x d = L := by unfold sInsert; rw [if_pos hk]
        rw [e2]
        exact ⟨s, it, K, m, rfl, I, hxk ▸ h⟩

theorem assign_ok (I : Inv W s K m L) {k : Nat} (h : ItOk W m (some k) it) (v : V) :
    ∃ s' m', assign s it v = some s' ∧ Inv W s' K m' (sAssign L k v) ∧ ∀ a i, ItOk W m a i → ItOk W m' a i := by
  obtain ⟨h1, T, hT, hk⟩ := h
  obtain ⟨T', e, i1, -⟩ := Treap.assign_ok T k v (I.B.srt _ T hT) hk
  obtain ⟨xf, e1, tri1⟩ := set_eq I.tri hT T'
  refine ⟨⟨xf, s.size⟩, _, by unfold assign; rw [bucket_eq I.tri hT, Option.bind_some, h1, e, Option.bind_some, e1, Option.map_some],
    ⟨tri1, I.B.assign hT hk i1, by rw [I.size]; unfold sAssign; rw [List.length_map]⟩, ?_⟩
  intro a i hi
  cases a with
  | none => exact hi
  | some y =>
    obtain ⟨g1, S, hS, hy⟩ := hi
    by_cases c : i.x = it.x
    · rw [c, hT] at hS; cases hS
      refine ⟨g1, T', by rw [c, upd_same], ?_⟩
      obtain ⟨u, hu⟩ := hasKey_mem.1 hy
      rw [i1]
      by_cases d : y = k
      · exact hasKey_mem.2 ⟨v, (mem_sAssign hk).2 (Or.inl ⟨d, rfl⟩)⟩
      · exact hasKey_mem.2 ⟨u, (mem_sAssign hk).2 (Or.inr ⟨hu, d⟩)⟩
    · exact ⟨g1, S, by rw [upd_ne _ _ c]; exact hS, hy⟩

theorem mergeInto_ok (tri : Trie.Inv W true s.xft K m) (hW : 0 < W) (hT : m p = some T) (hR : m q = some R) (hpq : p ≠ q)
    (hlt : ∀ a ∈ inorder T.root, ∀ b ∈ inorder R.root, a.1 < b.1) :
    ∃ xf R', mergeInto W s p q = some ⟨xf, s.size⟩ ∧ inorder R'.root = inorder T.root ++ inorder R.root ∧ Trie.Inv W true xf (K.erase p) (upd (upd m q (some R')) p none) := by
  obtain ⟨R', S', e, i1, -, -⟩ := Treap.absorb_ok R T hlt
  obtain ⟨xf1, e1, tri1⟩ := set_eq tri hR R'
  obtain ⟨xf2, e2, tri2⟩ := set_eq (p := p) tri1 (by rw [upd_ne _ _ hpq]; exact hT) S'
  obtain ⟨xf3, nx, e3, tri3, -⟩ := Trie.eraseAt_ok hW tri2 (x := p) ((tri.mem p).2 (by rw [hT]; rfl)) true
  refine ⟨xf3, R', ?_, i1, ?_⟩
  · unfold mergeInto
    rw [bucket_eq tri hR, Option.bind_some, bucket_eq tri hT, Option.bind_some, e, Option.bind_some]
    dsimp only
    rw [e1, Option.bind_some, e2, Option.bind_some]
    show (Trie.eraseLeaf true W xf2 p).map _ = _
    rw [e3]; rfl
  · have : upd (upd (upd m q (some R')) p (some S')) p none = upd (upd m q (some R')) p none := by
      funext z
      by_cases c : z = p
      · subst c; rw [upd_same, upd_same]
      · rw [upd_ne _ _ c, upd_ne _ _ c, upd_ne _ _ c]
    rw [← this]
    exact tri3

/-- After the erasure of the pivot `p` from its treap: the merge into the next bucket. -/
theorem mergePivot (B : Buckets W m L) (hW : 0 < W) (hT : m p = some T) (hq : IsMin (fun z => (m z).isSome = true ∧ p < z) (some q)) {T1 : Treap.Treap Nat V}
    (e1 : inorder T1.root = sErase (inorder T.root) p) (tri : Trie.Inv W true xf K (upd m p (some T1))) (n : Nat) :
    ∃ xf' R R', mergeInto W ⟨xf, n⟩ p q = some ⟨xf', n⟩ ∧ m q = some R ∧ inorder R'.root = inorder T1.root ++ inorder R.root ∧
      Trie.Inv W true xf' (K.erase p) (upd (upd m q (some R')) p none) ∧ Buckets W (upd (upd m q (some R')) p none) (sErase L p) := by
  obtain ⟨R, hR⟩ := Option.isSome_iff_exists.1 hq.1.1
  have hpq : p < q := hq.1.2
  obtain ⟨xf', R', g1, g2, g3⟩ := mergeInto_ok (s := ⟨xf, n⟩) (p := p) (q := q) (T := T1) (R := R) tri hW (upd_same _ _ _) (by rw [upd_ne _ _ (by omega)]; exact hR) (by omega) (by
    rintro ⟨a, v⟩ ha ⟨b, w⟩ hb
    rw [e1, mem_sErase] at ha
    have := B.le p T hT a v ha.1
    have := B.gt q R hR p (by rw [hT]; rfl) hpq b w hb
    show a < b
    omega)
  refine ⟨xf', R, R', g1, hR, g2, ?_, B.merge hT hq hR e1 g2⟩
  have : upd (upd (upd m p (some T1)) q (some R')) p none = upd (upd m q (some R')) p none := by
    funext z
    by_cases c : z = p
    · subst c; rw [upd_same, upd_same]
    · rw [upd_ne _ _ c, upd_ne _ _ c]
      by_cases d : z = q
      · subst d; rw [upd_same, upd_same]
      · rw [upd_ne _ _ d, upd_ne _ _ d, upd_ne _ _ c]
  rw [← this]
  exact g3

theorem erase_ok (I : Inv W s K m L) (hW : 0 < W) (hx : x < 2 ^ W) : ∃ s' K' m', erase W s x = some (s', hasKey L x) ∧ Inv W s' K' m' (sErase L x) := by
  obtain ⟨p, T, e, hp, hT⟩ := lowerLeaf I hW hx
  obtain ⟨T', i1, i2, -⟩ := Treap.eraseKey_ok T x (I.B.srt p T hT)
  obtain ⟨xf, e1, tri1⟩ := set_eq I.tri hT T'
  have hh := I.B.homeKey hp hT
  unfold erase
  rw [e, Option.bind_some, Option.bind_some, bucket_eq I.tri hT, Option.bind_some, i1, Option.bind_some]
  dsimp only
  rw [e1, Option.bind_some, ← hh]
  cases c : hasKey L x with
  | false =>
    rw [sErase_self c]
    rw [hh] at c
    exact ⟨_, K, _, rfl, tri1, I.B.same hT (by rw [i2, sErase_self c]), I.size⟩
  | true =>
    have hsz : s.size - 1 = (sErase L x).length := by have := Treap.length_erase I.B.ls c; rw [I.size]; omega
    rw [hh] at c
    obtain ⟨r, er, hr⟩ := nextLeaf_eq (p := p) tri1 (upd_same _ _ _)
    rw [if_pos rfl, er, Option.bind_some]
    have hiso : ∀ z, (upd m p (some T') z).isSome = true ↔ (m z).isSome = true := by
      intro z
      by_cases d : z = p
      · subst d; rw [upd_same, hT]; rfl
      · rw [upd_ne _ _ d]
    have hr := Trie.IsMin.congr hr (Q := fun z => (m z).isSome = true ∧ p < z) (fun z => by rw [hiso])
    cases r with
    | none =>
      refine ⟨_, K, _, rfl, tri1, I.B.erase hT c (fun _ => ?_) i2, hsz⟩
      by_contra d
      have := I.B.lt p (by rw [hT]; rfl)
      exact hr (kmax W) ⟨I.B.top, by omega⟩
    | some q =>
      dsimp only
      by_cases d : p = x
      · subst d
        obtain ⟨xf', R, R', g1, -, -, g4, g5⟩ := mergePivot I.B hW hT hr i2 tri1 (s.size - 1)
        rw [if_pos rfl, g1]
        exact ⟨_, _, _, rfl, g4, g5, hsz⟩
      · rw [if_neg d]
        exact ⟨_, K, _, rfl, tri1, I.B.erase hT c (fun h => absurd h d) i2, hsz⟩

theorem eraseIt_ok (I : Inv W s K m L) (hW : 0 < W) {k : Nat} (h : ItOk W m (some k) it) :
    ∃ s' it' K' m', eraseIt W s it = some (s', it') ∧ Inv W s' K' m' (sErase L k) ∧ ItOk W m' (first (above L k)) it' := by
  obtain ⟨it', en, hn⟩ := next_ok I h
  obtain ⟨w, hw, ed⟩ := deref_ok I h
  have hne := h.ne_end
  have hkL := h.key I.B
  obtain ⟨ht, T, hT, hk⟩ := h
  obtain ⟨T', i1, i2, -⟩ := Treap.eraseIt_ok T k (I.B.srt _ T hT) hk
  obtain ⟨xf, e1, tri1⟩ := set_eq I.tri hT T'
  have hsz : s.size - 1 = (sErase L k).length := by have := Treap.length_erase I.B.ls hkL; rw [I.size]; omega
  have hiso : ∀ z, (upd m it.x (some T') z).isSome = true ↔ (m z).isSome = true := by
    intro z
    by_cases d : z = it.x
    · subst d; rw [upd_same, hT]; rfl
    · rw [upd_ne _ _ d]
  have hgt : ∀ k', first (above L k) = some k' → k < k' := by
    intro k' e
    have : IsMin (fun z => hasKey L z = true ∧ k < z) (first (above L k)) := first_filter I.B.ls
    rw [e] at this
    exact this.1.2
  unfold eraseIt
  rw [end_eq I, Option.bind_some, if_neg hne, en, Option.bind_some, ed, Option.bind_some, bucket_eq I.tri hT, Option.bind_some, ht, i1, Option.bind_some]
  dsimp only
  rw [e1, Option.bind_some, lastLeaf_eq tri1 ((hiso _).2 I.B.top) (fun z hz => I.B.lt z ((hiso z).1 hz)), Option.bind_some]
  by_cases c : it.x = k ∧ some it.x ≠ some (kmax W)
  · rw [if_pos c]
    obtain ⟨c1, c2⟩ := c
    subst c1
    have hlt : it.x < kmax W := by
      have := I.B.lt it.x (by rw [hT]; rfl)
      have : it.x ≠ kmax W := fun h => c2 (by rw [h])
      omega
    obtain ⟨r, er, hr⟩ := nextLeaf_eq (p := it.x) tri1 (upd_same _ _ _)
    have hr := Trie.IsMin.congr hr (Q := fun z => (m z).isSome = true ∧ it.x < z) (fun z => by rw [hiso])
    rw [er, Option.bind_some]
    cases r with
    | none => exact absurd ⟨I.B.top, hlt⟩ (hr (kmax W))
    | some q =>
      obtain ⟨xf', R, R', g1, hR, g3, g4, g5⟩ := mergePivot I.B hW hT hr i2 tri1 (s.size - 1)
      rw [Option.bind_some, g1]
      refine ⟨_, it', _, _, rfl, ⟨g4, g5, hsz⟩, ?_⟩
      cases d : first (above L it.x) with
      | none => rw [d] at hn; exact hn
      | some k' =>
        rw [d] at hn
        have hkk := hgt k' d
        obtain ⟨j1, U, hU, j2⟩ := hn
        have hne : it'.x ≠ it.x := by
          intro h
          rw [h, hT] at hU; cases hU
          have := I.B.kle hT j2
          omega
        refine ⟨j1, ?_⟩
        by_cases b : it'.x = q
        · rw [b, hR] at hU; cases hU
          refine ⟨R', by rw [b, upd_ne _ _ (by rw [← b]; exact hne), upd_same], ?_⟩
          obtain ⟨u, hu⟩ := hasKey_mem.1 j2
          rw [g3]
          exact hasKey_mem.2 ⟨u, List.mem_append_right _ hu⟩
        · exact ⟨U, by rw [upd_ne _ _ hne, upd_ne _ _ b]; exact hU, j2⟩
  · rw [if_neg c]
    refine ⟨_, it', K, _, rfl, ⟨tri1, I.B.erase hT hk (fun h => ?_) i2, hsz⟩, ?_⟩
    · by_contra d
      exact c ⟨h, by simpa using d⟩
    · cases d : first (above L k) with
      | none => rw [d] at hn; exact hn
      | some k' =>
        rw [d] at hn
        have hkk := hgt k' d
        obtain ⟨j1, U, hU, j2⟩ := hn
        refine ⟨j1, ?_⟩
        by_cases b : it'.x = it.x
        · rw [b, hT] at hU; cases hU
          refine ⟨T', by rw [b, upd_same], ?_⟩
          obtain ⟨u, hu⟩ := hasKey_mem.1 j2
          rw [i2]
          exact hasKey_mem.2 ⟨u, mem_sErase.2 ⟨hu, by omega⟩⟩
        · exact ⟨U, by rw [upd_ne _ _ b]; exact hU, j2⟩

/-! ### construction -/

theorem buckets_one (hm : ∀ p, m p = if p = kmax W then some Treap.empty else none) : Buckets W m [] := by
  have h1 : ∀ p T, m p = some T → p = kmax W ∧ T = Treap.empty := by
    intro p T h
    rw [hm] at h
    split_ifs at h with c
    cases h
    exact ⟨c, rfl⟩
  refine ⟨?_, by rw [hm, if_pos rfl]; rfl, ?_, ?_, ?_, ?_, List.Pairwise.nil, ?_⟩
  · intro p h
    obtain ⟨T, h⟩ := Option.isSome_iff_exists.1 h
    exact le_of_eq (h1 p T h).1
  · intro p T h; rw [(h1 p T h).2]; exact List.Pairwise.nil
  · intro p T h k v hk; rw [(h1 p T h).2] at hk; cases hk
  · intro p T h q _ _ k v hk; rw [(h1 p T h).2] at hk; cases hk
  · intro p T h c; exact absurd (h1 p T h).1 c
  · intro k v
    constructor
    · intro h; cases h
    · rintro ⟨p, T, h, hk⟩; rw [(h1 p T h).2] at hk; cases hk

theorem create_ok (hW : 0 < W) : ∃ (s : Y V) (K : Finset Nat) (m : Nat → Option (Treap.Treap Nat V)), create W = some s ∧ Inv W s K m [] ∧ m (kmax W) = some Treap.empty ∧ ∀ p, m p = if p = kmax W then some Treap.empty else none := by
  obtain ⟨xf, K, e, tri⟩ := Trie.ofRange_inv hW true [(kmax W, (Treap.empty : Treap.Treap Nat V))] (by intro a ha; rw [List.mem_singleton] at ha; rw [ha]; exact kmax_lt)
  have hm : ∀ p, Trie.ofList [(kmax W, (Treap.empty : Treap.Treap Nat V))] p = if p = kmax W then some Treap.empty else none := by
    intro p
    unfold Trie.ofList
    by_cases c : p = kmax W
    · subst c; simp
    · rw [if_neg c, List.find?_cons_of_neg (by simpa using fun h => c h.symm)]; rfl
  refine ⟨⟨xf, 0⟩, K, _, by unfold create; rw [e]; rfl, ⟨tri, buckets_one hm, rfl⟩, by rw [hm, if_pos rfl], hm⟩

theorem clear_ok (I : Inv W s K m L) (hW : 0 < W) : ∃ s' K' m', clear W s = some s' ∧ Inv W s' K' m' [] := by
  obtain ⟨xf, e, tri⟩ := Trie.add_ok (Trie.init_inv W true) hW (kmax_lt (W := W)) true (Treap.empty : Treap.Treap Nat V)
  rw [if_neg (Finset.notMem_empty _)] at tri
  refine ⟨⟨xf, 0⟩, _, _, ?_, tri, buckets_one ?_, rfl⟩
  · unfold clear Trie.clear
    rw [Trie.deinit_ok I.tri]
    simp only [Option.map_some, Option.bind_some]
    rw [e]; rfl
  · intro p
    by_cases c : p = kmax W
    · rw [c, upd_same, if_pos rfl]
    · rw [upd_ne _ _ c, if_neg c]

theorem insertAll_ok (hW : 0 < W) : ∀ (l : List (Nat × Bool × Nat × V)) (s : Y V) (K : Finset Nat) (m : Nat → Option (Treap.Treap Nat V)) (L : List (Nat × V)), Inv W s K m L →
    (∀ a ∈ l, a.2.2.1 < 2 ^ W ∧ (a.2.2.1 = kmax W → a.2.1 = false)) →
    ∃ s' K' m', insertAll W l s = some s' ∧ Inv W s' K' m' (l.foldl (fun L a => sInsert L a.2.2.1 a.2.2.2) L)
  | [], s, K, m, L, I, _ => ⟨s, K, m, rfl, I⟩
  | (pr, coin, x, v) :: l, s, K, m, L, I, h => by
    have h0 := h _ List.mem_cons_self
    obtain ⟨s', it, K', m', e, I', -⟩ := insert_ok I hW h0.1 pr v (fun _ => h0.2)
    obtain ⟨s2, K2, m2, e2, I2⟩ := insertAll_ok hW l s' K' m' _ I' (fun a ha => h a (List.mem_cons_of_mem _ ha))
    exact ⟨s2, K2, m2, by rw [insertAll, e, Option.bind_some]; exact e2, I2⟩

end Verif.Yft
