import Verif.IntSetY.Query
/-! The calls that change the Y-fast trie of integer_set.hpp. -/
namespace Verif.IntSetY
open Verif
open Verif.Treap (Sorted hasKey below above from_ first last sInsert sErase inorder belowIt fromIt goodIt hintNear)
open Verif.Trie (IsMin IsMax Has pre)
open Verif.Yft (kmax It Buckets ItOk kmax_lt hasKey_mem first_min last_max first_filter last_filter IsMax.unique mem_sErase mem_sInsert hasKey_sInsert lower_first find_mem around fromIt_first)

variable {V : Type} {W p q x : Nat} {m : Nat → Option (Treap.Treap Nat V)} {L : List (Nat × V)} {T R : Treap.Treap Nat V} {K : Finset Nat}
  {xf : X V} {s : Y V} {it : It} {a : Option Nat}

theorem upd_upd {f : Nat → Option (Treap.Treap Nat V)} {a b : Option (Treap.Treap Nat V)} : upd (upd f x a) x b = upd f x b := by
  funext z
  by_cases c : z = x
  · subst c; rw [upd_same, upd_same]
  · rw [upd_ne _ _ c, upd_ne _ _ c, upd_ne _ _ c]

theorem upd_comm {f : Nat → Option (Treap.Treap Nat V)} {a b : Option (Treap.Treap Nat V)} (h : p ≠ q) : upd (upd f p a) q b = upd (upd f q b) p a := by
  funext z
  by_cases c : z = q
  · subst c; rw [upd_same, upd_ne _ _ h.symm, upd_same]
  · rw [upd_ne _ _ c]
    by_cases d : z = p
    · subst d; rw [upd_same, upd_same]
    · rw [upd_ne _ _ d, upd_ne _ _ d, upd_ne _ _ c]

/-! ### insertion -/

theorem insertBefore_ok (I : Inv W s K m L) (hW : 0 < W) (hx : x < 2 ^ W) (pr : Nat) {coin : Bool} (v : V) (hn : hasKey L x = false)
    (h64 : coin = true → W < 64 ∨ Has W K 1 (pre W x 1)) (hp : IsMin (fun z => (m z).isSome = true ∧ x ≤ z) (some p)) (hT : m p = some T) {sit : Option Nat}
    (hg : goodIt (inorder T.root) sit = true) (hh : hintNear (inorder T.root) x sit = true) :
    ∃ s' it m', insertBefore W s p sit pr coin x v = some (s', it) ∧ Inv W s' (if coin then Insert.insert x K else K) m' (sInsert L x v) ∧ ItOk W m' (some x) it := by
  obtain ⟨T1, i1, i2, -⟩ := Treap.insertHint_ok T sit pr x v (I.B.srt _ T hT) hg hh
  obtain ⟨xf1, e1, tri1⟩ := set_eq I.tri hT T1
  have B1 := I.B.insert hp hT hn i2
  have hsz : s.size + 1 = (sInsert L x v).length := by rw [Treap.length_insert I.B.ls (by rw [hn]; simp), I.size]
  have hk1 : hasKey (inorder T1.root) x = true := by rw [i2]; exact hasKey_sInsert
  have hT1 : upd m p (some T1) p = some T1 := upd_same _ _ _
  unfold insertBefore
  rw [bucket_eq I.tri hT, Option.bind_some, i1, Option.bind_some]
  dsimp only
  rw [e1, Option.bind_some]
  cases coin with
  | false => exact ⟨_, _, _, rfl, ⟨tri1, B1, hsz⟩, rfl, T1, hT1, hk1⟩
  | true =>
    rw [if_pos rfl, if_pos rfl]
    have hpK : p ∈ K := by rw [I.tri.mem, hT]; rfl
    obtain ⟨xf2, e2, tri2⟩ := IntSet.emplaceHint_ok tri1 hW hx (hint := some p) hpK (h64 rfl) Treap.empty
    have hs1 := B1.srt p T1 hT1
    obtain ⟨a1, a2, a3, w, hw, a4⟩ := around hs1 hk1
    obtain ⟨T', S', e, j1, j2, -, -⟩ := Treap.split_ok T1 (first (above (inorder T1.root) x)) hs1 a3
    rw [e2, Option.bind_some, Option.bind_some]
    dsimp only
    have hkS : hasKey (inorder S'.root) x = true := by
      rw [j2, a2]
      exact hasKey_mem.2 ⟨w, List.mem_filter.2 ⟨hw, by simp⟩⟩
    by_cases hxK : x ∈ K
    · -- the new key is the largest one, whose leaf is there already
      rw [if_pos hxK] at tri2
      have hxp : p = x := Nat.le_antisymm (hp.2 x ⟨(I.tri.mem x).1 hxK, le_refl _⟩) hp.1.2
      subst hxp
      have hpk : p = kmax W := by
        by_contra c
        have := I.B.piv p T hT c
        rw [I.B.homeKey hp hT, this] at hn
        cases hn
      have hab : above (inorder T1.root) p = [] := by
        unfold above
        rw [List.filter_eq_nil_iff]
        rintro ⟨k, u⟩ hk
        have := B1.le p T1 hT1 k u hk
        simp; omega
      obtain ⟨xf3, e3, tri3⟩ := set_eq tri2 hT1 T'
      obtain ⟨xf4, e4, tri4⟩ := set_eq (p := p) tri3 (upd_same _ _ _) S'
      rw [upd_upd] at tri4
      refine ⟨⟨xf4, s.size + 1⟩, ⟨p, some p⟩, _, ?_, ⟨tri4, B1.same hT1 ?_, hsz⟩, rfl, S', upd_same _ _ _, hkS⟩
      · rw [bucket_eq tri2 hT1, Option.bind_some, Treap.next_ok hs1 hk1, Option.bind_some, e, Option.bind_some]
        dsimp only
        rw [e3, Option.bind_some, e4]; rfl
      · rw [j2, hab]; rfl
    · rw [if_neg hxK] at tri2
      have hxp : x < p := by
        have h1 : x ≤ p := hp.1.2
        have h2 : x ≠ p := fun h => hxK (h ▸ hpK)
        omega
      have hTp : upd (upd m p (some T1)) x (some (Treap.empty : Treap.Treap Nat V)) p = some T1 := by rw [upd_ne _ _ (by omega)]; exact hT1
      obtain ⟨xf3, e3, tri3⟩ := set_eq tri2 hTp T'
      obtain ⟨xf4, e4, tri4⟩ := set_eq (p := x) (T := Treap.empty) tri3 (by rw [upd_ne _ _ (by omega), upd_same]) S'
      rw [upd_comm (by omega : x ≠ p), upd_upd] at tri4
      refine ⟨⟨xf4, s.size + 1⟩, ⟨x, some x⟩, _, ?_, ⟨tri4, B1.split hT1 hk1 hxp (by rw [j1, a1]) (by rw [j2, a2]), hsz⟩, rfl, S', upd_same _ _ _, hkS⟩
      rw [bucket_eq tri2 hTp, Option.bind_some, Treap.next_ok hs1 hk1, Option.bind_some, e, Option.bind_some]
      dsimp only
      rw [e3, Option.bind_some, e4]; rfl

/-- The pivot above a key is the leaf of the iterator to the first element from that key on. -/
theorem hint_home (I : Inv W s K m L) (hx : x < 2 ^ W) (h : ItOk W m (first (from_ L x)) it) (hn : hasKey L x = false) :
    ∃ T, IsMin (fun z => (m z).isSome = true ∧ x ≤ z) (some it.x) ∧ m it.x = some T ∧ goodIt (inorder T.root) it.t = true ∧ hintNear (inorder T.root) x it.t = true := by
  have hmin : IsMin (fun z => hasKey L z = true ∧ x ≤ z) (first (from_ L x)) := first_filter I.B.ls
  cases c : first (from_ L x) with
  | none =>
    rw [c] at h hmin
    have hit : it = ⟨kmax W, none⟩ := h
    obtain ⟨T, hT⟩ := Option.isSome_iff_exists.1 I.B.top
    refine ⟨T, ?_, by rw [hit]; exact hT, by rw [hit]; rfl, by rw [hit]; rfl⟩
    rw [hit]
    refine ⟨⟨I.B.top, by show x ≤ kmax W; unfold kmax; omega⟩, ?_⟩
    rintro z ⟨hz, hxz⟩
    by_contra d
    obtain ⟨R, hR⟩ := Option.isSome_iff_exists.1 hz
    have := I.B.piv z R hR (by show z ≠ kmax W; simp only at d; omega)
    exact hmin z ⟨I.B.key.2 ⟨z, R, hR, this⟩, hxz⟩
  | some k =>
    rw [c] at h hmin
    have hxk : x < k := by
      have h1 : x ≤ k := hmin.1.2
      have h2 : x ≠ k := by rintro rfl; rw [hmin.1.1] at hn; cases hn
      omega
    obtain ⟨ht, T, hT, hk⟩ := h
    refine ⟨T, ?_, hT, by rw [ht]; exact hk, ?_⟩
    · refine ⟨⟨by rw [hT]; rfl, by have := I.B.kle hT hk; omega⟩, ?_⟩
      rintro z ⟨hz, hxz⟩
      by_contra d
      have h1 := I.B.lt it.x (by rw [hT]; rfl)
      obtain ⟨R, hR⟩ := Option.isSome_iff_exists.1 hz
      have h2 := I.B.piv z R hR (by omega)
      have h3 := hmin.2 z ⟨I.B.key.2 ⟨z, R, hR, h2⟩, hxz⟩
      have h4 := I.B.kgt hT hz (by omega) hk
      omega
    · rw [ht]
      unfold hintNear
      rw [List.all_eq_true]
      rintro ⟨y, u⟩ hy
      have hyL : hasKey L y = true := I.B.key.2 ⟨_, T, hT, hasKey_mem.2 ⟨u, hy⟩⟩
      simp only [decide_eq_true_eq]
      refine ⟨fun h1 => ?_, fun h1 => by omega⟩
      by_contra h2
      have := hmin.2 y ⟨hyL, by omega⟩
      omega

/-- The pivots after an insertion. -/
def piv' (L : List (Nat × V)) (coin : Bool) (x : Nat) (K : Finset Nat) : Finset Nat := if coin && !hasKey L x then Insert.insert x K else K

theorem insert_ok (I : Inv W s K m L) (hW : 0 < W) (hx : x < 2 ^ W) (pr : Nat) {coin : Bool} (v : V)
    (h64 : hasKey L x = false → coin = true → W < 64 ∨ Has W K 1 (pre W x 1)) :
    ∃ s' it m', insert W s pr coin x v = some (s', it) ∧ Inv W s' (piv' L coin x K) m' (sInsert L x v) ∧ ItOk W m' (some x) it := by
  obtain ⟨p, T, e, hp, hT⟩ := lowerLeaf I hW hx
  have hsT := I.B.srt p T hT
  have hmin : IsMin (fun z => hasKey (inorder T.root) z = true ∧ x ≤ z) (first (from_ (inorder T.root) x)) := first_filter hsT
  have hh := I.B.homeKey hp hT
  unfold insert
  rw [e, Option.bind_some, Option.bind_some, bucket_eq I.tri hT, Option.bind_some, lower_first x hsT]
  by_cases hk : hasKey L x = true
  · have e2 : sInsert L x v = L := by unfold sInsert; rw [if_pos hk]
    have : first (from_ (inorder T.root) x) = some x := Trie.IsMin.unique hmin (show IsMin _ (some x) from ⟨⟨hh ▸ hk, le_refl _⟩, fun z hz => hz.2⟩)
    rw [this, e2]
    have e3 : piv' L coin x K = K := by unfold piv'; rw [hk]; simp
    rw [e3]
    exact ⟨s, ⟨p, some x⟩, m, if_neg (by omega), I, rfl, T, hT, hh ▸ hk⟩
  · have hn : hasKey L x = false := by simpa using hk
    have hmain : ∀ sit, first (from_ (inorder T.root) x) = sit → ∃ s' it m', insertBefore W s p sit pr coin x v = some (s', it) ∧ Inv W s' (piv' L coin x K) m' (sInsert L x v) ∧ ItOk W m' (some x) it := by
      intro sit hs
      have e3 : piv' L coin x K = if coin then Insert.insert x K else K := by unfold piv'; rw [hn]; cases coin <;> rfl
      rw [e3]
      refine insertBefore_ok I hW hx pr v hn (h64 hn) hp hT ?_ ?_
      · rw [hs] at hmin
        cases sit with
        | none => rfl
        | some y => exact hmin.1.1
      · rw [hs] at hmin
        cases sit with
        | none => rfl
        | some y =>
          have h1 : x ≤ y := hmin.1.2
          have h2 : x ≠ y := by rintro rfl; rw [hh, hmin.1.1] at hn; cases hn
          unfold hintNear
          rw [List.all_eq_true]
          rintro ⟨z, u⟩ hz
          have hzk : hasKey (inorder T.root) z = true := hasKey_mem.2 ⟨u, hz⟩
          simp only [decide_eq_true_eq]
          refine ⟨fun h1 => ?_, fun h1 => by omega⟩
          by_contra h2
          have := hmin.2 z ⟨hzk, by omega⟩
          omega
    cases c : first (from_ (inorder T.root) x) with
    | none => exact hmain none c
    | some y =>
      rw [c] at hmin
      have h1 : x ≤ y := hmin.1.2
      have h2 : x ≠ y := by rintro rfl; rw [hh, hmin.1.1] at hn; cases hn
      dsimp only
      rw [if_pos (by omega)]
      exact hmain (some y) c

/-- A hint that is not refused is `lower_bound(x)` of an absent key. -/
theorem malicious_ok (I : Inv W s K m L) (h : ItOk W m a it) (x : Nat) : ∃ c, malicious s it x = some c ∧ (c = false → hasKey L x = false ∧ a = first (from_ L x)) := by
  obtain ⟨b, eb, hb⟩ := begin_ok I
  have hB := below_max I.B.ls a
  have hmin : IsMin (fun z => hasKey L z = true ∧ x ≤ z) (first (from_ L x)) := first_filter I.B.ls
  -- what the first comparison tells
  obtain ⟨c1, e1, h1⟩ : ∃ c, (if it ≠ b then (prev s it).bind (fun i => (deref s i).map (fun h => decide (x ≤ h.1))) else some false) = some c ∧
      (c = false → ∀ z, hasKey L z = true → Trie.Below a z → z < x) := by
    by_cases c : it = b
    · refine ⟨false, if_neg (fun d => d c), fun _ z hz hbz => ?_⟩
      have hf : a = first L := by rw [← itT h, ← itT hb, c]
      have g := first_min I.B.ls
      rw [← hf] at g
      cases a with
      | none => exact absurd hz (g z)
      | some y => have := g.2 z hz; have : z < y := hbz; omega
    · obtain ⟨k, hk⟩ := prev_exists I.B.ls (itGood I.B h) (fun d => c (itEq I.B h (by rw [d]; exact hb)))
      obtain ⟨i, ei, hi⟩ := prev_ok I h hk
      obtain ⟨v, _, ed⟩ := deref_ok I hi
      refine ⟨decide (x ≤ k), by rw [if_pos c, ei, Option.bind_some, ed]; rfl, fun hc z hz hbz => ?_⟩
      rw [hk] at hB
      have h1 := hB.2 z ⟨hz, hbz⟩
      have h2 := of_decide_eq_false hc
      omega
  unfold malicious
  rw [eb, Option.bind_some, e1, Option.bind_some]
  cases c1 with
  | true => exact ⟨true, rfl, fun h => by cases h⟩
  | false =>
    have h1 := h1 rfl
    rw [if_neg (by simp), end_eq I, Option.bind_some]
    cases a with
    | none =>
      refine ⟨false, if_neg (fun d => d h), fun _ => ⟨?_, ?_⟩⟩
      · cases d : hasKey L x with
        | false => rfl
        | true => have := h1 x d trivial; omega
      · exact Trie.IsMin.unique (P := fun z => hasKey L z = true ∧ x ≤ z) (fun z hz => by have := h1 z hz.1 trivial; omega) hmin
    | some y =>
      obtain ⟨v, _, ed⟩ := deref_ok I h
      refine ⟨decide (y ≤ x), by rw [if_pos h.ne_end, ed]; rfl, fun hc => ?_⟩
      have h2 := of_decide_eq_false hc
      refine ⟨?_, ?_⟩
      · cases d : hasKey L x with
        | false => rfl
        | true => have := h1 x d (show x < y by omega); omega
      · refine Trie.IsMin.unique (P := fun z => hasKey L z = true ∧ x ≤ z) (show IsMin _ (some y) from ⟨⟨h.key I.B, by omega⟩, fun z hz => ?_⟩) hmin
        by_contra d
        have := h1 z hz.1 (show z < y by omega)
        omega

theorem emplaceHint_ok (I : Inv W s K m L) (hW : 0 < W) (hx : x < 2 ^ W) (pr : Nat) {coin : Bool} (v : V)
    (h64 : hasKey L x = false → coin = true → W < 64 ∨ Has W K 1 (pre W x 1)) (h : ItOk W m a it) :
    ∃ s' it' m', emplaceHint W s it pr coin x v = some (s', it') ∧ Inv W s' (piv' L coin x K) m' (sInsert L x v) ∧ ItOk W m' (some x) it' := by
  obtain ⟨c, e, hc⟩ := malicious_ok I h x
  unfold emplaceHint
  rw [e, Option.bind_some]
  cases c with
  | true => exact insert_ok I hW hx pr v h64
  | false =>
    obtain ⟨hn, rfl⟩ := hc rfl
    obtain ⟨T, hp, hT, hg, hh⟩ := hint_home I hx h hn
    have hmin : IsMin (fun z => hasKey L z = true ∧ x ≤ z) (first (from_ L x)) := first_filter I.B.ls
    have hany : ¬ it.t.any (fun y => decide (y ≤ x)) = true := by
      rw [itT h]
      cases c : first (from_ L x) with
      | none => simp
      | some y =>
        rw [c] at hmin
        have h1 : x ≤ y := hmin.1.2
        have h2 : x ≠ y := by rintro rfl; rw [hmin.1.1] at hn; cases hn
        simp; omega
    rw [if_neg (by simp), if_neg hany]
    have e3 : piv' L coin x K = if coin then Insert.insert x K else K := by unfold piv'; rw [hn]; cases coin <;> rfl
    rw [e3]
    exact insertBefore_ok I hW hx pr v hn (h64 hn) hp hT hg hh

/-! ### erasure -/

/-- The pivots after an erasure. -/
def pivErase (W x : Nat) (K : Finset Nat) : Finset Nat := if x = kmax W then K else K.erase x

theorem eraseAt_ok (tri : IntSet.Inv W xf K m) (hW : 0 < W) (hT : m p = some T) (ht : (m (kmax W)).isSome) (hp : p ≠ kmax W) :
    ∃ xf' r, IntSet.eraseAt W xf (some p) = some (xf', r) ∧ IntSet.Inv W xf' (K.erase p) (upd m p none) := by
  have hpK : p ∈ K := (tri.mem p).2 (by rw [hT]; rfl)
  have hI : IntSet.Inv W xf (Insert.insert p (K.erase p)) m := by rw [Finset.insert_erase hpK]; exact tri
  obtain ⟨xf', r, e, J, -⟩ := IntSet.eraseLeaf_ok hW hI (Finset.notMem_erase p K) (Finset.ne_empty_of_mem (Finset.mem_erase.2 ⟨hp.symm, (tri.mem _).2 ht⟩))
  exact ⟨xf', r, e, J⟩

/-- The pivot `p` was erased from its treap: the next bucket takes over the rest. -/
theorem dropPivot_ok (B : Buckets W m L) (hW : 0 < W) (hT : m p = some T) (hp : p ≠ kmax W) {T1 : Treap.Treap Nat V} (e1 : inorder T1.root = sErase (inorder T.root) p)
    (tri : IntSet.Inv W xf K (upd m p (some T1))) (n : Nat) (sit : Option Nat) :
    ∃ xf' r m', dropPivot W ⟨xf, n⟩ p T1 sit = some (⟨xf', n⟩, r) ∧ IntSet.Inv W xf' (K.erase p) m' ∧ Buckets W m' (sErase L p) := by
  have hiso : ∀ z, (upd m p (some T1) z).isSome = true ↔ (m z).isSome = true := by
    intro z
    by_cases d : z = p
    · subst d; rw [upd_same, hT]; rfl
    · rw [upd_ne _ _ d]
  obtain ⟨r, er, hr⟩ := nextLeaf_eq (p := p) tri (upd_same _ _ _)
  have hr := Trie.IsMin.congr hr (Q := fun z => (m z).isSome = true ∧ p < z) (fun z => by rw [hiso])
  obtain ⟨q, rfl⟩ : ∃ q, r = some q := by
    cases r with
    | some q => exact ⟨q, rfl⟩
    | none => exact absurd ⟨B.top, by have := B.lt p (by rw [hT]; rfl); omega⟩ (hr (kmax W))
  obtain ⟨R, hR⟩ := Option.isSome_iff_exists.1 hr.1.1
  have hpq : p < q := hr.1.2
  have hRq : upd m p (some T1) q = some R := by rw [upd_ne _ _ (by omega)]; exact hR
  unfold dropPivot
  by_cases c : T1.root = .nil
  · rw [c]
    obtain ⟨xf', r, e, J⟩ := eraseAt_ok tri hW (upd_same _ _ _) ((hiso _).2 B.top) hp
    refine ⟨xf', _, _, by dsimp only; rw [e]; rfl, J, ?_⟩
    have hB := B.merge hT hr hR e1 (R' := R) (by rw [c]; rfl)
    have : upd m q (some R) = m := by
      funext z
      by_cases d : z = q
      · subst d; rw [upd_same, hR]
      · rw [upd_ne _ _ d]
    rw [this] at hB
    rw [upd_upd]
    exact hB
  · obtain ⟨R', S', e, j1, -, -⟩ := Treap.absorb_ok R T1 (by
      rintro ⟨a, v⟩ ha ⟨b, w⟩ hb
      rw [e1, mem_sErase] at ha
      have := B.le p T hT a v ha.1
      have := B.gt q R hR p (by rw [hT]; rfl) hpq b w hb
      show a < b
      omega)
    obtain ⟨xf1, e2, tri1⟩ := set_eq tri hRq R'
    obtain ⟨xf2, e3, tri2⟩ := set_eq (p := p) (T := T1) tri1 (by rw [upd_ne _ _ (by omega), upd_same]) S'
    obtain ⟨xf3, r3, e4, J⟩ := eraseAt_ok (p := p) tri2 hW (upd_same _ _ _) (by
      rw [upd_ne _ _ hp.symm]
      by_cases d : kmax W = q
      · rw [d, upd_same]; rfl
      · rw [upd_ne _ _ d]; exact (hiso _).2 B.top) hp
    have hB := B.merge hT hr hR e1 (R' := R') j1
    have hm : upd (upd (upd (upd m p (some T1)) q (some R')) p (some S')) p none = upd (upd m q (some R')) p none := by
      rw [upd_upd, upd_comm (by omega : p ≠ q), upd_upd]
    rw [hm] at J
    refine ⟨xf3, ⟨r3, some q, Option.or (first (inorder R.root)) (first (inorder T1.root))⟩, _, ?_, J, hB⟩
    have : (match T1.root with
        | .nil => (IntSet.eraseAt W xf (some p)).map (fun a => ((⟨a.1, n⟩, ⟨a.2, none, sit⟩) : Y V × Ret))
        | _ => (nextLeaf xf (some p)).bind (fun nx => nx.bind (fun q => (bucket xf q).bind (fun R => (Treap.absorb R T1).bind (fun c =>
            (setBucket xf q c.1).bind (fun xf => (setBucket xf p c.2.1).bind (fun xf =>
              (IntSet.eraseAt W xf (some p)).map (fun a => ((⟨a.1, n⟩, ⟨a.2, some q, c.2.2⟩) : Y V × Ret))))))))) =
        (nextLeaf xf (some p)).bind (fun nx => nx.bind (fun q => (bucket xf q).bind (fun R => (Treap.absorb R T1).bind (fun c =>
            (setBucket xf q c.1).bind (fun xf => (setBucket xf p c.2.1).bind (fun xf =>
              (IntSet.eraseAt W xf (some p)).map (fun a => ((⟨a.1, n⟩, ⟨a.2, some q, c.2.2⟩) : Y V × Ret)))))))) := by
      cases d : T1.root with
      | nil => exact absurd d c
      | node => rfl
    refine this.trans ?_
    rw [er, Option.bind_some, Option.bind_some, bucket_eq tri hRq, Option.bind_some, e, Option.bind_some]
    dsimp only
    rw [e2, Option.bind_some, e3, Option.bind_some, e4]; rfl

theorem eraseIt_ok (I : Inv W s K m L) (hW : 0 < W) {k : Nat} (h : ItOk W m (some k) it) :
    ∃ s' r m', eraseIt W s it = some (s', r) ∧ Inv W s' (pivErase W k K) m' (sErase L k) ∧
      (k ∉ K ∨ k = kmax W → ∃ it', r = ofIt it' ∧ ItOk W m' (first (above L k)) it') := by
  obtain ⟨nx, en, hn⟩ := next_ok I h
  obtain ⟨w, hw, ed⟩ := deref_ok I h
  have hne := h.ne_end
  have hkL := h.key I.B
  obtain ⟨ht, T, hT, hk⟩ := h
  have hsT := I.B.srt _ T hT
  obtain ⟨T', i1, i2, -⟩ := Treap.eraseIt_ok T k hsT hk
  obtain ⟨xf, e1, tri1⟩ := set_eq I.tri hT T'
  have hsz : s.size - 1 = (sErase L k).length := by have := Treap.length_erase I.B.ls hkL; rw [I.size]; omega
  have hiso : ∀ z, (upd m it.x (some T') z).isSome = true ↔ (m z).isSome = true := by
    intro z
    by_cases d : z = it.x
    · subst d; rw [upd_same, hT]; rfl
    · rw [upd_ne _ _ d]
  have hxK : it.x ∈ K := (I.tri.mem _).2 (by rw [hT]; rfl)
  have hup : IsMin (fun z => hasKey L z = true ∧ k < z) (first (above L k)) := first_filter I.B.ls
  have hkx := I.B.kle hT hk
  have hxm := I.B.lt it.x (by rw [hT]; rfl)
  unfold eraseIt
  rw [end_eq I, Option.bind_some, if_neg hne, ed, Option.bind_some, bucket_eq I.tri hT, Option.bind_some, ht, i1, Option.bind_some]
  dsimp only
  rw [e1, Option.bind_some]
  by_cases c : k = it.x
  · rw [if_pos c]
    by_cases d : k = kmax W
    · -- the largest key: nothing is behind it
      rw [if_neg (fun h => h d)]
      have e3 : pivErase W k K = K := if_pos d
      have I' : Inv W ⟨xf, s.size - 1⟩ K (upd m it.x (some T')) (sErase L k) := ⟨tri1, I.B.erase hT hk (fun h => by rw [h, d]) i2, hsz⟩
      rw [e3, end_eq I']
      refine ⟨_, _, _, rfl, I', fun _ => ⟨_, rfl, ?_⟩⟩
      have : first (above L k) = none := hup.unique (show IsMin _ none from fun z hz => by
        obtain ⟨p, R, hR, hz'⟩ := I.B.key.1 hz.1
        have := I.B.kle hR hz'
        have := I.B.lt p (by rw [hR]; rfl)
        have := hz.2
        omega)
      rw [this]
      rfl
    · rw [if_pos d]
      have e3 : pivErase W k K = K.erase it.x := by rw [← c]; exact if_neg d
      subst c
      obtain ⟨xf', r, m', e, J, B'⟩ := dropPivot_ok I.B hW hT d i2 tri1 (s.size - 1) (first (above (inorder T.root) it.x))
      rw [e3]
      refine ⟨_, r, m', e, ⟨J, B', hsz⟩, ?_⟩
      rintro (h | h)
      · exact absurd hxK h
      · exact absurd h d
  · rw [if_neg c]
    have hf : IsMin (fun z => hasKey (inorder T.root) z = true ∧ k < z) (first (above (inorder T.root) k)) := first_filter hsT
    have e3 : pivErase W k K = K := by
      unfold pivErase
      have : k ≠ kmax W := by omega
      rw [if_neg this, Finset.erase_eq_of_notMem]
      intro hkK
      have := I.B.kgt hT ((I.tri.mem k).1 hkK) (by omega) hk
      omega
    rw [e3]
    refine ⟨_, _, _, rfl, ⟨tri1, I.B.erase hT hk (fun h => absurd h.symm c) i2, hsz⟩, fun _ => ⟨_, rfl, ?_⟩⟩
    have hpm : IsMin (fun z => (m z).isSome = true ∧ k < z) (some it.x) := by
      refine ⟨⟨by rw [hT]; rfl, by omega⟩, ?_⟩
      rintro z ⟨hz, hkz⟩
      by_contra c
      have := I.B.kgt hT hz (by omega) hk
      omega
    obtain ⟨h3, h4⟩ := I.B.up_first (fun a b h1 h2 => lt_of_lt_of_le h1 h2) hpm hT hf
    rw [hup.unique h3]
    cases b : first (above (inorder T.root) k) with
    | none => rw [b] at h4; exact h4
    | some k' =>
      rw [b] at hf
      refine ⟨rfl, T', upd_same _ _ _, ?_⟩
      obtain ⟨u, hu⟩ := hasKey_mem.1 hf.1.1
      rw [i2]
      exact hasKey_mem.2 ⟨u, mem_sErase.2 ⟨hu, by have : k < k' := hf.1.2; omega⟩⟩

theorem erase_ok (I : Inv W s K m L) (hW : 0 < W) (hx : x < 2 ^ W) (hk : hasKey L x = true) :
    ∃ s' r m', erase W s x = some (s', r) ∧ Inv W s' (pivErase W x K) m' (sErase L x) ∧
      (x ∉ K ∨ x = kmax W → ∃ it', r = ofIt it' ∧ ItOk W m' (first (above L x)) it') := by
  obtain ⟨it, e, h⟩ := lowerBound_ok I hW hx
  have : first (from_ L x) = some x := Trie.IsMin.unique (P := fun z => hasKey L z = true ∧ x ≤ z) (first_filter I.B.ls) (show IsMin _ (some x) from ⟨⟨hk, le_refl _⟩, fun z hz => hz.2⟩)
  rw [this] at h
  obtain ⟨v, _, ed⟩ := deref_ok I h
  unfold erase
  rw [e, Option.bind_some, ed, Option.bind_some, if_pos rfl]
  exact eraseIt_ok I hW h

theorem erase_absent (I : Inv W s K m L) (hW : 0 < W) (hx : x < 2 ^ W) (hk : hasKey L x = false) {k : Nat} (hg : first (from_ L x) = some k) :
    ∃ it', erase W s x = some (s, ofIt it') ∧ ItOk W m (some k) it' := by
  obtain ⟨it, e, h⟩ := lowerBound_ok I hW hx
  have hmin : IsMin (fun z => hasKey L z = true ∧ x ≤ z) (first (from_ L x)) := first_filter I.B.ls
  rw [hg] at h hmin
  obtain ⟨v, _, ed⟩ := deref_ok I h
  have hne : k ≠ x := by rintro rfl; rw [hmin.1.1] at hk; cases hk
  refine ⟨it, ?_, h⟩
  unfold erase
  rw [e, Option.bind_some, ed, Option.bind_some]
  exact if_neg hne

/-! ### construction -/

theorem create_ok (hW : 0 < W) : ∃ (s : Y V) (m : Nat → Option (Treap.Treap Nat V)), create W = some s ∧ Inv W s {kmax W} m [] := by
  obtain ⟨xf, e, tri⟩ := IntSet.emplace_ok (IntSet.init_inv W) hW (kmax_lt (W := W)) (Treap.empty : Treap.Treap Nat V)
  rw [if_neg (Finset.notMem_empty _)] at tri
  refine ⟨⟨xf, 0⟩, _, by unfold create; rw [e]; rfl, by simpa using tri, Yft.buckets_one ?_, rfl⟩
  intro p
  by_cases c : p = kmax W
  · rw [c, upd_same, if_pos rfl]
  · rw [upd_ne _ _ c, if_neg c]

end Verif.IntSetY
