import Verif.Yft.Model
/-! The buckets of a Y-fast trie, apart from the X-fast trie that holds them. -/
namespace Verif.Yft
open Verif
open Verif.Treap (Sorted hasKey below above from_ first last sInsert sErase sAssign inorder belowIt fromIt)
open Verif.Trie (IsMin IsMax)

variable {V : Type}

theorem hasKey_mem {L : List (Nat × V)} {x : Nat} : hasKey L x = true ↔ ∃ v, (x, v) ∈ L := by
  rw [Treap.hasKey_iff, List.mem_map]
  constructor
  · rintro ⟨⟨a, b⟩, h, rfl⟩; exact ⟨b, h⟩
  · rintro ⟨v, h⟩; exact ⟨_, h, rfl⟩

theorem first_min : ∀ {L : List (Nat × V)}, Sorted L → IsMin (fun z => hasKey L z = true) (first L)
  | [], _ => fun z hz => by obtain ⟨v, h⟩ := hasKey_mem.1 hz; cases h
  | (k, v) :: L, h => by
    refine ⟨hasKey_mem.2 ⟨v, List.mem_cons_self⟩, fun z hz => ?_⟩
    obtain ⟨w, hw⟩ := hasKey_mem.1 hz
    rcases List.mem_cons.1 hw with e | e
    · injection e with e1; exact Nat.le_of_eq e1.symm
    · exact Nat.le_of_lt ((List.pairwise_cons.1 h).1 _ e)

theorem last_max {L : List (Nat × V)} (h : Sorted L) : IsMax (fun z => hasKey L z = true) (last L) := by
  rcases List.eq_nil_or_concat L with rfl | ⟨A, ⟨k, v⟩, rfl⟩
  · exact fun z hz => by obtain ⟨v, h⟩ := hasKey_mem.1 hz; cases h
  · have e : last (A.concat (k, v)) = some k := by simp [last]
    rw [e]
    rw [List.concat_eq_append] at h ⊢
    refine ⟨hasKey_mem.2 ⟨v, by simp⟩, fun z hz => ?_⟩
    obtain ⟨w, hw⟩ := hasKey_mem.1 hz
    rcases List.mem_append.1 hw with e | e
    · exact Nat.le_of_lt ((List.pairwise_append.1 h).2.2 _ e _ List.mem_cons_self)
    · simp only [List.mem_singleton, Prod.mk.injEq] at e; omega

theorem IsMax.unique {P : Nat → Prop} {r r' : Option Nat} (h : IsMax P r) (h' : IsMax P r') : r = r' := by
  cases r with
  | none => cases r' with
    | none => rfl
    | some y => exact absurd h'.1 (h y)
  | some y => cases r' with
    | none => exact absurd h.1 (h' y)
    | some z => have := h.2 z h'.1; have := h'.2 y h.1; congr 1; omega

theorem hasKey_filter {L : List (Nat × V)} {P : Nat → Prop} [DecidablePred P] {z : Nat} : hasKey (L.filter (fun q => decide (P q.1))) z = true ↔ hasKey L z = true ∧ P z := by
  simp only [hasKey_mem, List.mem_filter, decide_eq_true_eq, exists_and_right]

theorem first_filter {L : List (Nat × V)} {P : Nat → Prop} [DecidablePred P] (h : Sorted L) : IsMin (fun z => hasKey L z = true ∧ P z) (first (L.filter (fun q => decide (P q.1)))) :=
  (first_min (Treap.sorted_filter h _)).congr (fun _ => hasKey_filter)

theorem last_filter {L : List (Nat × V)} {P : Nat → Prop} [DecidablePred P] (h : Sorted L) : IsMax (fun z => hasKey L z = true ∧ P z) (last (L.filter (fun q => decide (P q.1)))) :=
  (last_max (Treap.sorted_filter h _)).congr (fun _ => hasKey_filter)

theorem mem_sInsert {L : List (Nat × V)} {x k : Nat} {v w : V} (h : hasKey L x = false) : (k, w) ∈ sInsert L x v ↔ (k = x ∧ w = v) ∨ (k, w) ∈ L := by
  unfold sInsert
  rw [h]
  simp only [Bool.false_eq_true, if_false, List.mem_append, List.mem_cons, Prod.mk.injEq, below, above, List.mem_filter, decide_eq_true_eq]
  constructor
  · rintro (a | a | a)
    · exact Or.inr a.1
    · exact Or.inl a
    · exact Or.inr a.1
  · rintro (a | a)
    · exact Or.inr (Or.inl a)
    · have : k ≠ x := by
        rintro rfl
        rw [hasKey_mem.2 ⟨w, a⟩] at h
        cases h
      rcases Nat.lt_or_gt_of_ne this with c | c
      · exact Or.inl ⟨a, c⟩
      · exact Or.inr (Or.inr ⟨a, c⟩)

theorem mem_sErase {L : List (Nat × V)} {x k : Nat} {w : V} : (k, w) ∈ sErase L x ↔ (k, w) ∈ L ∧ k ≠ x := by
  simp [sErase]

theorem mem_sAssign {L : List (Nat × V)} {x k : Nat} {v w : V} (h : hasKey L x = true) : (k, w) ∈ sAssign L x v ↔ (k = x ∧ w = v) ∨ ((k, w) ∈ L ∧ k ≠ x) := by
  unfold sAssign
  rw [List.mem_map]
  constructor
  · rintro ⟨⟨a, b⟩, hab, e⟩
    dsimp only at e
    split_ifs at e with c
    · injection e with e1 e2; exact Or.inl ⟨e1.symm, e2.symm⟩
    · injection e with e1 e2; subst e1; subst e2; exact Or.inr ⟨hab, c⟩
  · rintro (⟨rfl, rfl⟩ | ⟨a, b⟩)
    · obtain ⟨u, hu⟩ := hasKey_mem.1 h
      exact ⟨_, hu, by simp⟩
    · exact ⟨_, a, by simp [b]⟩

theorem hasKey_sInsert {L : List (Nat × V)} {x : Nat} {v : V} : hasKey (sInsert L x v) x = true := by
  cases h : hasKey L x with
  | true => unfold sInsert; rw [if_pos h, h]
  | false => exact hasKey_mem.2 ⟨v, (mem_sInsert h).2 (Or.inl ⟨rfl, rfl⟩)⟩

/-- `m` holds the pairs of `L`: the bucket of pivot `p` has the keys above the pivot before `p` up to `p`, and all pivots but the last are keys. -/
structure Buckets (W : Nat) (m : Nat → Option (Treap.Treap Nat V)) (L : List (Nat × V)) : Prop where
  lt : ∀ p, (m p).isSome → p ≤ kmax W
  top : (m (kmax W)).isSome
  srt : ∀ p T, m p = some T → Sorted (inorder T.root)
  le : ∀ p T, m p = some T → ∀ k v, (k, v) ∈ inorder T.root → k ≤ p
  gt : ∀ p T, m p = some T → ∀ q, (m q).isSome → q < p → ∀ k v, (k, v) ∈ inorder T.root → q < k
  piv : ∀ p T, m p = some T → p ≠ kmax W → hasKey (inorder T.root) p = true
  ls : Sorted L
  mem : ∀ k v, (k, v) ∈ L ↔ ∃ p T, m p = some T ∧ (k, v) ∈ inorder T.root

/-- Iterator `it` points at key `k` (or is `end()`). -/
def ItOk (W : Nat) (m : Nat → Option (Treap.Treap Nat V)) : Option Nat → It → Prop
  | some k, it => it.t = some k ∧ ∃ T, m it.x = some T ∧ hasKey (inorder T.root) k = true
  | none, it => it = ⟨kmax W, none⟩

variable {W p q x : Nat} {m : Nat → Option (Treap.Treap Nat V)} {L : List (Nat × V)} {T R : Treap.Treap Nat V}

theorem Buckets.key (B : Buckets W m L) {k : Nat} : hasKey L k = true ↔ ∃ p T, m p = some T ∧ hasKey (inorder T.root) k = true := by
  rw [hasKey_mem]
  constructor
  · rintro ⟨v, h⟩
    obtain ⟨p, T, h1, h2⟩ := (B.mem k v).1 h
    exact ⟨p, T, h1, hasKey_mem.2 ⟨v, h2⟩⟩
  · rintro ⟨p, T, h1, h2⟩
    obtain ⟨v, h2⟩ := hasKey_mem.1 h2
    exact ⟨v, (B.mem k v).2 ⟨p, T, h1, h2⟩⟩

theorem Buckets.kle (B : Buckets W m L) (h : m p = some T) {k : Nat} (hk : hasKey (inorder T.root) k = true) : k ≤ p := by
  obtain ⟨v, hk⟩ := hasKey_mem.1 hk
  exact B.le p T h k v hk

theorem Buckets.kgt (B : Buckets W m L) (h : m p = some T) (hq : (m q).isSome) (hlt : q < p) {k : Nat} (hk : hasKey (inorder T.root) k = true) : q < k := by
  obtain ⟨v, hk⟩ := hasKey_mem.1 hk
  exact B.gt p T h q hq hlt k v hk

/-- No key is in two buckets. -/
theorem Buckets.disj (B : Buckets W m L) (hp : m p = some T) (hq : m q = some R) {k : Nat} (h1 : hasKey (inorder T.root) k = true) (h2 : hasKey (inorder R.root) k = true) : p = q := by
  by_contra h
  rcases Nat.lt_or_gt_of_ne h with c | c
  · have := B.kgt hq (by rw [hp]; rfl) c h2
    have := B.kle hp h1
    omega
  · have := B.kgt hp (by rw [hq]; rfl) c h1
    have := B.kle hq h2
    omega

/-- A key is in the bucket of the first pivot not below it. -/
theorem Buckets.home (B : Buckets W m L) (hp : IsMin (fun z => (m z).isSome = true ∧ x ≤ z) (some p)) (hT : m p = some T) (v : V) : (x, v) ∈ L ↔ (x, v) ∈ inorder T.root := by
  constructor
  · intro h
    obtain ⟨q, R, h1, h2⟩ := (B.mem x v).1 h
    have h3 := B.le q R h1 x v h2
    have h4 := hp.2 q ⟨by rw [h1]; rfl, h3⟩
    by_cases c : p = q
    · subst c; rw [hT] at h1; cases h1; exact h2
    · have := B.gt q R h1 p (by rw [hT]; rfl) (by omega) x v h2
      have := hp.1.2
      omega
  · intro h; exact (B.mem x v).2 ⟨p, T, hT, h⟩

theorem Buckets.homeKey (B : Buckets W m L) (hp : IsMin (fun z => (m z).isSome = true ∧ x ≤ z) (some p)) (hT : m p = some T) : hasKey L x = hasKey (inorder T.root) x := by
  rw [Bool.eq_iff_iff, hasKey_mem, hasKey_mem]
  exact exists_congr (fun v => B.home hp hT v)

theorem Buckets.exists_home (B : Buckets W m L) (hx : x < 2 ^ W) {r : Option Nat} (h : IsMin (fun z => (m z).isSome = true ∧ x ≤ z) r) : ∃ p T, r = some p ∧ m p = some T := by
  cases r with
  | none => exact absurd ⟨B.top, by unfold kmax; omega⟩ (h (kmax W))
  | some p => obtain ⟨T, hT⟩ := Option.isSome_iff_exists.1 h.1.1; exact ⟨p, T, rfl, hT⟩

/-- The least key with an upward closed property is in the bucket of the least pivot with it. -/
theorem Buckets.up_first (B : Buckets W m L) {P : Nat → Prop} (hup : ∀ a b, P a → a ≤ b → P b) (hp : IsMin (fun z => (m z).isSome = true ∧ P z) (some p)) (hT : m p = some T) {r : Option Nat}
    (hr : IsMin (fun z => hasKey (inorder T.root) z = true ∧ P z) r) : IsMin (fun z => hasKey L z = true ∧ P z) r ∧ ItOk W m r ⟨p, r⟩ := by
  cases r with
  | some k =>
    refine ⟨⟨⟨B.key.2 ⟨p, T, hT, hr.1.1⟩, hr.1.2⟩, ?_⟩, rfl, T, hT, hr.1.1⟩
    rintro z ⟨hz, hPz⟩
    obtain ⟨q, R, h1, h2⟩ := B.key.1 hz
    have h3 := B.kle h1 h2
    have h4 := hp.2 q ⟨by rw [h1]; rfl, hup _ _ hPz h3⟩
    by_cases c : p = q
    · subst c; rw [hT] at h1; cases h1; exact hr.2 z ⟨h2, hPz⟩
    · have := B.kgt h1 (by rw [hT]; rfl) (by omega) h2
      have := B.kle hT hr.1.1
      omega
  | none =>
    have hpk : p = kmax W := by
      by_contra c
      exact hr p ⟨B.piv p T hT c, hp.1.2⟩
    refine ⟨?_, by rw [hpk]; rfl⟩
    rintro z ⟨hz, hPz⟩
    obtain ⟨q, R, h1, h2⟩ := B.key.1 hz
    have h3 := B.kle h1 h2
    have h4 := hp.2 q ⟨by rw [h1]; rfl, hup _ _ hPz h3⟩
    have h5 := B.lt q (by rw [h1]; rfl)
    have : p = q := by omega
    subst this
    rw [hT] at h1; cases h1
    exact hr z ⟨h2, hPz⟩

/-- Replacing a bucket by one within the same bounds. -/
theorem Buckets.replace (B : Buckets W m L) (hT : m p = some T) {T' : Treap.Treap Nat V} (hs : Sorted (inorder T'.root)) (hle : ∀ k v, (k, v) ∈ inorder T'.root → k ≤ p)
    (hgt : ∀ q, (m q).isSome → q < p → ∀ k v, (k, v) ∈ inorder T'.root → q < k) (hpiv : p ≠ kmax W → hasKey (inorder T'.root) p = true) {L' : List (Nat × V)} (hL : Sorted L')
    (hmem : ∀ k v, (k, v) ∈ L' ↔ (k, v) ∈ inorder T'.root ∨ ((k, v) ∈ L ∧ (k, v) ∉ inorder T.root)) : Buckets W (upd m p (some T')) L' := by
  have hiso : ∀ q, (upd m p (some T') q).isSome = true ↔ (m q).isSome = true := by
    intro q
    by_cases c : q = p
    · subst c; rw [upd_same, hT]; rfl
    · rw [upd_ne _ _ c]
  have hcase : ∀ q S, upd m p (some T') q = some S → (q = p ∧ S = T') ∨ (q ≠ p ∧ m q = some S) := by
    intro q S h
    by_cases c : q = p
    · subst c; rw [upd_same] at h; cases h; exact Or.inl ⟨rfl, rfl⟩
    · rw [upd_ne _ _ c] at h; exact Or.inr ⟨c, h⟩
  refine ⟨fun q h => B.lt q ((hiso q).1 h), (hiso _).2 B.top, ?_, ?_, ?_, ?_, hL, ?_⟩
  · intro q S h
    rcases hcase q S h with ⟨rfl, rfl⟩ | ⟨_, h⟩
    · exact hs
    · exact B.srt q S h
  · intro q S h
    rcases hcase q S h with ⟨rfl, rfl⟩ | ⟨_, h⟩
    · exact hle
    · exact B.le q S h
  · intro q S h q' hq'
    have hq2 := (hiso q').1 hq'
    rcases hcase q S h with ⟨rfl, rfl⟩ | ⟨_, h⟩
    · exact hgt q' hq2
    · exact B.gt q S h q' hq2
  · intro q S h
    rcases hcase q S h with ⟨rfl, rfl⟩ | ⟨_, h⟩
    · exact hpiv
    · exact B.piv q S h
  · intro k v
    rw [hmem]
    constructor
    · rintro (h | ⟨h1, h2⟩)
      · exact ⟨p, T', upd_same _ _ _, h⟩
      · obtain ⟨q, S, h3, h4⟩ := (B.mem k v).1 h1
        have c : q ≠ p := by rintro rfl; rw [hT] at h3; cases h3; exact h2 h4
        exact ⟨q, S, by rw [upd_ne _ _ c]; exact h3, h4⟩
    · rintro ⟨q, S, h1, h2⟩
      rcases hcase q S h1 with ⟨rfl, rfl⟩ | ⟨c, h⟩
      · exact Or.inl h2
      · refine Or.inr ⟨(B.mem k v).2 ⟨q, S, h, h2⟩, fun h3 => c ?_⟩
        exact (B.disj hT h (hasKey_mem.2 ⟨v, h3⟩) (hasKey_mem.2 ⟨v, h2⟩)).symm

theorem Buckets.insert (B : Buckets W m L) (hp : IsMin (fun z => (m z).isSome = true ∧ x ≤ z) (some p)) (hT : m p = some T) {T' : Treap.Treap Nat V} {v : V} (hn : hasKey L x = false)
    (e : inorder T'.root = sInsert (inorder T.root) x v) : Buckets W (upd m p (some T')) (sInsert L x v) := by
  have hn' := hn
  rw [B.homeKey hp hT] at hn'
  refine B.replace hT (by rw [e]; exact Treap.sorted_insert x v (B.srt p T hT)) ?_ ?_ ?_ (Treap.sorted_insert x v B.ls) ?_
  · intro k w h
    rw [e, mem_sInsert hn'] at h
    rcases h with ⟨rfl, _⟩ | h
    · exact hp.1.2
    · exact B.le p T hT k w h
  · intro q hq hlt k w h
    rw [e, mem_sInsert hn'] at h
    rcases h with ⟨rfl, _⟩ | h
    · by_contra c
      have := hp.2 q ⟨hq, by omega⟩
      omega
    · exact B.gt p T hT q hq hlt k w h
  · intro c
    obtain ⟨w, hw⟩ := hasKey_mem.1 (B.piv p T hT c)
    rw [e]
    exact hasKey_mem.2 ⟨w, (mem_sInsert hn').2 (Or.inr hw)⟩
  · intro k w
    rw [mem_sInsert hn, e, mem_sInsert hn']
    constructor
    · rintro (h | h)
      · exact Or.inl (Or.inl h)
      · by_cases c : (k, w) ∈ inorder T.root
        · exact Or.inl (Or.inr c)
        · exact Or.inr ⟨h, c⟩
    · rintro ((h | h) | h)
      · exact Or.inl h
      · exact Or.inr ((B.mem k w).2 ⟨p, T, hT, h⟩)
      · exact Or.inr h.1

theorem Buckets.assign (B : Buckets W m L) (hT : m p = some T) {T' : Treap.Treap Nat V} {v : V} (hx : hasKey (inorder T.root) x = true)
    (e : inorder T'.root = sAssign (inorder T.root) x v) : Buckets W (upd m p (some T')) (sAssign L x v) := by
  have hxL : hasKey L x = true := B.key.2 ⟨p, T, hT, hx⟩
  obtain ⟨u, hu⟩ := hasKey_mem.1 hx
  refine B.replace hT (by rw [e]; exact Treap.sorted_assign x v (B.srt p T hT)) ?_ ?_ ?_ (Treap.sorted_assign x v B.ls) ?_
  · intro k w h
    rw [e, mem_sAssign hx] at h
    rcases h with ⟨rfl, _⟩ | h
    · exact B.kle hT hx
    · exact B.le p T hT k w h.1
  · intro q hq hlt k w h
    rw [e, mem_sAssign hx] at h
    rcases h with ⟨rfl, _⟩ | h
    · exact B.kgt hT hq hlt hx
    · exact B.gt p T hT q hq hlt k w h.1
  · intro c
    obtain ⟨w, hw⟩ := hasKey_mem.1 (B.piv p T hT c)
    rw [e]
    by_cases d : p = x
    · exact hasKey_mem.2 ⟨v, (mem_sAssign hx).2 (Or.inl ⟨d, rfl⟩)⟩
    · exact hasKey_mem.2 ⟨w, (mem_sAssign hx).2 (Or.inr ⟨hw, d⟩)⟩
  · intro k w
    rw [mem_sAssign hxL, e, mem_sAssign hx]
    constructor
    · rintro (h | ⟨h1, h2⟩)
      · exact Or.inl (Or.inl h)
      · by_cases c : (k, w) ∈ inorder T.root
        · exact Or.inl (Or.inr ⟨c, h2⟩)
        · exact Or.inr ⟨h1, c⟩
    · rintro ((h | ⟨h1, h2⟩) | ⟨h1, h2⟩)
      · exact Or.inl h
      · exact Or.inr ⟨(B.mem k w).2 ⟨p, T, hT, h1⟩, h2⟩
      · by_cases c : k = x
        · subst c
          obtain ⟨q, S, h3, h4⟩ := (B.mem k w).1 h1
          have := B.disj hT h3 hx (hasKey_mem.2 ⟨w, h4⟩)
          subst this
          rw [hT] at h3; cases h3
          exact absurd h4 h2
        · exact Or.inr ⟨h1, c⟩

/-- Erasing a key that is not the pivot, or is in the last bucket. -/
theorem Buckets.erase (B : Buckets W m L) (hT : m p = some T) {T' : Treap.Treap Nat V} (hx : hasKey (inorder T.root) x = true) (hpx : p = x → p = kmax W)
    (e : inorder T'.root = sErase (inorder T.root) x) : Buckets W (upd m p (some T')) (sErase L x) := by
  refine B.replace hT (by rw [e]; exact Treap.sorted_filter (B.srt p T hT) _) ?_ ?_ ?_ (Treap.sorted_filter B.ls _) ?_
  · intro k w h
    rw [e, mem_sErase] at h
    exact B.le p T hT k w h.1
  · intro q hq hlt k w h
    rw [e, mem_sErase] at h
    exact B.gt p T hT q hq hlt k w h.1
  · intro c
    obtain ⟨w, hw⟩ := hasKey_mem.1 (B.piv p T hT c)
    rw [e]
    exact hasKey_mem.2 ⟨w, mem_sErase.2 ⟨hw, fun d => c (hpx d)⟩⟩
  · intro k w
    rw [mem_sErase, e, mem_sErase]
    constructor
    · rintro ⟨h1, h2⟩
      by_cases c : (k, w) ∈ inorder T.root
      · exact Or.inl ⟨c, h2⟩
      · exact Or.inr ⟨h1, c⟩
    · rintro (⟨h1, h2⟩ | ⟨h1, h2⟩)
      · exact ⟨(B.mem k w).2 ⟨p, T, hT, h1⟩, h2⟩
      · refine ⟨h1, ?_⟩
        rintro rfl
        obtain ⟨q, S, h3, h4⟩ := (B.mem k w).1 h1
        have := B.disj hT h3 hx (hasKey_mem.2 ⟨w, h4⟩)
        subst this
        rw [hT] at h3; cases h3
        exact absurd h4 h2

/-- Splitting a bucket behind a key that is not its pivot. -/
theorem Buckets.split (B : Buckets W m L) (hT : m p = some T) {T' S' : Treap.Treap Nat V} (hx : hasKey (inorder T.root) x = true) (hxp : x < p)
    (e1 : inorder T'.root = above (inorder T.root) x) (e2 : inorder S'.root = (inorder T.root).filter (fun q => decide (q.1 ≤ x))) :
    Buckets W (upd (upd m p (some T')) x (some S')) L := by
  have hmx : m x = none := by
    cases c : m x with
    | none => rfl
    | some U => have := B.kgt hT (by rw [c]; rfl) hxp hx; omega
  have m1 : ∀ k v, (k, v) ∈ inorder T'.root ↔ (k, v) ∈ inorder T.root ∧ x < k := by intro k v; rw [e1]; simp [above]
  have m2 : ∀ k v, (k, v) ∈ inorder S'.root ↔ (k, v) ∈ inorder T.root ∧ k ≤ x := by intro k v; rw [e2]; simp
  have hcase : ∀ q S, upd (upd m p (some T')) x (some S') q = some S → (q = x ∧ S = S') ∨ (q = p ∧ S = T') ∨ (q ≠ x ∧ q ≠ p ∧ m q = some S) := by
    intro q S h
    by_cases c : q = x
    · subst c; rw [upd_same] at h; cases h; exact Or.inl ⟨rfl, rfl⟩
    · rw [upd_ne _ _ c] at h
      by_cases d : q = p
      · subst d; rw [upd_same] at h; cases h; exact Or.inr (Or.inl ⟨rfl, rfl⟩)
      · rw [upd_ne _ _ d] at h; exact Or.inr (Or.inr ⟨c, d, h⟩)
  have hiso : ∀ q, (upd (upd m p (some T')) x (some S') q).isSome = true ↔ q = x ∨ (m q).isSome = true := by
    intro q
    by_cases c : q = x
    · subst c; rw [upd_same]; simp
    · rw [upd_ne _ _ c]
      by_cases d : q = p
      · subst d; rw [upd_same, hT]; simp
      · rw [upd_ne _ _ d]; simp [c]
  have hpk : p ≤ kmax W := B.lt p (by rw [hT]; rfl)
  refine ⟨?_, (hiso _).2 (Or.inr B.top), ?_, ?_, ?_, ?_, B.ls, ?_⟩
  · intro q h
    rcases (hiso q).1 h with rfl | h
    · omega
    · exact B.lt q h
  · intro q S h
    rcases hcase q S h with ⟨rfl, rfl⟩ | ⟨rfl, rfl⟩ | ⟨_, _, h⟩
    · rw [e2]; exact Treap.sorted_filter (B.srt p T hT) _
    · rw [e1]; exact Treap.sorted_filter (B.srt q T hT) _
    · exact B.srt q S h
  · intro q S h k v hk
    rcases hcase q S h with ⟨rfl, rfl⟩ | ⟨rfl, rfl⟩ | ⟨_, _, h⟩
    · exact ((m2 k v).1 hk).2
    · exact B.le q T hT k v ((m1 k v).1 hk).1
    · exact B.le q S h k v hk
  · intro q S h q' hq' hlt k v hk
    rcases hcase q S h with ⟨rfl, rfl⟩ | ⟨rfl, rfl⟩ | ⟨c1, c2, h0⟩
    · rcases (hiso q').1 hq' with rfl | hq'
      · omega
      · exact B.gt p T hT q' hq' (by omega) k v ((m2 k v).1 hk).1
    · rcases (hiso q').1 hq' with rfl | hq'
      · exact ((m1 k v).1 hk).2
      · exact B.gt q T hT q' hq' hlt k v ((m1 k v).1 hk).1
    · rcases (hiso q').1 hq' with rfl | hq'
      · have : p < q := by
          rcases Nat.lt_or_gt_of_ne c2 with d | d
          · have := B.kgt hT (by rw [h0]; rfl) d hx; omega
          · exact d
        have := B.gt q S h0 p (by rw [hT]; rfl) this k v hk
        omega
      · exact B.gt q S h0 q' hq' hlt k v hk
  · intro q S h hq
    rcases hcase q S h with ⟨rfl, rfl⟩ | ⟨rfl, rfl⟩ | ⟨_, _, h⟩
    · obtain ⟨w, hw⟩ := hasKey_mem.1 hx
      exact hasKey_mem.2 ⟨w, (m2 _ _).2 ⟨hw, le_refl _⟩⟩
    · obtain ⟨w, hw⟩ := hasKey_mem.1 (B.piv q T hT hq)
      exact hasKey_mem.2 ⟨w, (m1 _ _).2 ⟨hw, hxp⟩⟩
    · exact B.piv q S h hq
  · intro k v
    rw [B.mem]
    constructor
    · rintro ⟨q, S, h1, h2⟩
      by_cases d : q = p
      · subst d
        rw [hT] at h1; cases h1
        by_cases c : k ≤ x
        · exact ⟨x, S', upd_same _ _ _, (m2 k v).2 ⟨h2, c⟩⟩
        · exact ⟨q, T', by rw [upd_ne _ _ (by omega), upd_same], (m1 k v).2 ⟨h2, by omega⟩⟩
      · have c : q ≠ x := by rintro rfl; rw [hmx] at h1; cases h1
        exact ⟨q, S, by rw [upd_ne _ _ c, upd_ne _ _ d]; exact h1, h2⟩
    · rintro ⟨q, S, h1, h2⟩
      rcases hcase q S h1 with ⟨rfl, rfl⟩ | ⟨rfl, rfl⟩ | ⟨_, _, h⟩
      · exact ⟨p, T, hT, ((m2 k v).1 h2).1⟩
      · exact ⟨q, T, hT, ((m1 k v).1 h2).1⟩
      · exact ⟨q, S, h, h2⟩

/-- Erasing a pivot: the next bucket takes the rest. -/
theorem Buckets.merge (B : Buckets W m L) (hT : m p = some T) (hq : IsMin (fun z => (m z).isSome = true ∧ p < z) (some q)) (hR : m q = some R) {T1 R' : Treap.Treap Nat V}
    (e1 : inorder T1.root = sErase (inorder T.root) p) (e2 : inorder R'.root = inorder T1.root ++ inorder R.root) : Buckets W (upd (upd m q (some R')) p none) (sErase L p) := by
  have hpq : p < q := hq.1.2
  have hqk : q ≤ kmax W := B.lt q hq.1.1
  have hpx : hasKey (inorder T.root) p = true := B.piv p T hT (by omega)
  have mR : ∀ k v, (k, v) ∈ inorder R'.root ↔ ((k, v) ∈ inorder T.root ∧ k ≠ p) ∨ (k, v) ∈ inorder R.root := by
    intro k v; rw [e2, List.mem_append, e1, mem_sErase]
  have hcase : ∀ z S, upd (upd m q (some R')) p none z = some S → (z = q ∧ S = R') ∨ (z ≠ p ∧ z ≠ q ∧ m z = some S) := by
    intro z S h
    by_cases c : z = p
    · subst c; rw [upd_same] at h; cases h
    · rw [upd_ne _ _ c] at h
      by_cases d : z = q
      · subst d; rw [upd_same] at h; cases h; exact Or.inl ⟨rfl, rfl⟩
      · rw [upd_ne _ _ d] at h; exact Or.inr ⟨c, d, h⟩
  have hiso : ∀ z, (upd (upd m q (some R')) p none z).isSome = true → (m z).isSome = true ∧ z ≠ p := by
    intro z h
    obtain ⟨S, h⟩ := Option.isSome_iff_exists.1 h
    rcases hcase z S h with ⟨rfl, rfl⟩ | ⟨c, _, h⟩
    · exact ⟨hq.1.1, by omega⟩
    · exact ⟨by rw [h]; rfl, c⟩
  refine ⟨fun z h => B.lt z (hiso z h).1, ?_, ?_, ?_, ?_, ?_, Treap.sorted_filter B.ls _, ?_⟩
  · by_cases c : kmax W = q
    · rw [← c, upd_ne _ _ (by omega), upd_same]; rfl
    · rw [upd_ne _ _ (by omega), upd_ne _ _ c]; exact B.top
  · intro z S h
    rcases hcase z S h with ⟨rfl, rfl⟩ | ⟨_, _, h⟩
    · rw [e2]
      refine List.pairwise_append.2 ⟨by rw [e1]; exact Treap.sorted_filter (B.srt p T hT) _, B.srt z R hR, ?_⟩
      rintro ⟨a, v⟩ ha ⟨b, w⟩ hb
      rw [e1, mem_sErase] at ha
      have := B.le p T hT a v ha.1
      have := B.gt z R hR p (by rw [hT]; rfl) hpq b w hb
      show a < b
      omega
    · exact B.srt z S h
  · intro z S h k v hk
    rcases hcase z S h with ⟨rfl, rfl⟩ | ⟨_, _, h⟩
    · rcases (mR k v).1 hk with ⟨h1, _⟩ | h1
      · have := B.le p T hT k v h1; omega
      · exact B.le z R hR k v h1
    · exact B.le z S h k v hk
  · intro z S h z' hz' hlt k v hk
    obtain ⟨hz1, hz2⟩ := hiso z' hz'
    rcases hcase z S h with ⟨rfl, rfl⟩ | ⟨_, _, h⟩
    · have hz3 : z' < p := by
        by_contra c
        have := hq.2 z' ⟨hz1, by omega⟩
        omega
      rcases (mR k v).1 hk with ⟨h1, _⟩ | h1
      · exact B.gt p T hT z' hz1 hz3 k v h1
      · exact B.gt z R hR z' hz1 hlt k v h1
    · exact B.gt z S h z' hz1 hlt k v hk
  · intro z S h hz
    rcases hcase z S h with ⟨rfl, rfl⟩ | ⟨_, _, h⟩
    · obtain ⟨w, hw⟩ := hasKey_mem.1 (B.piv z R hR hz)
      exact hasKey_mem.2 ⟨w, (mR _ _).2 (Or.inr hw)⟩
    · exact B.piv z S h hz
  · intro k v
    rw [mem_sErase, B.mem]
    constructor
    · rintro ⟨⟨z, S, h1, h2⟩, hk⟩
      by_cases c : z = p
      · subst c
        rw [hT] at h1; cases h1
        exact ⟨q, R', by rw [upd_ne _ _ (by omega), upd_same], (mR k v).2 (Or.inl ⟨h2, hk⟩)⟩
      · by_cases d : z = q
        · subst d
          rw [hR] at h1; cases h1
          exact ⟨z, R', by rw [upd_ne _ _ c, upd_same], (mR k v).2 (Or.inr h2)⟩
        · exact ⟨z, S, by rw [upd_ne _ _ c, upd_ne _ _ d]; exact h1, h2⟩
    · rintro ⟨z, S, h1, h2⟩
      rcases hcase z S h1 with ⟨rfl, rfl⟩ | ⟨c, _, h⟩
      · rcases (mR k v).1 h2 with ⟨h3, h4⟩ | h3
        · exact ⟨⟨p, T, hT, h3⟩, h4⟩
        · have := B.gt z R hR p (by rw [hT]; rfl) hpq k v h3
          exact ⟨⟨z, R, hR, h3⟩, by omega⟩
      · refine ⟨⟨z, S, h, h2⟩, ?_⟩
        rintro rfl
        exact c (B.disj hT h hpx (hasKey_mem.2 ⟨v, h2⟩)).symm

end Verif.Yft
