import Verif.TreapM.Model
import Verif.Treap.Proofs
/-!
The operations of the treap with equal keys against the list of its elements (node number, key).
-/
namespace Verif.TreapM

open Verif.Treap (Tree Frame Ctx Loc Iter Treap zip locate bubble trickle size begin_ next prev deref eraseIt bubbleForce split inorder ctxL ctxR inorder_zip inorder_bubble trickle_ok bubbleForce_ok
  nextUp_eq prevUp_eq leftmost_eq rightmost_eq begin_eq locate_some locate_exists)

variable {K : Type} [LinearOrder K]

/-- The keys do not decrease. -/
def Ord (L : List (Nat × K)) : Prop := L.Pairwise (fun a b => a.2 ≤ b.2)

/-- The numbers of the elements. -/
def ids (L : List (Nat × K)) : List Nat := L.map Prod.fst

/-- Iterators at the first and last element. -/
def first (L : List (Nat × K)) : Iter Nat := L.head?.map Prod.fst
def last (L : List (Nat × K)) : Iter Nat := L.getLast?.map Prod.fst

theorem ord_split {A B : List (Nat × K)} {i : Nat} {k : K} (h : Ord (A ++ (i, k) :: B)) : (∀ q ∈ A, q.2 ≤ k) ∧ (∀ q ∈ B, k ≤ q.2) ∧ Ord A ∧ Ord B := by
  unfold Ord at h
  rw [List.pairwise_append, List.pairwise_cons] at h
  exact ⟨fun q hq => h.2.2 q hq _ List.mem_cons_self, h.2.1.1, h.1, h.2.1.2⟩

theorem ord_ins {A B : List (Nat × K)} {n : Nat} {x : K} (h : Ord (A ++ B)) (hA : ∀ q ∈ A, q.2 ≤ x) (hB : ∀ q ∈ B, x ≤ q.2) : Ord (A ++ (n, x) :: B) := by
  unfold Ord at h ⊢
  rw [List.pairwise_append] at h
  rw [List.pairwise_append, List.pairwise_cons]
  refine ⟨h.1, ⟨hB, h.2.1⟩, ?_⟩
  intro a ha b hb
  rcases List.mem_cons.1 hb with rfl | hb
  · exact hA a ha
  · exact h.2.2 a ha b hb

/-- The descent for insertion. -/
theorem descend_ok (x : K) (Q : K → Prop) (hQ : ∀ k, x < k → Q k) : ∀ (t : Tree Nat K) (c : Ctx Nat K), Ord (inorder t) → (∀ q ∈ ctxL c, q.2 ≤ x) → (∀ q ∈ ctxR c, Q q.2) →
    ctxL (descend x t c) ++ ctxR (descend x t c) = ctxL c ++ inorder t ++ ctxR c ∧ (∀ q ∈ ctxL (descend x t c), q.2 ≤ x) ∧ (∀ q ∈ ctxR (descend x t c), Q q.2) := by
  intro t
  induction t with
  | nil => intro c _ hL hR; exact ⟨by simp [descend, inorder], hL, hR⟩
  | node l p i k r ihl ihr =>
    intro c hs hL hR
    unfold inorder at hs
    obtain ⟨s1, s2, s3, s4⟩ := ord_split hs
    unfold descend
    by_cases hlt : x < k
    · rw [if_pos hlt]
      obtain ⟨h2, h3, h4⟩ := ihl (.fl p i k r :: c) s3 hL (by
        intro q hq
        simp only [ctxR, List.cons_append, List.mem_cons, List.mem_append] at hq
        rcases hq with rfl | hq | hq
        · exact hQ _ hlt
        · exact hQ _ (lt_of_lt_of_le hlt (s2 q hq))
        · exact hR q hq)
      exact ⟨by rw [h2]; simp [ctxL, ctxR, inorder], h3, h4⟩
    · rw [if_neg hlt]
      obtain ⟨h2, h3, h4⟩ := ihr (.fr l p i k :: c) s4 (by
        intro q hq
        simp only [ctxL, List.mem_append, List.mem_singleton] at hq
        rcases hq with hq | hq | rfl
        · exact hL q hq
        · exact (s1 q hq).trans (not_lt.1 hlt)
        · exact not_lt.1 hlt) hR
      exact ⟨by rw [h2]; simp [ctxL, ctxR, inorder], h3, h4⟩

theorem insertAt_ok (T : Treap Nat K) (t : Tree Nat K) (c : Ctx Nat K) (p n : Nat) (x : K) (Q : K → Prop) (hQ : ∀ k, x < k → Q k) (hs : Ord (inorder T.root)) (hz : zip t c = T.root)
    (hL : ∀ q ∈ ctxL c, q.2 ≤ x) (hR : ∀ q ∈ ctxR c, Q q.2) :
    ∃ A B, inorder T.root = A ++ B ∧ (∀ q ∈ A, q.2 ≤ x) ∧ (∀ q ∈ B, Q q.2) ∧ inorder (insertAt T t c p n x).root = A ++ (n, x) :: B ∧ (insertAt T t c p n x).size = T.size + 1 := by
  have hi : inorder T.root = ctxL c ++ inorder t ++ ctxR c := by rw [← hz, inorder_zip]
  have hst : Ord (inorder t) := by
    rw [hi] at hs
    exact (List.pairwise_append.1 (List.pairwise_append.1 hs).1).2.1
  obtain ⟨h1, h2, h3⟩ := descend_ok x Q hQ t c hst hL hR
  refine ⟨_, _, by rw [h1]; exact hi, h2, h3, ?_, rfl⟩
  unfold insertAt
  rw [inorder_bubble]
  simp [inorder]

/-- The elements not greater than a key, and the greater ones. -/
def upto (L : List (Nat × K)) (x : K) : List (Nat × K) := L.filter (fun q => decide (q.2 ≤ x))
def above (L : List (Nat × K)) (x : K) : List (Nat × K) := L.filter (fun q => decide (x < q.2))
def below (L : List (Nat × K)) (x : K) : List (Nat × K) := L.filter (fun q => decide (q.2 < x))

theorem parts {A B : List (Nat × K)} {x : K} (hA : ∀ q ∈ A, q.2 ≤ x) (hB : ∀ q ∈ B, x < q.2) : upto (A ++ B) x = A ∧ above (A ++ B) x = B := by
  unfold upto above
  rw [List.filter_append, List.filter_append]
  constructor
  · rw [List.filter_eq_self.2 (fun q hq => by simpa using hA q hq), List.filter_eq_nil_iff.2 (fun q hq => by simpa using hB q hq), List.append_nil]
  · rw [List.filter_eq_nil_iff.2 (fun q hq => by simpa using hA q hq), List.filter_eq_self.2 (fun q hq => by simpa using hB q hq), List.nil_append]

theorem insert_ok (T : Treap Nat K) (p n : Nat) (x : K) (hs : Ord (inorder T.root)) :
    inorder (insert T p n x).root = upto (inorder T.root) x ++ (n, x) :: above (inorder T.root) x ∧ inorder T.root = upto (inorder T.root) x ++ above (inorder T.root) x ∧
      (insert T p n x).size = T.size + 1 := by
  obtain ⟨A, B, h1, h2, h3, h4, h5⟩ := insertAt_ok T T.root [] p n x (fun k => x < k) (fun _ h => h) hs rfl (by simp [ctxL]) (by simp [ctxR])
  obtain ⟨e1, e2⟩ := parts h2 h3
  rw [← h1] at e1 e2
  rw [e1, e2]
  exact ⟨h4, h1, h5⟩

/-- Following an iterator. -/
theorem locate_facts {t : Tree Nat K} {i : Nat} (hi : i ∈ ids (inorder t)) :
    ∃ u, locate i t [] = some u ∧ u.k = i ∧ zip (.node u.l u.p u.k u.v u.r) u.ctx = t ∧ inorder t = (ctxL u.ctx ++ inorder u.l) ++ (i, u.v) :: (inorder u.r ++ ctxR u.ctx) := by
  obtain ⟨u, hu⟩ := locate_exists t [] i hi
  obtain ⟨h1, h2, h3⟩ := locate_some t [] i u hu
  exact ⟨u, hu, h1, h2, by simpa [ctxL, ctxR] using h3.symm⟩

/-- The place of an element is determined by its number. -/
theorem split_uniq : ∀ {A A' B B' : List (Nat × K)} {i : Nat} {x y : K}, A ++ (i, x) :: B = A' ++ (i, y) :: B' → (ids (A ++ (i, x) :: B)).Nodup → A = A' ∧ x = y ∧ B = B' := by
  intro A
  induction A with
  | nil =>
    intro A' B B' i x y h hn
    cases A' with
    | nil => simp only [List.nil_append, List.cons.injEq, Prod.mk.injEq, true_and] at h; exact ⟨rfl, h.1, h.2⟩
    | cons q A' =>
      simp only [List.nil_append, List.cons_append, List.cons.injEq] at h
      exfalso
      unfold ids at hn
      rw [List.nil_append, List.map_cons, List.nodup_cons] at hn
      exact hn.1 (by rw [h.2]; simp)
  | cons q A ih =>
    intro A' B B' i x y h hn
    cases A' with
    | nil =>
      simp only [List.nil_append, List.cons_append, List.cons.injEq] at h
      exfalso
      unfold ids at hn
      rw [List.cons_append, List.map_cons, List.nodup_cons, h.1] at hn
      exact hn.1 (by simp)
    | cons q' A' =>
      simp only [List.cons_append, List.cons.injEq] at h
      unfold ids at hn
      rw [List.cons_append, List.map_cons, List.nodup_cons] at hn
      obtain ⟨h1, h2, h3⟩ := ih h.2 hn.2
      exact ⟨by rw [h.1, h1], h2, h3⟩

theorem first_uniq {A A' B B' : List (Nat × K)} (h : A ++ B = A' ++ B') (hn : (ids (A ++ B)).Nodup) (hf : first B = first B') : A = A' ∧ B = B' := by
  cases B with
  | nil =>
    cases B' with
    | nil => simpa using h
    | cons q B' => simp [first] at hf
  | cons q B =>
    cases B' with
    | nil => simp [first] at hf
    | cons q' B' =>
      obtain ⟨i, x⟩ := q
      obtain ⟨j, y⟩ := q'
      simp only [first, List.head?_cons, Option.map_some, Option.some.injEq] at hf
      subst hf
      obtain ⟨h1, h2, h3⟩ := split_uniq h hn
      exact ⟨h1, by rw [h2, h3]⟩

theorem insertHint_ok (T : Treap Nat K) (h : Iter Nat) (p n : Nat) (x : K) (hs : Ord (inorder T.root)) (hn : (ids (inorder T.root)).Nodup)
    (hh : h = none ∨ ∃ A i y B, h = some i ∧ inorder T.root = A ++ (i, y) :: B ∧ (∀ q ∈ A, q.2 ≤ x) ∧ (∀ q ∈ B, x ≤ q.2)) :
    ∃ T' A B, insertHint T h p n x = some T' ∧ inorder T.root = A ++ B ∧ (∀ q ∈ A, q.2 ≤ x) ∧ (∀ q ∈ B, x ≤ q.2) ∧ inorder T'.root = A ++ (n, x) :: B ∧ T'.size = T.size + 1 := by
  have full : ∃ A B, inorder T.root = A ++ B ∧ (∀ q ∈ A, q.2 ≤ x) ∧ (∀ q ∈ B, x ≤ q.2) ∧ inorder (insert T p n x).root = A ++ (n, x) :: B ∧ (insert T p n x).size = T.size + 1 := by
    obtain ⟨h1, h2, h3⟩ := insert_ok T p n x hs
    refine ⟨_, _, h2, ?_, ?_, h1, h3⟩
    · intro q hq; simpa using (List.mem_filter.1 hq).2
    · intro q hq; exact le_of_lt (by simpa using (List.mem_filter.1 hq).2)
  rcases hh with rfl | ⟨A, i, y, B, rfl, hL, hA, hB⟩
  · obtain ⟨A, B, h1, h2, h3, h4, h5⟩ := full
    exact ⟨_, A, B, rfl, h1, h2, h3, h4, h5⟩
  · obtain ⟨u, u1, u2, u3, u4⟩ := locate_facts (t := T.root) (i := i) (by rw [hL]; simp [ids])
    obtain ⟨e1, e2, e3⟩ := split_uniq (hL.symm.trans u4) (hL ▸ hn)
    have sub : ∃ A B, inorder T.root = A ++ B ∧ (∀ q ∈ A, q.2 ≤ x) ∧ (∀ q ∈ B, x ≤ q.2) ∧ inorder (insertAt T (.node u.l u.p u.k u.v u.r) u.ctx p n x).root = A ++ (n, x) :: B ∧
        (insertAt T (.node u.l u.p u.k u.v u.r) u.ctx p n x).size = T.size + 1 :=
      insertAt_ok T (.node u.l u.p u.k u.v u.r) u.ctx p n x (fun k => x ≤ k) (fun _ h => le_of_lt h) hs u3
        (fun q hq => hA q (by rw [e1]; exact List.mem_append_left _ hq)) (fun q hq => hB q (by rw [e3]; exact List.mem_append_right _ hq))
    have hf : hintFrame T u p n x = insert T p n x ∨ hintFrame T u p n x = insertAt T (.node u.l u.p u.k u.v u.r) u.ctx p n x := by
      unfold hintFrame
      split
      · exact Or.inr rfl
      · split_ifs
        · exact Or.inl rfl
        · exact Or.inr rfl
      · split_ifs
        · exact Or.inl rfl
        · exact Or.inr rfl
    unfold insertHint
    dsimp only
    rw [u1, Option.map_some]
    rcases hf with hf | hf
    · obtain ⟨A, B, h1, h2, h3, h4, h5⟩ := full
      exact ⟨_, A, B, rfl, h1, h2, h3, by rw [hf, h4], by rw [hf, h5]⟩
    · obtain ⟨A, B, h1, h2, h3, h4, h5⟩ := sub
      exact ⟨_, A, B, rfl, h1, h2, h3, by rw [hf, h4], by rw [hf, h5]⟩

/-! ### Searches -/

theorem find_ok (x : K) : ∀ t : Tree Nat K, Ord (inorder t) → (findT x t = none ∧ ∀ q ∈ inorder t, q.2 ≠ x) ∨ ∃ i, findT x t = some i ∧ (i, x) ∈ inorder t := by
  intro t
  induction t with
  | nil => intro _; exact Or.inl ⟨rfl, by simp [inorder]⟩
  | node l p i k r ihl ihr =>
    intro hs
    unfold inorder at hs ⊢
    obtain ⟨s1, s2, s3, s4⟩ := ord_split hs
    unfold findT
    by_cases hk : k = x
    · rw [if_pos hk]
      exact Or.inr ⟨i, rfl, by simp [hk]⟩
    · rw [if_neg hk]
      by_cases hlt : x < k
      · rw [if_pos hlt]
        rcases ihl s3 with ⟨h1, h2⟩ | ⟨j, h1, h2⟩
        · refine Or.inl ⟨h1, ?_⟩
          intro q hq
          rcases List.mem_append.1 hq with hq | hq
          · exact h2 q hq
          · rcases List.mem_cons.1 hq with rfl | hq
            · exact hk
            · exact (ne_of_lt (lt_of_lt_of_le hlt (s2 q hq))).symm
        · exact Or.inr ⟨j, h1, List.mem_append_left _ h2⟩
      · rw [if_neg hlt]
        have hgt : k < x := lt_of_le_of_ne (not_lt.1 hlt) hk
        rcases ihr s4 with ⟨h1, h2⟩ | ⟨j, h1, h2⟩
        · refine Or.inl ⟨h1, ?_⟩
          intro q hq
          rcases List.mem_append.1 hq with hq | hq
          · exact ne_of_lt (lt_of_le_of_lt (s1 q hq) hgt)
          · rcases List.mem_cons.1 hq with rfl | hq
            · exact hk
            · exact h2 q hq
        · exact Or.inr ⟨j, h1, List.mem_append_right _ (List.mem_cons_of_mem _ h2)⟩

theorem upper_eq (x : K) : ∀ (t : Tree Nat K) (d : Iter Nat), Ord (inorder t) → upperT x t d = (first (above (inorder t) x)).or d := by
  intro t
  induction t with
  | nil => intro d _; rfl
  | node l p i k r ihl ihr =>
    intro d hs
    unfold inorder at hs ⊢
    obtain ⟨s1, s2, s3, s4⟩ := ord_split hs
    unfold upperT above
    rw [List.filter_append, List.filter_cons]
    by_cases hlt : x < k
    · rw [if_pos hlt, ihl _ s3, if_pos (by simpa using hlt)]
      unfold above first
      cases (inorder l).filter (fun q => decide (x < q.2)) <;> simp
    · rw [if_neg hlt, ihr _ s4, if_neg (by simpa using hlt)]
      have : (inorder l).filter (fun q => decide (x < q.2)) = [] := List.filter_eq_nil_iff.2 (fun q hq => by simpa using (s1 q hq).trans (not_lt.1 hlt))
      rw [this, List.nil_append]
      rfl

theorem pred_eq (x : K) : ∀ (t : Tree Nat K) (d : Iter Nat), Ord (inorder t) → predT x t d = (last (below (inorder t) x)).or d := by
  intro t
  induction t with
  | nil => intro d _; rfl
  | node l p i k r ihl ihr =>
    intro d hs
    unfold inorder at hs ⊢
    obtain ⟨s1, s2, s3, s4⟩ := ord_split hs
    unfold predT below
    rw [List.filter_append, List.filter_cons]
    by_cases hlt : k < x
    · rw [if_neg (by simpa using hlt), ihr _ s4, if_pos (by simpa using hlt)]
      unfold below last
      cases h : ((inorder r).filter (fun q => decide (q.2 < x))).getLast? with
      | none =>
        rw [List.getLast?_eq_none_iff] at h
        rw [h]; simp
      | some y => simp [List.getLast?_append, List.getLast?_cons, h]
    · rw [if_pos hlt, ihl _ s3, if_neg (by simpa using hlt)]
      have : (inorder r).filter (fun q => decide (q.2 < x)) = [] := List.filter_eq_nil_iff.2 (fun q hq => by simpa using (not_lt.1 hlt).trans (s2 q hq))
      rw [this, List.append_nil]
      rfl

theorem lower_ok (x : K) : ∀ (t : Tree Nat K) (d : Iter Nat), Ord (inorder t) →
    (∃ i, (i, x) ∈ inorder t ∧ lowerT x t d = some i) ∨ (∀ q ∈ inorder t, q.2 ≠ x) ∧ lowerT x t d = (first (above (inorder t) x)).or d := by
  intro t
  induction t with
  | nil => intro d _; exact Or.inr ⟨by simp [inorder], rfl⟩
  | node l p i k r ihl ihr =>
    intro d hs
    have hup := upper_eq x (.node l p i k r) d hs
    unfold inorder at hs
    obtain ⟨s1, s2, s3, s4⟩ := ord_split hs
    unfold lowerT
    unfold upperT at hup
    by_cases hk : k = x
    · rw [if_pos hk]
      exact Or.inl ⟨i, by simp [inorder, hk], rfl⟩
    · rw [if_neg hk]
      by_cases hlt : x < k
      · rw [if_pos hlt] at hup ⊢
        rw [← hup, upper_eq x l (some i) s3]
        rcases ihl (some i) s3 with ⟨j, h1, h2⟩ | ⟨h1, h2⟩
        · exact Or.inl ⟨j, by simp [inorder, h1], h2⟩
        · refine Or.inr ⟨?_, h2⟩
          intro q hq
          rcases List.mem_append.1 hq with hq | hq
          · exact h1 q hq
          · rcases List.mem_cons.1 hq with rfl | hq
            · exact hk
            · exact (ne_of_lt (lt_of_lt_of_le hlt (s2 q hq))).symm
      · rw [if_neg hlt] at hup ⊢
        have hgt : k < x := lt_of_le_of_ne (not_lt.1 hlt) hk
        rw [← hup, upper_eq x r d s4]
        rcases ihr d s4 with ⟨j, h1, h2⟩ | ⟨h1, h2⟩
        · exact Or.inl ⟨j, by simp [inorder, h1], h2⟩
        · refine Or.inr ⟨?_, h2⟩
          intro q hq
          rcases List.mem_append.1 hq with hq | hq
          · exact ne_of_lt (lt_of_le_of_lt (s1 q hq) hgt)
          · rcases List.mem_cons.1 hq with rfl | hq
            · exact hk
            · exact h1 q hq

/-! ### Iterators -/

theorem next_ok {t : Tree Nat K} {i : Nat} (hi : i ∈ ids (inorder t)) : ∃ A x B, inorder t = A ++ (i, x) :: B ∧ next t (some i) = some (first B) := by
  obtain ⟨u, h1, -, -, h4⟩ := locate_facts hi
  refine ⟨_, _, _, h4, ?_⟩
  unfold next
  dsimp only
  rw [h1, Option.map_some]
  cases hr : u.r with
  | nil => simp [inorder, first, nextUp_eq]
  | node l p k v r =>
    dsimp only
    rw [leftmost_eq l k v (inorder r ++ ctxR u.ctx)]
    simp [inorder, first]

theorem prev_ok {t : Tree Nat K} {i : Nat} (hi : i ∈ ids (inorder t)) : ∃ A x B, inorder t = A ++ (i, x) :: B ∧ prev t (some i) = (last A).map some := by
  obtain ⟨u, h1, -, -, h4⟩ := locate_facts hi
  refine ⟨_, _, _, h4, ?_⟩
  unfold prev
  dsimp only
  rw [h1, Option.bind_some]
  cases hr : u.l with
  | nil => simp [inorder, last, prevUp_eq]
  | node l p k v r =>
    have e : last (ctxL u.ctx ++ inorder (.node l p k v r)) = some (Treap.rightmost r k) := by
      rw [rightmost_eq r k v (ctxL u.ctx ++ inorder l)]
      simp [inorder, last]
    rw [e]; rfl

theorem prev_end (t : Tree Nat K) : prev t none = (last (inorder t)).map some := by
  cases t with
  | nil => rfl
  | node l p k v r =>
    unfold prev
    have e : last (inorder (.node l p k v r)) = some (Treap.rightmost r k) := by
      rw [rightmost_eq r k v (inorder l)]
      simp [inorder, last]
    rw [e]; rfl

theorem deref_ok {t : Tree Nat K} {i : Nat} (hi : i ∈ ids (inorder t)) : ∃ x, (i, x) ∈ inorder t ∧ deref t (some i) = some (i, x) := by
  obtain ⟨u, h1, h2, -, h4⟩ := locate_facts hi
  refine ⟨u.v, by rw [h4]; simp, ?_⟩
  unfold deref
  dsimp only
  rw [h1, Option.map_some, h2]

/-! ### Erasing, splitting, joining -/

theorem eraseIt_ok (T : Treap Nat K) {i : Nat} (hi : i ∈ ids (inorder T.root)) :
    ∃ T' A x B, inorder T.root = A ++ (i, x) :: B ∧ eraseIt T (some i) = some (T', first B) ∧ inorder T'.root = A ++ B ∧ T'.size = T.size - 1 := by
  obtain ⟨u, h1, h2, -, h4⟩ := locate_facts hi
  obtain ⟨c, c1, c2, c3⟩ := trickle_ok (size u.l + size u.r) u.l u.r u.ctx (Nat.le_refl _)
  refine ⟨⟨zip .nil c, T.size - 1⟩, _, _, _, h4, ?_, ?_, rfl⟩
  · unfold eraseIt
    dsimp only
    rw [h1, Option.bind_some, c1, Option.map_some, nextUp_eq, c3]
    rfl
  · dsimp only
    rw [inorder_zip, c2, c3]
    simp [inorder]

theorem eraseKey_ok (T : Treap Nat K) (x : K) (hs : Ord (inorder T.root)) (hn : (ids (inorder T.root)).Nodup) :
    ((∀ q ∈ inorder T.root, q.2 ≠ x) ∧ eraseKey T x = some (T, false)) ∨
    ∃ T' A i B, inorder T.root = A ++ (i, x) :: B ∧ eraseKey T x = some (T', true) ∧ inorder T'.root = A ++ B ∧ T'.size = T.size - 1 := by
  unfold eraseKey
  rcases find_ok x T.root hs with ⟨h1, h2⟩ | ⟨i, h1, h2⟩
  · exact Or.inl ⟨h2, by rw [h1]⟩
  · right
    obtain ⟨T', A, y, B, e1, e2, e3, e4⟩ := eraseIt_ok T (List.mem_map.2 ⟨_, h2, rfl⟩)
    obtain ⟨A', B', hAB⟩ := List.append_of_mem h2
    obtain ⟨-, hxy, -⟩ := split_uniq (hAB.symm.trans e1) (hAB ▸ hn)
    subst hxy
    refine ⟨T', A, i, B, e1, ?_, e3, e4⟩
    rw [h1]
    dsimp only
    rw [e2]; rfl

theorem split_ok (T : Treap Nat K) (it : Iter Nat) (hx : ∀ i, it = some i → i ∈ ids (inorder T.root)) :
    ∃ T' S' A B, split T it = some (T', S') ∧ inorder T.root = A ++ B ∧ first B = it ∧ inorder T'.root = B ∧ inorder S'.root = A := by
  cases it with
  | none => exact ⟨⟨.nil, T.size⟩, ⟨T.root, 0⟩, inorder T.root, [], rfl, by simp, rfl, rfl, rfl⟩
  | some i =>
    obtain ⟨u, h1, h2, -, h4⟩ := locate_facts (hx i rfl)
    refine ⟨⟨(bubbleForce u.l .nil (.fl u.p u.k u.v u.r :: u.ctx)).2, T.size⟩, ⟨(bubbleForce u.l .nil (.fl u.p u.k u.v u.r :: u.ctx)).1, 0⟩, _, _,
      by unfold split; dsimp only; rw [h1, Option.map_some], h4, rfl, ?_, ?_⟩
    · dsimp only
      rw [(bubbleForce_ok _ _ _).2, h2]
      simp [ctxR, inorder]
    · dsimp only
      rw [(bubbleForce_ok _ _ _).1]
      simp [ctxL]

theorem leftKey_eq : ∀ (l : Tree Nat K) (i : Nat) (k : K) (L : List (Nat × K)), some (leftKey l k) = (inorder l ++ (i, k) :: L).head?.map Prod.snd := by
  intro l
  induction l with
  | nil => intro i k L; simp [leftKey, inorder]
  | node l p i' k' r ih _ =>
    intro i k L
    unfold leftKey inorder
    rw [ih i' k' (inorder r ++ (i, k) :: L)]
    simp

theorem rightKey_eq : ∀ (r : Tree Nat K) (i : Nat) (k : K) (L : List (Nat × K)), some (rightKey r k) = (L ++ (i, k) :: inorder r).getLast?.map Prod.snd := by
  intro r
  induction r with
  | nil => intro i k L; simp [rightKey, inorder]
  | node l p i' k' r _ ih =>
    intro i k L
    unfold rightKey inorder
    rw [ih i' k' (L ++ (i, k) :: inorder l)]
    simp

theorem absorb_ok (T S : Treap Nat K) (h : ∀ a ∈ inorder S.root, ∀ b ∈ inorder T.root, a.2 < b.2) :
    ∃ T' S', absorb T S = some (T', S', (first (inorder T.root)).or (first (inorder S.root))) ∧ inorder T'.root = inorder S.root ++ inorder T.root ∧ inorder S'.root = [] ∧
      (S.size = (inorder S.root).length → T.size = (inorder T.root).length → T'.size = S.size + T.size ∧ S'.size = 0) := by
  obtain ⟨tr, ts⟩ := T
  obtain ⟨sr, ss⟩ := S
  dsimp only at h ⊢
  have hok : absorbOk (⟨tr, ts⟩ : Treap Nat K) ⟨sr, ss⟩ = true := by
    unfold absorbOk
    cases sr with
    | nil => rfl
    | node sl sp si sk sr =>
      cases tr with
      | nil => rfl
      | node tl tp ti tk tr =>
        dsimp only
        have e1 := rightKey_eq sr si sk (inorder sl)
        have e2 := leftKey_eq tl ti tk (inorder tr)
        cases g1 : (inorder sl ++ (si, sk) :: inorder sr).getLast? with
        | none => rw [g1] at e1; cases e1
        | some a =>
          cases g2 : (inorder tl ++ (ti, tk) :: inorder tr).head? with
          | none => rw [g2] at e2; cases e2
          | some b =>
            rw [g1] at e1
            rw [g2] at e2
            simp only [Option.map_some, Option.some.injEq] at e1 e2
            rw [e1, e2]
            exact decide_eq_true (h a (List.mem_of_getLast? g1) b (List.mem_of_head? g2))
  unfold absorb
  rw [if_pos hok]
  cases sr with
  | nil =>
    refine ⟨⟨tr, ts⟩, ⟨.nil, ss⟩, ?_, by simp [inorder], rfl, ?_⟩
    · dsimp only
      rw [begin_eq]
      simp [first, inorder]
    · intro a b; simp only [inorder, List.length_nil] at a b ⊢; omega
  | node sl sp si sk sr =>
    cases tr with
    | nil =>
      refine ⟨⟨.node sl sp si sk sr, ss⟩, ⟨.nil, 0⟩, ?_, by simp [inorder], rfl, ?_⟩
      · dsimp only
        rw [begin_eq]
        simp [first, inorder]
      · intro _ b; have b' : ts = 0 := b; exact ⟨by show ss = ss + ts; omega, rfl⟩
    | node tl tp ti tk tr =>
      obtain ⟨c, c1, c2, c3⟩ := trickle_ok (size (.node sl sp si sk sr) + size (.node tl tp ti tk tr)) (.node sl sp si sk sr) (.node tl tp ti tk tr) [] (Nat.le_refl _)
      refine ⟨⟨zip .nil c, ts + ss⟩, ⟨.nil, 0⟩, ?_, ?_, rfl, fun _ _ => ⟨by dsimp only; omega, rfl⟩⟩
      · dsimp only
        rw [c1, Option.map_some, begin_eq]
        have : first (inorder (.node tl tp ti tk tr)) ≠ none := by simp [first, inorder]
        obtain ⟨y, hy⟩ := Option.ne_none_iff_exists'.1 this
        unfold first at hy
        simp [first, hy]
      · dsimp only
        rw [inorder_zip, c2, c3]
        simp [ctxL, ctxR, inorder]

theorem eraseRange_ok (T : Treap Nat K) (b e : Iter Nat) (A M B : List (Nat × K)) (hn : (ids (inorder T.root)).Nodup) (hL : inorder T.root = A ++ (M ++ B)) (hb : first (M ++ B) = b)
    (he : first B = e) (hord : ∀ a ∈ A, ∀ c ∈ B, a.2 < c.2) :
    ∃ T', eraseRange T b e = some (T', e.or (first A)) ∧ inorder T'.root = A ++ B := by
  have hmem : ∀ {C : List (Nat × K)} {i : Nat}, first C = some i → i ∈ ids C := by
    intro C i h
    cases C with
    | nil => simp [first] at h
    | cons q C => simp only [first, List.head?_cons, Option.map_some, Option.some.injEq] at h; simp [ids, h]
  obtain ⟨T1, S1, A1, B1, a1, a2, a3, a4, a5⟩ := split_ok T b (by
    intro i hi
    have := hmem (hb.trans hi)
    rw [hL]; unfold ids at this ⊢; rw [List.map_append]; exact List.mem_append_right _ this)
  obtain ⟨rfl, rfl⟩ := first_uniq (hL.symm.trans a2) (hL ▸ hn) (hb.trans a3.symm)
  have hn' : (ids (M ++ B)).Nodup := by
    rw [hL] at hn; unfold ids at hn ⊢; rw [List.map_append] at hn
    exact (List.nodup_append.1 hn).2.1
  obtain ⟨T2, S2, A2, B2, b1, b2, b3, b4, b5⟩ := split_ok T1 e (by
    intro i hi
    have := hmem (he.trans hi)
    rw [a4]; unfold ids at this ⊢; rw [List.map_append]; exact List.mem_append_right _ this)
  rw [a4] at b2
  obtain ⟨rfl, rfl⟩ := first_uniq b2 hn' (he.trans b3.symm)
  obtain ⟨T3, S3, c1, c2, -, -⟩ := absorb_ok T2 S1 (by rw [a5, b4]; exact hord)
  rw [b4, a5] at c1 c2
  refine ⟨T3, ?_, c2⟩
  unfold eraseRange
  rw [a1, Option.bind_some]
  dsimp only
  rw [b1, Option.bind_some]
  dsimp only
  rw [c1, Option.map_some, he]

theorem clone_ok : ∀ (t : Tree Nat K) (n : Nat), n ≤ (clone n t).2 ∧ (inorder (clone n t).1).map Prod.snd = (inorder t).map Prod.snd ∧ (ids (inorder (clone n t).1)).Nodup ∧
    ∀ i ∈ ids (inorder (clone n t).1), n ≤ i ∧ i < (clone n t).2 := by
  intro t
  induction t with
  | nil => intro n; simp [clone, inorder, ids]
  | node l p i k r ihl ihr =>
    intro n
    obtain ⟨l1, l2, l3, l4⟩ := ihl (n + 1)
    obtain ⟨r1, r2, r3, r4⟩ := ihr (clone (n + 1) l).2
    unfold clone
    dsimp only
    unfold ids at *
    unfold inorder
    refine ⟨by omega, by simp [l2, r2], ?_, ?_⟩
    · rw [List.map_append, List.map_cons, List.nodup_append, List.nodup_cons]
      refine ⟨l3, ⟨fun h => ?_, r3⟩, ?_⟩
      · have := r4 _ h; simp only at this; omega
      · intro a ha b hb
        have := l4 a ha
        rcases List.mem_cons.1 hb with rfl | hb
        · omega
        · have := r4 b hb; omega
    · intro j hj
      rw [List.map_append, List.map_cons] at hj
      rcases List.mem_append.1 hj with hj | hj
      · have := l4 j hj; omega
      · rcases List.mem_cons.1 hj with rfl | hj
        · omega
        · have := r4 j hj; omega

end Verif.TreapM
