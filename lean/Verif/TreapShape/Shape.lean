import Verif.TreapShape.Skel
/-!
Heap order and key order determine the tree, and the nodes a search looks at.
-/
namespace Verif.TreapShape

open Verif.Treap

variable {K V V' : Type} [LinearOrder K]

/-! ### Specification -/

/-- The priorities in a tree. -/
def prios : Tree K V → List Nat
  | .nil => []
  | .node l p _ _ r => prios l ++ p :: prios r

/-- Every node has the least priority of its subtree. -/
def LeastOnTop : Tree K V → Prop
  | .nil => True
  | .node l p _ _ r => (∀ q ∈ prios l ++ prios r, p ≤ q) ∧ LeastOnTop l ∧ LeastOnTop r

/-- The keys `find(x)` compares with `x`, from the root down (treap.hpp:273-284). -/
def path (x : K) : Tree K V → List K
  | .nil => []
  | .node l _ k _ r => k :: (if k = x then [] else if x < k then path x l else path x r)

/-- `z` lies between `x` and `y` (or is one of them). -/
def Between (x y z : K) : Prop := (x ≤ z ∧ z ≤ y) ∨ (y ≤ z ∧ z ≤ x)

/-! ### Proofs -/

theorem prios_skel : ∀ t : Tree K V, (inorder (skel t)).map Prod.snd = prios t := by
  intro t
  induction t with
  | nil => rfl
  | node l p k v r ihl ihr => simp [skel, inorder, prios, ihl, ihr]

theorem heap_least : ∀ t : Tree K V, Heap t → LeastOnTop t ∧ ∀ q, rootGe q t → ∀ p ∈ prios t, q ≤ p := by
  intro t
  induction t with
  | nil => intro _; exact ⟨trivial, fun q _ p hp => by cases hp⟩
  | node l p k v r ihl ihr =>
    intro ⟨h1, h2, h3, h4⟩
    obtain ⟨a1, a2⟩ := ihl h1
    obtain ⟨b1, b2⟩ := ihr h2
    have hle : ∀ q ∈ prios l ++ prios r, p ≤ q := by
      intro q hq
      rcases List.mem_append.1 hq with hq | hq
      · exact a2 p h3 q hq
      · exact b2 p h4 q hq
    refine ⟨⟨hle, a1, b1⟩, ?_⟩
    intro q hq p' hp'
    refine Nat.le_trans hq ?_
    unfold prios at hp'
    rcases List.mem_append.1 hp' with h | h
    · exact hle p' (List.mem_append_left _ h)
    · rcases List.mem_cons.1 h with rfl | h
      · exact Nat.le_refl _
      · exact hle p' (List.mem_append_right _ h)

theorem split_unique {k k' : K} {p : Nat} : ∀ {A A' B B' : List (K × Nat)}, A ++ (k, p) :: B = A' ++ (k', p) :: B' → p ∉ A.map Prod.snd → p ∉ A'.map Prod.snd → A = A' ∧ k = k' ∧ B = B' := by
  intro A
  induction A with
  | nil =>
    intro A' B B' h _ h'
    cases A' with
    | nil => cases h; exact ⟨rfl, rfl, rfl⟩
    | cons a A' =>
      injection h with h1 h2
      exact absurd (by rw [← h1]; exact List.mem_cons_self) h'
  | cons a A ih =>
    intro A' B B' h hA h'
    cases A' with
    | nil =>
      injection h with h1 h2
      exact absurd (by rw [h1]; exact List.mem_cons_self) hA
    | cons a' A' =>
      injection h with h1 h2
      obtain ⟨e1, e2, e3⟩ := ih h2 (fun h => hA (List.mem_cons_of_mem _ h)) (fun h => h' (List.mem_cons_of_mem _ h))
      exact ⟨by rw [h1, e1], e2, e3⟩

theorem nodup_parts {l r : Tree K V} {p : Nat} (h : (prios l ++ p :: prios r).Nodup) : p ∉ prios l ∧ p ∉ prios r ∧ (prios l).Nodup ∧ (prios r).Nodup := by
  obtain ⟨h1, h2, h3⟩ := List.nodup_append.1 h
  obtain ⟨h4, h5⟩ := List.nodup_cons.1 h2
  exact ⟨fun hp => h3 p hp p List.mem_cons_self rfl, h4, h1, h5⟩

/-- A tree in heap order with distinct priorities is determined by its keys and priorities in order. -/
theorem shape_unique : ∀ (t : Tree K V) (s : Tree K V'), LeastOnTop t → LeastOnTop s → (prios t).Nodup → inorder (skel t) = inorder (skel s) → skel t = skel s := by
  intro t
  induction t with
  | nil =>
    intro s _ _ _ h
    cases s with
    | nil => rfl
    | node l p k v r => simp [skel, inorder] at h
  | node l p k v r ihl ihr =>
    intro s ht hs hn h
    have hp : prios (.node l p k v r) = prios s := by rw [← prios_skel, ← prios_skel, h]
    cases s with
    | nil => simp [skel, inorder] at h
    | node l' p' k' v' r' =>
      have hn' : (prios (.node l' p' k' v' r')).Nodup := hp ▸ hn
      obtain ⟨n1, n2, n3, n4⟩ := nodup_parts hn
      obtain ⟨m1, m2, m3, m4⟩ := nodup_parts hn'
      obtain ⟨t1, t2, t3⟩ := ht
      obtain ⟨s1, s2, s3⟩ := hs
      have e1 : p' ≤ p := by
        have : p ∈ prios (.node l' p' k' v' r') := by rw [← hp]; exact List.mem_append_right _ List.mem_cons_self
        rcases List.mem_append.1 this with h | h
        · exact s1 p (List.mem_append_left _ h)
        · rcases List.mem_cons.1 h with h | h
          · exact Nat.le_of_eq h.symm
          · exact s1 p (List.mem_append_right _ h)
      have e2 : p ≤ p' := by
        have : p' ∈ prios (.node l p k v r) := by rw [hp]; exact List.mem_append_right _ List.mem_cons_self
        rcases List.mem_append.1 this with h | h
        · exact t1 p' (List.mem_append_left _ h)
        · rcases List.mem_cons.1 h with h | h
          · exact Nat.le_of_eq h.symm
          · exact t1 p' (List.mem_append_right _ h)
      have e : p = p' := Nat.le_antisymm e2 e1
      subst e
      have h' : inorder (skel l) ++ (k, p) :: inorder (skel r) = inorder (skel l') ++ (k', p) :: inorder (skel r') := by
        simpa [skel, inorder] using h
      obtain ⟨a1, rfl, a2⟩ := split_unique h' (by rw [prios_skel]; exact n1) (by rw [prios_skel]; exact m1)
      unfold skel
      rw [ihl l' t2 s2 n3 a1, ihr r' t3 s3 n4 a2]

theorem path_keys (x : K) : ∀ t : Tree K V, ∀ y ∈ path x t, ∃ p, (y, p) ∈ inorder (skel t) := by
  intro t
  induction t with
  | nil => intro y hy; cases hy
  | node l p k v r ihl ihr =>
    intro y hy
    have hin : inorder (skel (.node l p k v r)) = inorder (skel l) ++ (k, p) :: inorder (skel r) := by simp [skel, inorder]
    rw [hin]
    unfold path at hy
    rcases List.mem_cons.1 hy with rfl | hy
    · exact ⟨p, List.mem_append_right _ List.mem_cons_self⟩
    · split_ifs at hy
      · cases hy
      · obtain ⟨q, hq⟩ := ihl y hy
        exact ⟨q, List.mem_append_left _ hq⟩
      · obtain ⟨q, hq⟩ := ihr y hy
        exact ⟨q, List.mem_append_right _ (List.mem_cons_of_mem _ hq)⟩

theorem path_nodup (x : K) : ∀ t : Tree K V, Sorted (inorder (skel t)) → (path x t).Nodup := by
  intro t
  induction t with
  | nil => intro _; exact List.nodup_nil
  | node l p k v r ihl ihr =>
    intro hs
    have hin : inorder (skel (.node l p k v r)) = inorder (skel l) ++ (k, p) :: inorder (skel r) := by simp [skel, inorder]
    rw [hin] at hs
    obtain ⟨h1, h2, h3, h4⟩ := sorted_split hs
    unfold path
    refine List.nodup_cons.2 ⟨?_, ?_⟩
    · intro hk
      split_ifs at hk
      · cases hk
      · obtain ⟨q, hq⟩ := path_keys x l k hk
        exact lt_irrefl _ (h1 _ hq)
      · obtain ⟨q, hq⟩ := path_keys x r k hk
        exact lt_irrefl _ (h2 _ hq)
    · split_ifs
      · exact List.nodup_nil
      · exact ihl h3
      · exact ihr h4

theorem path_iff (x : K) : ∀ t : Tree K V, LeastOnTop t → Sorted (inorder (skel t)) → (prios t).Nodup → ∀ y p, (y, p) ∈ inorder (skel t) →
    (y ∈ path x t ↔ ∀ z q, (z, q) ∈ inorder (skel t) → Between x y z → p ≤ q) := by
  intro t
  induction t with
  | nil => intro _ _ _ y p h; cases h
  | node l p k v r ihl ihr =>
    intro ht hs hn y py hy
    have hin : inorder (skel (.node l p k v r)) = inorder (skel l) ++ (k, p) :: inorder (skel r) := by simp [skel, inorder]
    rw [hin] at hs hy ⊢
    obtain ⟨h1, h2, h3, h4⟩ := sorted_split hs
    obtain ⟨t1, t2, t3⟩ := ht
    obtain ⟨n1, n2, n3, n4⟩ := nodup_parts hn
    have hpl : ∀ z q, (z, q) ∈ inorder (skel l) → p < q := by
      intro z q hz
      have hq : q ∈ prios l := by rw [← prios_skel]; exact List.mem_map.2 ⟨_, hz, rfl⟩
      rcases Nat.lt_or_eq_of_le (t1 q (List.mem_append_left _ hq)) with h | h
      · exact h
      · exact absurd (h ▸ hq) n1
    have hpr : ∀ z q, (z, q) ∈ inorder (skel r) → p < q := by
      intro z q hz
      have hq : q ∈ prios r := by rw [← prios_skel]; exact List.mem_map.2 ⟨_, hz, rfl⟩
      rcases Nat.lt_or_eq_of_le (t1 q (List.mem_append_right _ hq)) with h | h
      · exact h
      · exact absurd (h ▸ hq) n2
    have hall : ∀ z q, (z, q) ∈ inorder (skel l) ++ (k, p) :: inorder (skel r) → p ≤ q := by
      intro z q hz
      rcases List.mem_append.1 hz with hz | hz
      · exact Nat.le_of_lt (hpl z q hz)
      · rcases List.mem_cons.1 hz with hz | hz
        · cases hz; exact Nat.le_refl _
        · exact Nat.le_of_lt (hpr z q hz)
    have hkm : (k, p) ∈ inorder (skel l) ++ (k, p) :: inorder (skel r) := List.mem_append_right _ List.mem_cons_self
    unfold path
    rw [List.mem_cons]
    rcases List.mem_append.1 hy with hyl | hyr
    · -- `y` on the left
      have hyk := h1 _ hyl
      have hne : y ≠ k := ne_of_lt hyk
      split_ifs with hkx hxk
      · constructor
        · rintro (h | h)
          · exact absurd h hne
          · cases h
        · intro h
          exact absurd (h k p hkm (Or.inr ⟨le_of_lt hyk, le_of_eq hkx⟩)) (Nat.not_le.2 (hpl _ _ hyl))
      · constructor
        · rintro (h | h) z q hz hb
          · exact absurd h hne
          · have hzk : z < k := by
              rcases hb with hb | hb
              · exact lt_of_le_of_lt hb.2 hyk
              · exact lt_of_le_of_lt hb.2 hxk
            rcases List.mem_append.1 hz with hz | hz
            · exact (ihl t2 h3 n3 y py hyl).1 h z q hz hb
            · rcases List.mem_cons.1 hz with hz | hz
              · cases hz; exact absurd hzk (lt_irrefl _)
              · exact absurd (lt_trans hzk (h2 _ hz)) (lt_irrefl _)
        · intro h
          exact Or.inr ((ihl t2 h3 n3 y py hyl).2 (fun z q hz hb => h z q (List.mem_append_left _ hz) hb))
      · constructor
        · rintro (h | h)
          · exact absurd h hne
          · obtain ⟨q, hq⟩ := path_keys x r y h
            exact absurd (lt_trans hyk (h2 _ hq)) (lt_irrefl _)
        · intro h
          exact absurd (h k p hkm (Or.inr ⟨le_of_lt hyk, not_lt.1 hxk⟩)) (Nat.not_le.2 (hpl _ _ hyl))
    · rcases List.mem_cons.1 hyr with hyk | hyr
      · cases hyk
        exact ⟨fun _ z q hz _ => hall z q hz, fun _ => Or.inl rfl⟩
      · have hyk := h2 _ hyr
        have hne : y ≠ k := ne_of_gt hyk
        split_ifs with hkx hxk
        · constructor
          · rintro (h | h)
            · exact absurd h hne
            · cases h
          · intro h
            exact absurd (h k p hkm (Or.inl ⟨le_of_eq hkx.symm, le_of_lt hyk⟩)) (Nat.not_le.2 (hpr _ _ hyr))
        · constructor
          · rintro (h | h)
            · exact absurd h hne
            · obtain ⟨q, hq⟩ := path_keys x l y h
              exact absurd (lt_trans (h1 _ hq) hyk) (lt_irrefl _)
          · intro h
            exact absurd (h k p hkm (Or.inl ⟨le_of_lt hxk, le_of_lt hyk⟩)) (Nat.not_le.2 (hpr _ _ hyr))
        · have hkx' : k < x := lt_of_le_of_ne (not_lt.1 hxk) hkx
          constructor
          · rintro (h | h) z q hz hb
            · exact absurd h hne
            · have hzk : k < z := by
                rcases hb with hb | hb
                · exact lt_of_lt_of_le hkx' hb.1
                · exact lt_of_lt_of_le hyk hb.1
              rcases List.mem_append.1 hz with hz | hz
              · exact absurd (lt_trans hzk (h1 _ hz)) (lt_irrefl _)
              · rcases List.mem_cons.1 hz with hz | hz
                · cases hz; exact absurd hzk (lt_irrefl _)
                · exact (ihr t3 h4 n4 y py hyr).1 h z q hz hb
          · intro h
            exact Or.inr ((ihr t3 h4 n4 y py hyr).2 (fun z q hz hb => h z q (List.mem_append_right _ (List.mem_cons_of_mem _ hz)) hb))

end Verif.TreapShape
