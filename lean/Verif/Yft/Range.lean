import Verif.Yft.Ops
/-! The range constructor and copies of the Y-fast trie. -/
namespace Verif.Yft
open Verif
open Verif.Treap (Sorted hasKey below above from_ first last sInsert sErase sAssign inorder belowIt fromIt goodIt hintNear)
open Verif.Trie (IsMin IsMax)

variable {V : Type} {W p q x : Nat} {m : Nat → Option (Treap.Treap Nat V)} {L : List (Nat × V)} {T R : Treap.Treap Nat V} {K : Finset Nat}
  {xf : Trie.St (Treap.Treap Nat V)} {s : Y V} {it : It} {a : Option Nat}

theorem sInsert_end {k : Nat} {v : V} (h : ∀ a ∈ L, a.1 < k) : sInsert L k v = L ++ [(k, v)] := by
  have hn : hasKey L k = false := by
    cases c : hasKey L k with
    | false => rfl
    | true => obtain ⟨w, hw⟩ := hasKey_mem.1 c; have := h _ hw; simp at this
  unfold sInsert
  rw [hn, if_neg (by simp)]
  congr 1
  · exact Treap.filter_all (fun q hq => by simpa using h q hq)
  · congr 1
    exact Treap.filter_none (fun q hq => by have := h q hq; simp; omega)

theorem treapAll_ok (pr : Nat → Nat) : ∀ (l : List (Nat × V)) (T : Treap.Treap Nat V), Sorted (inorder T.root ++ l) → inorder (treapAll pr l T).root = inorder T.root ++ l
  | [], T, _ => by simp [treapAll]
  | (k, v) :: l, T, h => by
    have hs := (List.pairwise_append.1 h).1
    obtain ⟨i1, -, -⟩ := Treap.insert_ok T (pr k) k v hs
    rw [sInsert_end (fun a ha => (List.pairwise_append.1 h).2.2 a ha _ List.mem_cons_self)] at i1
    rw [treapAll, treapAll_ok pr l _ (by rw [i1]; simpa using h), i1]
    simp

theorem run_nil {k : Nat} : ∀ {r : List (Nat × V)}, (∀ a ∈ r, k < a.1) → r.takeWhile (fun a => a.1 = k) = [] ∧ r.dropWhile (fun a => a.1 = k) = r
  | [], _ => ⟨rfl, rfl⟩
  | a :: r, h => by
    have : ¬ a.1 = k := by have := h a List.mem_cons_self; omega
    simp [List.takeWhile_cons, List.dropWhile_cons, this]

theorem last_snoc (A : List (Nat × V)) (k : Nat) (v : V) : last (A ++ [(k, v)]) = some k := by simp [last]

theorem inner_ok : ∀ (f : Nat) (coins : List Bool) (r tk : List (Nat × V)) (px : Nat), Sorted r → last tk = some px →
    ∃ r1 r2 px' c', inner f coins r tk px = (tk ++ r1, px', r2, c') ∧ r = r1 ++ r2 ∧ last (tk ++ r1) = some px'
  | 0, coins, r, tk, px, _, h => ⟨[], r, px, coins, by simp [inner], rfl, by simpa using h⟩
  | f+1, coins, [], tk, px, _, h => ⟨[], [], px, coins, by simp [inner], rfl, by simpa using h⟩
  | f+1, coins, (k, v) :: r, tk, px, hs, h => by
    rw [inner]
    split_ifs
    · exact ⟨[], (k, v) :: r, px, coins.tail, by simp, rfl, by simpa using h⟩
    · obtain ⟨e1, e2⟩ := run_nil (k := k) (List.pairwise_cons.1 hs).1
      obtain ⟨r1, r2, px', c', e, er, el⟩ := inner_ok f coins.tail r (tk ++ [(k, v)]) k (List.pairwise_cons.1 hs).2 (last_snoc _ _ _)
      rw [e1, e2, e]
      exact ⟨(k, v) :: r1, r2, px', c', by simp, by rw [er]; rfl, by rw [← el]; simp⟩

theorem shift_ok (tk : List (Nat × V)) (px : Nat) (h : last tk = some px) (r : List (Nat × V)) (hs : Sorted r) :
    ∃ r1 r2 px', shift tk px r = (tk ++ r1, px', r2) ∧ r = r1 ++ r2 ∧ last (tk ++ r1) = some px' := by
  cases r with
  | nil => exact ⟨[], [], px, by simp [shift], rfl, by simpa using h⟩
  | cons a r =>
    obtain ⟨k, v⟩ := a
    obtain ⟨e1, e2⟩ := run_nil (k := k) (List.pairwise_cons.1 hs).1
    exact ⟨[(k, v)], r, k, by rw [shift, e1, e2], rfl, last_snoc _ _ _⟩

theorem Buckets.fin (B : Buckets W m L) (hT : m (kmax W) = some T) (hE : inorder T.root = []) {tk : List (Nat × V)} (hs : Sorted (L ++ tk)) (hk : ∀ a ∈ tk, a.1 < 2 ^ W)
    {T' : Treap.Treap Nat V} (e : inorder T'.root = tk) : Buckets W (upd m (kmax W) (some T')) (L ++ tk) := by
  refine B.replace hT (by rw [e]; exact (List.pairwise_append.1 hs).2.1) ?_ ?_ (fun h => absurd rfl h) hs ?_
  · intro k v h
    rw [e] at h
    have := hk _ h
    unfold kmax
    simp only at this
    omega
  · intro q hq hlt k v h
    rw [e] at h
    obtain ⟨S, hS⟩ := Option.isSome_iff_exists.1 hq
    obtain ⟨w, hw⟩ := hasKey_mem.1 (B.key.2 ⟨q, S, hS, B.piv q S hS (by omega)⟩)
    exact (List.pairwise_append.1 hs).2.2 _ hw _ h
  · intro k v
    rw [List.mem_append, e, hE]
    constructor
    · rintro (h | h)
      · exact Or.inr ⟨h, by simp⟩
      · exact Or.inl h
    · rintro (h | h)
      · exact Or.inr h
      · exact Or.inl h.1

theorem Buckets.push (B : Buckets W m L) (hT : m (kmax W) = some T) (hE : inorder T.root = []) {tk : List (Nat × V)} (hs : Sorted (L ++ tk)) (hl : last tk = some p) (hp : p < kmax W)
    {S : Treap.Treap Nat V} (e : inorder S.root = tk) : m p = none ∧ Buckets W (upd m p (some S)) (L ++ tk) := by
  have hmax := last_max (List.pairwise_append.1 hs).2.1
  rw [hl] at hmax
  obtain ⟨u, hu⟩ := hasKey_mem.1 hmax.1
  have hlt : ∀ q U, m q = some U → q ≠ kmax W → ∀ a ∈ tk, q < a.1 := by
    intro q U hU hq a ha
    obtain ⟨w, hw⟩ := hasKey_mem.1 (B.key.2 ⟨q, U, hU, B.piv q U hU hq⟩)
    exact (List.pairwise_append.1 hs).2.2 _ hw _ ha
  have hpn : m p = none := by
    cases c : m p with
    | none => rfl
    | some U => have := hlt p U c (by omega) _ hu; simp at this
  have hcase : ∀ q U, upd m p (some S) q = some U → (q = p ∧ U = S) ∨ (q ≠ p ∧ m q = some U) := by
    intro q U h
    by_cases c : q = p
    · subst c; rw [upd_same] at h; cases h; exact Or.inl ⟨rfl, rfl⟩
    · rw [upd_ne _ _ c] at h; exact Or.inr ⟨c, h⟩
  have hiso : ∀ q, (upd m p (some S) q).isSome = true → q = p ∨ (m q).isSome = true := by
    intro q h
    by_cases c : q = p
    · exact Or.inl c
    · rw [upd_ne _ _ c] at h; exact Or.inr h
  refine ⟨hpn, ?_, by rw [upd_ne _ _ (by omega)]; exact B.top, ?_, ?_, ?_, ?_, hs, ?_⟩
  · intro q h
    rcases hiso q h with rfl | h
    · omega
    · exact B.lt q h
  · intro q U h
    rcases hcase q U h with ⟨rfl, rfl⟩ | ⟨_, h⟩
    · rw [e]; exact (List.pairwise_append.1 hs).2.1
    · exact B.srt q U h
  · intro q U h k v hk
    rcases hcase q U h with ⟨rfl, rfl⟩ | ⟨_, h⟩
    · rw [e] at hk; exact hmax.2 k (hasKey_mem.2 ⟨v, hk⟩)
    · exact B.le q U h k v hk
  · intro q U h q' hq' hqq k v hk
    rcases hcase q U h with ⟨rfl, rfl⟩ | ⟨c, h0⟩
    · rcases hiso q' hq' with rfl | hq2
      · omega
      · obtain ⟨U', hU'⟩ := Option.isSome_iff_exists.1 hq2
        rw [e] at hk
        exact hlt q' U' hU' (by omega) _ hk
    · rcases hiso q' hq' with rfl | hq2
      · by_cases d : q = kmax W
        · rw [d, hT] at h0; cases h0; rw [hE] at hk; cases hk
        · have := hlt q U h0 d _ hu; simp only at this; omega
      · exact B.gt q U h0 q' hq2 hqq k v hk
  · intro q U h c
    rcases hcase q U h with ⟨rfl, rfl⟩ | ⟨_, h⟩
    · rw [e]; exact hmax.1
    · exact B.piv q U h c
  · intro k v
    rw [List.mem_append, B.mem]
    constructor
    · rintro (⟨q, U, h1, h2⟩ | h)
      · exact ⟨q, U, by rw [upd_ne _ _ (by rintro rfl; rw [hpn] at h1; cases h1)]; exact h1, h2⟩
      · exact ⟨p, S, upd_same _ _ _, by rw [e]; exact h⟩
    · rintro ⟨q, U, h1, h2⟩
      rcases hcase q U h1 with ⟨rfl, rfl⟩ | ⟨_, h⟩
      · rw [e] at h2; exact Or.inr h2
      · exact Or.inl ⟨q, U, h, h2⟩

theorem outer_ok (hW : 0 < W) (pr : Nat → Nat) : ∀ (f : Nat) (coins : List Bool) (r : List (Nat × V)) (xf : Trie.St (Treap.Treap Nat V)) (K : Finset Nat) (m : Nat → Option (Treap.Treap Nat V)) (L : List (Nat × V))
    (T : Treap.Treap Nat V), r.length ≤ f → Sorted (L ++ r) → (∀ a ∈ r, a.1 < 2 ^ W) → Trie.Inv W true xf K m → Buckets W m L → m (kmax W) = some T → inorder T.root = [] →
    ∃ xf' K' m', outer W pr f coins r xf = some xf' ∧ Trie.Inv W true xf' K' m' ∧ Buckets W m' (L ++ r)
  | f, coins, [], xf, K, m, L, T, _, _, _, tri, B, _, _ => ⟨xf, K, m, by rw [outer], tri, by rw [List.append_nil]; exact B⟩
  | 0, _, _ :: _, _, _, _, _, _, h, _, _, _, _, _, _ => absurd h (by simp)
  | f+1, coins, a :: r, xf, K, m, L, T, hf, hs, hk, tri, B, hT, hE => by
    have hsr : Sorted (a :: r) := (List.pairwise_append.1 hs).2.1
    obtain ⟨r1, r2, px, c', e1, er, el⟩ := inner_ok r.length coins r [a] a.1 (List.pairwise_cons.1 hsr).2 (by simp [last])
    have hs2 : Sorted r2 := by
      have := (List.pairwise_cons.1 hsr).2
      rw [er] at this
      exact (List.pairwise_append.1 this).2.1
    obtain ⟨r3, r4, px', e2, er2, el2⟩ := shift_ok ([a] ++ r1) px el r2 hs2
    have hr : a :: r = ([a] ++ r1 ++ r3) ++ r4 := by rw [er, er2]; simp
    rw [hr] at hs hk ⊢
    rw [← List.append_assoc] at hs ⊢
    have hstk : Sorted (L ++ ([a] ++ r1 ++ r3)) := (List.pairwise_append.1 hs).1
    have hstk2 := (List.pairwise_append.1 hstk).2.1
    rw [← hr, outer, e1]
    dsimp only
    rw [e2]
    dsimp only
    cases r4 with
    | nil =>
      have i1 := treapAll_ok pr ([a] ++ r1 ++ r3) T (by rw [hE]; exact hstk2)
      rw [hE, List.nil_append] at i1
      obtain ⟨xf', g1, g2⟩ := set_eq tri hT (treapAll pr ([a] ++ r1 ++ r3) T)
      rw [List.append_nil]
      refine ⟨xf', K, _, by dsimp only; rw [bucket_eq tri hT, Option.bind_some]; exact g1, g2, B.fin hT hE hstk (fun b hb => hk b (List.mem_append_left _ hb)) i1⟩
    | cons b r' =>
      have hpb : px' < b.1 := by
        have hmax := last_max hstk2
        rw [el2] at hmax
        obtain ⟨u, hu⟩ := hasKey_mem.1 hmax.1
        exact (List.pairwise_append.1 hs).2.2 _ (List.mem_append_right _ hu) _ List.mem_cons_self
      have hbk := hk b (List.mem_append_right _ List.mem_cons_self)
      have hpk : px' < kmax W := by unfold kmax; omega
      have i1 := treapAll_ok pr ([a] ++ r1 ++ r3) Treap.empty hstk2
      rw [show inorder (Treap.empty : Treap.Treap Nat V).root = [] from rfl, List.nil_append] at i1
      obtain ⟨hpn, hB⟩ := B.push hT hE hstk el2 hpk i1
      have hpK : px' ∉ K := by rw [tri.mem, hpn]; simp
      obtain ⟨xf2, g1, g2⟩ := Trie.emplaceHint_ok (x := px') tri hW (by omega) true (fun _ => rfl) (hint := some (kmax W)) ((tri.mem _).2 B.top) (treapAll pr ([a] ++ r1 ++ r3) Treap.empty)
      rw [if_neg hpK] at g2
      have hlen : (b :: r').length ≤ f := by
        have h1 := congrArg List.length hr
        simp only [List.length_append, List.length_cons, List.length_nil] at h1 hf ⊢
        omega
      obtain ⟨xf3, K3, m3, g3, g4, g5⟩ := outer_ok hW pr f c' (b :: r') xf2 _ _ (L ++ ([a] ++ r1 ++ r3)) T hlen hs (fun d hd => hk d (List.mem_append_right _ hd)) g2 hB
        (by rw [upd_ne _ _ (by omega)]; exact hT) hE
      refine ⟨xf3, K3, m3, ?_, g4, g5⟩
      dsimp only
      rw [if_pos hpk, g1, Option.bind_some]
      exact g3

theorem ofSorted_ok (hW : 0 < W) (pr : Nat → Nat) (coins : List Bool) (l : List (Nat × V)) (hs : Sorted l) (hk : ∀ a ∈ l, a.1 < 2 ^ W) :
    ∃ s K m, ofSorted W pr coins l = some s ∧ Inv W s K m l := by
  obtain ⟨s, K, m, e, I, hT, -⟩ := create_ok (V := V) hW
  unfold ofSorted
  rw [e, Option.bind_some]
  by_cases c : l = []
  · rw [if_pos c, c]; exact ⟨s, K, m, rfl, I⟩
  · rw [if_neg c]
    obtain ⟨xf, K', m', e', tri, B⟩ := outer_ok hW pr l.length coins l s.xft K m [] _ (le_refl _) hs hk I.tri I.B hT rfl
    exact ⟨⟨xf, l.length⟩, K', m', by rw [e']; rfl, tri, B, rfl⟩

/-- A copy has the same elements. -/
theorem copyOf_ok (I : Inv W s K m L) (hW : 0 < W) : ∃ s' K' m', copyOf W s = some s' ∧ Inv W s' K' m' L := by
  obtain ⟨l, e, hs, hm⟩ := Trie.elements_ok I.tri
  have hl : l.map (fun a => (a.1, (⟨Treap.clone a.2.root, a.2.size⟩ : Treap.Treap Nat V))) = l := by
    rw [show (fun a : Nat × Treap.Treap Nat V => (a.1, (⟨Treap.clone a.2.root, a.2.size⟩ : Treap.Treap Nat V))) = id by funext a; rw [Treap.clone_eq]; rfl, List.map_id]
  obtain ⟨xf, K', e', tri⟩ := Trie.ofRange_inv hW true l (fun a ha => I.tri.lt _ ((I.tri.mem _).2 (by rw [(hm a.1 a.2).1 ha]; rfl)))
  rw [Trie.ofList_of hs hm] at tri
  refine ⟨⟨xf, s.size⟩, K', m, ?_, tri, I.B, I.size⟩
  unfold copyOf
  rw [e, Option.bind_some, hl, e']
  rfl

end Verif.Yft
