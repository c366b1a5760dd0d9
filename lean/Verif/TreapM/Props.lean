import Verif.TreapM.Proofs
/-!
C126: a treap multiset is a sorted sequence of elements that may be equal, for every history of operations on any number of multisets and every sequence of priorities.  Exceptions: `lower_bound` and `count` of a key that occurs
several times, `absorb` and range erase where equal keys would meet, the iterator returned by `erase(b, end())`, `size()` after `split` and range erase.
-/
namespace Verif.TreapM

open Verif.Treap (Tree Treap Iter inorder begin_eq)

variable {K : Type} [LinearOrder K]

/-! ### Specification: a multiset is the sequence of its elements, which have names (numbers) and keys -/

/-- The iterator is `end()` or at an element. -/
def goodIt (L : List (Nat × K)) (it : Iter Nat) : Prop := ∀ i, it = some i → i ∈ ids L

/-- `[b, e)` is the part `M` of the sequence `A ++ M ++ B`. -/
def IsRange (L : List (Nat × K)) (b e : Iter Nat) (A M B : List (Nat × K)) : Prop := L = A ++ (M ++ B) ∧ first (M ++ B) = b ∧ first B = e

/-- Allowed calls: iterators are good, ranges are ranges, a hint is next to the place of the key.  Joined parts (in `absorb`, and those around an erased range) are in strict order (this is where the code asserts too much). -/
def pre (Ls : List (List (Nat × K))) : Op K → Prop
  | .create => True
  | .insertHint i h _ k => ∃ L, Ls[i]? = some L ∧ (h = none ∨ ∃ A j y B, h = some j ∧ L = A ++ (j, y) :: B ∧ (∀ q ∈ A, q.2 ≤ k) ∧ (∀ q ∈ B, k ≤ q.2))
  | .eraseIt i it => ∃ L, Ls[i]? = some L ∧ goodIt L it
  | .eraseRange i b e => ∃ L, Ls[i]? = some L ∧ ∃ A M B, IsRange L b e A M B ∧ ∀ a ∈ A, ∀ c ∈ B, a.2 < c.2
  | .next i it => ∃ L, Ls[i]? = some L ∧ it ≠ none ∧ goodIt L it
  | .prev i it => ∃ L, Ls[i]? = some L ∧ goodIt L it ∧ it ≠ first L
  | .deref i it => ∃ L, Ls[i]? = some L ∧ it ≠ none ∧ goodIt L it
  | .split i it => ∃ L, Ls[i]? = some L ∧ goodIt L it
  | .absorb i j => i ≠ j ∧ ∃ L M, Ls[i]? = some L ∧ Ls[j]? = some M ∧ ∀ a ∈ M, ∀ b ∈ L, a.2 < b.2
  | .insert i _ _ | .eraseKey i _ | .find i _ | .count i _ | .lower i _ | .upper i _ | .pred i _ | .begin_ i | .clear i | .copy i | .isEmpty i | .size i => ∃ L, Ls[i]? = some L

/-- Member `i` changes from `L` to `L'` with `R L L'`. -/
def upd (Ls : List (List (Nat × K))) (i : Nat) (Ls' : List (List (Nat × K))) (R : List (Nat × K) → List (Nat × K) → Prop) : Prop :=
  ∃ L L', Ls[i]? = some L ∧ Ls' = Ls.set i L' ∧ R L L'

/-- The names are not in use. -/
def Fresh (Ls : List (List (Nat × K))) (n : Nat) : Prop := ∀ M ∈ Ls, n ∉ ids M

/-- What an allowed call does to the sequences and returns; `z` when the sizes are still right. -/
def post (z : Bool) (Ls : List (List (Nat × K))) : Op K → List (List (Nat × K)) → Out K → Prop
  | .create, Ls', o => Ls' = Ls ++ [[]] ∧ o = .unit
  | .insert i _ k, Ls', o => ∃ n, Fresh Ls n ∧ o = .itb (some n) true ∧ upd Ls i Ls' (fun L L' => L' = upto L k ++ (n, k) :: above L k)
  | .insertHint i _ _ k, Ls', o => ∃ n, Fresh Ls n ∧ o = .it (some n) ∧ upd Ls i Ls' (fun L L' => ∃ A B, L = A ++ B ∧ L' = A ++ (n, k) :: B)
  | .eraseKey i k, Ls', o => upd Ls i Ls' (fun L L' => (∀ q ∈ L, q.2 ≠ k) ∧ L' = L ∧ o = .b false ∨ ∃ A j B, L = A ++ (j, k) :: B ∧ L' = A ++ B ∧ o = .b true)
  | .eraseIt i it, Ls', o => upd Ls i Ls' (fun L L' => it = none ∧ L' = L ∧ o = .it none ∨ ∃ A j x B, it = some j ∧ L = A ++ (j, x) :: B ∧ L' = A ++ B ∧ o = .it (first B))
  | .eraseRange i b e, Ls', o => upd Ls i Ls' (fun L L' => ∃ A M B, IsRange L b e A M B ∧ L' = A ++ B ∧ (e ≠ none → o = .it e))
  | .find i k, Ls', o => upd Ls i Ls' (fun L L' => L' = L ∧ ((∀ q ∈ L, q.2 ≠ k) ∧ o = .it none ∨ ∃ j, (j, k) ∈ L ∧ o = .it (some j)))
  | .count i k, Ls', o => upd Ls i Ls' (fun L L' => L' = L ∧ o = .n (if ∃ q ∈ L, q.2 = k then 1 else 0))
  | .lower i k, Ls', o => upd Ls i Ls' (fun L L' => L' = L ∧ ((∀ q ∈ L, q.2 ≠ k) ∧ o = .it (first (above L k)) ∨ ∃ j, (j, k) ∈ L ∧ o = .it (some j)))
  | .upper i k, Ls', o => upd Ls i Ls' (fun L L' => L' = L ∧ o = .it (first (above L k)))
  | .pred i k, Ls', o => upd Ls i Ls' (fun L L' => L' = L ∧ o = .it (last (below L k)))
  | .begin_ i, Ls', o => upd Ls i Ls' (fun L L' => L' = L ∧ o = .it (first L))
  | .next i it, Ls', o => upd Ls i Ls' (fun L L' => L' = L ∧ ∃ A j x B, it = some j ∧ L = A ++ (j, x) :: B ∧ o = .it (first B))
  | .prev i it, Ls', o => upd Ls i Ls' (fun L L' => L' = L ∧ ∃ A j x B, L = A ++ (j, x) :: B ∧ first B = it ∧ o = .it (some j))
  | .deref i it, Ls', o => upd Ls i Ls' (fun L L' => L' = L ∧ ∃ j x, it = some j ∧ (j, x) ∈ L ∧ o = .k x)
  | .split i it, Ls', o => o = .unit ∧ ∃ L A B, Ls[i]? = some L ∧ L = A ++ B ∧ first B = it ∧ Ls' = Ls.set i B ++ [A]
  | .absorb i j, Ls', o => ∃ L M, Ls[i]? = some L ∧ Ls[j]? = some M ∧ Ls' = (Ls.set i (M ++ L)).set j [] ∧ o = .it ((first L).or (first M))
  | .clear i, Ls', o => upd Ls i Ls' (fun _ L' => L' = [] ∧ o = .unit)
  | .copy i, Ls', o => o = .unit ∧ ∃ L L', Ls[i]? = some L ∧ Ls' = Ls ++ [L'] ∧ L'.map Prod.snd = L.map Prod.snd ∧ ∀ n ∈ ids L', Fresh Ls n
  | .isEmpty i, Ls', o => upd Ls i Ls' (fun L L' => L' = L ∧ o = .b L.isEmpty)
  | .size i, Ls', o => upd Ls i Ls' (fun L L' => L' = L ∧ (z = true → o = .n L.length))

/-- Calls that keep the element count right. -/
def Op.okSize : Op K → Bool
  | .split _ _ => false
  | .eraseRange _ _ _ => false
  | _ => true

/-- The sequences held by the treaps. -/
def contents (s : St K) : List (List (Nat × K)) := s.ts.map (fun T => inorder T.root)

/-- As long as the calls are allowed, no call is undefined, each does what it should, the keys are in order and the names of elements differ. -/
def Follows : Bool → St K → List (Op K) → Prop
  | _, _, [] => True
  | z, s, a :: as => pre (contents s) a → ∃ s' o, step s a = some (s', o) ∧ post z (contents s) a (contents s') o ∧
      (∀ L ∈ contents s', L.Pairwise (fun a b => a.2 ≤ b.2)) ∧ (∀ L ∈ contents s', (ids L).Nodup) ∧ Follows (z && a.okSize) s' as

/-! ### Proof -/

/-- A good treap with numbers below `n`. -/
structure Good (z : Bool) (n : Nat) (T : Treap Nat K) : Prop where
  ord : Ord (inorder T.root)
  nd : (ids (inorder T.root)).Nodup
  lt : ∀ i ∈ ids (inorder T.root), i < n
  sz : z = true → T.size = (inorder T.root).length

structure Inv (z : Bool) (s : St K) : Prop where
  good : ∀ (i : Nat) (T : Treap Nat K), s.ts[i]? = some T → Good z s.n T
  dis : ∀ (i j : Nat) (T S : Treap Nat K), i ≠ j → s.ts[i]? = some T → s.ts[j]? = some S → ∀ n ∈ ids (inorder T.root), n ∉ ids (inorder S.root)

theorem Good.mono {z z' : Bool} {n n' : Nat} {T : Treap Nat K} (h : Good z n T) (hz : z' = true → z = true) (hn : n ≤ n') : Good z' n' T :=
  ⟨h.ord, h.nd, fun i hi => Nat.lt_of_lt_of_le (h.lt i hi) hn, fun e => h.sz (hz e)⟩

theorem contents_get {s : St K} {i : Nat} {L : List (Nat × K)} (h : (contents s)[i]? = some L) : ∃ T, s.ts[i]? = some T ∧ inorder T.root = L := by
  unfold contents at h
  rw [List.getElem?_map] at h
  exact Option.map_eq_some_iff.1 h

theorem Inv.fresh {z : Bool} {s : St K} (h : Inv z s) {n : Nat} (hn : s.n ≤ n) : Fresh (contents s) n := by
  intro M hM hn'
  obtain ⟨T, hT, rfl⟩ := List.mem_map.1 hM
  obtain ⟨i, hi⟩ := List.getElem?_of_mem hT
  exact absurd ((h.good i T hi).lt n hn') (Nat.not_lt.2 hn)

/-- One treap replaced. -/
theorem inv_set {z z' : Bool} {s : St K} {i n' : Nat} {T T' : Treap Nat K} (hI : Inv z s) (hi : s.ts[i]? = some T) (hz : z' = true → z = true) (hn : s.n ≤ n') (hg : Good z' n' T')
    (hs : ∀ j ∈ ids (inorder T'.root), j ∈ ids (inorder T.root) ∨ s.n ≤ j) : Inv z' ⟨n', s.ts.set i T'⟩ := by
  have hlen : i < s.ts.length := (List.getElem?_eq_some_iff.1 hi).1
  have hget : ∀ j S, (s.ts.set i T')[j]? = some S → j = i ∧ S = T' ∨ j ≠ i ∧ s.ts[j]? = some S := by
    intro j S hj
    by_cases e : i = j
    · subst e
      rw [List.getElem?_set_self hlen] at hj
      exact Or.inl ⟨rfl, (Option.some.inj hj).symm⟩
    · rw [List.getElem?_set_ne e] at hj
      exact Or.inr ⟨fun h => e h.symm, hj⟩
  constructor
  · intro j S hj
    rcases hget j S hj with ⟨-, rfl⟩ | ⟨-, hj⟩
    · exact hg
    · exact (hI.good j S hj).mono hz hn
  · intro a b A B hab hA hB n hnA hnB
    rcases hget a A hA with ⟨rfl, rfl⟩ | ⟨ha, hA'⟩
    · rcases hget b B hB with ⟨rfl, -⟩ | ⟨hb, hB⟩
      · exact hab rfl
      · rcases hs n hnA with h | h
        · exact hI.dis a b T B hab hi hB n h hnB
        · exact absurd ((hI.good b B hB).lt n hnB) (Nat.not_lt.2 h)
    · rcases hget b B hB with ⟨rfl, rfl⟩ | ⟨hb, hB⟩
      · rcases hs n hnB with h | h
        · exact hI.dis a b A T hab hA' hi n hnA h
        · exact absurd ((hI.good a A hA').lt n hnA) (Nat.not_lt.2 h)
      · exact hI.dis a b A B hab hA' hB n hnA hnB

/-- One treap added. -/
theorem inv_add {z z' : Bool} {s : St K} {n' : Nat} {T' : Treap Nat K} (hI : Inv z s) (hz : z' = true → z = true) (hn : s.n ≤ n') (hg : Good z' n' T')
    (hs : ∀ j ∈ ids (inorder T'.root), ∀ (i : Nat) (S : Treap Nat K), s.ts[i]? = some S → j ∉ ids (inorder S.root)) : Inv z' ⟨n', s.ts ++ [T']⟩ := by
  have hget : ∀ j S, (s.ts ++ [T'])[j]? = some S → j = s.ts.length ∧ S = T' ∨ s.ts[j]? = some S := by
    intro j S hj
    by_cases e : j < s.ts.length
    · rw [List.getElem?_append_left e] at hj; exact Or.inr hj
    · rw [List.getElem?_append_right (Nat.not_lt.1 e)] at hj
      left
      have : j - s.ts.length = 0 := by
        by_contra h
        obtain ⟨m, hm⟩ := Nat.exists_eq_succ_of_ne_zero h
        rw [hm] at hj
        simp at hj
      rw [this] at hj
      exact ⟨by omega, (Option.some.inj hj).symm⟩
  constructor
  · intro j S hj
    rcases hget j S hj with ⟨-, rfl⟩ | hj
    · exact hg
    · exact (hI.good j S hj).mono hz hn
  · intro a b A B hab hA hB n hnA hnB
    rcases hget a A hA with ⟨rfl, rfl⟩ | hA'
    · rcases hget b B hB with ⟨rfl, -⟩ | hB
      · exact hab rfl
      · exact hs n hnA b B hB hnB
    · rcases hget b B hB with ⟨rfl, rfl⟩ | hB
      · exact hs n hnB a A hA' hnA
      · exact hI.dis a b A B hab hA' hB n hnA hnB

theorem on1_ok {z z' : Bool} {s : St K} {i n' : Nat} {f : Treap Nat K → Option (Treap Nat K × Out K)} {T : Treap Nat K} {T' : Treap Nat K} {o : Out K} (hI : Inv z s) (hi : s.ts[i]? = some T)
    (hf : f T = some (T', o)) (hz : z' = true → z = true) (hn : s.n ≤ n') (hg : Good z' n' T') (hs : ∀ j ∈ ids (inorder T'.root), j ∈ ids (inorder T.root) ∨ s.n ≤ j)
    {R : List (Nat × K) → List (Nat × K) → Prop} (hR : R (inorder T.root) (inorder T'.root)) :
    ∃ s', on1 s i n' f = some (s', o) ∧ upd (contents s) i (contents s') R ∧ Inv z' s' := by
  refine ⟨⟨n', s.ts.set i T'⟩, by unfold on1; rw [hi, Option.bind_some, hf]; rfl, ⟨inorder T.root, inorder T'.root, ?_, ?_, hR⟩, inv_set hI hi hz hn hg hs⟩
  · unfold contents; rw [List.getElem?_map, hi]; rfl
  · unfold contents; rw [List.map_set]

/-- A call that only reads. -/
theorem read_ok {z : Bool} {s : St K} {i : Nat} {f : Treap Nat K → Option (Treap Nat K × Out K)} {T : Treap Nat K} {o : Out K} (hI : Inv z s) (hi : s.ts[i]? = some T) (hf : f T = some (T, o))
    {R : List (Nat × K) → List (Nat × K) → Prop} (hR : R (inorder T.root) (inorder T.root)) :
    ∃ s', on1 s i s.n f = some (s', o) ∧ upd (contents s) i (contents s') R ∧ Inv (z && true) s' := by
  rw [Bool.and_true]
  exact on1_ok hI hi hf (fun h => h) (Nat.le_refl _) (hI.good i T hi) (fun _ h => Or.inl h) hR

theorem ids_app (A B : List (Nat × K)) : ids (A ++ B) = ids A ++ ids B := List.map_append ..

theorem good_cut {z : Bool} {n : Nat} {T T' : Treap Nat K} {A B : List (Nat × K)} {i : Nat} {x : K} (hg : Good z n T) (e : inorder T.root = A ++ (i, x) :: B) (e' : inorder T'.root = A ++ B)
    (hs : T'.size = T.size - 1) : Good z n T' ∧ ∀ j ∈ ids (inorder T'.root), j ∈ ids (inorder T.root) := by
  have hsub : (A ++ B).Sublist (A ++ (i, x) :: B) := List.Sublist.append_left (List.sublist_cons_self _ _) _
  rw [← e, ← e'] at hsub
  have hm : ∀ j ∈ ids (inorder T'.root), j ∈ ids (inorder T.root) := fun j hj => (hsub.map Prod.fst).subset hj
  refine ⟨⟨hg.ord.sublist hsub, hg.nd.sublist (hsub.map Prod.fst), fun j hj => hg.lt j (hm j hj), fun hz => ?_⟩, hm⟩
  have := hg.sz hz
  rw [hs, this, e, e']
  simp

theorem good_ins {z : Bool} {n : Nat} {T T' : Treap Nat K} {A B : List (Nat × K)} {x : K} (hg : Good z n T) (e : inorder T.root = A ++ B) (hA : ∀ q ∈ A, q.2 ≤ x) (hB : ∀ q ∈ B, x ≤ q.2)
    (e' : inorder T'.root = A ++ (n, x) :: B) (hs : T'.size = T.size + 1) : Good z (n + 1) T' ∧ ∀ j ∈ ids (inorder T'.root), j ∈ ids (inorder T.root) ∨ n ≤ j := by
  have hm : ∀ j ∈ ids (inorder T'.root), j ∈ ids (inorder T.root) ∨ j = n := by
    intro j hj
    rw [e'] at hj
    rw [e]
    simp only [ids, List.map_append, List.map_cons, List.mem_append, List.mem_cons] at hj ⊢
    rcases hj with h | h | h
    · exact Or.inl (Or.inl h)
    · exact Or.inr h
    · exact Or.inl (Or.inr h)
  have hnd : (ids (A ++ B)).Nodup := e ▸ hg.nd
  have hlt : ∀ j ∈ ids (A ++ B), j < n := e ▸ hg.lt
  refine ⟨⟨?_, ?_, ?_, ?_⟩, ?_⟩
  · rw [e']; exact ord_ins (e ▸ hg.ord) hA hB
  · rw [e', ids_app, show ids ((n, x) :: B) = n :: ids B from rfl]
    rw [ids_app] at hnd hlt
    rw [List.nodup_append] at hnd ⊢
    refine ⟨hnd.1, List.nodup_cons.2 ⟨fun h => ?_, hnd.2.1⟩, ?_⟩
    · exact absurd (hlt n (List.mem_append_right _ h)) (Nat.lt_irrefl _)
    · intro a ha b hb
      rcases List.mem_cons.1 hb with rfl | hb
      · exact Nat.ne_of_lt (hlt a (List.mem_append_left _ ha))
      · exact hnd.2.2 a ha b hb
  · intro j hj
    rcases hm j hj with h | rfl
    · exact Nat.lt_succ_of_lt (hg.lt j h)
    · exact Nat.lt_succ_self _
  · intro hz
    have := hg.sz hz
    rw [hs, this, e, e']; simp; omega
  · intro j hj
    rcases hm j hj with h | rfl
    · exact Or.inl h
    · exact Or.inr (Nat.le_refl _)

theorem good_empty (z : Bool) (n : Nat) : Good z n (⟨.nil, 0⟩ : Treap Nat K) := ⟨List.Pairwise.nil, List.nodup_nil, by simp [ids, inorder], fun _ => rfl⟩

/-- One call. -/
theorem step_ok (z : Bool) (s : St K) (a : Op K) (hI : Inv z s) (hp : pre (contents s) a) :
    ∃ s' o, step s a = some (s', o) ∧ post z (contents s) a (contents s') o ∧ Inv (z && a.okSize) s' := by
  cases a with
  | create =>
    refine ⟨⟨s.n, s.ts ++ [⟨.nil, 0⟩]⟩, .unit, rfl, ⟨by simp [contents, inorder], rfl⟩, ?_⟩
    exact inv_add hI (by simp [Op.okSize]) (Nat.le_refl _) (good_empty _ _) (by simp [ids, inorder])
  | insert i p k =>
    obtain ⟨L, hL⟩ := hp
    obtain ⟨T, hT, rfl⟩ := contents_get hL
    have hg := hI.good i T hT
    obtain ⟨h1, h2, h3⟩ := insert_ok T p s.n k hg.ord
    obtain ⟨g1, g2⟩ := good_ins (T' := insert T p s.n k) hg h2 (fun q hq => by simpa using (List.mem_filter.1 hq).2) (fun q hq => le_of_lt (by simpa using (List.mem_filter.1 hq).2)) h1 h3
    obtain ⟨s', a1, a2, a3⟩ := on1_ok (n' := s.n + 1) (f := fun T => some (insert T p s.n k, .itb (some s.n) true)) hI hT rfl (z' := z) (fun h => h) (Nat.le_succ _) g1 g2
      (R := fun L L' => L' = upto L k ++ (s.n, k) :: above L k) h1
    exact ⟨s', _, a1, ⟨s.n, hI.fresh (Nat.le_refl _), rfl, a2⟩, by simpa [Op.okSize] using a3⟩
  | insertHint i h p k =>
    obtain ⟨L, hL, hh⟩ := hp
    obtain ⟨T, hT, rfl⟩ := contents_get hL
    have hg := hI.good i T hT
    obtain ⟨T', A, B, h0, h1, h2, h3, h4, h5⟩ := insertHint_ok T h p s.n k hg.ord hg.nd hh
    obtain ⟨g1, g2⟩ := good_ins (T' := T') hg h1 h2 h3 h4 h5
    obtain ⟨s', a1, a2, a3⟩ := on1_ok (n' := s.n + 1) (f := fun T => (insertHint T h p s.n k).map (fun T' => (T', .it (some s.n)))) (o := .it (some s.n)) hI hT (by rw [h0]; rfl) (z' := z) (fun h => h) (Nat.le_succ _) g1 g2
      (R := fun L L' => ∃ A B, L = A ++ B ∧ L' = A ++ (s.n, k) :: B) ⟨A, B, h1, h4⟩
    exact ⟨s', _, a1, ⟨s.n, hI.fresh (Nat.le_refl _), rfl, a2⟩, by simpa [Op.okSize] using a3⟩
  | eraseKey i k =>
    obtain ⟨L, hL⟩ := hp
    obtain ⟨T, hT, rfl⟩ := contents_get hL
    have hg := hI.good i T hT
    rcases eraseKey_ok T k hg.ord hg.nd with ⟨h1, h2⟩ | ⟨T', A, j, B, h1, h2, h3, h4⟩
    · obtain ⟨s', a1, a2, a3⟩ := read_ok (f := fun T => (eraseKey T k).map (fun q => (q.1, .b q.2))) (o := .b false) hI hT (by rw [h2]; rfl)
        (R := fun L L' => (∀ q ∈ L, q.2 ≠ k) ∧ L' = L ∧ (.b false : Out K) = .b false ∨ ∃ A j B, L = A ++ (j, k) :: B ∧ L' = A ++ B ∧ (.b false : Out K) = .b true) (Or.inl ⟨h1, rfl, rfl⟩)
      exact ⟨s', _, a1, a2, a3⟩
    · obtain ⟨g1, g2⟩ := good_cut hg h1 h3 h4
      obtain ⟨s', a1, a2, a3⟩ := on1_ok (n' := s.n) (f := fun T => (eraseKey T k).map (fun q => (q.1, .b q.2))) (o := .b true) hI hT (by rw [h2]; rfl) (z' := z) (fun h => h) (Nat.le_refl _) g1 (fun j hj => Or.inl (g2 j hj))
        (R := fun L L' => (∀ q ∈ L, q.2 ≠ k) ∧ L' = L ∧ (.b true : Out K) = .b false ∨ ∃ A j B, L = A ++ (j, k) :: B ∧ L' = A ++ B ∧ (.b true : Out K) = .b true) (Or.inr ⟨A, j, B, h1, h3, rfl⟩)
      exact ⟨s', _, a1, a2, by simpa [Op.okSize] using a3⟩
  | eraseIt i it =>
    obtain ⟨L, hL, hit⟩ := hp
    obtain ⟨T, hT, rfl⟩ := contents_get hL
    have hg := hI.good i T hT
    cases it with
    | none =>
      obtain ⟨s', a1, a2, a3⟩ := read_ok (f := fun T => (Treap.eraseIt T none).map (fun q => (q.1, .it q.2))) (o := .it none) hI hT rfl
        (R := fun L L' => (none : Iter Nat) = none ∧ L' = L ∧ (.it none : Out K) = .it none ∨ ∃ A j x B, (none : Iter Nat) = some j ∧ L = A ++ (j, x) :: B ∧ L' = A ++ B ∧ (.it none : Out K) = .it (first B)) (Or.inl ⟨rfl, rfl, rfl⟩)
      exact ⟨s', _, a1, a2, a3⟩
    | some j =>
      obtain ⟨T', A, x, B, h1, h2, h3, h4⟩ := eraseIt_ok T (hit j rfl)
      obtain ⟨g1, g2⟩ := good_cut hg h1 h3 h4
      obtain ⟨s', a1, a2, a3⟩ := on1_ok (n' := s.n) (f := fun T => (Treap.eraseIt T (some j)).map (fun q => (q.1, .it q.2))) (o := .it (first B)) hI hT (by rw [h2]; rfl) (z' := z) (fun h => h) (Nat.le_refl _) g1 (fun j hj => Or.inl (g2 j hj))
        (R := fun L L' => some j = none ∧ L' = L ∧ (.it (first B) : Out K) = .it none ∨ ∃ A j' x B', some j = some j' ∧ L = A ++ (j', x) :: B' ∧ L' = A ++ B' ∧ (.it (first B) : Out K) = .it (first B')) (Or.inr ⟨A, j, x, B, rfl, h1, h3, rfl⟩)
      exact ⟨s', _, a1, a2, by simpa [Op.okSize] using a3⟩
  | eraseRange i b e =>
    obtain ⟨L, hL, A, M, B, ⟨hr1, hr2, hr3⟩, hord⟩ := hp
    obtain ⟨T, hT, rfl⟩ := contents_get hL
    have hg := hI.good i T hT
    obtain ⟨T', h1, h2⟩ := eraseRange_ok T b e A M B hg.nd hr1 hr2 hr3 hord
    have hsub : (A ++ B).Sublist (A ++ (M ++ B)) := List.Sublist.append_left (List.sublist_append_right _ _) _
    rw [← hr1, ← h2] at hsub
    have hm : ∀ j ∈ ids (inorder T'.root), j ∈ ids (inorder T.root) := fun j hj => (hsub.map Prod.fst).subset hj
    obtain ⟨s', a1, a2, a3⟩ := on1_ok (n' := s.n) (f := fun T => (eraseRange T b e).map (fun q => (q.1, .it q.2))) (o := .it (e.or (first A))) hI hT (by rw [h1]; rfl) (z' := false) (fun h => by cases h) (Nat.le_refl _)
      ⟨hg.ord.sublist hsub, hg.nd.sublist (hsub.map Prod.fst), fun j hj => hg.lt j (hm j hj), fun h => by cases h⟩ (fun j hj => Or.inl (hm j hj))
      (R := fun L L' => ∃ A' M B, IsRange L b e A' M B ∧ L' = A' ++ B ∧ (e ≠ none → (.it (e.or (first A)) : Out K) = .it e)) ⟨A, M, B, ⟨hr1, hr2, hr3⟩, h2, by
        intro he
        obtain ⟨y, rfl⟩ := Option.ne_none_iff_exists'.1 he
        rfl⟩
    exact ⟨s', _, a1, a2, by simpa [Op.okSize] using a3⟩
  | find i k =>
    obtain ⟨L, hL⟩ := hp
    obtain ⟨T, hT, rfl⟩ := contents_get hL
    have hg := hI.good i T hT
    obtain ⟨s', a1, a2, a3⟩ := read_ok (f := fun T => some (T, .it (findT k T.root))) hI hT rfl
      (R := fun L L' => L' = L ∧ ((∀ q ∈ L, q.2 ≠ k) ∧ (.it (findT k T.root) : Out K) = .it none ∨ ∃ j, (j, k) ∈ L ∧ (.it (findT k T.root) : Out K) = .it (some j))) ⟨rfl, by
        rcases find_ok k T.root hg.ord with ⟨h1, h2⟩ | ⟨j, h1, h2⟩
        · exact Or.inl ⟨h2, by rw [h1]⟩
        · exact Or.inr ⟨j, h2, by rw [h1]⟩⟩
    exact ⟨s', _, a1, a2, a3⟩
  | count i k =>
    obtain ⟨L, hL⟩ := hp
    obtain ⟨T, hT, rfl⟩ := contents_get hL
    have hg := hI.good i T hT
    obtain ⟨s', a1, a2, a3⟩ := read_ok (f := fun T => some (T, .n (count k T.root))) hI hT rfl
      (R := fun L L' => L' = L ∧ (.n (count k T.root) : Out K) = .n (if ∃ q ∈ L, q.2 = k then 1 else 0)) ⟨rfl, by
        congr 1
        unfold count
        rcases find_ok k T.root hg.ord with ⟨h1, h2⟩ | ⟨j, h1, h2⟩
        · rw [if_pos h1, if_neg]
          rintro ⟨q, hq, e⟩
          exact h2 q hq e
        · rw [if_neg (by rw [h1]; exact fun h => by cases h), if_pos ⟨_, h2, rfl⟩]⟩
    exact ⟨s', _, a1, a2, a3⟩
  | lower i k =>
    obtain ⟨L, hL⟩ := hp
    obtain ⟨T, hT, rfl⟩ := contents_get hL
    have hg := hI.good i T hT
    obtain ⟨s', a1, a2, a3⟩ := read_ok (f := fun T => some (T, .it (lowerT k T.root none))) hI hT rfl
      (R := fun L L' => L' = L ∧ ((∀ q ∈ L, q.2 ≠ k) ∧ (.it (lowerT k T.root none) : Out K) = .it (first (above L k)) ∨ ∃ j, (j, k) ∈ L ∧ (.it (lowerT k T.root none) : Out K) = .it (some j))) ⟨rfl, by
        rcases lower_ok k T.root none hg.ord with ⟨j, h1, h2⟩ | ⟨h1, h2⟩
        · exact Or.inr ⟨j, h1, by rw [h2]⟩
        · exact Or.inl ⟨h1, by rw [h2, Option.or_none]⟩⟩
    exact ⟨s', _, a1, a2, a3⟩
  | upper i k =>
    obtain ⟨L, hL⟩ := hp
    obtain ⟨T, hT, rfl⟩ := contents_get hL
    obtain ⟨s', a1, a2, a3⟩ := read_ok (f := fun T => some (T, .it (upperT k T.root none))) hI hT rfl
      (R := fun L L' => L' = L ∧ (.it (upperT k T.root none) : Out K) = .it (first (above L k))) ⟨rfl, by rw [upper_eq k _ none (hI.good i T hT).ord, Option.or_none]⟩
    exact ⟨s', _, a1, a2, a3⟩
  | pred i k =>
    obtain ⟨L, hL⟩ := hp
    obtain ⟨T, hT, rfl⟩ := contents_get hL
    obtain ⟨s', a1, a2, a3⟩ := read_ok (f := fun T => some (T, .it (predT k T.root none))) hI hT rfl
      (R := fun L L' => L' = L ∧ (.it (predT k T.root none) : Out K) = .it (last (below L k))) ⟨rfl, by rw [pred_eq k _ none (hI.good i T hT).ord, Option.or_none]⟩
    exact ⟨s', _, a1, a2, a3⟩
  | begin_ i =>
    obtain ⟨L, hL⟩ := hp
    obtain ⟨T, hT, rfl⟩ := contents_get hL
    obtain ⟨s', a1, a2, a3⟩ := read_ok (f := fun T => some (T, .it (Treap.begin_ T.root))) hI hT rfl
      (R := fun L L' => L' = L ∧ (.it (Treap.begin_ T.root) : Out K) = .it (first L)) ⟨rfl, by rw [begin_eq]; rfl⟩
    exact ⟨s', _, a1, a2, a3⟩
  | next i it =>
    obtain ⟨L, hL, hne, hit⟩ := hp
    obtain ⟨T, hT, rfl⟩ := contents_get hL
    obtain ⟨j, rfl⟩ := Option.ne_none_iff_exists'.1 hne
    obtain ⟨A, x, B, h1, h2⟩ := next_ok (hit j rfl)
    obtain ⟨s', a1, a2, a3⟩ := read_ok (f := fun T => (Treap.next T.root (some j)).map (fun x => (T, .it x))) (o := .it (first B)) hI hT (by rw [h2]; rfl)
      (R := fun L L' => L' = L ∧ ∃ A j' x B', some j = some j' ∧ L = A ++ (j', x) :: B' ∧ (.it (first B) : Out K) = .it (first B')) ⟨rfl, A, j, x, B, rfl, h1, rfl⟩
    exact ⟨s', _, a1, a2, a3⟩
  | prev i it =>
    obtain ⟨L, hL, hit, hne⟩ := hp
    obtain ⟨T, hT, rfl⟩ := contents_get hL
    have key : ∃ A j x B, inorder T.root = A ++ (j, x) :: B ∧ first B = it ∧ Treap.prev T.root it = some (some j) := by
      have fin : ∀ A C : List (Nat × K), inorder T.root = A ++ C → first C = it → Treap.prev T.root it = (last A).map some →
          ∃ A j x B, inorder T.root = A ++ (j, x) :: B ∧ first B = it ∧ Treap.prev T.root it = some (some j) := by
        intro A C h1 h2 h3
        rcases List.eq_nil_or_concat A with rfl | ⟨A', ⟨j, x⟩, rfl⟩
        · exact absurd (by rw [h1]; exact h2.symm) hne
        · exact ⟨A', j, x, C, by rw [h1]; simp, h2, by rw [h3]; simp [last]⟩
      cases it with
      | none => exact fin _ [] (by simp) rfl (prev_end T.root)
      | some j =>
        obtain ⟨A, x, B, h1, h2⟩ := prev_ok (hit j rfl)
        exact fin _ _ h1 rfl h2
    obtain ⟨A, j, x, B, h1, h2, h3⟩ := key
    obtain ⟨s', a1, a2, a3⟩ := read_ok (f := fun T => (Treap.prev T.root it).map (fun x => (T, .it x))) (o := .it (some j)) hI hT (by rw [h3]; rfl)
      (R := fun L L' => L' = L ∧ ∃ A j' x B, L = A ++ (j', x) :: B ∧ first B = it ∧ (.it (some j) : Out K) = .it (some j')) ⟨rfl, A, j, x, B, h1, h2, rfl⟩
    exact ⟨s', _, a1, a2, a3⟩
  | deref i it =>
    obtain ⟨L, hL, hne, hit⟩ := hp
    obtain ⟨T, hT, rfl⟩ := contents_get hL
    obtain ⟨j, rfl⟩ := Option.ne_none_iff_exists'.1 hne
    obtain ⟨x, h1, h2⟩ := deref_ok (hit j rfl)
    obtain ⟨s', a1, a2, a3⟩ := read_ok (f := fun T => (Treap.deref T.root (some j)).map (fun q => (T, .k q.2))) (o := .k x) hI hT (by rw [h2]; rfl)
      (R := fun L L' => L' = L ∧ ∃ j' x', some j = some j' ∧ (j', x') ∈ L ∧ (.k x : Out K) = .k x') ⟨rfl, j, x, rfl, h1, rfl⟩
    exact ⟨s', _, a1, a2, a3⟩
  | split i it =>
    obtain ⟨L, hL, hit⟩ := hp
    obtain ⟨T, hT, rfl⟩ := contents_get hL
    have hg := hI.good i T hT
    obtain ⟨T', S', A, B, h1, h2, h3, h4, h5⟩ := split_ok T it hit
    have subA : (inorder S'.root).Sublist (inorder T.root) := by rw [h5, h2]; exact List.sublist_append_left _ _
    have subB : (inorder T'.root).Sublist (inorder T.root) := by rw [h4, h2]; exact List.sublist_append_right _ _
    have mA : ∀ j ∈ ids (inorder S'.root), j ∈ ids (inorder T.root) := fun j hj => (subA.map Prod.fst).subset hj
    have mB : ∀ j ∈ ids (inorder T'.root), j ∈ ids (inorder T.root) := fun j hj => (subB.map Prod.fst).subset hj
    have hI1 : Inv false ⟨s.n, s.ts.set i T'⟩ := inv_set hI hT (fun h => by cases h) (Nat.le_refl _)
      ⟨hg.ord.sublist subB, hg.nd.sublist (subB.map Prod.fst), fun j hj => hg.lt j (mB j hj), fun h => by cases h⟩ (fun j hj => Or.inl (mB j hj))
    have hnd : (ids A ++ ids B).Nodup := by rw [← ids_app, ← h2]; exact hg.nd
    have hI2 := inv_add (T' := S') hI1 (fun h => h) (Nat.le_refl _) ⟨hg.ord.sublist subA, hg.nd.sublist (subA.map Prod.fst), fun j hj => hg.lt j (mA j hj), fun h => by cases h⟩ (by
      intro j hj k S hk hjS
      by_cases e : i = k
      · subst e
        have hlen : i < s.ts.length := (List.getElem?_eq_some_iff.1 hT).1
        dsimp only at hk
        rw [List.getElem?_set_self hlen] at hk
        cases hk
        rw [h5] at hj
        rw [h4] at hjS
        exact (List.nodup_append.1 hnd).2.2 j hj j hjS rfl
      · dsimp only at hk
        rw [List.getElem?_set_ne e] at hk
        exact hI.dis i k T S e hT hk j (mA j hj) hjS)
    refine ⟨⟨s.n, s.ts.set i T' ++ [S']⟩, .unit, ?_, ⟨rfl, inorder T.root, A, B, hL, h2, h3, ?_⟩, by simpa [Op.okSize] using hI2⟩
    · unfold step; dsimp only; rw [hT, Option.bind_some, h1]; rfl
    · simp [contents, List.map_set, h4, h5]
  | absorb i j =>
    obtain ⟨hij, L, M, hL, hM, hord⟩ := hp
    obtain ⟨T, hT, rfl⟩ := contents_get hL
    obtain ⟨S, hS, rfl⟩ := contents_get hM
    have hg := hI.good i T hT
    have hg' := hI.good j S hS
    obtain ⟨T', S', h1, h2, h3, h4⟩ := absorb_ok T S hord
    have hgT : Good z s.n T' := by
      refine ⟨by rw [h2]; exact List.pairwise_append.2 ⟨hg'.ord, hg.ord, fun a ha b hb => le_of_lt (hord a ha b hb)⟩, ?_, ?_, ?_⟩
      · rw [h2, ids_app, List.nodup_append]
        refine ⟨hg'.nd, hg.nd, ?_⟩
        rintro a ha b hb rfl
        exact hI.dis i j T S hij hT hS a hb ha
      · intro k hk
        rw [h2, ids_app] at hk
        rcases List.mem_append.1 hk with hk | hk
        · exact hg'.lt k hk
        · exact hg.lt k hk
      · intro hz
        rw [(h4 (hg'.sz hz) (hg.sz hz)).1, h2, List.length_append, hg.sz hz, hg'.sz hz]
    have hgS : Good z s.n S' := ⟨by rw [h3]; exact List.Pairwise.nil, by rw [h3]; exact List.nodup_nil, by rw [h3]; simp [ids], fun hz => by rw [(h4 (hg'.sz hz) (hg.sz hz)).2, h3]; rfl⟩
    have hlen : i < s.ts.length := (List.getElem?_eq_some_iff.1 hT).1
    have hlenj : j < s.ts.length := (List.getElem?_eq_some_iff.1 hS).1
    have hget : ∀ k X, ((s.ts.set i T').set j S')[k]? = some X → k = j ∧ X = S' ∨ k ≠ j ∧ k = i ∧ X = T' ∨ k ≠ j ∧ k ≠ i ∧ s.ts[k]? = some X := by
      intro k X hk
      by_cases e : j = k
      · subst e
        rw [List.getElem?_set_self (by simpa using hlenj)] at hk
        exact Or.inl ⟨rfl, (Option.some.inj hk).symm⟩
      · rw [List.getElem?_set_ne e] at hk
        by_cases e' : i = k
        · subst e'
          rw [List.getElem?_set_self hlen] at hk
          exact Or.inr (Or.inl ⟨fun h => e h.symm, rfl, (Option.some.inj hk).symm⟩)
        · rw [List.getElem?_set_ne e'] at hk
          exact Or.inr (Or.inr ⟨fun h => e h.symm, fun h => e' h.symm, hk⟩)
    have hdT : ∀ k X, k ≠ i → k ≠ j → s.ts[k]? = some X → ∀ n ∈ ids (inorder T'.root), n ∉ ids (inorder X.root) := by
      intro k X hki hkj hX n hn hnX
      rw [h2, ids_app] at hn
      rcases List.mem_append.1 hn with hn | hn
      · exact hI.dis j k S X (fun h => hkj h.symm) hS hX n hn hnX
      · exact hI.dis i k T X (fun h => hki h.symm) hT hX n hn hnX
    have hnil : ∀ n, n ∉ ids (inorder S'.root) := by rw [h3]; simp [ids]
    refine ⟨⟨s.n, (s.ts.set i T').set j S'⟩, _, ?_, ⟨inorder T.root, inorder S.root, hL, hM, ?_, rfl⟩, ?_⟩
    · unfold step; dsimp only; rw [if_neg hij, hT, Option.bind_some, hS, Option.bind_some, h1]; rfl
    · simp [contents, List.map_set, h2, h3]
    · rw [show (z && (Op.absorb i j : Op K).okSize) = z by simp [Op.okSize]]
      constructor
      · intro k X hX
        rcases hget k X hX with ⟨-, rfl⟩ | ⟨-, -, rfl⟩ | ⟨-, -, hX⟩
        · exact hgS
        · exact hgT
        · exact hI.good k X hX
      · intro a b A B hab hA hB n hnA hnB
        rcases hget a A hA with ⟨-, rfl⟩ | ⟨ha, ha', rfl⟩ | ⟨ha, ha', hA'⟩
        · exact hnil n hnA
        · rcases hget b B hB with ⟨-, rfl⟩ | ⟨-, hb', -⟩ | ⟨hb, hb', hB⟩
          · exact hnil n hnB
          · exact hab (ha'.trans hb'.symm)
          · exact hdT b B hb' hb hB n hnA hnB
        · rcases hget b B hB with ⟨-, rfl⟩ | ⟨-, -, rfl⟩ | ⟨hb, hb', hB⟩
          · exact hnil n hnB
          · exact hdT a A ha' ha hA' n hnB hnA
          · exact hI.dis a b A B hab hA' hB n hnA hnB
  | clear i =>
    obtain ⟨L, hL⟩ := hp
    obtain ⟨T, hT, rfl⟩ := contents_get hL
    obtain ⟨s', a1, a2, a3⟩ := on1_ok (n' := s.n) (f := fun T => some (T.clear, .unit)) hI hT rfl (z' := z) (fun h => h) (Nat.le_refl _) (good_empty _ _) (by simp [Treap.clear, inorder, ids])
      (R := fun _ L' => L' = [] ∧ (.unit : Out K) = .unit) ⟨rfl, rfl⟩
    exact ⟨s', _, a1, a2, by simpa [Op.okSize] using a3⟩
  | copy i =>
    obtain ⟨L, hL⟩ := hp
    obtain ⟨T, hT, rfl⟩ := contents_get hL
    have hg := hI.good i T hT
    obtain ⟨h1, h2, h3, h4⟩ := clone_ok T.root s.n
    refine ⟨_, _, by unfold step; dsimp only; rw [hT]; rfl, ⟨rfl, inorder T.root, inorder (clone s.n T.root).1, hL, by simp [contents], h2, fun n hn => hI.fresh (h4 n hn).1⟩, ?_⟩
    refine inv_add hI (by simp [Op.okSize]) h1 ⟨?_, h3, fun j hj => (h4 j hj).2, ?_⟩ ?_
    · have := hg.ord
      unfold Ord at this ⊢
      have e : ∀ L : List (Nat × K), L.Pairwise (fun a b => a.2 ≤ b.2) ↔ (L.map Prod.snd).Pairwise (fun a b => a ≤ b) := by
        intro L; rw [List.pairwise_map]
      rw [e] at this ⊢
      rw [h2]; exact this
    · intro hz
      have hz : z = true := by simpa [Op.okSize] using hz
      dsimp only
      rw [hg.sz hz]
      have := congrArg List.length h2
      simpa using this.symm
    · intro j hj k S hS hjS
      exact absurd ((hI.good k S hS).lt j hjS) (Nat.not_lt.2 (h4 j hj).1)
  | isEmpty i =>
    obtain ⟨L, hL⟩ := hp
    obtain ⟨T, hT, rfl⟩ := contents_get hL
    obtain ⟨s', a1, a2, a3⟩ := read_ok (f := fun T => some (T, .b (isNil T.root))) hI hT rfl
      (R := fun L L' => L' = L ∧ (.b (isNil T.root) : Out K) = .b L.isEmpty) ⟨rfl, by cases T.root <;> simp [isNil, inorder]⟩
    exact ⟨s', _, a1, a2, a3⟩
  | size i =>
    obtain ⟨L, hL⟩ := hp
    obtain ⟨T, hT, rfl⟩ := contents_get hL
    have hg := hI.good i T hT
    obtain ⟨s', a1, a2, a3⟩ := read_ok (f := fun T => some (T, .n T.size)) hI hT rfl
      (R := fun L L' => L' = L ∧ (z = true → (.n T.size : Out K) = .n L.length)) ⟨rfl, fun hz => by rw [hg.sz hz]⟩
    exact ⟨s', _, a1, a2, a3⟩

theorem follows_ok : ∀ (ops : List (Op K)) (z : Bool) (s : St K), Inv z s → Follows z s ops := by
  intro ops
  induction ops with
  | nil => intro z s _; exact trivial
  | cons a ops ih =>
    intro z s hI hp
    obtain ⟨s', o, h1, h2, h3⟩ := step_ok z s a hI hp
    have hmem : ∀ L ∈ contents s', ∃ T, inorder T.root = L ∧ Good (z && a.okSize) s'.n T := by
      intro L hL
      obtain ⟨T, hT, rfl⟩ := List.mem_map.1 hL
      obtain ⟨i, hi⟩ := List.getElem?_of_mem hT
      exact ⟨T, rfl, h3.good i T hi⟩
    refine ⟨s', o, h1, h2, ?_, ?_, ih _ s' h3⟩
    · intro L hL
      obtain ⟨T, rfl, hg⟩ := hmem L hL
      exact hg.ord
    · intro L hL
      obtain ⟨T, rfl, hg⟩ := hmem L hL
      exact hg.nd

/-- C126 in part.  For every history of calls on any number of multisets, with any priorities drawn: as long as the calls are allowed, no call is undefined, every call changes the sequences and returns as specified by `post` (a key is
inserted behind its equals, `erase(x)` removes one `x`, iterators stay at their element), the keys are in order, and `size()` is the number of elements if there was no `split` and no range erase.  (Missing, and false: `lower_bound` at the
first of several equal keys, `count` of several equal keys, joins and range erase where equal keys meet, `erase(b, end())`'s iterator, `size()` after `split` and range erase.) -/
theorem C126_history_partial (ops : List (Op K)) : Follows true init ops :=
  follows_ok ops true init ⟨fun i T h => by simp [init] at h, fun i j T S _ h => by simp [init] at h⟩

/-- A run of the model. -/
def run : St K → List (Op K) → Option (St K × List (Out K))
  | s, [] => some (s, [])
  | s, a :: as => (step s a).bind (fun q => (run q.1 as).map (fun w => (w.1, q.2 :: w.2)))

/-- All steps of the history are allowed (by the specification's own sequences, read off the treaps). -/
def AllPre : St K → List (Op K) → Prop
  | _, [] => True
  | s, a :: as => pre (contents s) a ∧ ∀ q, step s a = some q → AllPre q.1 as

/-- The history used below: three 5s, a 3 and an 8, one 5 erased by key, the multiset split at the 8 and joined again. -/
def sampleOps : List (Op Nat) := [.create, .insert 0 5 5, .insert 0 3 5, .insert 0 7 5, .insert 0 1 3, .insert 0 9 8, .upper 0 5, .pred 0 5, .eraseKey 0 5, .split 0 (some 4), .absorb 0 1, .next 0 (some 0), .size 0]

/-- The calls use iterators returned by earlier calls, equal keys are present, and every call succeeds. -/
example : (run init sampleOps).map (fun q => (contents q.1, q.2)) = some ([[(3, 3), (0, 5), (2, 5), (4, 8)], []],
    [.unit, .itb (some 0) true, .itb (some 1) true, .itb (some 2) true, .itb (some 3) true, .itb (some 4) true, .it (some 4), .it (some 3), .b true, .unit, .it (some 4), .it (some 2), .n 4]) := by decide +kernel

/-- Every call of it is allowed. -/
example : AllPre init sampleOps := by
  refine ⟨trivial, fun q hq => ?_⟩; cases hq
  refine ⟨⟨_, rfl⟩, fun q hq => ?_⟩; cases hq
  refine ⟨⟨_, rfl⟩, fun q hq => ?_⟩; cases hq
  refine ⟨⟨_, rfl⟩, fun q hq => ?_⟩; cases hq
  refine ⟨⟨_, rfl⟩, fun q hq => ?_⟩; cases hq
  refine ⟨⟨_, rfl⟩, fun q hq => ?_⟩; cases hq
  refine ⟨⟨_, rfl⟩, fun q hq => ?_⟩; cases hq
  refine ⟨⟨_, rfl⟩, fun q hq => ?_⟩; cases hq
  refine ⟨⟨_, rfl⟩, fun q hq => ?_⟩; cases hq
  refine ⟨⟨_, rfl, ?_⟩, fun q hq => ?_⟩
  · intro i hi; cases hi; decide
  cases hq
  refine ⟨⟨by decide, _, _, rfl, rfl, by decide⟩, fun q hq => ?_⟩; cases hq
  refine ⟨⟨_, rfl, by decide, ?_⟩, fun q hq => ?_⟩
  · intro i hi; cases hi; decide
  cases hq
  exact ⟨⟨_, rfl⟩, fun _ _ => trivial⟩

/-- A hint among equal keys, and a range erase between different keys, are allowed. -/
example : pre [[(0, 3), (1, 5), (2, 5), (3, 8)]] (.insertHint 0 (some 2) 4 5 : Op Nat) ∧ pre [[(0, 3), (1, 5), (2, 5), (3, 8)]] (.eraseRange 0 (some 1) (some 3) : Op Nat) :=
  ⟨⟨_, rfl, Or.inr ⟨[(0, 3), (1, 5)], 2, 5, [(3, 8)], rfl, rfl, by decide, by decide⟩⟩, ⟨_, rfl, [(0, 3)], [(1, 5), (2, 5)], [(3, 8)], ⟨rfl, rfl, rfl⟩, by decide⟩⟩

/-- Violation: on {1, 1}, `lower_bound(1)` is the second element, `begin()` is the first. -/
theorem C126_lower_fails : ∃ s : St Nat, ∃ os, run init [.create, .insert 0 5 1, .insert 0 3 1, .begin_ 0, .lower 0 1] = some (s, os ++ [.it (some 0), .it (some 1)]) ∧ contents s = [[(0, 1), (1, 1)]] :=
  ⟨_, [.unit, .itb (some 0) true, .itb (some 1) true], rfl, rfl⟩

/-- Violation: `count(1)` on {1, 1} is 1. -/
theorem C126_count_fails : ∃ s : St Nat, ∃ os, run init [.create, .insert 0 5 1, .insert 0 3 1, .count 0 1] = some (s, os ++ [.n 1]) ∧ contents s = [[(0, 1), (1, 1)]] :=
  ⟨_, [.unit, .itb (some 0) true, .itb (some 1) true], rfl, rfl⟩

/-- Violation: erasing the range of the middle one of three equal keys fails the assertion in `absorb`. -/
theorem C126_range_fails : ∃ s : St Nat, ∃ os, run init [.create, .insert 0 5 1, .insert 0 3 1, .insert 0 4 1] = some (s, os) ∧ contents s = [[(0, 1), (1, 1), (2, 1)]] ∧
    IsRange [(0, 1), (1, 1), (2, 1)] (some 1) (some 2) [(0, 1)] [(1, 1)] [(2, 1)] ∧ step s (.eraseRange 0 (some 1) (some 2)) = none :=
  ⟨_, _, rfl, rfl, ⟨rfl, rfl, rfl⟩, rfl⟩

/-- Violation: a multiset split between two equal keys cannot be joined again. -/
theorem C126_join_fails : ∃ s : St Nat, ∃ os, run init [.create, .insert 0 5 1, .insert 0 3 1, .split 0 (some 1)] = some (s, os) ∧ contents s = [[(1, 1)], [(0, 1)]] ∧ step s (.absorb 0 1) = none :=
  ⟨_, _, rfl, rfl, rfl⟩

/-- Violation: `erase(it, end())` for the last of {1, 2} returns the iterator at 1, and `size()` is then 0 with one element left. -/
theorem C126_erase_end_fails : ∃ s : St Nat, ∃ os, run init [.create, .insert 0 5 1, .insert 0 3 2, .eraseRange 0 (some 1) none, .size 0] = some (s, os ++ [.it (some 0), .n 0]) ∧ contents s = [[(0, 1)]] :=
  ⟨_, [.unit, .itb (some 0) true, .itb (some 1) true], rfl, rfl⟩

/-- Violation: a bad hint breaks the order (100 is put before 10). -/
theorem C126_hint_fails : ∃ s : St Nat, ∃ os, run init [.create, .insert 0 1 10, .insert 0 2 5, .insert 0 3 7, .insertHint 0 (some 2) 9 100] = some (s, os) ∧ contents s = [[(1, 5), (2, 7), (3, 100), (0, 10)]] :=
  ⟨_, _, rfl, rfl⟩

end Verif.TreapM
