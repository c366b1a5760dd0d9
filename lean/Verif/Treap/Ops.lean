import Verif.Treap.Proofs
/-!
Every operation of the treap against the sorted list of its elements.
-/
namespace Verif.Treap

variable {K V : Type} [LinearOrder K]

/-! ### Specification: a sorted set is its strictly increasing list of elements -/

/-- `x` is a key of the list. -/
def hasKey (L : List (K × V)) (x : K) : Bool := decide (x ∈ L.map Prod.fst)
/-- The elements before / after / from a key on. -/
def below (L : List (K × V)) (x : K) : List (K × V) := L.filter (fun q => decide (q.1 < x))
def above (L : List (K × V)) (x : K) : List (K × V) := L.filter (fun q => decide (x < q.1))
def from_ (L : List (K × V)) (x : K) : List (K × V) := L.filter (fun q => decide (x ≤ q.1))
/-- Iterators at the first and last element. -/
def first (L : List (K × V)) : Iter K := L.head?.map Prod.fst
def last (L : List (K × V)) : Iter K := L.getLast?.map Prod.fst

/-- An existing key keeps its value. -/
def sInsert (L : List (K × V)) (x : K) (v : V) : List (K × V) := if hasKey L x then L else below L x ++ (x, v) :: above L x

/-- An iterator is good when it is `end()` or points at an element. -/
def goodIt (L : List (K × V)) : Iter K → Bool
  | none => true
  | some x => hasKey L x

def sErase (L : List (K × V)) (x : K) : List (K × V) := L.filter (fun q => decide (q.1 ≠ x))
def sAssign (L : List (K × V)) (x : K) (v : V) : List (K × V) := L.map (fun q => if q.1 = x then (x, v) else q)

/-- The elements before an iterator, and from it on. -/
def belowIt (L : List (K × V)) : Iter K → List (K × V)
  | none => L
  | some x => below L x
def fromIt (L : List (K × V)) : Iter K → List (K × V)
  | none => []
  | some x => from_ L x

/-! ### Operations -/

theorem sorted_mem_app {A B : List (K × V)} (h : Sorted (A ++ B)) : ∀ a ∈ A, ∀ b ∈ B, a.1 < b.1 := (List.pairwise_append.1 h).2.2

theorem sorted_filter {L : List (K × V)} (h : Sorted L) (P : K × V → Bool) : Sorted (L.filter P) := List.Pairwise.filter _ h

theorem split_facts {A B : List (K × V)} {x : K} {v : V} (h : Sorted (A ++ (x, v) :: B)) :
    below (A ++ (x, v) :: B) x = A ∧ above (A ++ (x, v) :: B) x = B ∧ from_ (A ++ (x, v) :: B) x = (x, v) :: B ∧ sErase (A ++ (x, v) :: B) x = A ++ B := by
  obtain ⟨s1, s2, -, -⟩ := sorted_split h
  refine ⟨filter_lt s1 ?_, ?_, filter_ge s1 ?_, ?_⟩
  · intro q hq
    rcases List.mem_cons.1 hq with rfl | hq
    · exact le_refl _
    · exact le_of_lt (s2 q hq)
  · have := filter_gt (A := A ++ [(x, v)]) (B := B) (x := x) (by
      intro q hq
      rcases List.mem_append.1 hq with hq | hq
      · exact le_of_lt (s1 q hq)
      · rw [List.mem_singleton.1 hq]) s2
    simpa [above] using this
  · intro q hq
    rcases List.mem_cons.1 hq with rfl | hq
    · exact le_refl _
    · exact le_of_lt (s2 q hq)
  · unfold sErase
    rw [List.filter_append, List.filter_cons, if_neg (by simp), filter_all (fun q hq => by simpa using ne_of_lt (s1 q hq)), filter_all (fun q hq => by simpa using (ne_of_lt (s2 q hq)).symm)]

theorem hasKey_iff {L : List (K × V)} {x : K} : hasKey L x = true ↔ x ∈ L.map Prod.fst := by simp [hasKey]

theorem locate_facts {t : Tree K V} {x : K} (h : Sorted (inorder t)) (hx : hasKey (inorder t) x = true) :
    ∃ u, locate x t [] = some u ∧ u.k = x ∧ zip (.node u.l u.p u.k u.v u.r) u.ctx = t ∧
      inorder t = (ctxL u.ctx ++ inorder u.l) ++ (x, u.v) :: (inorder u.r ++ ctxR u.ctx) ∧
      below (inorder t) x = ctxL u.ctx ++ inorder u.l ∧ above (inorder t) x = inorder u.r ++ ctxR u.ctx := by
  obtain ⟨u, hu⟩ := locate_exists t [] x (hasKey_iff.1 hx)
  obtain ⟨h1, h2, h3⟩ := locate_some t [] x u hu
  have h3' : inorder t = (ctxL u.ctx ++ inorder u.l) ++ (x, u.v) :: (inorder u.r ++ ctxR u.ctx) := by
    simpa [ctxL, ctxR] using h3.symm
  have hf := split_facts (h3' ▸ h)
  rw [← h3'] at hf
  exact ⟨u, hu, h1, h2, h3', hf.1, hf.2.1⟩

theorem insertAt_ok (T : Treap K V) (t : Tree K V) (c : Ctx K V) (p : Nat) (x : K) (v : V) (hs : Sorted (inorder T.root)) (hz : zip t c = T.root)
    (hL : ∀ q ∈ ctxL c, q.1 < x) (hR : ∀ q ∈ ctxR c, x < q.1) :
    inorder (insertAt T t c p x v).1.root = sInsert (inorder T.root) x v ∧ (insertAt T t c p x v).2 = (some x, !hasKey (inorder T.root) x) ∧
      (insertAt T t c p x v).1.size = if hasKey (inorder T.root) x then T.size else T.size + 1 := by
  have hi : inorder T.root = ctxL c ++ inorder t ++ ctxR c := by rw [← hz, inorder_zip]
  have hst : Sorted (inorder t) := by
    rw [hi] at hs
    exact (List.pairwise_append.1 (List.pairwise_append.1 hs).1).2.1
  unfold insertAt
  rcases descend_ok x t c hst hL hR with ⟨w, h1, h2⟩ | ⟨c', h1, h2, h3, h4⟩
  · rw [h2]
    have hk : hasKey (inorder T.root) x = true := by
      rw [hasKey_iff, hi]
      exact List.mem_map.2 ⟨(x, w), by simp [h1], rfl⟩
    simp [sInsert, hk]
  · rw [h1]
    rw [← h2] at hi
    have hk : hasKey (inorder T.root) x = false := by
      rw [Bool.eq_false_iff, ne_eq, hasKey_iff, hi, List.map_append, List.mem_append]
      rintro (hq | hq)
      · obtain ⟨q, hq', e⟩ := List.mem_map.1 hq
        exact absurd e (ne_of_lt (h3 q hq'))
      · obtain ⟨q, hq', e⟩ := List.mem_map.1 hq
        exact absurd e.symm (ne_of_lt (h4 q hq'))
    refine ⟨?_, by simp [hk], by simp [hk]⟩
    dsimp only
    rw [inorder_bubble, sInsert, hk, if_neg (by simp), hi]
    unfold below above
    rw [filter_lt h3 (fun q hq => le_of_lt (h4 q hq)), filter_gt (fun q hq => le_of_lt (h3 q hq)) h4]
    simp [inorder]

theorem insert_ok (T : Treap K V) (p : Nat) (x : K) (v : V) (hs : Sorted (inorder T.root)) :
    inorder (insert T p x v).1.root = sInsert (inorder T.root) x v ∧ (insert T p x v).2 = (some x, !hasKey (inorder T.root) x) ∧
      (insert T p x v).1.size = if hasKey (inorder T.root) x then T.size else T.size + 1 :=
  insertAt_ok T T.root [] p x v hs rfl (by simp [ctxL]) (by simp [ctxR])

/-- `h` is next to the place of `x`: everything before it is less than `x` and everything after it is greater. -/
def hintNear (L : List (K × V)) (x : K) : Iter K → Bool
  | none => true
  | some h => L.all (fun q => (decide (q.1 < h) → decide (q.1 < x)) ∧ (decide (h < q.1) → decide (x < q.1)))

theorem insertHint_ok (T : Treap K V) (h : Iter K) (p : Nat) (x : K) (v : V) (hs : Sorted (inorder T.root)) (hg : goodIt (inorder T.root) h = true)
    (hn : hintNear (inorder T.root) x h = true) :
    ∃ T', insertHint T h p x v = some (T', some x) ∧ inorder T'.root = sInsert (inorder T.root) x v ∧
      T'.size = if hasKey (inorder T.root) x then T.size else T.size + 1 := by
  obtain ⟨i1, i2, i3⟩ := insert_ok T p x v hs
  cases h with
  | none =>
    refine ⟨(insert T p x v).1, ?_, i1, i3⟩
    simp [insertHint, i2]
  | some h =>
    obtain ⟨u, h1, h2, h3, h4, h5, h6⟩ := locate_facts hs hg
    have hn' : ∀ q ∈ inorder T.root, (q.1 < h → q.1 < x) ∧ (h < q.1 → x < q.1) := by
      intro q hq
      have := List.all_eq_true.1 hn q hq
      simp only [decide_eq_true_eq] at this
      exact this
    have hmL : ∀ q ∈ ctxL u.ctx, q.1 < x := by
      intro q hq
      have hb : q ∈ below (inorder T.root) h := by rw [h5]; exact List.mem_append_left _ hq
      have hb' := List.mem_filter.1 hb
      exact (hn' q hb'.1).1 (by simpa using hb'.2)
    have hmR : ∀ q ∈ ctxR u.ctx, x < q.1 := by
      intro q hq
      have hb : q ∈ above (inorder T.root) h := by rw [h6]; exact List.mem_append_right _ hq
      have hb' := List.mem_filter.1 hb
      exact (hn' q hb'.1).2 (by simpa using hb'.2)
    obtain ⟨a1, a2, a3⟩ := insertAt_ok T (.node u.l u.p u.k u.v u.r) u.ctx p x v hs h3 hmL hmR
    have key : ∀ c : Ctx K V, (∀ f ∈ c, f ∈ u.ctx) → c = u.ctx → ∃ T', hintFrame T u (.node u.l u.p u.k u.v u.r) p x v c = (T', some x) ∧ inorder T'.root = sInsert (inorder T.root) x v ∧
        T'.size = if hasKey (inorder T.root) x then T.size else T.size + 1 := by
      intro c _ hc
      cases c with
      | nil => exact ⟨_, by rw [hintFrame, a2], a1, a3⟩
      | cons f c =>
        cases f with
        | fl pp pk pv pr =>
          unfold hintFrame
          have hmem : (pk, pv) ∈ inorder T.root := by
            rw [h4, ← hc]
            simp [ctxR]
          dsimp only
          by_cases e1 : pk = x
          · have hk : hasKey (inorder T.root) x = true := hasKey_iff.2 (List.mem_map.2 ⟨_, hmem, e1⟩)
            exact ⟨T, by rw [if_pos e1, e1], by rw [sInsert, if_pos hk], by rw [if_pos hk]⟩
          · by_cases e2 : pk < x
            · exact ⟨_, by rw [if_neg e1, if_pos e2, i2], i1, i3⟩
            · exact ⟨_, by rw [if_neg e1, if_neg e2, a2], a1, a3⟩
        | fr pl pp pk pv =>
          unfold hintFrame
          have hmem : (pk, pv) ∈ inorder T.root := by
            rw [h4, ← hc]
            simp [ctxL]
          dsimp only
          by_cases e1 : pk = x
          · have hk : hasKey (inorder T.root) x = true := hasKey_iff.2 (List.mem_map.2 ⟨_, hmem, e1⟩)
            exact ⟨T, by rw [if_pos e1, e1], by rw [sInsert, if_pos hk], by rw [if_pos hk]⟩
          · by_cases e2 : x < pk
            · exact ⟨_, by rw [if_neg e1, if_pos e2, i2], i1, i3⟩
            · exact ⟨_, by rw [if_neg e1, if_neg e2, a2], a1, a3⟩
    obtain ⟨T', k1, k2, k3⟩ := key u.ctx (fun f hf => hf) rfl
    exact ⟨T', by unfold insertHint; dsimp only; rw [h1, Option.map_some, k1], k2, k3⟩

theorem next_ok {t : Tree K V} {x : K} (hs : Sorted (inorder t)) (hx : hasKey (inorder t) x = true) : next t (some x) = some (first (above (inorder t) x)) := by
  obtain ⟨u, h1, -, -, -, -, h6⟩ := locate_facts hs hx
  unfold next
  dsimp only
  rw [h1, Option.map_some, h6]
  cases hr : u.r with
  | nil => simp [inorder, first, nextUp_eq]
  | node l p k v r =>
    dsimp only
    rw [leftmost_eq l k v (inorder r ++ ctxR u.ctx)]
    simp [inorder, first]

theorem prev_ok {t : Tree K V} {x : K} (hs : Sorted (inorder t)) (hx : hasKey (inorder t) x = true) : prev t (some x) = (last (below (inorder t) x)).map some := by
  obtain ⟨u, h1, -, -, -, h5, -⟩ := locate_facts hs hx
  unfold prev
  dsimp only
  rw [h1, Option.bind_some, h5]
  cases hr : u.l with
  | nil => simp [inorder, last, prevUp_eq]
  | node l p k v r =>
    have e : last (ctxL u.ctx ++ inorder (.node l p k v r)) = some (rightmost r k) := by
      rw [rightmost_eq r k v (ctxL u.ctx ++ inorder l)]
      simp [inorder, last]
    rw [e]; rfl

theorem prev_end (t : Tree K V) : prev t none = (last (inorder t)).map some := by
  cases t with
  | nil => rfl
  | node l p k v r =>
    unfold prev
    have e : last (inorder (.node l p k v r)) = some (rightmost r k) := by
      rw [rightmost_eq r k v (inorder l)]
      simp [inorder, last]
    rw [e]; rfl

theorem find_at {A B : List (K × V)} {x : K} {v : V} (h : Sorted (A ++ (x, v) :: B)) : (A ++ (x, v) :: B).find? (fun q => decide (q.1 = x)) = some (x, v) := by
  obtain ⟨s1, -, -, -⟩ := sorted_split h
  have : A.find? (fun q => decide (q.1 = x)) = none := by
    rw [List.find?_eq_none]
    intro q hq
    simpa using ne_of_lt (s1 q hq)
  simp [List.find?_append, this]

theorem deref_ok {t : Tree K V} {x : K} (hs : Sorted (inorder t)) (hx : hasKey (inorder t) x = true) : deref t (some x) = (inorder t).find? (fun q => decide (q.1 = x)) := by
  obtain ⟨u, h1, h2, -, h4, -, -⟩ := locate_facts hs hx
  unfold deref
  dsimp only
  rw [h1, Option.map_some, h4, find_at (h4 ▸ hs), h2]

theorem assign_ok (T : Treap K V) (x : K) (v : V) (hs : Sorted (inorder T.root)) (hx : hasKey (inorder T.root) x = true) :
    ∃ T', assign T (some x) v = some T' ∧ inorder T'.root = sAssign (inorder T.root) x v ∧ T'.size = T.size := by
  obtain ⟨u, h1, h2, -, h4, -, -⟩ := locate_facts hs hx
  refine ⟨⟨zip (.node u.l u.p u.k v u.r) u.ctx, T.size⟩, by unfold assign; rw [Option.bind_some, h1, Option.map_some], ?_, rfl⟩
  dsimp only
  obtain ⟨s1, s2, -, -⟩ := sorted_split (h4 ▸ hs)
  rw [inorder_zip, h4, sAssign, List.map_append, List.map_cons, if_pos rfl]
  have e1 : (ctxL u.ctx ++ inorder u.l).map (fun q => if q.1 = x then (x, v) else q) = ctxL u.ctx ++ inorder u.l := by
    exact (List.map_congr_left (g := id) (fun q hq => by rw [if_neg (ne_of_lt (s1 q hq))]; rfl)).trans (List.map_id _)
  have e2 : (inorder u.r ++ ctxR u.ctx).map (fun q => if q.1 = x then (x, v) else q) = inorder u.r ++ ctxR u.ctx := by
    exact (List.map_congr_left (g := id) (fun q hq => by rw [if_neg (ne_of_lt (s2 q hq)).symm]; rfl)).trans (List.map_id _)
  rw [e1, e2, inorder, h2]
  simp

theorem eraseIt_ok (T : Treap K V) (x : K) (hs : Sorted (inorder T.root)) (hx : hasKey (inorder T.root) x = true) :
    ∃ T', eraseIt T (some x) = some (T', first (above (inorder T.root) x)) ∧ inorder T'.root = sErase (inorder T.root) x ∧ T'.size = T.size - 1 := by
  obtain ⟨u, h1, h2, -, h4, h5, h6⟩ := locate_facts hs hx
  obtain ⟨c, c1, c2, c3⟩ := trickle_ok (size u.l + size u.r) u.l u.r u.ctx (Nat.le_refl _)
  refine ⟨⟨zip .nil c, T.size - 1⟩, ?_, ?_, rfl⟩
  · unfold eraseIt
    dsimp only
    rw [h1, Option.bind_some, c1, Option.map_some, nextUp_eq, c3, h6]
    rfl
  · dsimp only
    rw [inorder_zip, c2, c3, h4, (split_facts (h4 ▸ hs)).2.2.2]
    simp [inorder]

theorem find_key {L : List (K × V)} {x : K} : (L.find? (fun q => decide (q.1 = x))).map Prod.fst = if hasKey L x then some x else none := by
  cases h : L.find? (fun q => decide (q.1 = x)) with
  | none =>
    rw [List.find?_eq_none] at h
    rw [if_neg]
    · rfl
    · rw [hasKey_iff]
      intro hx
      obtain ⟨q, hq, rfl⟩ := List.mem_map.1 hx
      exact h q hq (by simp)
  | some q =>
    have h1 := List.find?_some h
    have h2 := List.mem_of_find?_eq_some h
    simp only [decide_eq_true_eq] at h1
    rw [if_pos (hasKey_iff.2 (List.mem_map.2 ⟨q, h2, h1⟩)), Option.map_some, h1]

theorem eraseKey_ok (T : Treap K V) (x : K) (hs : Sorted (inorder T.root)) :
    ∃ T', eraseKey T x = some (T', hasKey (inorder T.root) x) ∧ inorder T'.root = sErase (inorder T.root) x ∧
      T'.size = if hasKey (inorder T.root) x then T.size - 1 else T.size := by
  unfold eraseKey
  rw [find_eq x _ hs, find_key]
  by_cases hx : hasKey (inorder T.root) x = true
  · rw [if_pos hx, if_pos hx]
    obtain ⟨T', h1, h2, h3⟩ := eraseIt_ok T x hs hx
    exact ⟨T', by dsimp only; rw [h1, hx]; rfl, h2, h3⟩
  · rw [if_neg hx, if_neg hx]
    refine ⟨T, by rw [Bool.eq_false_iff.2 hx], ?_, rfl⟩
    symm
    apply filter_all
    intro q hq
    simp only [ne_eq, decide_not, Bool.not_eq_eq_eq_not, Bool.not_true, decide_eq_false_iff_not]
    intro e
    exact hx (hasKey_iff.2 (List.mem_map.2 ⟨q, hq, e⟩))

theorem split_ok (T : Treap K V) (it : Iter K) (hs : Sorted (inorder T.root)) (hx : goodIt (inorder T.root) it = true) :
    ∃ T' S', split T it = some (T', S') ∧ inorder T'.root = fromIt (inorder T.root) it ∧ inorder S'.root = belowIt (inorder T.root) it ∧ T'.size = T.size ∧ S'.size = 0 := by
  cases it with
  | none => exact ⟨_, _, rfl, rfl, rfl, rfl, rfl⟩
  | some x =>
    obtain ⟨u, h1, h2, -, h4, h5, h6⟩ := locate_facts hs hx
    refine ⟨⟨(bubbleForce u.l .nil (.fl u.p u.k u.v u.r :: u.ctx)).2, T.size⟩, ⟨(bubbleForce u.l .nil (.fl u.p u.k u.v u.r :: u.ctx)).1, 0⟩, by unfold split; dsimp only; rw [h1, Option.map_some], ?_, ?_, rfl, rfl⟩
    · dsimp only
      rw [(bubbleForce_ok _ _ _).2, fromIt, h4, (split_facts (h4 ▸ hs)).2.2.1, h2]
      simp [ctxR, inorder]
    · dsimp only
      rw [(bubbleForce_ok _ _ _).1, belowIt, h5]
      simp [ctxL]

theorem absorb_ok (T S : Treap K V) (h : ∀ a ∈ inorder S.root, ∀ b ∈ inorder T.root, a.1 < b.1) :
    ∃ T' S', absorb T S = some (T', S', (first (inorder T.root)).or (first (inorder S.root))) ∧ inorder T'.root = inorder S.root ++ inorder T.root ∧ inorder S'.root = [] ∧
      (S.size = (inorder S.root).length → T.size = (inorder T.root).length → T'.size = S.size + T.size ∧ S'.size = 0) := by
  obtain ⟨tr, ts⟩ := T
  obtain ⟨sr, ss⟩ := S
  dsimp only at h ⊢
  have hok : absorbOk (⟨tr, ts⟩ : Treap K V) ⟨sr, ss⟩ = true := by
    unfold absorbOk
    cases sr with
    | nil => rfl
    | node sl sp sk sv sr =>
      cases tr with
      | nil => rfl
      | node tl tp tk tv tr =>
        dsimp only
        have e1 := rightmost_eq sr sk sv (inorder sl)
        have e2 := leftmost_eq tl tk tv (inorder tr)
        cases g1 : (inorder sl ++ (sk, sv) :: inorder sr).getLast? with
        | none => rw [g1] at e1; cases e1
        | some a =>
          cases g2 : (inorder tl ++ (tk, tv) :: inorder tr).head? with
          | none => rw [g2] at e2; cases e2
          | some b =>
            rw [g1] at e1
            rw [g2] at e2
            simp only [Option.map_some, Option.some.injEq] at e1 e2
            rw [e1, e2]
            exact decide_eq_true (h a (List.mem_of_getLast? g1) b (List.mem_of_head? g2))
  unfold absorb
  rw [if_pos hok]
  cases sr with
  | nil =>
    refine ⟨⟨tr, ts⟩, ⟨.nil, ss⟩, ?_, by simp [inorder], rfl, ?_⟩
    · dsimp only
      rw [begin_eq]
      simp [first, inorder]
    · intro a b; simp only [inorder, List.length_nil] at a b ⊢; omega
  | node sl sp sk sv sr =>
    cases tr with
    | nil =>
      refine ⟨⟨.node sl sp sk sv sr, ss⟩, ⟨.nil, 0⟩, ?_, by simp [inorder], rfl, ?_⟩
      · dsimp only
        rw [begin_eq]
        simp [first, inorder]
      · intro _ b; have b' : ts = 0 := b; exact ⟨by show ss = ss + ts; omega, rfl⟩
    | node tl tp tk tv tr =>
      obtain ⟨c, c1, c2, c3⟩ := trickle_ok (size (.node sl sp sk sv sr) + size (.node tl tp tk tv tr)) (.node sl sp sk sv sr) (.node tl tp tk tv tr) [] (Nat.le_refl _)
      refine ⟨⟨zip .nil c, ts + ss⟩, ⟨.nil, 0⟩, ?_, ?_, rfl, fun _ _ => ⟨by dsimp only; omega, rfl⟩⟩
      · dsimp only
        rw [c1, Option.map_some, begin_eq]
        have : first (inorder (.node tl tp tk tv tr)) ≠ none := by simp [first, inorder]
        obtain ⟨y, hy⟩ := Option.ne_none_iff_exists'.1 this
        unfold first at hy
        simp [first, hy]
      · dsimp only
        rw [inorder_zip, c2, c3]
        simp [ctxL, ctxR, inorder]

/-- The elements outside `[b, e)`. -/
def sEraseRange (L : List (K × V)) (b e : Iter K) : List (K × V) := belowIt L b ++ fromIt L e

/-- `b` is not after `e`. -/
def itLe : Iter K → Iter K → Bool
  | _, none => true
  | none, some _ => false
  | some x, some y => decide (x ≤ y)

theorem mem_belowIt {L : List (K × V)} {b : Iter K} {q : K × V} : q ∈ belowIt L b ↔ q ∈ L ∧ ∀ x, b = some x → q.1 < x := by
  cases b <;> simp [belowIt, below]

theorem mem_fromIt {L : List (K × V)} {b : Iter K} {q : K × V} : q ∈ fromIt L b ↔ q ∈ L ∧ ∃ x, b = some x ∧ x ≤ q.1 := by
  cases b <;> simp [fromIt, from_]

theorem fromIt_fromIt {L : List (K × V)} {b e : Iter K} (h : itLe b e = true) : fromIt (fromIt L b) e = fromIt L e := by
  cases e with
  | none => rfl
  | some y =>
    cases b with
    | none => simp [itLe] at h
    | some x =>
      simp only [itLe, decide_eq_true_eq] at h
      simp only [fromIt, from_, List.filter_filter]
      apply List.filter_congr
      intro q _
      by_cases h1 : y ≤ q.1
      · simp [h1, le_trans h h1]
      · simp [h1]

theorem first_from {L : List (K × V)} {x : K} (hs : Sorted L) (hx : hasKey L x = true) : first (from_ L x) = some x := by
  obtain ⟨q, hq, rfl⟩ := List.mem_map.1 (hasKey_iff.1 hx)
  obtain ⟨A, B, rfl⟩ := List.append_of_mem hq
  obtain ⟨k, v⟩ := q
  rw [(split_facts hs).2.2.1]
  rfl

theorem eraseRange_ok (T : Treap K V) (b e : Iter K) (hs : Sorted (inorder T.root)) (hb : goodIt (inorder T.root) b = true) (he : goodIt (inorder T.root) e = true) (hle : itLe b e = true) :
    ∃ T', eraseRange T b e = some (T', e.or (first (belowIt (inorder T.root) b))) ∧ inorder T'.root = sEraseRange (inorder T.root) b e := by
  obtain ⟨T1, S1, a1, a2, a3, -, -⟩ := split_ok T b hs hb
  have hs1 : Sorted (inorder T1.root) := by
    rw [a2]
    cases b with
    | none => exact List.Pairwise.nil
    | some x => exact sorted_filter hs _
  have he1 : goodIt (inorder T1.root) e = true := by
    cases e with
    | none => rfl
    | some y =>
      cases b with
      | none => simp [itLe] at hle
      | some x =>
        simp only [itLe, decide_eq_true_eq] at hle
        obtain ⟨q, hq, hqy⟩ := List.mem_map.1 (hasKey_iff.1 he)
        rw [a2]
        apply hasKey_iff.2
        exact List.mem_map.2 ⟨q, mem_fromIt.2 ⟨hq, x, rfl, hqy ▸ hle⟩, hqy⟩
  obtain ⟨T2, S2, b1, b2, b3, -, -⟩ := split_ok T1 e hs1 he1
  rw [a2, fromIt_fromIt hle] at b2
  have hord : ∀ a ∈ inorder S1.root, ∀ c ∈ inorder T2.root, a.1 < c.1 := by
    intro a ha c hc
    rw [a3] at ha
    rw [b2] at hc
    obtain ⟨-, y, rfl, hy⟩ := mem_fromIt.1 hc
    cases b with
    | none => simp [itLe] at hle
    | some x =>
      simp only [itLe, decide_eq_true_eq] at hle
      exact lt_of_lt_of_le ((mem_belowIt.1 ha).2 x rfl) (hle.trans hy)
  obtain ⟨T3, S3, c1, c2, -, -⟩ := absorb_ok T2 S1 hord
  refine ⟨T3, ?_, by rw [c2, a3, b2]; rfl⟩
  unfold eraseRange
  rw [a1, Option.bind_some]
  dsimp only
  rw [b1, Option.bind_some]
  dsimp only
  rw [c1, Option.map_some, a3, b2]
  cases e with
  | none => rfl
  | some y => simp only [fromIt]; rw [first_from hs he]

theorem sorted_insert {L : List (K × V)} (x : K) (v : V) (hs : Sorted L) : Sorted (sInsert L x v) := by
  unfold sInsert
  split_ifs
  · exact hs
  · unfold Sorted
    rw [List.pairwise_append, List.pairwise_cons]
    refine ⟨sorted_filter hs _, ⟨?_, sorted_filter hs _⟩, ?_⟩
    · intro q hq; simpa using (List.mem_filter.1 hq).2
    · intro a ha b hb
      have h1 : a.1 < x := by simpa using (List.mem_filter.1 ha).2
      rcases List.mem_cons.1 hb with rfl | hb
      · exact h1
      · exact h1.trans (by simpa using (List.mem_filter.1 hb).2)

theorem sorted_assign {L : List (K × V)} (x : K) (v : V) (hs : Sorted L) : Sorted (sAssign L x v) := by
  unfold Sorted sAssign
  rw [List.pairwise_map]
  apply hs.imp
  intro a b hab
  have e : ∀ q : K × V, (if q.1 = x then (x, v) else q).1 = q.1 := by
    intro q; split_ifs with h
    · exact h.symm
    · rfl
  rw [e, e]; exact hab

theorem sorted_from {L : List (K × V)} (b : Iter K) (hs : Sorted L) : Sorted (fromIt L b) := by
  cases b with
  | none => exact List.Pairwise.nil
  | some x => exact sorted_filter hs _

theorem sorted_below {L : List (K × V)} (b : Iter K) (hs : Sorted L) : Sorted (belowIt L b) := by
  cases b with
  | none => exact hs
  | some x => exact sorted_filter hs _

theorem sorted_eraseRange {L : List (K × V)} {b e : Iter K} (hs : Sorted L) (hle : itLe b e = true) : Sorted (sEraseRange L b e) := by
  unfold sEraseRange
  apply List.pairwise_append.2
  refine ⟨sorted_below b hs, sorted_from e hs, ?_⟩
  intro a ha c hc
  obtain ⟨-, y, rfl, hy⟩ := mem_fromIt.1 hc
  cases b with
  | none => simp [itLe] at hle
  | some x =>
    simp only [itLe, decide_eq_true_eq] at hle
    exact lt_of_lt_of_le ((mem_belowIt.1 ha).2 x rfl) (hle.trans hy)

theorem length_erase {L : List (K × V)} {x : K} (hs : Sorted L) (hx : hasKey L x = true) : (sErase L x).length + 1 = L.length := by
  obtain ⟨q, hq, rfl⟩ := List.mem_map.1 (hasKey_iff.1 hx)
  obtain ⟨A, B, rfl⟩ := List.append_of_mem hq
  obtain ⟨k, v⟩ := q
  rw [(split_facts hs).2.2.2]
  simp; omega

theorem length_parts {x : K} : ∀ L : List (K × V), (∀ q ∈ L, q.1 ≠ x) → L.length = (below L x).length + (above L x).length := by
  intro L
  induction L with
  | nil => intro _; rfl
  | cons q L ih =>
    intro h
    have ih := ih (fun q hq => h q (List.mem_cons_of_mem _ hq))
    unfold below above at *
    rw [List.filter_cons, List.filter_cons, List.length_cons, ih]
    rcases lt_or_gt_of_ne (h q List.mem_cons_self) with hq | hq
    · rw [if_pos (by simpa using hq), if_neg (by simpa using le_of_lt hq), List.length_cons]; omega
    · rw [if_neg (by simpa using le_of_lt hq), if_pos (by simpa using hq), List.length_cons]; omega

theorem length_insert {L : List (K × V)} {x : K} {v : V} (hs : Sorted L) (hx : ¬ hasKey L x = true) : (sInsert L x v).length = L.length + 1 := by
  unfold sInsert
  rw [if_neg hx]
  have : L.length = (below L x).length + (above L x).length := by
    exact length_parts L (fun q hq e => hx (hasKey_iff.2 (List.mem_map.2 ⟨q, hq, e⟩)))
  rw [List.length_append, List.length_cons]; omega

end Verif.Treap
