import Verif.Rmq.Cart
/-! The constructor builds the Cartesian tree; the traversal writes its parentheses. -/
namespace Verif.Rmq
open Verif Verif.Succinct

/-- The child links of `nodes` from `o` form `t`. -/
def Lk (nodes : List Nd) : CT → Option Nat → Prop
  | .nil, o => o = none
  | .node l v r, o => o = some v ∧ ∃ nd, nodes[v]? = some nd ∧ Lk nodes l nd.l ∧ Lk nodes r nd.r

theorem lk_frame {a : Nat → Int} {ns ms : List Nd} : ∀ (t : CT) {lo hi : Nat} {o : Option Nat}, Cart a lo hi t → Lk ns t o →
    (∀ i nd, lo ≤ i → i < hi → ns[i]? = some nd → ∃ md, ms[i]? = some md ∧ md.l = nd.l ∧ md.r = nd.r) → Lk ms t o := by
  intro t
  induction t with
  | nil => intro lo hi o _ h _; exact h
  | node l v r ihl ihr =>
    intro lo hi o ⟨h1, h2, hl, hr, _, _⟩ ⟨e, nd, hn, kl, kr⟩ hf
    obtain ⟨md, hm, e1, e2⟩ := hf v nd h1 h2 hn
    refine ⟨e, md, hm, ?_, ?_⟩
    · rw [e1]; exact ihl hl kl (fun i nd a b => hf i nd a (by omega))
    · rw [e2]; exact ihr hr kr (fun i nd a b => hf i nd (by omega) b)

/-- Hang `t` below a right spine, listed bottom up. -/
def asm : List (CT × Nat) → CT → CT
  | [], t => t
  | (l, u) :: s, t => asm s (.node l u t)

/-- The spine `s` on the indices below `pos`; all indices are below `hi`. -/
def SC (a : Nat → Int) (hi : Nat) : Nat → List (CT × Nat) → Prop
  | pos, [] => pos = 0
  | pos, (l, u) :: s => pos = u + 1 ∧ ∃ lo, lo ≤ u ∧ Cart a lo u l ∧ (∀ i, lo ≤ i → i < u → a u < a i) ∧ (∀ i, u < i → i < hi → a u ≤ a i) ∧ SC a hi lo s

def headU (s : List (CT × Nat)) : Option Nat := s.head?.map (·.2)

/-- The links along the spine; `c` is the right child of its first element. -/
def Sp (nodes : List Nd) (root : Option Nat) : Option Nat → List (CT × Nat) → Prop
  | c, [] => root = c
  | c, (l, u) :: s => (∃ nd, nodes[u]? = some nd ∧ nd.r = c ∧ nd.p = headU s ∧ Lk nodes l nd.l) ∧ Sp nodes root (some u) s

theorem sc_pos {a : Nat → Int} {hi pos : Nat} {s : List (CT × Nat)} (h : SC a hi pos s) : headU s = none ∧ pos = 0 ∨ ∃ u, headU s = some u ∧ pos = u + 1 := by
  cases s with
  | nil => exact Or.inl ⟨rfl, h⟩
  | cons x s => exact Or.inr ⟨x.2, rfl, h.1⟩

theorem asm_cart {a : Nat → Int} {hi : Nat} : ∀ (s : List (CT × Nat)) {pos : Nat} {t : CT}, pos ≤ hi → SC a hi pos s → Cart a pos hi t → Cart a 0 hi (asm s t) := by
  intro s
  induction s with
  | nil => intro pos t _ h ht; simp only [SC] at h; subst h; exact ht
  | cons x s ih =>
    intro pos t hp ⟨h1, lo, h2, h3, h4, h5, h6⟩ ht
    subst h1
    exact ih (pos := lo) (by omega) h6 ⟨h2, by omega, h3, ht, h4, h5⟩

theorem asm_lk {nodes : List Nd} {root : Option Nat} : ∀ (s : List (CT × Nat)) {c : Option Nat} {t : CT}, Sp nodes root c s → Lk nodes t c → Lk nodes (asm s t) root := by
  intro s
  induction s with
  | nil => intro c t h ht; simp only [Sp] at h; subst h; exact ht
  | cons x s ih =>
    intro c t ⟨⟨nd, h1, h2, h3, h4⟩, h5⟩ ht
    exact ih h5 ⟨rfl, nd, h1, h4, by rw [h2]; exact ht⟩

theorem sp_frame {a : Nat → Int} {ns ms : List Nd} {root root' : Option Nat} {hi : Nat} : ∀ (s : List (CT × Nat)) {pos : Nat} {c : Option Nat}, SC a hi pos s →
    Sp ns root c s → (s = [] → root' = c) → (root' = root ∨ s = []) → (∀ i nd, i < pos → ns[i]? = some nd → ms[i]? = some nd) → Sp ms root' c s := by
  intro s
  induction s with
  | nil => intro pos c _ h h2 _ _; exact h2 rfl
  | cons x s ih =>
    intro pos c ⟨h1, lo, h2, h3, h4, h5, h6⟩ ⟨⟨nd, g1, g2, g3, g4⟩, g5⟩ _ hr hf
    subst h1
    have hr' : root' = root := by
      rcases hr with hr | hr
      · exact hr
      · simp at hr
    refine ⟨⟨nd, hf _ _ (by omega) g1, g2, g3, lk_frame x.1 h3 g4 ?_⟩, ih h6 g5 ?_ (Or.inl hr') ?_⟩
    · intro i nd _ hi hn; exact ⟨nd, hf _ _ (by omega) hn, rfl, rfl⟩
    · intro e; subst e; rw [hr']; exact g5
    · intro i nd hi; exact hf i nd (by omega)

/-- The climb: the popped part of the spine (as a tree `P` on `[pos', v)` of greater values) and the rest. -/
theorem climb_ok {xs : List Int} {a : Nat → Int} {nodes : List Nd} {root : Option Nat} {k : Nat} {x : Int} (ha : ∀ i, i < k → xs[i]? = some (a i)) :
    ∀ (s : List (CT × Nat)) {pos : Nat} {c : Option Nat} {t : CT} (fuel : Nat), pos ≤ k → s.length ≤ fuel → SC a k pos s → Sp nodes root c s → Cart a pos k t → Lk nodes t c →
      (∀ i, pos ≤ i → i < k → x < a i) →
      ∃ s' pos' c' t', climb xs nodes x fuel (headU s) = some (headU s') ∧ pos' ≤ k ∧ SC a k pos' s' ∧ Sp nodes root c' s' ∧ Cart a pos' k t' ∧ Lk nodes t' c' ∧
        (∀ i, pos' ≤ i → i < k → x < a i) ∧ (∀ u, headU s' = some u → a u ≤ x) := by
  intro s
  induction s with
  | nil => intro pos c t fuel hp _ h1 h2 h3 h4 h5; exact ⟨[], pos, c, t, by cases fuel <;> rfl, hp, h1, h2, h3, h4, h5, by simp [headU]⟩
  | cons y s ih =>
    intro pos c t fuel hp hf h1 h2 h3 h4 h5
    have h1' := h1
    have h2' := h2
    obtain ⟨e, lo, g1, g2, g3, g4, g5⟩ := h1
    obtain ⟨⟨nd, n1, n2, n3, n4⟩, n5⟩ := h2
    subst e
    cases fuel with
    | zero => simp at hf
    | succ fuel =>
      simp only [List.length_cons] at hf
      by_cases hx : x < a y.2
      · obtain ⟨s', pos', c', t', r1, r⟩ := ih (pos := lo) (c := some y.2) (t := .node y.1 y.2 t) fuel (by omega) (by omega) g5 n5
          ⟨g1, by omega, g2, h3, g3, g4⟩ ⟨rfl, nd, n1, n4, by rw [n2]; exact h4⟩ (by
            intro i hi hi'
            rcases Nat.lt_trichotomy i y.2 with h | h | h
            · have := g3 i hi h; omega
            · rw [h]; exact hx
            · exact h5 i h hi')
        refine ⟨s', pos', c', t', ?_, r⟩
        show (xs[y.2]?).bind _ = _
        rw [ha y.2 (by omega), Option.bind_some, if_pos hx, n1, Option.bind_some, n3]
        exact r1
      · refine ⟨y :: s, y.2 + 1, c, t, ?_, hp, h1', h2', h3, h4, h5, ?_⟩
        · show (xs[y.2]?).bind _ = _
          rw [ha y.2 (by omega), Option.bind_some, if_neg hx]; rfl
        · intro u hu; simp [headU] at hu; rw [← hu]; omega

/-- Raising `hi` by one for a spine whose bottom element is at most the new value. -/
theorem sc_ext {a : Nat → Int} {k : Nat} : ∀ (s : List (CT × Nat)) {pos : Nat}, pos ≤ k → SC a k pos s → (∀ u, headU s = some u → a u ≤ a k) → SC a (k+1) pos s := by
  intro s
  induction s with
  | nil => intro pos _ h _; exact h
  | cons y s ih =>
    intro pos hp ⟨e, lo, g1, g2, g3, g4, g5⟩ hh
    have hy := hh y.2 rfl
    subst e
    refine ⟨rfl, lo, g1, g2, g3, ?_, ih (by omega) g5 ?_⟩
    · intro i hi hi'
      by_cases h : i = k
      · rw [h]; exact hy
      · exact g4 i hi (by omega)
    · intro u hu
      cases s with
      | nil => simp [headU] at hu
      | cons z s =>
        simp [headU] at hu
        subst hu
        obtain ⟨e, lo', _, _, _, g4', _⟩ := g5
        have := g4' y.2 (by omega) (by omega)
        omega

/-- Invariant of the construction after `k` values. -/
def Inv (a : Nat → Int) (k : Nat) (t : Tree) : Prop :=
  t.nodes.length = k ∧ ∃ s, SC a k k s ∧ Sp t.nodes t.root none s

theorem sc_len {a : Nat → Int} {hi : Nat} : ∀ (s : List (CT × Nat)) {pos : Nat}, SC a hi pos s → s.length ≤ pos := by
  intro s
  induction s with
  | nil => intro pos _; simp
  | cons y s ih =>
    intro pos ⟨e, lo, g1, g2, g3, g4, g5⟩
    have := ih g5
    simp; omega

theorem setP_ok {ns : List Nd} {i v : Nat} {nd : Nd} (h : ns[i]? = some nd) : setP ns i v = some (ns.set i ⟨some v, nd.l, nd.r⟩) := by
  have hi := (List.getElem?_eq_some_iff.1 h).1
  rw [setP, h, Option.bind_some, wr, if_pos hi]

theorem setR_ok {ns : List Nd} {i v : Nat} {nd : Nd} (h : ns[i]? = some nd) : setR ns i v = some (ns.set i ⟨nd.p, nd.l, some v⟩) := by
  have hi := (List.getElem?_eq_some_iff.1 h).1
  rw [setR, h, Option.bind_some, wr, if_pos hi]

theorem addNode_ok {xs : List Int} {a : Nat → Int} {k : Nat} {t : Tree} (ha : ∀ i, i < xs.length → xs[i]? = some (a i)) (hk : k < xs.length) (hI : Inv a k t) :
    ∃ t', addNode xs k t = some t' ∧ Inv a (k+1) t' := by
  obtain ⟨hlen, s, hs, hp⟩ := hI
  obtain ⟨root, nodes⟩ := t
  simp only at hlen hp
  by_cases h0 : k = 0
  · subst h0
    have : nodes = [] := List.length_eq_zero_iff.1 hlen
    subst this
    refine ⟨⟨some 0, [⟨none, none, none⟩]⟩, by simp [addNode], by simp, [(.nil, 0)], ⟨rfl, 0, le_refl _, rfl, by omega, by omega, rfl⟩, ⟨⟨⟨none, none, none⟩, rfl, rfl, rfl, rfl⟩, rfl⟩⟩
  have hne : nodes ≠ [] := by intro e; subst e; simp at hlen; omega
  have hhead : headU s = some (k-1) := by
    rcases sc_pos hs with ⟨_, h⟩ | ⟨u, h1, h2⟩
    · omega
    · rw [h1]; congr 1; omega
  obtain ⟨s', pos, c, P, hc, hpk, hs', hp', hP, hl, hgt, hle⟩ := climb_ok (x := a k) (fun i hi => ha i (by omega)) s (c := none) (t := .nil) nodes.length (le_refl k)
    (by have := sc_len s hs; omega) hs hp rfl rfl (by omega)
  rw [hhead] at hc
  have hsnew : SC a (k+1) (k+1) ((P, k) :: s') := ⟨rfl, pos, hpk, hP, hgt, by omega, sc_ext s' hpk hs' hle⟩
  -- the right child of the rest is the root of the popped tree
  have hcP : c = none ∨ ∃ j nd, c = some j ∧ nodes[j]? = some nd ∧ pos ≤ j ∧ j < k := by
    cases P with
    | nil => exact Or.inl hl
    | node l v r =>
      obtain ⟨e, nd, hn, _⟩ := hl
      exact Or.inr ⟨v, nd, e, hn, hP.1, hP.2.1⟩
  rcases sc_pos hs' with ⟨hh, hpos⟩ | ⟨u, hh, hpos⟩
  · -- the whole spine was popped
    have hs0 : s' = [] := by
      cases s' with
      | nil => rfl
      | cons z s' => simp [headU] at hh
    subst hs0
    simp only [Sp] at hp'
    subst hp'
    rcases hcP with hcn | ⟨j, nd, hcj, hnj, hj1, hj2⟩
    · exfalso
      subst hcn
      cases P with
      | nil => simp only [Cart] at hP; omega
      | node l v r => simp [Lk] at hl
    subst hcj
    have hnj' : (nodes ++ [(⟨none, some j, none⟩ : Nd)])[j]? = some nd := by rw [List.getElem?_append_left (by omega)]; exact hnj
    refine ⟨⟨some k, (nodes ++ [(⟨none, some j, none⟩ : Nd)]).set j ⟨some k, nd.l, nd.r⟩⟩, ?_, ?_, (P, k) :: [], hsnew, ?_, rfl⟩
    · unfold addNode
      rw [if_neg hne, ha k hk, Option.bind_some]
      show (climb xs nodes (a k) nodes.length (some (k-1))).bind _ = _
      rw [hc, hh, Option.bind_some]
      show (setP (nodes ++ [(⟨none, some j, none⟩ : Nd)]) j k).map _ = _
      rw [setP_ok hnj']; rfl
    · simp; omega
    · refine ⟨⟨none, some j, none⟩, ?_, rfl, rfl, ?_⟩
      · show ((nodes ++ [(⟨none, some j, none⟩ : Nd)]).set j _)[k]? = _
        rw [List.getElem?_set_ne (by omega), ← hlen]; simp
      · refine lk_frame P hP hl ?_
        intro i md hi1 hi2 hmd
        show ∃ md', ((nodes ++ [(⟨none, some j, none⟩ : Nd)]).set j _)[i]? = _ ∧ _
        by_cases hij : j = i
        · subst hij
          rw [hnj] at hmd
          have e : nd = md := by injection hmd
          subst e
          refine ⟨⟨some k, nd.l, nd.r⟩, ?_, rfl, rfl⟩
          rw [List.getElem?_set_self (by simp; omega)]
        · refine ⟨md, ?_, rfl, rfl⟩
          rw [List.getElem?_set_ne hij, List.getElem?_append_left (by omega)]; exact hmd
  · -- `u` stays
    cases s' with
    | nil => simp [headU] at hh
    | cons z s'' =>
    simp [headU] at hh
    subst hh
    have hs2 := hs'
    obtain ⟨_, lo, z1, z2, z3, z4, z5⟩ := hs'
    obtain ⟨⟨nu, n1, n2, n3, n4⟩, n5⟩ := hp'
    -- the nodes after `linkUp`
    have hlink : ∃ ns, linkUp nodes z.2 c k = some ns ∧ ns.length = k + 1 ∧ ns[k]? = some ⟨some z.2, c, none⟩ ∧
        (∀ i nd, i < pos → nodes[i]? = some nd → ns[i]? = some nd) ∧
        (∀ i nd, i < k → nodes[i]? = some nd → ∃ md, ns[i]? = some md ∧ md.l = nd.l ∧ md.r = nd.r) := by
      rcases hcP with hcn | ⟨j, nd, hcj, hnj, hj1, hj2⟩
      · subst hcn
        refine ⟨nodes ++ [⟨some z.2, none, none⟩], rfl, by simp; omega, by rw [← hlen]; simp, ?_, ?_⟩
        · intro i nd hi hn; rw [List.getElem?_append_left (by omega)]; exact hn
        · intro i nd hi hn; exact ⟨nd, by rw [List.getElem?_append_left (by omega)]; exact hn, rfl, rfl⟩
      · subst hcj
        have hnj' : (nodes ++ [(⟨some z.2, some j, none⟩ : Nd)])[j]? = some nd := by rw [List.getElem?_append_left (by omega)]; exact hnj
        refine ⟨(nodes ++ [(⟨some z.2, some j, none⟩ : Nd)]).set j ⟨some k, nd.l, nd.r⟩, show setP _ _ _ = _ from setP_ok hnj', by simp; omega, ?_, ?_, ?_⟩
        · rw [List.getElem?_set_ne (by omega), ← hlen]; simp
        · intro i md hi hn
          rw [List.getElem?_set_ne (by omega), List.getElem?_append_left (by omega)]; exact hn
        · intro i md hi hmd
          by_cases hij : j = i
          · subst hij
            rw [hnj] at hmd
            have e : nd = md := by injection hmd
            subst e
            refine ⟨⟨some k, nd.l, nd.r⟩, ?_, rfl, rfl⟩
            rw [List.getElem?_set_self (by simp; omega)]
          · refine ⟨md, ?_, rfl, rfl⟩
            rw [List.getElem?_set_ne hij, List.getElem?_append_left (by omega)]; exact hmd
    obtain ⟨ns, l1, l2, l3, l4, l5⟩ := hlink
    have hzk : z.2 < k := by omega
    have hnz : ns[z.2]? = some nu := l4 _ _ (by omega) n1
    refine ⟨⟨root, ns.set z.2 ⟨nu.p, nu.l, some k⟩⟩, ?_, ?_, (P, k) :: z :: s'', hsnew, ?_, ?_⟩
    · unfold addNode
      rw [if_neg hne, ha k hk, Option.bind_some]
      show (climb xs nodes (a k) nodes.length (some (k-1))).bind _ = _
      rw [hc, Option.bind_some]
      show (nodes[z.2]?).bind _ = _
      rw [n1, Option.bind_some, n2]
      show (linkUp nodes z.2 c k).bind _ = _
      rw [l1, Option.bind_some, setR_ok hnz]; rfl
    · simp; omega
    · refine ⟨⟨some z.2, c, none⟩, ?_, rfl, rfl, ?_⟩
      · show (ns.set z.2 _)[k]? = _
        rw [List.getElem?_set_ne (by omega)]; exact l3
      · refine lk_frame P hP hl ?_
        intro i md hi1 hi2 hmd
        show ∃ md', (ns.set z.2 _)[i]? = _ ∧ _
        rw [List.getElem?_set_ne (by omega)]
        exact l5 i md hi2 hmd
    · -- the rest of the spine
      refine ⟨⟨⟨nu.p, nu.l, some k⟩, ?_, rfl, n3, ?_⟩, ?_⟩
      · show (ns.set z.2 _)[z.2]? = _
        rw [List.getElem?_set_self (by omega)]
      · refine lk_frame z.1 z2 n4 ?_
        intro i md hi1 hi2 hmd
        refine ⟨md, ?_, rfl, rfl⟩
        show (ns.set z.2 _)[i]? = _
        rw [List.getElem?_set_ne (by omega)]
        exact l4 i md (by omega) hmd
      · refine sp_frame s'' z5 n5 ?_ (Or.inl rfl) ?_
        · intro e; subst e; exact n5
        · intro i md hi hmd
          show (ns.set z.2 _)[i]? = _
          rw [List.getElem?_set_ne (by omega)]
          exact l4 i md (by omega) hmd

/-- The constructor builds the Cartesian tree. -/
theorem cart_ok {xs : List Int} {a : Nat → Int} (ha : ∀ i, i < xs.length → xs[i]? = some (a i)) :
    ∃ t T, cart xs = some t ∧ t.nodes.length = xs.length ∧ Cart a 0 xs.length T ∧ Lk t.nodes T t.root := by
  obtain ⟨t, h1, h2, s, h3, h4⟩ := forRange_inv (body := addNode xs) (s := ⟨none, []⟩) (fun k t => Inv a k t) (Nat.zero_le xs.length)
    ⟨rfl, [], rfl, rfl⟩ (fun k t _ hk hI => addNode_ok ha hk hI)
  exact ⟨t, asm s .nil, h1, h2, asm_cart s (le_refl _) h3 rfl, asm_lk s h4 rfl⟩

end Verif.Rmq
