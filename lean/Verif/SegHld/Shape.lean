import Verif.SegHld.Model
import Mathlib.Tactic.Linarith
/-!
The shape of the tree of `SegmentHldBase`: what the constructor builds for positive weights.
-/
namespace Verif.SegHld

/-- A leaf of the shape. -/
def Leaf (s : Shp) : Prop := s.r = s.l + 1 ∧ s.lc = none ∧ s.rc = none

/-- An inner node `i` with children `a`, `b`. -/
structure Inner (N : Nat) (sh : Nat → Shp) (i a b : Nat) : Prop where
  lc : (sh i).lc = some a
  rc : (sh i).rc = some b
  ia : i < a
  ab : a < b
  bN : b < N
  al : (sh a).l = (sh i).l
  am : (sh a).r = (sh b).l
  br : (sh b).r = (sh i).r
  ap : (sh a).p = some i
  bp : (sh b).p = some i

/-- The first `K` of `N` nodes are finished. -/
structure WFk (n N K : Nat) (sh : Nat → Shp) : Prop where
  pos : 0 < N
  root : (sh 0).l = 0 ∧ (sh 0).r = n ∧ (sh 0).p = none
  rng : ∀ i, i < N → (sh i).l < (sh i).r ∧ (sh i).r ≤ n
  kn : K ≤ N
  fin : ∀ i, i < K → Leaf (sh i) ∨ ∃ a b, Inner N sh i a b
  fresh : ∀ i, K ≤ i → i < N → (sh i).lc = none ∧ (sh i).rc = none
  par : ∀ i, i < N → 0 < i → ∃ q, q < i ∧ q < K ∧ (sh i).p = some q ∧ ((sh q).lc = some i ∨ (sh q).rc = some i)

abbrev WF (n N : Nat) (sh : Nat → Shp) : Prop := WFk n N N sh

/-- `j` lies in the range of node `i`. -/
def Has (sh : Nat → Shp) (i j : Nat) : Prop := (sh i).l ≤ j ∧ j < (sh i).r

theorem WFk.parent {n N K : Nat} {sh : Nat → Shp} (w : WFk n N K sh) {i : Nat} (h : i < N) (h0 : 0 < i) :
    ∃ q a b, q < i ∧ (sh i).p = some q ∧ Inner N sh q a b ∧ (i = a ∨ i = b) := by
  obtain ⟨q, h1, h2, h3, h4⟩ := w.par i h h0
  rcases w.fin q h2 with hl | ⟨a, b, hi⟩
  · rcases h4 with h4 | h4
    · rw [hl.2.1] at h4; cases h4
    · rw [hl.2.2] at h4; cases h4
  · refine ⟨q, a, b, h1, h3, hi, ?_⟩
    rcases h4 with h4 | h4
    · rw [hi.lc] at h4; exact Or.inl (Option.some.inj h4).symm
    · rw [hi.rc] at h4; exact Or.inr (Option.some.inj h4).symm

theorem Inner.unique {N : Nat} {sh : Nat → Shp} {i a b a' b' : Nat} (h : Inner N sh i a b) (h' : Inner N sh i a' b') : a = a' ∧ b = b' :=
  ⟨Option.some.inj (h.lc.symm.trans h'.lc), Option.some.inj (h.rc.symm.trans h'.rc)⟩

theorem Has.up {n N K : Nat} {sh : Nat → Shp} (w : WFk n N K sh) {i q a b j : Nat} (hi : Inner N sh q a b) (hc : i = a ∨ i = b) (h : Has sh i j) : Has sh q j := by
  have h1 := hi.al; have h2 := hi.am; have h3 := hi.br
  have ra := w.rng a (by have := hi.ab; have := hi.bN; omega)
  have rb := w.rng b hi.bN
  unfold Has at *
  rcases hc with rfl | rfl <;> omega

theorem Inner.disj {N : Nat} {sh : Nat → Shp} {q a b j : Nat} (hi : Inner N sh q a b) (h1 : Has sh a j) (h2 : Has sh b j) : False := by
  have := hi.am
  unfold Has at *
  omega

/-- Below the parent no node contains a common index. -/
theorem WFk.gap {n N K : Nat} {sh : Nat → Shp} (w : WFk n N K sh) (j : Nat) : ∀ u, u < N → 0 < u → Has sh u j → ∀ q, (sh u).p = some q →
    ∀ k, k < u → Has sh k j → k ≤ q := by
  intro u
  induction u using Nat.strong_induction_on with
  | _ u ihu =>
    intro huN hu0 hu q hq k
    induction k using Nat.strong_induction_on with
    | _ k ihk =>
      intro hku hk
      by_contra hlt
      obtain ⟨q', a, b, hqu, hq', hin, hc⟩ := w.parent huN hu0
      rw [hq] at hq'
      cases hq'
      obtain ⟨pk, a', b', hpk, hpk', hin', hc'⟩ := w.parent (i := k) (by omega) (by omega)
      have hpkj : Has sh pk j := hk.up w hin' hc'
      rcases Nat.lt_trichotomy q pk with h | h | h
      · have := ihk pk hpk (by omega) hpkj; omega
      · subst h
        obtain ⟨e1, e2⟩ := hin.unique hin'
        subst e1; subst e2
        rcases hc with rfl | rfl <;> rcases hc' with rfl | rfl
        · omega
        · exact hin.disj hu hk
        · exact hin.disj hk hu
        · omega
      · have := ihu k hku (by omega) (by omega) hk pk hpk' q (by omega) (hu.up w hin hc)
        omega

/-- A leaf is not above anything. -/
theorem WFk.leaf_last {n N K : Nat} {sh : Nat → Shp} (w : WFk n N K sh) {k j : Nat} (hl : Leaf (sh k)) (hk : Has sh k j) : ∀ u, u < N → Has sh u j → ¬ k < u := by
  intro u
  induction u using Nat.strong_induction_on with
  | _ u ih =>
    intro huN hu hlt
    obtain ⟨q, a, b, hqu, hq, hin, hc⟩ := w.parent huN (by omega)
    have h1 := w.gap j u huN (by omega) hu q hq k hlt hk
    rcases Nat.lt_or_ge k q with h | h
    · exact ih q hqu (by omega) (hu.up w hin hc) h
    · have : k = q := by omega
      subst this
      have := hin.lc
      rw [hl.2.1] at this
      cases this

/-- Leaves of the same index are the same. -/
theorem WFk.leaf_unique {n N K : Nat} {sh : Nat → Shp} (w : WFk n N K sh) {k k' : Nat} (hk : k < N) (hk' : k' < N) (hl : Leaf (sh k)) (hl' : Leaf (sh k')) (h : (sh k).l = (sh k').l) : k = k' := by
  have h1 : Has sh k (sh k).l := by have := hl.1; unfold Has; omega
  have h2 : Has sh k' (sh k).l := by have := hl'.1; unfold Has; omega
  have a1 := w.leaf_last hl h1 k' hk' h2
  have a2 := w.leaf_last hl' h2 k hk h1
  omega

/-- Every index has a leaf. -/
theorem leaf_exists {n N : Nat} {sh : Nat → Shp} (w : WF n N sh) {j : Nat} (hj : j < n) : ∃ k, k < N ∧ Leaf (sh k) ∧ (sh k).l = j := by
  have key : ∀ d u, N - u = d → u < N → Has sh u j → ∃ k, k < N ∧ Leaf (sh k) ∧ (sh k).l = j := by
    intro d
    induction d using Nat.strong_induction_on with
    | _ d ih =>
      intro u hd huN hu
      rcases w.fin u huN with hl | ⟨a, b, hi⟩
      · exact ⟨u, huN, hl, by have := hl.1; unfold Has at hu; omega⟩
      · have h1 := hi.ia; have h2 := hi.ab; have h3 := hi.bN; have h4 := hi.al; have h5 := hi.am; have h6 := hi.br
        by_cases hm : j < (sh a).r
        · exact ih (N - a) (by omega) a rfl (by omega) (by unfold Has at *; omega)
        · exact ih (N - b) (by omega) b rfl (by omega) (by unfold Has at *; omega)
  exact key N 0 (by omega) w.pos (by have := w.root; unfold Has; omega)

/-! ### The split point -/

/-- Prefix sums of positive weights increase. -/
def Inc (cw : List Nat) (n : Nat) (c : Nat → Nat) : Prop := Rep cw (n+1) c ∧ ∀ i, i < n → c i < c (i+1)

theorem Inc.mono {cw : List Nat} {n : Nat} {c : Nat → Nat} (h : Inc cw n c) : ∀ i j, i < j → j ≤ n → c i < c j := by
  intro i j hij hj
  induction j with
  | zero => omega
  | succ j ih =>
    have := h.2 j (by omega)
    rcases Nat.lt_or_ge i j with h1 | h1
    · have := ih h1 (by omega); omega
    · have : i = j := by omega
      subst this; assumption

theorem prefixSums_inc : ∀ (ws : List Nat) (s : Nat), (∀ w ∈ ws, 0 < w) → ∃ c, Inc (prefixSums s ws) ws.length c ∧ c 0 = s := by
  intro ws
  induction ws with
  | nil =>
    intro s _
    refine ⟨fun _ => s, ⟨⟨rfl, ?_⟩, by intro i hi; simp at hi⟩, rfl⟩
    intro i hi
    have : i = 0 := by simp at hi; omega
    subst this; rfl
  | cons w ws ih =>
    intro s h
    obtain ⟨c, hc, h0⟩ := ih (s + w) (fun x hx => h x (List.mem_cons_of_mem _ hx))
    refine ⟨fun i => if i = 0 then s else c (i - 1), ⟨⟨by simp [prefixSums, hc.1.len], ?_⟩, ?_⟩, by simp⟩
    · intro i hi
      cases i with
      | zero => rfl
      | succ i => simpa [prefixSums] using hc.1.val i (by simp at hi; omega)
    · intro i hi
      cases i with
      | zero =>
        have := h w List.mem_cons_self
        simp [h0]; omega
      | succ i =>
        have := hc.2 i (by simp at hi; omega)
        simpa using this

theorem upper_ok {cw : List Nat} {n : Nat} {c : Nat → Nat} (hc : Inc cw n c) (x : Nat) : ∀ k l, l + k ≤ n → ∃ mid, upper cw x l k = some mid ∧ l ≤ mid ∧ mid ≤ l + k ∧ (0 < k → c l ≤ x → l < mid) := by
  intro k
  induction k with
  | zero => intro l _; exact ⟨l, rfl, by omega, by omega, by omega⟩
  | succ k ih =>
    intro l hl
    unfold upper
    rw [hc.1.val l (by omega), Option.bind_some]
    by_cases h : x < c l
    · rw [if_pos h]; exact ⟨l, rfl, by omega, by omega, by omega⟩
    · rw [if_neg h]
      obtain ⟨mid, h1, h2, h3, -⟩ := ih (l+1) (by omega)
      exact ⟨mid, h1, by omega, by omega, by omega⟩

theorem splitPt_ok {cw : List Nat} {n : Nat} {c : Nat → Nat} (hc : Inc cw n c) {l r : Nat} (hlr : l + 1 < r) (hr : r ≤ n) : ∃ m, splitPt cw l r = some m ∧ l < m ∧ m < r := by
  unfold splitPt
  rw [hc.1.val l (by omega), Option.bind_some, hc.1.val r (by omega), Option.bind_some]
  have hlt := hc.mono l r (by omega) hr
  obtain ⟨mid, h1, h2, h3, h4⟩ := upper_ok hc ((c r + c l + 1)/2) (r - l) l (by omega)
  have h5 := h4 (by omega) (by omega)
  rw [h1, Option.bind_some, if_neg (by omega), hc.1.val (mid-1) (by omega), Option.bind_some, hc.1.val mid (by omega), Option.map_some]
  refine ⟨_, rfl, ?_⟩
  by_cases hm : mid = l + 1
  · have hm' : mid - 1 = l := by omega
    rw [hm', if_neg (by omega)]
    omega
  · by_cases hmr : mid = r
    · have := hc.mono l (mid-1) (by omega) (by omega)
      rw [hmr] at this ⊢
      rw [if_pos (by omega)]
      omega
    · split_ifs <;> omega

end Verif.SegHld
