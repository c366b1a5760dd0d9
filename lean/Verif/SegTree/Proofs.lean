import Verif.SegTree.Model
import Verif.Common.Seg
import Mathlib.Tactic.Ring
/-! Invariant and helper lemmas for the segment tree. -/
namespace Verif.SegTree
variable {M : Type} [Monoid M]

/-- Node `i` holds the product of its children. -/
def NodeOK (tree : List M) (i : Nat) : Prop :=
  ∃ a b, tree[2*i]? = some a ∧ tree[2*i+1]? = some b ∧ tree[i]? = some (a * b)

/-- Representation invariant. -/
structure Inv (t : Tree M) (vs : List M) : Prop where
  sz : t.size = vs.length
  len : t.tree.length = 2 * vs.length
  leaf : ∀ i, i < vs.length → t.tree[vs.length + i]? = vs[i]?
  node : ∀ i, 0 < i → i < vs.length → NodeOK t.tree i

theorem ofSize_inv (n : Nat) : Inv (ofSize n : Tree M) (List.replicate n 1) := by
  refine ⟨by simp [ofSize], by simp [ofSize]; omega, ?_, ?_⟩
  · intro i hi
    simp only [List.length_replicate] at hi
    simp [ofSize, List.getElem?_replicate, hi]; omega
  · intro i h0 hi
    simp only [List.length_replicate] at hi
    refine ⟨1, 1, ?_, ?_, ?_⟩ <;> simp [ofSize, List.getElem?_replicate] <;> omega

theorem pull_spec {tree : List M} {i : Nat} (h : 2*i+1 < tree.length) (h0 : 0 < i) :
    ∃ t x, pull tree i = some t ∧ t = tree.set i x ∧ NodeOK t i := by
  have ha : tree[2*i]? = some tree[2*i] := List.getElem?_eq_getElem (by omega)
  have hb : tree[2*i+1]? = some tree[2*i+1] := List.getElem?_eq_getElem h
  refine ⟨_, tree[2*i] * tree[2*i+1], ?_, rfl, ?_⟩
  · unfold pull
    simp only [ha, hb, Option.bind_eq_bind, Option.bind_some]
    rw [if_pos (by omega)]
  · refine ⟨_, _, ?_, ?_, List.getElem?_set_self (by omega)⟩
    · rw [List.getElem?_set_ne (by omega)]; exact ha
    · rw [List.getElem?_set_ne (by omega)]; exact hb

theorem NodeOK.set_ne {tree : List M} {i j : Nat} {x : M} (h : NodeOK tree j) (h1 : j ≠ i) (h2 : i / 2 ≠ j) :
    NodeOK (tree.set i x) j := by
  obtain ⟨a, b, e1, e2, e3⟩ := h
  refine ⟨a, b, ?_, ?_, ?_⟩
  · rw [List.getElem?_set_ne (by omega)]; exact e1
  · rw [List.getElem?_set_ne (by omega)]; exact e2
  · rw [List.getElem?_set_ne (by omega)]; exact e3

theorem buildLoop_spec {n : Nat} : ∀ (i : Nat) (tree : List M), i < n → tree.length = 2 * n →
    (∀ j, i < j → j < n → NodeOK tree j) →
    ∃ t, buildLoop i tree = some t ∧ t.length = 2 * n ∧ (∀ j, n ≤ j → t[j]? = tree[j]?) ∧
      ∀ j, 0 < j → j < n → NodeOK t j := by
  intro i
  induction i with
  | zero => intro tree _ hl h; exact ⟨tree, rfl, hl, fun _ _ => rfl, h⟩
  | succ i ih =>
    intro tree hi hl h
    obtain ⟨t1, x, e1, e2, e3⟩ := pull_spec (tree := tree) (i := i+1) (by omega) (by omega)
    obtain ⟨t, e, g1, g2, g3⟩ := ih t1 (by omega) (by rw [e2]; simpa using hl) (by
      intro j h1 h2
      by_cases hj : j = i + 1
      · subst hj; exact e3
      · rw [e2]; exact (h j (by omega) h2).set_ne hj (by omega))
    refine ⟨t, by simp [buildLoop, e1, e], g1, fun j hj => ?_, g3⟩
    rw [g2 j hj, e2, List.getElem?_set_ne (by omega)]

theorem ofRange_inv (xs : List M) : ∃ t, ofRange xs = some t ∧ Inv t xs := by
  unfold ofRange
  by_cases h : xs.length = 0
  · rw [if_pos h]
    have : xs = [] := List.length_eq_zero_iff.1 h
    subst this
    exact ⟨_, rfl, ofSize_inv 0⟩
  · rw [if_neg h]
    obtain ⟨t, e, g1, g2, g3⟩ := buildLoop_spec (n := xs.length) (xs.length - 1)
      (List.replicate xs.length 1 ++ xs) (by omega) (by simp; omega) (by intro j h1 h2; omega)
    simp only [e, Option.bind_eq_bind, Option.bind_some]
    refine ⟨_, rfl, rfl, g1, fun i hi => ?_, g3⟩
    rw [g2 _ (by omega), List.getElem?_append_right (by simp)]
    simp

theorem setLoop_spec {n : Nat} : ∀ (k : Nat) (tree : List M) (i : Nat), i < k → i < n → tree.length = 2 * n →
    (∀ j, 0 < j → j < n → (∀ m, j ≠ i / 2^m) → NodeOK tree j) →
    ∃ t, setLoop k tree i = some t ∧ t.length = 2 * n ∧ (∀ j, n ≤ j → t[j]? = tree[j]?) ∧
      ∀ j, 0 < j → j < n → NodeOK t j := by
  intro k
  induction k with
  | zero => intro tree i h; omega
  | succ k ih =>
    intro tree i hk hi hl h
    unfold setLoop
    by_cases h0 : i > 0
    · rw [if_pos h0]
      obtain ⟨t1, x, e1, e2, e3⟩ := pull_spec (tree := tree) (i := i) (by omega) h0
      obtain ⟨t, e, g1, g2, g3⟩ := ih t1 (i/2) (by omega) (by omega) (by rw [e2]; simpa using hl) (by
        intro j h1 h2 h3
        by_cases hj : j = i
        · subst hj; exact e3
        · rw [e2]
          apply (h j h1 h2 ?_).set_ne hj
          · have := h3 0; simpa using Ne.symm this
          · intro m
            cases m with
            | zero => simpa using hj
            | succ m =>
              have := h3 m
              rwa [Nat.div_div_eq_div_mul, ← Nat.pow_succ'] at this)
      refine ⟨t, by simp [e1, e], g1, fun j hj => ?_, g3⟩
      rw [g2 j hj, e2, List.getElem?_set_ne (by omega)]
    · rw [if_neg h0]
      refine ⟨tree, rfl, hl, fun _ _ => rfl, fun j h1 h2 => h j h1 h2 ?_⟩
      intro m
      have : i = 0 := by omega
      subst this; simp; omega

theorem set_inv {t : Tree M} {vs : List M} (h : Inv t vs) {i : Nat} (hi : i < vs.length) (x : M) :
    ∃ t', set t i x = some t' ∧ Inv t' (vs.set i x) := by
  unfold set
  simp only [h.sz]
  rw [if_pos (by rw [h.len]; omega)]
  obtain ⟨t1, e, g1, g2, g3⟩ := setLoop_spec (n := vs.length) (vs.length + i + 1) (t.tree.set (vs.length + i) x)
    ((vs.length + i)/2) (by omega) (by omega) (by simpa using h.len) (by
      intro j h1 h2 h3
      apply (h.node j h1 h2).set_ne (by omega)
      have := h3 0; simpa using Ne.symm this)
  simp only [e, Option.bind_eq_bind, Option.bind_some]
  refine ⟨_, rfl, by simp, by simpa using g1, ?_, by simpa using g3⟩
  intro j hj
  simp only [List.length_set] at hj ⊢
  rw [g2 _ (by omega)]
  by_cases hij : i = j
  · subst hij
    rw [List.getElem?_set_self (by rw [h.len]; omega), List.getElem?_set_self hj]
  · rw [List.getElem?_set_ne (by omega), List.getElem?_set_ne hij]
    exact h.leaf j hj

theorem get_spec {t : Tree M} {vs : List M} (h : Inv t vs) {i : Nat} (hi : i < vs.length) : get t i = vs[i]? := by
  unfold get; rw [h.sz]; exact h.leaf i hi

/-- Node `i` seen from height `k` holds the product of the leaves below it. -/
theorem node_prod {t : Tree M} {vs : List M} (h : Inv t vs) (hn : 0 < vs.length) : ∀ (k i : Nat),
    vs.length ≤ i * 2^k → (i+1) * 2^k ≤ 2 * vs.length →
    t.tree[i]? = some (segProd vs (i * 2^k - vs.length) ((i+1) * 2^k - vs.length)) := by
  intro k
  induction k with
  | zero =>
    intro i h1 h2
    simp only [pow_zero, mul_one] at *
    have := h.leaf (i - vs.length) (by omega)
    rw [show vs.length + (i - vs.length) = i by omega] at this
    rw [this, List.getElem?_eq_getElem (by omega)]
    rw [show i + 1 - vs.length = (i - vs.length) + 1 by omega, segProd_one]
    exact List.getElem?_eq_getElem (by omega)
  | succ k ih =>
    intro i h1 h2
    have e1 : i * 2^(k+1) = (2*i) * 2^k := by ring
    have e2 : (i+1) * 2^(k+1) = (2*i+1+1) * 2^k := by ring
    have e3 : (2*i+1) * 2^k = 2*i*2^k + 2^k := by ring
    have e4 : (2*i+1+1) * 2^k = 2*i*2^k + 2^k + 2^k := by ring
    have hp : 0 < 2^k := Nat.two_pow_pos k
    rw [e1] at h1 ⊢
    rw [e2] at h2 ⊢
    have hi0 : 0 < i := by
      rcases Nat.eq_zero_or_pos i with h0 | h0
      · subst h0; rw [Nat.mul_zero, Nat.zero_mul] at h1; omega
      · exact h0
    have hin : i < vs.length := by
      have : (2*i+1+1) * 1 ≤ (2*i+1+1) * 2^k := Nat.mul_le_mul_left _ hp
      omega
    obtain ⟨a, b, g1, g2, g3⟩ := h.node i hi0 hin
    have ha := ih (2*i) h1 (by omega)
    have hb := ih (2*i+1) (by omega) h2
    rw [g1] at ha
    rw [g2] at hb
    rw [g3, Option.some.inj ha, Option.some.inj hb, segProd_append _ (by omega) (by omega)]

theorem queryLoop_spec {t : Tree M} {vs : List M} (h : Inv t vs) (hn : 0 < vs.length) (b e : Nat) :
    ∀ (fuel k l r : Nat) (lhs rhs : M), r < fuel → vs.length + b ≤ l * 2^k → l ≤ r → r * 2^k ≤ vs.length + e →
      e ≤ vs.length → lhs = segProd vs b (l * 2^k - vs.length) → rhs = segProd vs (r * 2^k - vs.length) e →
      queryLoop t.tree fuel lhs rhs l r = some (segProd vs b e) := by
  intro fuel
  induction fuel with
  | zero => intro k l r lhs rhs h; omega
  | succ fuel ih =>
    intro k l r lhs rhs hf hl hlr hr he hlhs hrhs
    have hp : 0 < 2^k := Nat.two_pow_pos k
    have hmul : ∀ x y : Nat, x ≤ y → x * 2^k ≤ y * 2^k := fun x y hxy => Nat.mul_le_mul_right _ hxy
    unfold queryLoop
    by_cases hlt : l < r
    · rw [if_pos hlt]
      have e2 : ∀ x : Nat, x * 2^(k+1) = 2*x*2^k := by intro x; ring
      have hsucc : (l+1) * 2^k ≤ r * 2^k := hmul _ _ hlt
      have hs : (l+1)*2^k = l * 2^k + 2^k := by ring
      have hL : takeL t.tree lhs l =
          some (segProd vs b ((2*((l+1)/2)) * 2^k - vs.length), 2*((l+1)/2)) := by
        unfold takeL
        by_cases ho : l % 2 = 1
        · rw [if_pos ho, node_prod h hn k l (by omega) (by omega)]
          rw [show 2*((l+1)/2) = l+1 by omega]
          simp only [Option.bind_some, hlhs]
          rw [segProd_append _ (by omega) (by omega)]
        · rw [if_neg ho, show 2*((l+1)/2) = l by omega, hlhs]
      have hR : takeR t.tree rhs r =
          some (segProd vs ((2*(r/2)) * 2^k - vs.length) e, 2*(r/2)) := by
        unfold takeR
        by_cases ho : r % 2 = 1
        · obtain ⟨q, rfl⟩ : ∃ q, r = q + 1 := ⟨r-1, by omega⟩
          have hq : (q+1)*2^k = q * 2^k + 2^k := by ring
          have hq2 : (l)*2^k ≤ q * 2^k := hmul _ _ (by omega)
          rw [if_pos ho, Nat.add_sub_cancel, node_prod h hn k q (by omega) (by omega)]
          rw [show 2*((q+1)/2) = q by omega]
          simp only [Option.bind_some, hrhs]
          rw [segProd_append _ (by omega) (by omega)]
        · rw [if_neg ho, show 2*(r/2) = r by omega, hrhs]
      simp only [Option.bind_eq_bind, hL, hR, Option.bind_some]
      have m1 := hmul l (2*((l+1)/2)) (by omega)
      have m2 := hmul (2*(r/2)) r (by omega)
      have key := ih (k+1) ((l+1)/2) (r/2) (segProd vs b ((2*((l+1)/2)) * 2^k - vs.length)) (segProd vs ((2*(r/2)) * 2^k - vs.length) e)
        (by omega) (by rw [e2]; omega) (by omega) (by rw [e2]; omega) he (by rw [e2]) (by rw [e2])
      rw [show 2*((l+1)/2)/2 = (l+1)/2 by omega, show 2*(r/2)/2 = r/2 by omega]
      exact key
    · have : l = r := by omega
      subst this
      rw [if_neg hlt, hlhs, hrhs, segProd_append _ (by omega) (by omega)]

theorem query_spec {t : Tree M} {vs : List M} (h : Inv t vs) {l r : Nat} (hlr : l ≤ r) (hr : r ≤ vs.length) :
    query t l r = some (segProd vs l r) := by
  unfold query
  rw [h.sz]
  by_cases hn : 0 < vs.length
  · exact queryLoop_spec h hn l r _ 0 _ _ _ _ (by omega) (by simp; omega) (by omega) (by simp; omega) hr
      (by simp [segProd_self]) (by simp [segProd_self])
  · have h1 : l = 0 := by omega
    have h2 : r = 0 := by omega
    subst h1; subst h2
    have h3 : vs.length = 0 := by omega
    simp [h3, queryLoop, segProd_self]

end Verif.SegTree
