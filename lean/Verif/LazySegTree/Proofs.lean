import Verif.LazySegTree.Model
import Verif.DualSegTree.Proofs
import Verif.Common.Seg
/-! Invariant and helper lemmas for the lazy segment tree. -/
namespace Verif.LazySegTree
open Verif.SegLoop
open Verif.DualSegTree (div_eq_iff_range anc_iff canon_leaf)

variable {M A : Type} [Monoid M]

/-- The laws an operator type must satisfy. -/
structure Laws (S : Acts M A) : Prop where
  act_id : ∀ m, S.act S.ida m = m
  act_comp : ∀ f g m, S.act (S.comp f g) m = S.act f (S.act g m)
  act_mul : ∀ f a b, S.act f (a * b) = S.act f a * S.act f b

/-- Apply to `m` the operators stored on the path from node `x` to the root. -/
def up (S : Acts M A) (F : Nat → M × A) (x : Nat) (m : M) : M := if x = 0 then m else up S F (x / 2) (S.act (F x).2 m)
termination_by x
decreasing_by omega

theorem up_zero (S : Acts M A) (F : Nat → M × A) (m : M) : up S F 0 m = m := by rw [up]; simp
theorem up_pos (S : Acts M A) (F : Nat → M × A) {x : Nat} (h : x ≠ 0) (m : M) :
    up S F x m = up S F (x/2) (S.act (F x).2 m) := by rw [up]; simp [h]

/-- Value of a node with its own pending operator applied. -/
def V (S : Acts M A) (F : Nat → M × A) (x : Nat) : M := S.act (F x).2 (F x).1

/-- The value of a leaf as the client sees it. -/
def D (S : Acts M A) (F : Nat → M × A) (x : Nat) : M := up S F x (F x).1

theorem D_eq (S : Acts M A) (F : Nat → M × A) {x : Nat} (h : x ≠ 0) : D S F x = up S F (x/2) (V S F x) := up_pos S F h _

/-- Node `x` agrees with its children. -/
def Pull (S : Acts M A) (F : Nat → M × A) (x : Nat) : Prop := (F x).1 = V S F (2*x) * V S F (2*x+1)

/-- The shape of the stored data: `B` is the set of nodes whose product may be stale. -/
structure InvF (S : Acts M A) (n : Nat) (B : Nat → Prop) (tree : List (M × A)) (F : Nat → M × A) (vs : List M) : Prop where
  rep : Rep tree (2*n) F
  zero : (F 0).2 = S.ida
  pulled : ∀ x, 0 < x → x < n → ¬ B x → Pull S F x
  len : vs.length = n
  val : ∀ i, i < n → vs[i]? = some (D S F (n + i))

/-- What `_propagate(x)` does, for `x ≥ 1`. -/
def pushed (S : Acts M A) (F : Nat → M × A) (x : Nat) : Nat → M × A := fun y =>
  if y = x then (S.act (F x).2 (F x).1, S.ida) else if y / 2 = x then ((F y).1, S.comp (F x).2 (F y).2) else F y

theorem up_pushed {S : Acts M A} (L : Laws S) (F : Nat → M × A) {x : Nat} (hx : x ≠ 0) : ∀ y m, y ≠ x →
    up S (pushed S F x) y m = up S F y m := by
  intro y
  induction y using Nat.strongRecOn with
  | ind y ih =>
    intro m hy
    by_cases h0 : y = 0
    · subst h0; rw [up_zero, up_zero]
    · rw [up_pos _ _ h0, up_pos S F h0]
      by_cases hc : y / 2 = x
      · have h1 : (pushed S F x y).2 = S.comp (F x).2 (F y).2 := by simp [pushed, hy, hc]
        have h2 : (pushed S F x (y/2)).2 = S.ida := by simp [pushed, hc]
        rw [h1, up_pos _ _ (by omega), up_pos S F (x := y/2) (by omega), h2, L.act_id, L.act_comp, hc,
          ih (x/2) (by omega) _ (by omega)]
      · have h1 : (pushed S F x y).2 = (F y).2 := by simp [pushed, hy, hc]
        rw [h1, ih (y/2) (by omega) _ hc]

theorem D_pushed {S : Acts M A} (L : Laws S) (F : Nat → M × A) {x : Nat} (hx : x ≠ 0) (y : Nat) :
    D S (pushed S F x) y = D S F y := by
  unfold D
  by_cases hy : y = x
  · subst hy
    have h1 : pushed S F y y = (S.act (F y).2 (F y).1, S.ida) := by simp [pushed]
    rw [up_pos _ _ hx, up_pos S F hx, h1, L.act_id, up_pushed L F hx _ _ (by omega)]
  · have h1 : (pushed S F x y).1 = (F y).1 := by
      simp only [pushed]; rw [if_neg hy]; split <;> rfl
    rw [h1, up_pushed L F hx _ _ hy]

theorem V_pushed {S : Acts M A} (L : Laws S) (F : Nat → M × A) {x y : Nat} (hyx : y / 2 ≠ x ∨ y = x) :
    V S (pushed S F x) y = V S F y := by
  unfold V pushed
  by_cases hy : y = x
  · subst hy; simp [L.act_id]
  · rw [if_neg hy, if_neg (by tauto)]

theorem V_pushed_kid {S : Acts M A} (L : Laws S) (F : Nat → M × A) {x y : Nat} (hx : x ≠ 0) (hyx : y / 2 = x) :
    V S (pushed S F x) y = S.act (F x).2 (V S F y) := by
  unfold V pushed
  rw [if_neg (by omega), if_pos hyx, L.act_comp]

theorem pull_pushed {S : Acts M A} (L : Laws S) (F : Nat → M × A) {x y : Nat} (hx : x ≠ 0) (h : Pull S F y) :
    Pull S (pushed S F x) y := by
  unfold Pull at *
  by_cases hy : y = x
  · subst hy
    rw [V_pushed_kid L F hx (by omega), V_pushed_kid L F hx (by omega), ← L.act_mul, ← h]
    simp [pushed]
  · rw [V_pushed L F (by omega), V_pushed L F (by omega), ← h]
    unfold pushed
    rw [if_neg hy]; split <;> rfl

theorem compAt_rep {S : Acts M A} {tree : List (M × A)} {m : Nat} {F : Nat → M × A} (h : Rep tree m F) {i : Nat} (hi : i < m) (e : A) :
    ∃ t', compAt S tree i e = some t' ∧ Rep t' m (upd F i ((F i).1, S.comp e (F i).2)) := by
  obtain ⟨t', e1, h1⟩ := h.wr hi ((F i).1, S.comp e (F i).2)
  exact ⟨t', by simp [compAt, h.val i hi, e1], h1⟩

/-- `_propagate(0)` (reached when `r = size_`) leaves every operator as it acts; here the stored operators at 0 and 1 are
composed with the identity operator. -/
def pushed0 (S : Acts M A) (F : Nat → M × A) : Nat → M × A := fun y =>
  if y = 0 then (S.act S.ida (F 0).1, S.ida) else if y = 1 then ((F 1).1, S.comp (S.comp S.ida S.ida) (F 1).2) else F y

theorem propagate_rep {S : Acts M A} {n : Nat} {tree : List (M × A)} {F : Nat → M × A} (h : Rep tree (2*n) F) (h0 : (F 0).2 = S.ida)
    {x : Nat} (hx : x < 2*n) : ∃ t', propagate S n x tree = some t' ∧ Rep t' (2*n) (if x = 0 then pushed0 S F else pushed S F x) := by
  unfold propagate
  rw [h.val x hx]
  obtain ⟨t1, e1, h1⟩ := h.wr hx (S.act (F x).2 (F x).1, (F x).2)
  simp only [Option.bind_some, e1]
  by_cases hxn : x < n
  · unfold pushKids
    rw [if_pos hxn, h1.val x hx]
    simp only [upd_same, Option.bind_some]
    obtain ⟨t2, e2, h2⟩ := compAt_rep (S := S) h1 (i := x*2) (by omega) (F x).2
    rw [e2, Option.bind_some, h2.val x hx, Option.bind_some]
    obtain ⟨t3, e3, h3⟩ := compAt_rep (S := S) h2 (i := x*2+1) (by omega) (upd (upd F x (S.act (F x).2 (F x).1, (F x).2)) (x * 2)
      ((upd F x (S.act (F x).2 (F x).1, (F x).2) (x * 2)).1, S.comp (F x).2 (upd F x (S.act (F x).2 (F x).1, (F x).2) (x * 2)).2) x).2
    rw [e3, Option.bind_some, h3.val x hx, Option.bind_some]
    obtain ⟨t4, e4, h4⟩ := h3.wr hx ((upd (upd (upd F x (S.act (F x).2 (F x).1, (F x).2)) (x * 2)
            ((upd F x (S.act (F x).2 (F x).1, (F x).2) (x * 2)).1,
              S.comp (F x).2 (upd F x (S.act (F x).2 (F x).1, (F x).2) (x * 2)).2))
          (x * 2 + 1)
          ((upd (upd F x (S.act (F x).2 (F x).1, (F x).2)) (x * 2)
                ((upd F x (S.act (F x).2 (F x).1, (F x).2) (x * 2)).1,
                  S.comp (F x).2 (upd F x (S.act (F x).2 (F x).1, (F x).2) (x * 2)).2)
                (x * 2 + 1)).1,
            S.comp
              (upd (upd F x (S.act (F x).2 (F x).1, (F x).2)) (x * 2)
                  ((upd F x (S.act (F x).2 (F x).1, (F x).2) (x * 2)).1,
                    S.comp (F x).2 (upd F x (S.act (F x).2 (F x).1, (F x).2) (x * 2)).2)
                  x).2
              (upd (upd F x (S.act (F x).2 (F x).1, (F x).2)) (x * 2)
                  ((upd F x (S.act (F x).2 (F x).1, (F x).2) (x * 2)).1,
                    S.comp (F x).2 (upd F x (S.act (F x).2 (F x).1, (F x).2) (x * 2)).2)
                  (x * 2 + 1)).2)
          x).1, S.ida)
    refine ⟨t4, e4, h4.congr ?_⟩
    intro i _
    by_cases hx0 : x = 0
    · subst hx0
      rw [if_pos rfl]
      simp only [upd, pushed0]
      by_cases hi0 : i = 0
      · subst hi0; simp [h0]
      · by_cases hi1 : i = 1
        · subst hi1; simp [h0]
        · simp [hi0, hi1]
    · rw [if_neg hx0]
      have ha : x ≠ x*2 := by omega
      have hb : x ≠ x*2+1 := by omega
      have hc : x*2 ≠ x := by omega
      have hd : x*2+1 ≠ x := by omega
      have hf : x*2+1 ≠ x*2 := by omega
      have hg : (x*2+1)/2 = x := by omega
      have hk : x*2/2 = x := by omega
      simp only [upd, pushed, ha, hb, hc, hd, hf, if_true, if_false]
      by_cases h3 : i = x
      · simp [h3]
      · rw [if_neg h3, if_neg h3]
        by_cases h1 : i = x*2+1
        · subst h1; simp only [hg, hd, hf, if_true, if_false]
        · rw [if_neg h1]
          by_cases h2 : i = x*2
          · subst h2; simp only [hk, hc, if_true, if_false]
          · rw [if_neg h2, if_neg h3, if_neg (by omega)]
  · unfold pushKids
    rw [if_neg hxn, Option.bind_some, h1.val x hx, Option.bind_some]
    obtain ⟨t2, e2, h2⟩ := h1.wr hx ((upd F x (S.act (F x).2 (F x).1, (F x).2) x).1, S.ida)
    refine ⟨t2, e2, h2.congr ?_⟩
    intro i hi
    rw [if_neg (by omega)]
    simp only [upd, pushed]
    by_cases h3 : i = x
    · simp [h3]
    · rw [if_neg h3, if_neg h3, if_neg h3, if_neg (by omega)]

theorem up_pushed0 {S : Acts M A} (L : Laws S) (F : Nat → M × A) : ∀ y m, up S (pushed0 S F) y m = up S F y m := by
  intro y
  induction y using Nat.strongRecOn with
  | ind y ih =>
    intro m
    by_cases h0 : y = 0
    · subst h0; rw [up_zero, up_zero]
    · rw [up_pos _ _ h0, up_pos S F h0, ih (y/2) (by omega)]
      congr 1
      unfold pushed0
      rw [if_neg h0]
      by_cases h1 : y = 1
      · subst h1; simp [L.act_comp, L.act_id]
      · rw [if_neg h1]

theorem V_pushed0 {S : Acts M A} (L : Laws S) (F : Nat → M × A) {y : Nat} (hy : y ≠ 0) : V S (pushed0 S F) y = V S F y := by
  unfold V pushed0
  rw [if_neg hy]
  by_cases h1 : y = 1
  · subst h1; simp [L.act_comp, L.act_id]
  · rw [if_neg h1]

theorem fst_pushed0 {S : Acts M A} (F : Nat → M × A) {y : Nat} (hy : y ≠ 0) : (pushed0 S F y).1 = (F y).1 := by
  unfold pushed0
  rw [if_neg hy]
  split
  · rename_i h; rw [h]
  · rfl

/-- `_propagate` never changes what the client sees. -/
theorem propagate_spec {S : Acts M A} (L : Laws S) {n : Nat} {B : Nat → Prop} {tree : List (M × A)} {F : Nat → M × A} {vs : List M}
    (h : InvF S n B tree F vs) {x : Nat} (hx : x < 2*n) :
    ∃ t', propagate S n x tree = some t' ∧ InvF S n B t' (if x = 0 then pushed0 S F else pushed S F x) vs := by
  obtain ⟨t', e, h'⟩ := propagate_rep h.rep h.zero hx
  refine ⟨t', e, h', ?_, ?_, h.len, ?_⟩
  · by_cases h0 : x = 0
    · rw [if_pos h0]; simp [pushed0]
    · rw [if_neg h0]; unfold pushed; rw [if_neg (by omega), if_neg (by omega)]; exact h.zero
  · intro y hy hyn hB
    have hp := h.pulled y hy hyn hB
    by_cases h0 : x = 0
    · rw [if_pos h0]
      unfold Pull
      rw [V_pushed0 L F (by omega), V_pushed0 L F (by omega), fst_pushed0 F (by omega)]
      exact hp
    · rw [if_neg h0]; exact pull_pushed L F h0 hp
  · intro i hi
    rw [h.val i hi]
    congr 1
    by_cases h0 : x = 0
    · rw [if_pos h0]; unfold D; rw [up_pushed0 L F, fst_pushed0 F (by omega)]
    · rw [if_neg h0, D_pushed L F h0]

/-- Nothing is pending at `y`. -/
def Clean (S : Acts M A) (F : Nat → M × A) (y : Nat) : Prop := ∀ m, S.act (F y).2 m = m

theorem clean_pushed0 {S : Acts M A} (L : Laws S) {F : Nat → M × A} {y : Nat} (h : Clean S F y) : Clean S (pushed0 S F) y := by
  intro m
  unfold pushed0
  by_cases h0 : y = 0
  · subst h0; simp [L.act_id]
  · rw [if_neg h0]
    by_cases h1 : y = 1
    · subst h1; simp [L.act_comp, L.act_id, h m]
    · rw [if_neg h1]; exact h m

theorem clean_pushed_self {S : Acts M A} (L : Laws S) {F : Nat → M × A} (x : Nat) : Clean S (pushed S F x) x := by
  intro m; simp [pushed, L.act_id]

theorem clean_pushed {S : Acts M A} (L : Laws S) {F : Nat → M × A} {x y : Nat} (h : Clean S F y) (hy : y = x ∨ y / 2 ≠ x) :
    Clean S (pushed S F x) y := by
  by_cases hyx : y = x
  · subst hyx; exact clean_pushed_self L y
  · intro m
    unfold pushed
    rw [if_neg hyx, if_neg (by tauto)]
    exact h m

theorem clean_pushed_all {S : Acts M A} (L : Laws S) {F : Nat → M × A} {x : Nat} (h : ∀ y, Clean S F y) (y : Nat) :
    Clean S (pushed S F x) y := by
  by_cases hyx : y = x
  · subst hyx; exact clean_pushed_self L y
  · intro m
    unfold pushed
    rw [if_neg hyx]
    by_cases h2 : y / 2 = x
    · rw [if_pos h2, L.act_comp, h y, h x]
    · rw [if_neg h2]; exact h y m

/-- Walking a list of nodes in nondecreasing order leaves all of them clean. -/
theorem each_spec {S : Acts M A} (L : Laws S) {n : Nat} {B : Nat → Prop} {vs : List M} : ∀ (ids : List Nat) (tree : List (M × A))
    (F : Nat → M × A), InvF S n B tree F vs →
    (∀ x ∈ ids, x < 2*n) → ids.Pairwise (· ≤ ·) → ∀ C : Nat → Prop, (∀ y, C y → Clean S F y) → (∀ y, C y → ∀ x ∈ ids, y ≤ x) →
    ∃ t' F', each (propagate S n) ids tree = some t' ∧ InvF S n B t' F' vs ∧ (∀ y, C y ∨ y ∈ ids → Clean S F' y) ∧
      ((∀ y, Clean S F y) → ∀ y, Clean S F' y) := by
  intro ids
  induction ids with
  | nil =>
    intro tree F h _ _ C hC _
    exact ⟨tree, F, rfl, h, fun y hy => hC y (by simpa using hy), fun h => h⟩
  | cons x ids ih =>
    intro tree F h hlt hs C hC hCle
    rw [List.pairwise_cons] at hs
    obtain ⟨t1, e1, h1⟩ := propagate_spec L h (hlt x (by simp))
    obtain ⟨t', F', e', h', hz', ha'⟩ := ih t1 _ h1 (fun y hy => hlt y (by simp [hy])) hs.2 (fun y => C y ∨ y = x) (by
        intro y hy
        by_cases h0 : x = 0
        · rw [if_pos h0]
          apply clean_pushed0 L
          rcases hy with hy | hy
          · exact hC y hy
          · rw [hy, h0]; intro m; rw [h.zero, L.act_id]
        · rw [if_neg h0]
          rcases hy with hy | hy
          · have := hCle y hy x (by simp)
            exact clean_pushed L (hC y hy) (by omega)
          · subst hy; exact clean_pushed_self L y)
      (by
        intro y hy w hw
        rcases hy with hy | hy
        · exact hCle y hy w (by simp [hw])
        · subst hy; exact hs.1 w hw)
    refine ⟨t', F', by simp [each, e1, e'], h', ?_, ?_⟩
    · intro y hy
      apply hz'
      rcases hy with hy | hy
      · exact Or.inl (Or.inl hy)
      · rw [List.mem_cons] at hy
        rcases hy with hy | hy
        · exact Or.inl (Or.inr hy)
        · exact Or.inr hy
    · intro ha
      apply ha'
      intro y
      by_cases h0 : x = 0
      · rw [if_pos h0]; exact clean_pushed0 L (ha y)
      · rw [if_neg h0]; exact clean_pushed_all L ha y

theorem lazyProp_spec {S : Acts M A} (L : Laws S) {n : Nat} (hn : 2 * n < 2^64) {B : Nat → Prop} {t : Tree M A} {F : Nat → M × A} {vs : List M}
    (hsz : t.size = n) (h : InvF S n B t.tree F vs) {l r : Nat} (hlr : l ≤ r) (hr : r ≤ n) :
    ∃ t' F', lazyProp S t l r = some t' ∧ InvF S n B t' F' vs ∧ (l < r → ∀ y, y ∈ setIds (l+n) (r+n) → Clean S F' y) ∧
      ((∀ y, Clean S F y) → ∀ y, Clean S F' y) := by
  unfold lazyProp
  by_cases heq : l = r
  · rw [if_pos heq]
    exact ⟨t.tree, F, rfl, h, fun h => by omega, fun h => h⟩
  rw [if_neg heq, hsz]
  obtain ⟨t', z', e, h', hz, ha⟩ := each_spec L (setIds (l+n) (r+n)).reverse t.tree F h
    (by
      intro x hx
      rw [List.mem_reverse] at hx
      have := lt_of_mem (by omega) (by omega) (by omega) hx
      omega)
    (by
      rw [List.pairwise_reverse]
      exact setIds_sorted (by omega) (by omega))
    (fun _ => False) (by simp) (by simp)
  exact ⟨t', z', e, h', fun _ y hy => hz y (Or.inr (by simpa using hy)), ha⟩

theorem up_clean {S : Acts M A} {F : Nat → M × A} : ∀ x v, (∀ m, 0 < x / 2^m → Clean S F (x / 2^m)) → up S F x v = v := by
  intro x
  induction x using Nat.strongRecOn with
  | ind x ih =>
    intro v h
    by_cases h0 : x = 0
    · subst h0; exact up_zero S F v
    · have h1 := h 0 (by simp; omega)
      simp only [Nat.pow_zero, Nat.div_one] at h1
      rw [up_pos S F h0, h1, ih (x/2) (by omega) _ (by
        intro m hm
        rw [div_succ_pow] at hm ⊢
        exact h (m+1) hm)]

theorem up_mul {S : Acts M A} (L : Laws S) {F : Nat → M × A} : ∀ x a b, up S F x (a * b) = up S F x a * up S F x b := by
  intro x
  induction x using Nat.strongRecOn with
  | ind x ih =>
    intro a b
    by_cases h0 : x = 0
    · subst h0; simp only [up_zero]
    · simp only [up_pos S F h0, L.act_mul, ih (x/2) (by omega)]

/-- The product of the leaves below a node. -/
theorem node_prod {S : Acts M A} (L : Laws S) {n : Nat} {tree : List (M × A)} {F : Nat → M × A} {vs : List M}
    (h : InvF S n (fun _ => False) tree F vs) : ∀ k x, 0 < n → n ≤ x * 2^k → (x+1) * 2^k ≤ 2*n →
    segProd vs (x * 2^k - n) ((x+1) * 2^k - n) = up S F (x/2) (V S F x) := by
  intro k
  induction k with
  | zero =>
    intro x h0 h1 h2
    simp only [Nat.pow_zero, Nat.mul_one] at h1 h2 ⊢
    rw [show x + 1 - n = x - n + 1 by omega, segProd_one vs (h.val (x-n) (by omega)), show n + (x - n) = x by omega,
      D_eq S F (by omega)]
  | succ k ih =>
    intro x h0 h1 h2
    have hp := Nat.two_pow_pos k
    have e1 : x * 2^(k+1) = 2*x * 2^k := by rw [Nat.pow_succ]; ring
    have e2 : (x+1) * 2^(k+1) = (2*x+1+1) * 2^k := by rw [Nat.pow_succ]; ring
    have e3 : (2*x+1) * 2^k = 2*x * 2^k + 2^k := by ring
    have e4 : (2*x+1+1) * 2^k = 2*x * 2^k + 2 * 2^k := by ring
    rw [e1] at h1
    rw [e2] at h2
    have hx0 : x ≠ 0 := by
      rintro rfl
      simp at h1; omega
    have hxn : x < n := by
      have : 2*x+1+1 ≤ (2*x+1+1) * 2^k := Nat.le_mul_of_pos_right _ hp
      omega
    have i1 := ih (2*x) h0 h1 (by omega)
    have i2 := ih (2*x+1) h0 (by omega) h2
    rw [show 2*x/2 = x by omega] at i1
    rw [show (2*x+1)/2 = x by omega] at i2
    rw [e1, e2, ← segProd_append vs (m := (2*x+1) * 2^k - n) (by omega) (by omega), i1, i2, ← up_mul L,
      ← h.pulled x (by omega) hxn (fun h => h), up_pos S F hx0]
    rfl

/-- Effect of `second[c] *= e` when nothing is pending above `c`. -/
theorem up_upd_anc {S : Acts M A} (L : Laws S) {F : Nat → M × A} {c : Nat} (hc : c ≠ 0) (hup : ∀ v, up S F (c/2) v = v) (e : A) (w : M) :
    ∀ k y v, y / 2^k = c → up S (upd F c (w, S.comp e (F c).2)) y v = S.act e (up S F y v) := by
  have hbase : ∀ y v, y < c → up S (upd F c (w, S.comp e (F c).2)) y v = up S F y v := by
    intro y
    induction y using Nat.strongRecOn with
    | ind y ih =>
      intro v hy
      by_cases h0 : y = 0
      · subst h0; rw [up_zero, up_zero]
      · rw [up_pos _ _ h0, up_pos S F h0, upd_ne _ _ (by omega), ih (y/2) (by omega) _ (by omega)]
  intro k
  induction k with
  | zero =>
    intro y v hy
    simp at hy
    subst hy
    rw [up_pos _ _ hc, up_pos S F hc, upd_same, hbase (y/2) _ (by omega), hup, hup, L.act_comp]
  | succ k ih =>
    intro y v hy
    by_cases hyc : y = c
    · exfalso
      have : y / 2^(k+1) ≤ y / 2 := by rw [← div_succ_pow]; exact Nat.div_le_self _ _
      omega
    · have hy0 : y ≠ 0 := by
        rintro rfl
        simp at hy; exact hc hy.symm
      rw [up_pos _ _ hy0, up_pos S F hy0, upd_ne _ _ hyc, ih (y/2) _ (by rw [div_succ_pow]; exact hy)]

theorem up_upd_other {S : Acts M A} {F : Nat → M × A} {c : Nat} (w : M × A) : ∀ y v, (∀ k, y / 2^k ≠ c) →
    up S (upd F c w) y v = up S F y v := by
  intro y
  induction y using Nat.strongRecOn with
  | ind y ih =>
    intro v h
    by_cases h0 : y = 0
    · subst h0; rw [up_zero, up_zero]
    · have h1 := h 0
      simp only [Nat.pow_zero, Nat.div_one] at h1
      rw [up_pos _ _ h0, up_pos S F h0, upd_ne _ _ h1, ih (y/2) (by omega) _ (by
        intro k; rw [div_succ_pow]; exact h (k+1))]

/-- Replacing only a product (not an operator) does not change paths. -/
theorem up_upd_fst {S : Acts M A} {F : Nat → M × A} {c : Nat} (w : M) : ∀ y v, up S (upd F c (w, (F c).2)) y v = up S F y v := by
  intro y
  induction y using Nat.strongRecOn with
  | ind y ih =>
    intro v
    by_cases h0 : y = 0
    · subst h0; rw [up_zero, up_zero]
    · rw [up_pos _ _ h0, up_pos S F h0, ih (y/2) (by omega)]
      congr 2
      by_cases hy : y = c
      · subst hy; rw [upd_same]
      · rw [upd_ne _ _ hy]

end Verif.LazySegTree
