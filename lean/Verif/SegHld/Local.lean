import Verif.SegHld.Build
import Mathlib.Algebra.Group.Opposite
import Mathlib.Algebra.Group.Prod
import Mathlib.Algebra.BigOperators.Group.List.Basic
/-!
Local invariants of the nodes and the primitive steps (`_propagate`, `take`, `set` of a node).

The pair of a product and the reversed product is one element of `M × Mᵐᵒᵖ`.
-/
namespace Verif.SegHld
open MulOpposite

variable {M A : Type} [Monoid M]

/-- What the operator type must satisfy; `a()` may only be false for operators acting as the identity. -/
structure Laws (S : Acts M A) : Prop where
  act_id : ∀ m, S.act S.ida m = m
  act_comp : ∀ f g m, S.act (S.comp f g) m = S.act f (S.act g m)
  act_mul : ∀ f a b, S.act f (a * b) = S.act f a * S.act f b
  triv : ∀ f m, S.nontriv f = false → S.act f m = m

/-- A value with its reversal. -/
def emb (x : M) : M × Mᵐᵒᵖ := (x, op x)

/-- Product and reversed product of `f l, ..., f (r-1)`. -/
def prodV (f : Nat → M) (l r : Nat) : M × Mᵐᵒᵖ := ((List.range' l (r - l)).map (fun j => emb (f j))).prod

/-- Componentwise action. -/
def actW (S : Acts M A) (a : A) (w : M × Mᵐᵒᵖ) : M × Mᵐᵒᵖ := (S.act a w.1, op (S.act a w.2.unop))

theorem actW_mul {S : Acts M A} (L : Laws S) (a : A) (x y : M × Mᵐᵒᵖ) : actW S a (x * y) = actW S a x * actW S a y := by
  unfold actW
  simp [L.act_mul]

theorem actW_comp {S : Acts M A} (L : Laws S) (f g : A) (x : M × Mᵐᵒᵖ) : actW S (S.comp f g) x = actW S f (actW S g x) := by
  simp [actW, L.act_comp]

/-- `a` acts as the identity. -/
def Triv (S : Acts M A) (a : A) : Prop := ∀ x, S.act a x = x

theorem Triv.actW {S : Acts M A} {a : A} (h : Triv S a) (w : M × Mᵐᵒᵖ) : actW S a w = w := by
  unfold SegHld.actW
  rw [h, h]; rfl

theorem actW_emb (S : Acts M A) (a : A) (x : M) : actW S a (emb x) = emb (S.act a x) := rfl

theorem prodV_append (f : Nat → M) {l m r : Nat} (h1 : l ≤ m) (h2 : m ≤ r) : prodV f l m * prodV f m r = prodV f l r := by
  unfold prodV
  rw [← List.prod_append, ← List.map_append]
  congr 2
  rw [show r - l = (m - l) + (r - m) by omega, ← List.range'_append_1, show l + (m - l) = m by omega]

theorem prodV_one (f : Nat → M) (l : Nat) : prodV f l (l+1) = emb (f l) := by
  unfold prodV
  rw [show l + 1 - l = 1 by omega]
  simp

theorem prodV_nil (f : Nat → M) {l r : Nat} (h : r ≤ l) : prodV f l r = 1 := by
  unfold prodV
  rw [show r - l = 0 by omega]
  simp

theorem prodV_congr {f g : Nat → M} {l r : Nat} (h : ∀ j, l ≤ j → j < r → f j = g j) : prodV f l r = prodV g l r := by
  unfold prodV
  congr 1
  apply List.map_congr_left
  intro j hj
  rw [List.mem_range'_1] at hj
  rw [h j hj.1 (by omega)]

theorem prodV_act {S : Acts M A} (L : Laws S) (a : A) (f : Nat → M) (l : Nat) : ∀ r, l < r → actW S a (prodV f l r) = prodV (fun j => S.act a (f j)) l r := by
  intro r
  induction r with
  | zero => intro h; omega
  | succ r ih =>
    intro h
    rcases Nat.lt_or_ge l r with h1 | h1
    · rw [← prodV_append f (show l ≤ r by omega) (Nat.le_succ r), ← prodV_append (fun j => S.act a (f j)) (show l ≤ r by omega) (Nat.le_succ r), actW_mul L, ih h1, prodV_one, prodV_one]
      rfl
    · have : l = r := by omega
      subst this
      rw [prodV_one, prodV_one]; rfl

/-! ### Local invariants -/

/-- The nodes: shape, values, operators. -/
def nd (sh : Nat → Shp) (vv : Nat → M × Mᵐᵒᵖ) (aa : Nat → A) (i : Nat) : Node M A := ⟨sh i, (vv i).1, (vv i).2.unop, aa i⟩

/-- `e k j` is the value of index `j` as seen from node `k` (operators of `k` and below applied).  The relation of a node to its children. -/
def LocE (S : Acts M A) (sh : Nat → Shp) (aa : Nat → A) (e : Nat → Nat → M) (k : Nat) : Prop :=
  ∀ c, (sh k).lc = some c ∨ (sh k).rc = some c → ∀ j, Has sh c j → e k j = S.act (aa k) (e c j)

/-- The value of a node. -/
def LocV (S : Acts M A) (N : Nat) (sh : Nat → Shp) (vv : Nat → M × Mᵐᵒᵖ) (aa : Nat → A) (e : Nat → Nat → M) (k : Nat) : Prop :=
  (Leaf (sh k) → ∃ x, vv k = emb x ∧ e k (sh k).l = S.act (aa k) x) ∧
  ∀ a b, Inner N sh k a b → vv k = prodV (e a) (sh a).l (sh a).r * prodV (e b) (sh b).l (sh b).r

theorem Inner.not_leaf {N : Nat} {sh : Nat → Shp} {i a b : Nat} (h : Inner N sh i a b) : ¬ Leaf (sh i) := by
  intro hl
  have := h.lc
  rw [hl.2.1] at this
  cases this

/-- The value of a node with its own operator is the product over its range. -/
theorem full {S : Acts M A} (L : Laws S) {n N : Nat} {sh : Nat → Shp} (w : WF n N sh) {vv : Nat → M × Mᵐᵒᵖ} {aa : Nat → A} {e : Nat → Nat → M} {k : Nat} (hk : k < N)
    (hE : LocE S sh aa e k) (hV : LocV S N sh vv aa e k) : actW S (aa k) (vv k) = prodV (e k) (sh k).l (sh k).r := by
  rcases w.fin k hk with hl | ⟨a, b, hi⟩
  · obtain ⟨x, h1, h2⟩ := hV.1 hl
    rw [h1, hl.1, prodV_one, h2]; rfl
  · have h1 := hi.ia; have h2 := hi.ab; have h3 := hi.bN; have h4 := hi.al; have h5 := hi.am; have h6 := hi.br
    have ra := w.rng a (by omega)
    have rb := w.rng b (by omega)
    rw [hV.2 a b hi, actW_mul L, prodV_act L _ _ _ _ ra.1, prodV_act L _ _ _ _ rb.1, ← h4, ← h6, ← prodV_append (e k) (show (sh a).l ≤ (sh a).r by omega) (by omega)]
    congr 1
    · exact prodV_congr (fun j q1 q2 => (hE a (Or.inl hi.lc) j ⟨q1, q2⟩).symm)
    · rw [h5]
      exact prodV_congr (fun j q1 q2 => (hE b (Or.inr hi.rc) j ⟨q1, q2⟩).symm)

theorem full_triv {S : Acts M A} (L : Laws S) {n N : Nat} {sh : Nat → Shp} (w : WF n N sh) {vv : Nat → M × Mᵐᵒᵖ} {aa : Nat → A} {e : Nat → Nat → M} {k : Nat} (hk : k < N)
    (hE : LocE S sh aa e k) (hV : LocV S N sh vv aa e k) (ht : Triv S (aa k)) : vv k = prodV (e k) (sh k).l (sh k).r := by
  rw [← full L w hk hE hV, ht.actW]

/-! ### Primitive steps -/

theorem compAt_ok {S : Acts M A} {N : Nat} {sh : Nat → Shp} {vv : Nat → M × Mᵐᵒᵖ} {aa : Nat → A} {t : List (Node M A)} (R : Rep t N (nd sh vv aa)) {c : Nat} (hc : c < N) (a : A) :
    ∃ t', compAt S (some c) a t = some t' ∧ Rep t' N (nd sh vv (upd aa c (S.comp a (aa c)))) := by
  obtain ⟨t', h1, h2⟩ := R.wr hc { nd sh vv aa c with a := S.comp a (aa c) }
  refine ⟨t', by unfold compAt; rw [Option.bind_some, R.val c hc, Option.bind_some]; exact h1, h2.congr ?_⟩
  intro i _
  by_cases e : i = c
  · subst e; rw [upd_same]; simp [nd, upd_same]
  · rw [upd_ne _ _ e]; simp [nd, upd_ne _ _ e]

theorem resetAt_ok {S : Acts M A} {N : Nat} {sh : Nat → Shp} {vv : Nat → M × Mᵐᵒᵖ} {aa : Nat → A} {t : List (Node M A)} (R : Rep t N (nd sh vv aa)) {c : Nat} (hc : c < N) :
    ∃ t', resetAt S c t = some t' ∧ Rep t' N (nd sh vv (upd aa c S.ida)) := by
  obtain ⟨t', h1, h2⟩ := R.wr hc { nd sh vv aa c with a := S.ida }
  refine ⟨t', by unfold resetAt; rw [R.val c hc, Option.bind_some]; exact h1, h2.congr ?_⟩
  intro i _
  by_cases e : i = c
  · subst e; rw [upd_same]; simp [nd, upd_same]
  · rw [upd_ne _ _ e]; simp [nd, upd_ne _ _ e]

theorem takeAt_ok {N : Nat} {sh : Nat → Shp} {vv : Nat → M × Mᵐᵒᵖ} {aa : Nat → A} {t : List (Node M A)} (R : Rep t N (nd sh vv aa)) {u a b : Nat} (hi : Inner N sh u a b) :
    ∃ t', takeAt u t = some t' ∧ Rep t' N (nd sh (upd vv u (vv a * vv b)) aa) := by
  have h1 := hi.ia; have h2 := hi.ab; have h3 := hi.bN
  obtain ⟨t', g1, g2⟩ := R.wr (i := u) (by omega) ((nd sh vv aa u).take (nd sh vv aa a) (nd sh vv aa b))
  refine ⟨t', ?_, g2.congr ?_⟩
  · unfold takeAt
    rw [R.val u (by omega), Option.bind_some]
    have e1 : (nd sh vv aa u).s.lc = some a := hi.lc
    have e2 : (nd sh vv aa u).s.rc = some b := hi.rc
    rw [e1, Option.bind_some, e2, Option.bind_some, R.val a (by omega), Option.bind_some, R.val b (by omega), Option.bind_some]
    exact g1
  · intro i _
    by_cases e : i = u
    · subst e; rw [upd_same]; simp [nd, upd_same, Node.take]
    · rw [upd_ne _ _ e]; simp [nd, upd_ne _ _ e]

theorem setAt_ok {N : Nat} {sh : Nat → Shp} {vv : Nat → M × Mᵐᵒᵖ} {aa : Nat → A} {t : List (Node M A)} (R : Rep t N (nd sh vv aa)) {u : Nat} (hu : u < N) (x : M) :
    ∃ t', setAt u x t = some t' ∧ Rep t' N (nd sh (upd vv u (emb x)) aa) := by
  obtain ⟨t', g1, g2⟩ := R.wr hu ((nd sh vv aa u).set x)
  refine ⟨t', ?_, g2.congr ?_⟩
  · unfold setAt
    rw [R.val u hu, Option.bind_some]; exact g1
  · intro i _
    by_cases e : i = u
    · subst e; rw [upd_same]; simp [nd, upd_same, Node.set, emb]
    · rw [upd_ne _ _ e]; simp [nd, upd_ne _ _ e]

theorem child_of {n N : Nat} {sh : Nat → Shp} (w : WF n N sh) {k c : Nat} (hk : k < N) (h : (sh k).lc = some c ∨ (sh k).rc = some c) : c < N ∧ (sh c).p = some k ∧ k < c ∧ (∀ j, Has sh c j → Has sh k j) := by
  rcases w.fin k hk with hl | ⟨a, b, hi⟩
  · rcases h with h | h
    · rw [hl.2.1] at h; cases h
    · rw [hl.2.2] at h; cases h
  · have h1 := hi.ia; have h2 := hi.ab; have h3 := hi.bN
    rcases h with h | h
    · rw [hi.lc] at h; cases h; exact ⟨by omega, hi.ap, h1, fun j hj => hj.up w hi (Or.inl rfl)⟩
    · rw [hi.rc] at h; cases h; exact ⟨by omega, hi.bp, by omega, fun j hj => hj.up w hi (Or.inr rfl)⟩

/-- `_propagate`: the values seen from every node but the children are unchanged, and the node has no pending operator afterwards. -/
theorem propagate_ok {S : Acts M A} (L : Laws S) {n N : Nat} {sh : Nat → Shp} (w : WF n N sh) {vv : Nat → M × Mᵐᵒᵖ} {aa : Nat → A} {e : Nat → Nat → M} {t : List (Node M A)}
    (R : Rep t N (nd sh vv aa)) {u : Nat} (hu : u < N) :
    ∃ t' vv' aa' e', propagate S u t = some t' ∧ Rep t' N (nd sh vv' aa') ∧ Triv S (aa' u) ∧ (∀ k, k < N → LocE S sh aa e k → LocE S sh aa' e' k) ∧
      (∀ k, k < N → LocV S N sh vv aa e k → LocV S N sh vv' aa' e' k) ∧ (∀ k, k < N → (sh k).p ≠ some u → e' k = e k) ∧
      (∀ k, k < N → k ≠ u → (sh k).p ≠ some u → aa' k = aa k) ∧ (∀ k, k ≠ u → vv' k = vv k) := by
  unfold propagate
  rw [R.val u hu, Option.bind_some]
  by_cases hn : S.nontriv (nd sh vv aa u).a = true
  · rw [if_pos hn]
    obtain ⟨t1, w1, r1⟩ := R.wr hu { nd sh vv aa u with m := S.act (aa u) (vv u).1, rm := S.act (aa u) (vv u).2.unop }
    have r1' : Rep t1 N (nd sh (upd vv u (actW S (aa u) (vv u))) aa) := r1.congr (by
      intro i _
      by_cases e : i = u
      · subst e; rw [upd_same]; simp [nd, upd_same, actW]
      · rw [upd_ne _ _ e]; simp [nd, upd_ne _ _ e])
    have w1' : wr t u { nd sh vv aa u with m := S.act (nd sh vv aa u).a (nd sh vv aa u).m, rm := S.act (nd sh vv aa u).a (nd sh vv aa u).rm } = some t1 := w1
    rw [w1', Option.bind_some]
    unfold pushKids
    rcases w.fin u hu with hl | ⟨a, b, hi⟩
    · have hnk : ∀ k, k < N → (sh k).p ≠ some u := by
        intro k hk hp
        have h0 : 0 < k := by
          rcases Nat.eq_zero_or_pos k with h | h
          · subst h; rw [w.root.2.2] at hp; cases hp
          · exact h
        obtain ⟨q, a, b, g1, g2, g3, g4⟩ := w.parent hk h0
        rw [hp] at g2; cases g2
        exact g3.not_leaf hl
      rw [if_neg (by have := hl.1; show ¬ (sh u).r - (sh u).l > 1; omega), Option.bind_some]
      obtain ⟨t2, w2, r2⟩ := resetAt_ok (S := S) r1' hu
      refine ⟨t2, _, _, e, w2, r2, ?_, ?_, ?_, fun _ _ _ => rfl, fun k _ h _ => upd_ne _ _ h, fun k h => upd_ne _ _ h⟩
      · rw [upd_same]; exact L.act_id
      · intro k hk hE c hc j hj
        have hku : k ≠ u := by
          rintro rfl
          rcases hc with hc | hc
          · rw [hl.2.1] at hc; cases hc
          · rw [hl.2.2] at hc; cases hc
        rw [upd_ne _ _ hku]; exact hE c hc j hj
      · intro k hk hV
        by_cases hku : k = u
        · subst hku
          refine ⟨fun _ => ?_, fun a b hi => absurd hl hi.not_leaf⟩
          obtain ⟨x, x1, x2⟩ := hV.1 hl
          exact ⟨S.act (aa k) x, by rw [upd_same, x1]; rfl, by rw [upd_same, L.act_id, x2]⟩
        · refine ⟨fun hl' => ?_, fun a b hi => ?_⟩
          · rw [upd_ne _ _ hku, upd_ne _ _ hku]; exact hV.1 hl'
          · rw [upd_ne _ _ hku]; exact hV.2 a b hi
    · have h1 := hi.ia; have h2 := hi.ab; have h3 := hi.bN; have h4 := hi.al; have h5 := hi.am; have h6 := hi.br
      have ra := w.rng a (by omega)
      have rb := w.rng b (by omega)
      rw [if_pos (by show (sh u).r - (sh u).l > 1; omega)]
      obtain ⟨t2, w2, r2⟩ := compAt_ok (S := S) r1' (c := a) (by omega) (aa u)
      obtain ⟨t3, w3, r3⟩ := compAt_ok (S := S) r2 (c := b) (by omega) (aa u)
      obtain ⟨t4, w4, r4⟩ := resetAt_ok (S := S) r3 hu
      have e1 : compAt S (nd sh vv aa u).s.lc (nd sh vv aa u).a t1 = some t2 := by
        rw [show (nd sh vv aa u).s.lc = some a from hi.lc]; exact w2
      have e2 : compAt S (nd sh vv aa u).s.rc (nd sh vv aa u).a t2 = some t3 := by
        rw [show (nd sh vv aa u).s.rc = some b from hi.rc]; exact w3
      rw [e1, Option.bind_some, e2, Option.bind_some]
      rw [upd_ne _ _ (show b ≠ a by omega)] at r4
      have hpar : ∀ k, k < N → ((sh k).p = some u ↔ k = a ∨ k = b) := by
        intro k hk
        constructor
        · intro hp
          have h0 : 0 < k := by
            rcases Nat.eq_zero_or_pos k with h | h
            · subst h; rw [w.root.2.2] at hp; cases hp
            · exact h
          obtain ⟨q, a', b', g1, g2, g3, g4⟩ := w.parent hk h0
          rw [hp] at g2; cases g2
          obtain ⟨q1, q2⟩ := hi.unique g3
          rw [q1, q2]; exact g4
        · rintro (rfl | rfl)
          · exact hi.ap
          · exact hi.bp
      have hau : ∀ k, k ≠ u → k ≠ a → k ≠ b → upd (upd (upd aa a (S.comp (aa u) (aa a))) b (S.comp (aa u) (aa b))) u S.ida k = aa k := by
        intro k q1 q2 q3
        rw [upd_ne _ _ q1, upd_ne _ _ q3, upd_ne _ _ q2]
      have hac : ∀ k, k = a ∨ k = b → upd (upd (upd aa a (S.comp (aa u) (aa a))) b (S.comp (aa u) (aa b))) u S.ida k = S.comp (aa u) (aa k) := by
        rintro k (rfl | rfl)
        · rw [upd_ne _ _ (by omega), upd_ne _ _ (by omega), upd_same]
        · rw [upd_ne _ _ (by omega), upd_same]
      refine ⟨t4, _, _, fun k j => if (sh k).p = some u then S.act (aa u) (e k j) else e k j, w4, r4, ?_, ?_, ?_, ?_, ?_, fun k h => upd_ne _ _ h⟩
      · rw [upd_same]; exact L.act_id
      · intro k hk hE c hc j hj
        obtain ⟨c1, c2, c3, -⟩ := child_of w hk hc
        by_cases hku : k = u
        · subst hku
          dsimp only
          rw [upd_same, if_neg (by
            rcases Nat.eq_zero_or_pos k with h | h
            · subst h; rw [w.root.2.2]; simp
            · obtain ⟨q, -, -, g1, g2, -⟩ := w.parent hk h
              rw [g2]; intro h; cases h; omega), if_pos c2, L.act_id]
          exact hE c hc j hj
        · have hcu : (sh c).p ≠ some u := by rw [c2]; intro h; exact hku (Option.some.inj h)
          dsimp only
          by_cases hkc : (sh k).p = some u
          · rw [if_pos hkc, if_neg hcu, hac k ((hpar k hk).1 hkc), L.act_comp, hE c hc j hj]
          · have := fun h => hkc ((hpar k hk).2 h)
            rw [if_neg hkc, if_neg hcu, hau k hku (fun h => this (Or.inl h)) (fun h => this (Or.inr h))]
            exact hE c hc j hj
      · intro k hk hV
        by_cases hku : k = u
        · subst hku
          refine ⟨fun hl => absurd hl hi.not_leaf, fun a' b' hi' => ?_⟩
          obtain ⟨q1, q2⟩ := hi.unique hi'
          subst q1; subst q2
          rw [upd_same, hV.2 a b hi, actW_mul L, prodV_act L _ _ _ _ ra.1, prodV_act L _ _ _ _ rb.1]
          congr 1
          · exact prodV_congr (fun j _ _ => by dsimp only; rw [if_pos hi.ap])
          · exact prodV_congr (fun j _ _ => by dsimp only; rw [if_pos hi.bp])
        · refine ⟨fun hl' => ?_, fun a' b' hi' => ?_⟩
          · obtain ⟨x, x1, x2⟩ := hV.1 hl'
            refine ⟨x, by rw [upd_ne _ _ hku]; exact x1, ?_⟩
            dsimp only
            by_cases hkc : (sh k).p = some u
            · rw [if_pos hkc, hac k ((hpar k hk).1 hkc), L.act_comp, x2]
            · have := fun h => hkc ((hpar k hk).2 h)
              rw [if_neg hkc, hau k hku (fun h => this (Or.inl h)) (fun h => this (Or.inr h))]
              exact x2
          · rw [upd_ne _ _ hku, hV.2 a' b' hi']
            congr 1
            · exact prodV_congr (fun j _ _ => by dsimp only; rw [if_neg (by rw [hi'.ap]; intro h; exact hku (Option.some.inj h))])
            · exact prodV_congr (fun j _ _ => by dsimp only; rw [if_neg (by rw [hi'.bp]; intro h; exact hku (Option.some.inj h))])
      · intro k hk hp
        funext j
        exact if_neg hp
      · intro k hk hku hp
        have := fun h => hp ((hpar k hk).2 h)
        exact hau k hku (fun h => this (Or.inl h)) (fun h => this (Or.inr h))
  · rw [if_neg hn]
    exact ⟨t, vv, aa, e, rfl, R, fun x => L.triv _ x (Bool.eq_false_iff.2 hn), fun _ _ h => h, fun _ _ h => h, fun _ _ _ => rfl, fun _ _ _ _ => rfl, fun _ _ => rfl⟩

end Verif.SegHld
