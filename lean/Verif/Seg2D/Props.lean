import Verif.Seg2D.Model
import Verif.SegTree.Proofs
import Mathlib.Algebra.BigOperators.Intervals
import Mathlib.Algebra.Group.TypeTags.Basic
import Mathlib.Algebra.Group.Nat.Defs
/-!
`SegmentTree2D` answers rectangle queries.
-/
namespace Verif.Seg2D
open Verif.SegTree

variable {M : Type} [CommMonoid M]

/-- The row of values of a node. -/
def rowL (m : Nat) (f : Nat → M) : List M := (List.range m).map f

theorem rowL_len (m : Nat) (f : Nat → M) : (rowL m f).length = m := by simp [rowL]

theorem rowL_get {m : Nat} (f : Nat → M) {j : Nat} (hj : j < m) : (rowL m f)[j]? = some (f j) := by
  unfold rowL
  rw [List.getElem?_map, List.getElem?_range hj]
  rfl

theorem rowL_set {m : Nat} (f : Nat → M) {j : Nat} (hj : j < m) (x : M) : (rowL m f).set j x = rowL m (upd f j x) := by
  refine List.ext_getElem? fun k => ?_
  by_cases hk : k < m
  · rw [rowL_get _ hk]
    by_cases hjk : j = k
    · subst hjk
      rw [List.getElem?_set_self (by rw [rowL_len]; exact hj), upd_same]
    · rw [List.getElem?_set_ne hjk, rowL_get _ hk, upd_ne _ _ (Ne.symm hjk)]
  · rw [List.getElem?_eq_none (by rw [List.length_set, rowL_len]; omega), List.getElem?_eq_none (by rw [rowL_len]; omega)]

theorem segProd_rowL {m : Nat} (f : Nat → M) {l r : Nat} (hlr : l ≤ r) (hr : r ≤ m) : segProd (rowL m f) l r = ∏ j ∈ Finset.Ico l r, f j := by
  induction r, hlr using Nat.le_induction with
  | base => rw [segProd_self, Finset.Ico_self, Finset.prod_empty]
  | succ r hlr ih =>
    rw [← segProd_append _ hlr (Nat.le_succ r), ih (by omega), segProd_one _ (rowL_get f (by omega)), Finset.prod_Ico_succ_top hlr]

/-- The trees hold the functions `R x`. -/
structure Base (n m : Nat) (tb : List (Tree M)) (R : Nat → Nat → M) : Prop where
  len : tb.length = 2 * n
  row : ∀ x, x < 2 * n → ∃ t, tb[x]? = some t ∧ SegTree.Inv t (rowL m (R x))

theorem Base.getAt {n m : Nat} {tb : List (Tree M)} {R : Nat → Nat → M} (h : Base n m tb R) {x j : Nat} (hx : x < 2 * n) (hj : j < m) : getAt tb x j = some (R x j) := by
  obtain ⟨t, e, I⟩ := h.row x hx
  unfold Seg2D.getAt
  rw [e, Option.bind_some, get_spec I (by rw [rowL_len]; exact hj), rowL_get _ hj]

theorem Base.setAt {n m : Nat} {tb : List (Tree M)} {R : Nat → Nat → M} (h : Base n m tb R) {x j : Nat} (hx : x < 2 * n) (hj : j < m) (v : M) :
    ∃ tb', setAt tb x j v = some tb' ∧ Base n m tb' (upd2 R x j v) := by
  obtain ⟨t, e, I⟩ := h.row x hx
  obtain ⟨t', e', I'⟩ := set_inv I (i := j) (by rw [rowL_len]; exact hj) v
  unfold Seg2D.setAt wr
  rw [e, Option.bind_some, e', Option.bind_some, if_pos (by rw [h.len]; exact hx)]
  refine ⟨_, rfl, ⟨by rw [List.length_set, h.len], fun y hy => ?_⟩⟩
  by_cases hyx : y = x
  · subst hyx
    refine ⟨t', List.getElem?_set_self (by rw [h.len]; exact hy), ?_⟩
    rw [rowL_set _ hj] at I'
    have : upd (R y) j v = upd2 R y j v y := by
      funext k
      unfold upd upd2
      simp
    rw [← this]
    exact I'
  · rw [List.getElem?_set_ne (Ne.symm hyx)]
    have : upd2 R x j v y = R y := by
      funext k
      exact upd2_ne _ _ (fun h => hyx h.1)
    rw [this]
    exact h.row y hy

/-- Node `x` is right in column `j`. -/
def Ok (R : Nat → Nat → M) (x j : Nat) : Prop := R x j = R (2*x) j * R (2*x+1) j

theorem Ok.upd {R : Nat → Nat → M} {x j i j' : Nat} {v : M} (h : Ok R x j) (h1 : ¬ (x = i ∧ j = j')) (h2 : ¬ (i / 2 = x ∧ j = j')) : Ok (upd2 R i j' v) x j := by
  unfold Ok at h ⊢
  rw [upd2_ne _ _ h1, upd2_ne _ _ (fun e => h2 ⟨by omega, e.2⟩), upd2_ne _ _ (fun e => h2 ⟨by omega, e.2⟩)]
  exact h

theorem setLoop_ok {n m j : Nat} (hj : j < m) : ∀ (k : Nat) (tb : List (Tree M)) (R : Nat → Nat → M) (i : Nat), i < k → i < n → Base n m tb R →
    (∀ x j', 0 < x → x < n → j' < m → (j' = j → ∀ a, x ≠ i / 2^a) → Ok R x j') →
    ∃ tb' R', setLoop j k tb i = some tb' ∧ Base n m tb' R' ∧ (∀ x, n ≤ x → R' x = R x) ∧ ∀ x j', 0 < x → x < n → j' < m → Ok R' x j' := by
  intro k
  induction k with
  | zero => intro tb R i h; omega
  | succ k ih =>
    intro tb R i hk hi hB h
    rw [setLoop]
    by_cases h0 : i > 0
    · rw [if_pos h0, hB.getAt (by omega) hj, Option.bind_some, hB.getAt (by omega) hj, Option.bind_some]
      obtain ⟨tb1, e1, B1⟩ := hB.setAt (x := i) (by omega) hj (R (i*2) j * R (i*2+1) j)
      rw [e1, Option.bind_some]
      obtain ⟨tb2, R2, e2, B2, l2, o2⟩ := ih tb1 _ (i/2) (by omega) (by omega) B1 (by
        intro x j' h1 h2 h3 h4
        by_cases hx : x = i ∧ j' = j
        · obtain ⟨rfl, rfl⟩ := hx
          unfold Ok
          rw [upd2_same, upd2_ne _ _ (by omega), upd2_ne _ _ (by omega), Nat.mul_comm 2 x]
        · refine (h x j' h1 h2 h3 ?_).upd hx ?_
          · intro hjj a
            cases a with
            | zero => intro e; rw [Nat.pow_zero, Nat.div_one] at e; exact hx ⟨e, hjj⟩
            | succ a =>
              have := h4 hjj a
              rwa [Nat.div_div_eq_div_mul, ← Nat.pow_succ'] at this
          · rintro ⟨e, hjj⟩
            have := h4 hjj 0
            rw [Nat.pow_zero, Nat.div_one] at this
            exact this e.symm)
      refine ⟨tb2, R2, e2, B2, fun x hx => ?_, o2⟩
      rw [l2 x hx]
      funext c
      exact upd2_ne _ _ (by omega)
    · rw [if_neg h0]
      refine ⟨tb, R, rfl, hB, fun _ _ => rfl, fun x j' h1 h2 h3 => h x j' h1 h2 h3 ?_⟩
      intro _ a
      have : i = 0 := by omega
      subst this
      rw [Nat.zero_div]
      omega

/-- The table stands for the matrix `a`. -/
def Inv2 (t : T2 M) (n m : Nat) (a : Nat → Nat → M) : Prop :=
  t.n = n ∧ t.m = m ∧ ∃ R, Base n m t.tb R ∧ (∀ i j, i < n → j < m → R (n+i) j = a i j) ∧ ∀ x j, 0 < x → x < n → j < m → Ok R x j

theorem ofSize_ok (n m : Nat) : Inv2 (ofSize n m : T2 M) n m (fun _ _ => 1) := by
  refine ⟨rfl, rfl, fun _ _ => 1, ⟨?_, fun x hx => ⟨SegTree.ofSize m, ?_, ?_⟩⟩, fun _ _ _ _ => rfl, fun _ _ _ _ _ => (one_mul 1).symm⟩
  · unfold ofSize
    rw [List.length_replicate, Nat.mul_comm]
  · unfold ofSize
    dsimp only
    rw [List.getElem?_replicate, if_pos (by omega)]
  · have : rowL m (fun _ => (1 : M)) = List.replicate m 1 := by
      unfold rowL
      rw [List.map_const', List.length_range]
    rw [this]
    exact ofSize_inv m

theorem set_ok {t : T2 M} {n m : Nat} {a : Nat → Nat → M} (h : Inv2 t n m a) {i j : Nat} (hi : i < n) (hj : j < m) (v : M) :
    ∃ t', set t i j v = some t' ∧ Inv2 t' n m (upd2 a i j v) := by
  obtain ⟨rfl, rfl, R, B, hl, ho⟩ := h
  unfold set
  rw [if_pos ⟨hi, hj⟩]
  obtain ⟨tb1, e1, B1⟩ := B.setAt (x := t.n + i) (by omega) hj v
  rw [e1, Option.bind_some]
  obtain ⟨tb2, R2, e2, B2, l2, o2⟩ := setLoop_ok hj (t.n + i + 1) tb1 _ ((t.n + i)/2) (by omega) (by omega) B1 (by
    intro x j' h1 h2 h3 h4
    refine (ho x j' h1 h2 h3).upd (by omega) ?_
    rintro ⟨e, hjj⟩
    have := h4 hjj 0
    rw [Nat.pow_zero, Nat.div_one] at this
    exact this e.symm)
  rw [e2]
  refine ⟨_, rfl, rfl, rfl, R2, B2, fun i' j' h1 h2 => ?_, o2⟩
  rw [l2 _ (by omega)]
  by_cases hij : i' = i ∧ j' = j
  · obtain ⟨rfl, rfl⟩ := hij
    rw [upd2_same, upd2_same]
  · rw [upd2_ne _ _ (by omega), upd2_ne _ _ hij, hl i' j' h1 h2]

/-- The values of a column range, as one segment tree over the rows. -/
theorem rows_inv {n m : Nat} {R : Nat → Nat → M} {a : Nat → Nat → M} (hl : ∀ i j, i < n → j < m → R (n+i) j = a i j) (ho : ∀ x j, 0 < x → x < n → j < m → Ok R x j) {cl cr : Nat} (hr : cr ≤ m) :
    SegTree.Inv (⟨n, rowL (2*n) (fun x => ∏ j ∈ Finset.Ico cl cr, R x j)⟩ : Tree M) (rowL n (fun i => ∏ j ∈ Finset.Ico cl cr, a i j)) := by
  refine ⟨(rowL_len ..).symm, by rw [rowL_len, rowL_len], ?_, ?_⟩
  · intro i hi
    rw [rowL_len] at hi ⊢
    dsimp only
    rw [rowL_get _ (by omega), rowL_get _ hi]
    refine congrArg some (Finset.prod_congr rfl fun j hj => hl i j hi ?_)
    have := (Finset.mem_Ico.1 hj).2
    omega
  · intro x h0 hx
    rw [rowL_len] at hx
    refine ⟨_, _, rowL_get _ (by omega), rowL_get _ (by omega), ?_⟩
    dsimp only
    rw [rowL_get _ (by omega), ← Finset.prod_mul_distrib]
    refine congrArg some (Finset.prod_congr rfl fun j hj => ho x j h0 hx ?_)
    have := (Finset.mem_Ico.1 hj).2
    omega

theorem queryLoop_eq {tb : List (Tree M)} {cl cr : Nat} {us : List M} (h : ∀ x, rowAt tb cl cr x = us[x]?) : ∀ (k : Nat) (lhs rhs : M) (l r : Nat),
    queryLoop tb cl cr k lhs rhs l r = SegTree.queryLoop us k lhs rhs l r := by
  intro k
  induction k with
  | zero => intros; rfl
  | succ k ih =>
    intro lhs rhs l r
    rw [queryLoop, SegTree.queryLoop]
    have hL : takeL tb cl cr lhs l = SegTree.takeL us lhs l := by unfold takeL SegTree.takeL; rw [h]
    have hR : takeR tb cl cr rhs r = SegTree.takeR us rhs r := by unfold takeR SegTree.takeR; rw [h]
    rw [hL, hR]
    by_cases hlt : l < r
    · rw [if_pos hlt, if_pos hlt]
      simp only [ih, Option.bind_eq_bind]
    · rw [if_neg hlt, if_neg hlt]

theorem query_ok {t : T2 M} {n m : Nat} {a : Nat → Nat → M} (h : Inv2 t n m a) {rl rr cl cr : Nat} (h1 : rl ≤ rr) (h2 : rr ≤ n) (h3 : cl ≤ cr) (h4 : cr ≤ m) :
    query t rl cl rr cr = some (∏ i ∈ Finset.Ico rl rr, ∏ j ∈ Finset.Ico cl cr, a i j) := by
  obtain ⟨rfl, rfl, R, B, hl, ho⟩ := h
  unfold query
  rw [if_pos ⟨by omega, h2, by omega, h4⟩]
  rw [queryLoop_eq (us := rowL (2*t.n) (fun x => ∏ j ∈ Finset.Ico cl cr, R x j)) ?_]
  · have := query_spec (rows_inv hl ho (cl := cl) h4) h1 (by rw [rowL_len]; exact h2)
    rw [segProd_rowL _ h1 h2] at this
    exact this
  · intro x
    unfold rowAt
    by_cases hx : x < 2 * t.n
    · obtain ⟨t', e, I⟩ := B.row x hx
      rw [e, Option.bind_some, query_spec I h3 (by rw [rowL_len]; exact h4), segProd_rowL _ h3 h4, rowL_get _ hx]
    · rw [List.getElem?_eq_none (by rw [B.len]; omega), List.getElem?_eq_none (by rw [rowL_len]; omega)]
      rfl

/-- The plain matrix after a history of assignments. -/
def plain (ops : List (Nat × Nat × M)) : Nat → Nat → M := ops.foldl (fun a op i j => if i = op.1 ∧ j = op.2.1 then op.2.2 else a i j) (fun _ _ => 1)

/-- **C77.** For every size `n × m` and every history of `set` calls within bounds, no operation fails an assertion or accesses memory out of range, and `query(rl, cl, rr, cr)` is the product of
the entries with row in `[rl, rr)` and column in `[cl, cr)`. -/
theorem C77 (n m : Nat) (ops : List (Nat × Nat × M)) (hv : ∀ op ∈ ops, op.1 < n ∧ op.2.1 < m) :
    ∃ t, setAll (ofSize n m) ops = some t ∧ ∀ rl cl rr cr, rl ≤ rr → rr ≤ n → cl ≤ cr → cr ≤ m →
      query t rl cl rr cr = some (∏ i ∈ Finset.Ico rl rr, ∏ j ∈ Finset.Ico cl cr, plain ops i j) := by
  have key : ∀ (ops : List (Nat × Nat × M)) (t : T2 M) (a : Nat → Nat → M), Inv2 t n m a → (∀ op ∈ ops, op.1 < n ∧ op.2.1 < m) →
      ∃ t', setAll t ops = some t' ∧ Inv2 t' n m (ops.foldl (fun a op i j => if i = op.1 ∧ j = op.2.1 then op.2.2 else a i j) a) := by
    intro ops
    induction ops with
    | nil => intro t a h _; exact ⟨t, rfl, h⟩
    | cons op ops ih =>
      intro t a h hv
      obtain ⟨t1, e1, h1⟩ := set_ok h (hv op (List.mem_cons_self ..)).1 (hv op (List.mem_cons_self ..)).2 op.2.2
      obtain ⟨t2, e2, h2⟩ := ih t1 _ h1 (fun o ho => hv o (List.mem_cons_of_mem _ ho))
      exact ⟨t2, by rw [setAll, e1, Option.bind_some, e2], h2⟩
  obtain ⟨t, e, h⟩ := key ops (ofSize n m) _ (ofSize_ok n m) hv
  exact ⟨t, e, fun rl cl rr cr h1 h2 h3 h4 => query_ok h h1 h2 h3 h4⟩

/-! Examples: sums in a 3 × 5 table. -/

def exOps : List (Nat × Nat × Multiplicative Nat) := [(0, 0, .ofAdd 1), (1, 2, .ofAdd 10), (2, 4, .ofAdd 100), (1, 2, .ofAdd 20), (2, 1, .ofAdd 7)]

example := C77 3 5 exOps (by decide)
example : ((setAll (ofSize 3 5) exOps).bind (fun t => query t 1 1 3 4)).map Multiplicative.toAdd = some 27 := by decide +kernel

end Verif.Seg2D
