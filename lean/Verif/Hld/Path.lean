import Verif.Hld.Lca
import Mathlib.Algebra.BigOperators.Group.List.Basic
/-!
`query` and `update`.
-/
namespace Verif.Hld

variable {n r : Nat} {P : Nat → Option Nat} {o : Obj} {IN HD DP CL : Nat → Nat}

/-- The vertices on the way from one end to the other; `l`, `m` are the parts below `c`. -/
def path (incl : Bool) (l : List Nat) (c : Nat) (m : List Nat) : List Nat := l ++ (if incl then [c] else []) ++ m.reverse

/-- The positions of a part of a chain, without the top. -/
theorem seg_tail {x w : Nat} (hle : IN x ≤ IN w) {l : List Nat} (h : (l ++ [x]).map IN = (List.range' (IN x) (IN w + 1 - IN x)).reverse) : l.map IN = (List.range' (IN x + 1) (IN w - IN x)).reverse := by
  rw [show IN w + 1 - IN x = (IN w - IN x) + 1 by omega, List.range'_succ, List.reverse_cons, List.map_append, List.map_singleton] at h
  exact List.append_cancel_right h

/-- Both cases of `include_lca`. -/
theorem seg_incl {x w : Nat} (incl : Bool) (hle : IN x ≤ IN w) {l : List Nat} (h : (l ++ [x]).map IN = (List.range' (IN x) (IN w + 1 - IN x)).reverse) :
    (l ++ (if incl then [x] else [])).map IN = (List.range' (if incl then IN x else IN x + 1) (IN w + 1 - (if incl then IN x else IN x + 1))).reverse := by
  cases incl
  · simp only [Bool.false_eq_true, if_false, List.append_nil]
    rw [seg_tail hle h]
    congr 2
    omega
  · exact h

section
variable {M : Type} [Monoid M] {val a : Nat → M} {Q RQ : Nat → Nat → Option M}

/-- The state of the query: what has been multiplied so far. -/
structure QI (n : Nat) (P : Nat → Option Nat) (val : Nat → M) (e : M) (u0 v0 : Nat) (s : QS M) : Prop where
  u : s.u < n
  v : s.v < n
  um : ∃ l, Up P u0 s.u l ∧ s.um = e * (l.map val).prod
  vm : ∃ m, Up P v0 s.v m ∧ s.vm = (m.reverse.map val).prod * e
  com : Com P u0 v0 s.u s.v

variable (V : View n r P o IN HD DP CL) (T : Tree n r P) (ha : ∀ w, w < n → a (IN w) = val w)

theorem map_val (ha : ∀ w, w < n → a (IN w) = val w) {l : List Nat} (hl : ∀ x ∈ l, x < n) : l.map val = (l.map IN).map a := by
  rw [List.map_map]
  exact List.map_congr_left (fun x hx => (ha x (hl x hx)).symm)

theorem Up.mem_lt {P : Nat → Option Nat} {u c : Nat} {l : List Nat} (T : Tree n r P) (h : Up P u c l) (hu : u < n) : ∀ x ∈ l ++ [c], x < n := by
  induction h with
  | nil u => intro x hx; rw [List.nil_append, List.mem_singleton] at hx; rw [hx]; exact hu
  | cons h t ih =>
    intro x hx
    rw [List.cons_append, List.mem_cons] at hx
    rcases hx with rfl | hx
    · exact hu
    · exact ih (T.par_lt hu h) x hx

include V T ha

theorem segRQ (hRQ : ∀ l r, l ≤ r → r ≤ n → RQ l r = some ((List.range' l (r - l)).reverse.map a).prod) {w p : Nat} (hw : w < n) (hp : P (HD w) = some p) :
    ∃ l, Up P w p l ∧ seg o RQ w = some (l.map val).prod := by
  obtain ⟨h1, h2, _⟩ := V.hd T hw
  obtain ⟨l, l1, l2⟩ := V.segment T hw h1 h2
  refine ⟨l ++ [HD w], l1.snoc hp, ?_⟩
  have hle := (V.nest T hw h1).1
  have hlt := V.lt hw
  unfold seg
  rw [V.head w hw, Option.bind_some, V.inn _ (V.hd_lt T hw), Option.bind_some, V.inn w hw, Option.bind_some, hRQ _ _ (by omega) (by omega), map_val ha (l1.mem_lt T hw), l2]

theorem segQ (hQ : ∀ l r, l ≤ r → r ≤ n → Q l r = some ((List.range' l (r - l)).map a).prod) {w p : Nat} (hw : w < n) (hp : P (HD w) = some p) :
    ∃ l, Up P w p l ∧ seg o Q w = some (l.reverse.map val).prod := by
  obtain ⟨h1, h2, _⟩ := V.hd T hw
  obtain ⟨l, l1, l2⟩ := V.segment T hw h1 h2
  refine ⟨l ++ [HD w], l1.snoc hp, ?_⟩
  have hle := (V.nest T hw h1).1
  have hlt := V.lt hw
  unfold seg
  rw [V.head w hw, Option.bind_some, V.inn _ (V.hd_lt T hw), Option.bind_some, V.inn w hw, Option.bind_some, hQ _ _ (by omega) (by omega), List.map_reverse, map_val ha (l1.mem_lt T hw), l2,
    List.map_reverse, List.reverse_reverse]

theorem uUp_ok (hRQ : ∀ l r, l ≤ r → r ≤ n → RQ l r = some ((List.range' l (r - l)).reverse.map a).prod) {e : M} {u0 v0 : Nat} {s : QS M} (I : QI n P val e u0 v0 s)
    {p : Nat} (hp : P (HD s.u) = some p) (hpn : p < n) (hc : Com P s.u s.v p s.v) : ∃ s', uUp o RQ s = some s' ∧ QI n P val e u0 v0 s' ∧ s'.u = p ∧ s'.v = s.v := by
  obtain ⟨l, l1, l2⟩ := segRQ V T ha hRQ I.u hp
  obtain ⟨l0, k1, k2⟩ := I.um
  unfold uUp
  rw [l2, Option.bind_some, V.up_eq T I.u hp]
  refine ⟨_, rfl, ⟨hpn, I.v, ⟨l0 ++ l, k1.append l1, ?_⟩, I.vm, I.com.trans hc⟩, rfl, rfl⟩
  show s.um * _ = _
  rw [k2, List.map_append, List.prod_append, mul_assoc]

theorem vUp_ok (hQ : ∀ l r, l ≤ r → r ≤ n → Q l r = some ((List.range' l (r - l)).map a).prod) {e : M} {u0 v0 : Nat} {s : QS M} (I : QI n P val e u0 v0 s)
    {p : Nat} (hp : P (HD s.v) = some p) (hpn : p < n) (hc : Com P u0 v0 s.u p) : ∃ s', vUp o Q s = some s' ∧ QI n P val e u0 v0 s' ∧ s'.u = s.u ∧ s'.v = p := by
  obtain ⟨l, l1, l2⟩ := segQ V T ha hQ I.v hp
  obtain ⟨l0, k1, k2⟩ := I.vm
  unfold vUp
  rw [l2, Option.bind_some, V.up_eq T I.v hp]
  refine ⟨_, rfl, ⟨I.u, hpn, I.um, ⟨l0 ++ l, k1.append l1, ?_⟩, hc⟩, rfl, rfl⟩
  show _ * s.vm = _
  rw [k2, List.reverse_append, List.map_append, List.prod_append, mul_assoc]

theorem loopU_ok (hRQ : ∀ l r, l ≤ r → r ≤ n → RQ l r = some ((List.range' l (r - l)).reverse.map a).prod) {e : M} {u0 v0 : Nat} : ∀ (f : Nat) (s : QS M), QI n P val e u0 v0 s → DP s.u < f →
    ∃ s', loopU o RQ f s = some s' ∧ QI n P val e u0 v0 s' ∧ DP s'.u ≤ DP s'.v ∧ s'.v = s.v := by
  intro f
  induction f with
  | zero => intro s _ h; omega
  | succ f ih =>
    intro s I hf
    rw [loopU, V.depth _ I.u, Option.bind_some, V.depth _ I.v, Option.bind_some]
    by_cases h : DP s.u > DP s.v
    · rw [if_pos h]
      obtain ⟨p, _, hp, e', hd, c⟩ := V.up1 T I.u I.v h
      obtain ⟨s', e1, I', h1, h2⟩ := uUp_ok V T ha hRQ I e' hp c
      rw [e1, Option.bind_some]
      obtain ⟨s'', r1, r2, r3, r4⟩ := ih s' I' (by rw [h1]; omega)
      exact ⟨s'', r1, r2, r3, r4.trans h2⟩
    · rw [if_neg h]
      exact ⟨s, rfl, I, by omega, rfl⟩

theorem loopV_ok (hQ : ∀ l r, l ≤ r → r ≤ n → Q l r = some ((List.range' l (r - l)).map a).prod) {e : M} {u0 v0 : Nat} : ∀ (f : Nat) (s : QS M), QI n P val e u0 v0 s → DP s.u ≤ DP s.v → DP s.v < f →
    ∃ s', loopV o Q f s = some s' ∧ QI n P val e u0 v0 s' ∧ DP s'.u = DP s'.v := by
  intro f
  induction f with
  | zero => intro s _ _ h; omega
  | succ f ih =>
    intro s I hle hf
    rw [loopV, V.depth _ I.u, Option.bind_some, V.depth _ I.v, Option.bind_some]
    by_cases h : DP s.u < DP s.v
    · rw [if_pos h]
      obtain ⟨p, _, hp, e', hd, c⟩ := V.up1 T I.v I.u h
      obtain ⟨s', e1, I', h1, h2⟩ := vUp_ok V T ha hQ I e' hp (I.com.trans c.symm)
      rw [e1, Option.bind_some]
      exact ih s' I' (by rw [h1, h2]; omega) (by rw [h2]; omega)
    · rw [if_neg h]
      exact ⟨s, rfl, I, by omega⟩

theorem loopB_ok (hQ : ∀ l r, l ≤ r → r ≤ n → Q l r = some ((List.range' l (r - l)).map a).prod) (hRQ : ∀ l r, l ≤ r → r ≤ n → RQ l r = some ((List.range' l (r - l)).reverse.map a).prod) {e : M} {u0 v0 : Nat} :
    ∀ (f : Nat) (s : QS M), QI n P val e u0 v0 s → DP s.u = DP s.v → DP s.v < f → ∃ s', loopB o Q RQ f s = some s' ∧ QI n P val e u0 v0 s' ∧ HD s'.u = HD s'.v := by
  intro f
  induction f with
  | zero => intro s _ _ h; omega
  | succ f ih =>
    intro s I hle hf
    rw [loopB, V.head _ I.u, Option.bind_some, V.head _ I.v, Option.bind_some]
    by_cases h : HD s.u = HD s.v
    · rw [if_neg (by simpa using h)]
      exact ⟨s, rfl, I, h⟩
    · rw [if_pos h]
      obtain ⟨p, q, _, _, hp, hq, e1, e2, d1, d2, c1, c⟩ := V.up2 T I.u I.v hle h
      obtain ⟨s1, r1, I1, a1, a2⟩ := uUp_ok V T ha hRQ I e1 hp c1
      rw [r1, Option.bind_some]
      obtain ⟨s2, r2, I2, b1, b2⟩ := vUp_ok V T ha hQ I1 (p := q) (by rw [a2]; exact e2) hq (by rw [a1]; exact I.com.trans c)
      rw [r2, Option.bind_some]
      exact ih s2 I2 (by rw [b1, b2, a1]; omega) (by rw [b2]; omega)

theorem finish_ok (hQ : ∀ l r, l ≤ r → r ≤ n → Q l r = some ((List.range' l (r - l)).map a).prod) (hRQ : ∀ l r, l ≤ r → r ≤ n → RQ l r = some ((List.range' l (r - l)).reverse.map a).prod) {e : M} {u0 v0 : Nat}
    (hu0 : u0 < n) (hv0 : v0 < n) (incl : Bool) {s : QS M} (I : QI n P val e u0 v0 s) (hh : HD s.u = HD s.v) :
    ∃ c l m, IsLca P u0 v0 c ∧ Up P u0 c l ∧ Up P v0 c m ∧ finish o Q RQ incl s = some (e * ((path incl l c m).map val).prod * e) := by
  obtain ⟨l0, k1, k2⟩ := I.um
  obtain ⟨m0, j1, j2⟩ := I.vm
  have hui := V.lt I.u
  have hvi := V.lt I.v
  unfold finish
  rw [V.inn _ I.u, Option.bind_some, V.inn _ I.v, Option.bind_some]
  by_cases h : IN s.u < IN s.v
  · rw [if_pos h]
    have anc := V.chain T I.u I.v hh h.le
    obtain ⟨l, l1, l2⟩ := V.segment T I.v anc hh
    refine ⟨s.u, l0, m0 ++ l, ⟨k1.anc, anc.trans j1.anc, fun x h1 h2 => (I.com x h1 h2).1⟩, k1, j1.append l1, ?_⟩
    have l3 := seg_incl incl h.le l2
    have hlt : ∀ x ∈ l ++ (if incl then [s.u] else []), x < n := by
      intro x hx
      refine l1.mem_lt T I.v x ?_
      rw [List.mem_append] at hx ⊢
      rcases hx with hx | hx
      · exact Or.inl hx
      · right
        cases incl
        · cases hx
        · exact hx
    rw [hQ _ _ (by cases incl <;> simp <;> omega) (by omega), Option.map_some]
    have l4 : (List.range' (if incl then IN s.u else IN s.u + 1) (IN s.v + 1 - (if incl then IN s.u else IN s.u + 1))).map a = ((l ++ (if incl then [s.u] else [])).reverse).map val := by
      rw [List.map_reverse, map_val ha hlt, l3, List.map_reverse, List.reverse_reverse]
    rw [l4, k2, j2]
    congr 1
    unfold path
    simp only [List.map_append, List.prod_append, List.reverse_append, mul_assoc]
    cases incl <;> simp
  · rw [if_neg h]
    have anc := V.chain T I.v I.u hh.symm (by omega)
    obtain ⟨l, l1, l2⟩ := V.segment T I.u anc hh.symm
    refine ⟨s.v, l0 ++ l, m0, ⟨anc.trans k1.anc, j1.anc, fun x h1 h2 => (I.com x h1 h2).2⟩, k1.append l1, j1, ?_⟩
    have l3 := seg_incl incl (by omega) l2
    have hlt : ∀ x ∈ l ++ (if incl then [s.v] else []), x < n := by
      intro x hx
      refine l1.mem_lt T I.u x ?_
      rw [List.mem_append] at hx ⊢
      rcases hx with hx | hx
      · exact Or.inl hx
      · right
        cases incl
        · cases hx
        · exact hx
    rw [hRQ _ _ (by cases incl <;> simp <;> omega) (by omega), Option.map_some]
    have l4 : (List.range' (if incl then IN s.v else IN s.v + 1) (IN s.u + 1 - (if incl then IN s.v else IN s.v + 1))).reverse.map a = (l ++ (if incl then [s.v] else [])).map val := by
      rw [map_val ha hlt, l3]
    rw [l4, k2, j2]
    congr 1
    unfold path
    simp only [List.map_append, List.prod_append, mul_assoc]

theorem query_ok (hQ : ∀ l r, l ≤ r → r ≤ n → Q l r = some ((List.range' l (r - l)).map a).prod) (hRQ : ∀ l r, l ≤ r → r ≤ n → RQ l r = some ((List.range' l (r - l)).reverse.map a).prod) (e : M) {u v : Nat}
    (hu : u < n) (hv : v < n) (incl : Bool) :
    ∃ c l m, IsLca P u v c ∧ Up P u c l ∧ Up P v c m ∧ query o e Q RQ incl u v = some (e * ((path incl l c m).map val).prod * e) := by
  have h1 := V.dp_le T hu
  have h2 := V.lt hu
  have h3 := V.dp_le T hv
  have h4 := V.lt hv
  unfold query
  rw [V.n_eq]
  have I0 : QI n P val e u v ⟨u, v, e, e⟩ := ⟨hu, hv, ⟨[], Up.nil u, by simp⟩, ⟨[], Up.nil v, by simp⟩, fun x h1 h2 => ⟨h1, h2⟩⟩
  obtain ⟨s1, e1, I1, d1, q1⟩ := loopU_ok V T ha hRQ (n+1) _ I0 (by show DP u < _; omega)
  rw [e1, Option.bind_some]
  have hb := fun w (hw : w < n) => Nat.lt_succ_of_le (le_trans (V.dp_le T hw) (V.lt hw).le)
  obtain ⟨s2, e2, I2, d2⟩ := loopV_ok V T ha hQ (n+1) _ I1 d1 (hb _ I1.v)
  rw [e2, Option.bind_some]
  obtain ⟨s3, e3, I3, d3⟩ := loopB_ok V T ha hQ hRQ (n+1) _ I2 d2 (hb _ I2.v)
  rw [e3, Option.bind_some]
  exact finish_ok V T ha hQ hRQ hu hv incl I3 d3

end

/-! `update`: the intervals on which it calls `U`. -/

/-- The calls of `U` for a list of intervals. -/
def runU {σ : Type} (U : Nat → Nat → σ → Option σ) : List (Nat × Nat) → σ → Option σ
  | [], x => some x
  | lr :: t, x => (U lr.1 lr.2 x).bind (runU U t)

theorem runU_append {σ : Type} (U : Nat → Nat → σ → Option σ) (s t : List (Nat × Nat)) (x : σ) : runU U (s ++ t) x = (runU U s x).bind (runU U t) := by
  induction s generalizing x with
  | nil => rfl
  | cons a s ih =>
    rw [List.cons_append, runU, runU]
    cases U a.1 a.2 x with
    | none => rfl
    | some y => exact ih y

/-- The positions of the intervals. -/
def cells (segs : List (Nat × Nat)) : List Nat := segs.flatMap (fun lr => List.range' lr.1 (lr.2 - lr.1))

theorem cells_append (s t : List (Nat × Nat)) : cells (s ++ t) = cells s ++ cells t := List.flatMap_append

/-- The intervals handled so far cover the vertices of `l`. -/
structure Cov (n : Nat) (IN : Nat → Nat) (segs : List (Nat × Nat)) (l : List Nat) : Prop where
  ok : ∀ lr ∈ segs, lr.1 ≤ lr.2 ∧ lr.2 ≤ n
  perm : (cells segs).Perm (l.map IN)

theorem Cov.append {s t : List (Nat × Nat)} {l m : List Nat} (a : Cov n IN s l) (b : Cov n IN t m) : Cov n IN (s ++ t) (l ++ m) := by
  refine ⟨fun lr h => ?_, ?_⟩
  · rcases List.mem_append.1 h with h | h
    · exact a.ok lr h
    · exact b.ok lr h
  · rw [cells_append, List.map_append]
    exact a.perm.append b.perm

theorem Cov.congr {s : List (Nat × Nat)} {l m : List Nat} (a : Cov n IN s l) (h : l.Perm m) : Cov n IN s m := ⟨a.ok, a.perm.trans (h.map IN)⟩

variable (V : View n r P o IN HD DP CL) (T : Tree n r P)
include V T

theorem updUp_ok {w p : Nat} (hw : w < n) (hp : P (HD w) = some p) : ∃ lr l, Up P w p l ∧ Cov n IN [lr] l ∧ ∀ {σ : Type} (U : Nat → Nat → σ → Option σ) (x : σ), updUp o U w x = (runU U [lr] x).map (fun x => (p, x)) := by
  obtain ⟨h1, h2, _⟩ := V.hd T hw
  obtain ⟨l, l1, l2⟩ := V.segment T hw h1 h2
  have hle := (V.nest T hw h1).1
  have hlt := V.lt hw
  refine ⟨(IN (HD w), IN w + 1), l ++ [HD w], l1.snoc hp, ⟨?_, ?_⟩, ?_⟩
  · intro lr hlr
    rw [List.mem_singleton] at hlr
    subst hlr
    exact ⟨by show IN (HD w) ≤ IN w + 1; omega, hlt⟩
  · rw [l2]
    unfold cells
    rw [List.flatMap_cons, List.flatMap_nil, List.append_nil]
    exact (List.reverse_perm _).symm
  · intro σ U x
    unfold updUp seg
    rw [V.head w hw, Option.bind_some, V.inn _ (V.hd_lt T hw), Option.bind_some, V.inn w hw, Option.bind_some, Option.bind_some, V.up_eq T hw hp]
    rw [runU]
    cases U (IN (HD w)) (IN w + 1) x <;> rfl

theorem updLift_ok : ∀ (f u v : Nat), u < n → v < n → DP u ≤ DP v → DP v - DP u < f → ∃ v' segs l, v' < n ∧ DP u = DP v' ∧ Up P v v' l ∧ Com P u v u v' ∧ Cov n IN segs l ∧ segs.length + DP u = DP v ∧
    ∀ {σ : Type} (U : Nat → Nat → σ → Option σ) (x : σ), updLift o U f u v x = (runU U segs x).map (fun x => (v', x)) := by
  intro f
  induction f with
  | zero => intro u v _ _ _ h; omega
  | succ f ih =>
    intro u v hu hv hle hf
    by_cases h : DP u < DP v
    · obtain ⟨p, _, hp, e', hd, c⟩ := V.up1 T hv hu h
      obtain ⟨lr, l, l1, l2, l3⟩ := updUp_ok V T hv e'
      obtain ⟨v', segs, m, r1, r2, r3, r4, r5, r5', r6⟩ := ih u p hu hp (by omega) (by omega)
      refine ⟨v', lr :: segs, l ++ m, r1, r2, l1.append r3, (c.symm).trans r4, l2.append r5, by rw [List.length_cons]; omega, ?_⟩
      intro σ U x
      rw [updLift, V.depth u hu, Option.bind_some, V.depth v hv, Option.bind_some, if_pos h, l3 U x, show lr :: segs = [lr] ++ segs from rfl, runU_append]
      cases runU U [lr] x with
      | none => rfl
      | some y => exact r6 U y
    · refine ⟨v, [], [], hv, by omega, Up.nil v, fun x h1 h2 => ⟨h1, h2⟩, ⟨(fun lr h => by cases h), List.Perm.refl _⟩, by rw [List.length_nil]; omega, ?_⟩
      intro σ U x
      rw [updLift, V.depth u hu, Option.bind_some, V.depth v hv, Option.bind_some, if_neg h]
      rfl

theorem updLift2_ok : ∀ (f u v : Nat), u < n → v < n → DP u = DP v → DP v < f → ∃ u' v' segs l m, u' < n ∧ v' < n ∧ HD u' = HD v' ∧ Up P u u' l ∧ Up P v v' m ∧ Com P u v u' v' ∧ Cov n IN segs (l ++ m) ∧ segs.length ≤ 2 * DP v ∧
    ∀ {σ : Type} (U : Nat → Nat → σ → Option σ) (x : σ), updLift2 o U f u v x = (runU U segs x).map (fun x => (u', v', x)) := by
  intro f
  induction f with
  | zero => intro u v _ _ _ h; omega
  | succ f ih =>
    intro u v hu hv hle hf
    by_cases h : HD u = HD v
    · refine ⟨u, v, [], [], [], hu, hv, h, Up.nil u, Up.nil v, fun x h1 h2 => ⟨h1, h2⟩, ⟨(fun lr h => by cases h), List.Perm.refl _⟩, Nat.zero_le _, ?_⟩
      intro σ U x
      rw [updLift2, V.head u hu, Option.bind_some, V.head v hv, Option.bind_some, if_neg (by simpa using h)]
      rfl
    · obtain ⟨p, q, _, _, hp, hq, e1, e2, d1, d2, _, c⟩ := V.up2 T hu hv hle h
      obtain ⟨lr, l, l1, l2, l3⟩ := updUp_ok V T hu e1
      obtain ⟨lr', l', l1', l2', l3'⟩ := updUp_ok V T hv e2
      obtain ⟨u', v', segs, m, m', r1, r2, r3, r4, r5, r6, r7, r7', r8⟩ := ih p q hp hq (by omega) (by omega)
      refine ⟨u', v', ([lr] ++ [lr']) ++ segs, l ++ m, l' ++ m', r1, r2, r3, l1.append r4, l1'.append r5, c.trans r6, ((l2.append l2').append r7).congr ?_, by simp only [List.length_append, List.length_singleton]; omega, ?_⟩
      · rw [List.append_assoc, List.append_assoc]
        refine List.Perm.append_left _ ?_
        rw [← List.append_assoc, ← List.append_assoc]
        exact List.perm_append_comm.append_right _
      · intro σ U x
        rw [updLift2, V.head u hu, Option.bind_some, V.head v hv, Option.bind_some, if_pos h, l3 U x, runU_append, runU_append]
        cases runU U [lr] x with
        | none => rfl
        | some y =>
          rw [Option.map_some, Option.bind_some, l3' U y, Option.bind_some]
          cases runU U [lr'] y with
          | none => rfl
          | some z => exact r8 U z

theorem update2_ok (incl : Bool) {u v : Nat} (hu : u < n) (hv : v < n) (hle : DP u ≤ DP v) : ∃ c l m segs, IsLca P u v c ∧ Up P u c l ∧ Up P v c m ∧ Cov n IN segs (path incl l c m) ∧ segs.length ≤ DP u + DP v + 1 ∧
    ∀ {σ : Type} (U : Nat → Nat → σ → Option σ) (x : σ), update2 o U incl u v x = runU U segs x := by
  have hb := fun w (hw : w < n) => Nat.lt_succ_of_le (le_trans (V.dp_le T hw) (V.lt hw).le)
  have hbv := hb v hv
  obtain ⟨v1, s1, m1, a1, a2, a3, a4, a5, a5', a6⟩ := updLift_ok V T (n+1) u v hu hv hle (by omega)
  obtain ⟨u2, v2, s2, l2, m2, b1, b2, b3, b4, b5, b6, b7, b7', b8⟩ := updLift2_ok V T (n+1) u v1 hu a1 a2 (hb v1 a1)
  have com := a4.trans b6
  have hui := V.lt b1
  have hvi := V.lt b2
  have last : ∀ {x w : Nat} {l : List Nat}, w < n → IN x ≤ IN w → (l ++ [x]).map IN = (List.range' (IN x) (IN w + 1 - IN x)).reverse → Cov n IN [(if incl then IN x else IN x + 1, IN w + 1)] (l ++ (if incl then [x] else [])) := by
    intro x w l hw hxw hl
    have := V.lt hw
    refine ⟨?_, ?_⟩
    · intro lr hlr
      rw [List.mem_singleton] at hlr
      subst hlr
      refine ⟨?_, this⟩
      cases incl <;> simp <;> omega
    · rw [seg_incl incl hxw hl]
      unfold cells
      rw [List.flatMap_cons, List.flatMap_nil, List.append_nil]
      exact (List.reverse_perm _).symm
  have step : ∀ {σ : Type} (U : Nat → Nat → σ → Option σ) (x : σ), update2 o U incl u v x = (runU U (s1 ++ s2) x).bind (fun x => if IN u2 > IN v2 then updLast U incl (IN v2) (IN u2) x else updLast U incl (IN u2) (IN v2) x) := by
    intro σ U x
    unfold update2
    rw [V.n_eq, a6 U x, runU_append]
    cases runU U s1 x with
    | none => rfl
    | some y =>
      rw [Option.map_some, Option.bind_some, Option.bind_some, b8 U y]
      cases runU U s2 y with
      | none => rfl
      | some z =>
        rw [Option.map_some, Option.bind_some, Option.bind_some]
        dsimp only
        rw [V.inn u2 b1, Option.bind_some, V.inn v2 b2, Option.bind_some]
  by_cases h : IN u2 > IN v2
  · have anc := V.chain T b2 b1 b3.symm (by omega)
    obtain ⟨k, k1, k2⟩ := V.segment T b1 anc b3.symm
    have c1 := last b1 (by omega) k2
    refine ⟨v2, l2 ++ k, m1 ++ m2, (s1 ++ s2) ++ [(if incl then IN v2 else IN v2 + 1, IN u2 + 1)], ⟨anc.trans b4.anc, b5.anc.trans a3.anc, fun x h1 h2 => (com x h1 h2).2⟩, b4.append k1, a3.append b5,
      ((a5.append b7).append c1).congr ?_, by simp only [List.length_append, List.length_singleton]; omega, ?_⟩
    · unfold path
      generalize (if incl then [v2] else []) = z
      rw [List.reverse_append]
      calc (m1 ++ (l2 ++ m2) ++ (k ++ z)).Perm ((l2 ++ m2) ++ m1 ++ (k ++ z)) := List.perm_append_comm.append_right _
        _ = l2 ++ (m2 ++ m1 ++ (k ++ z)) := by simp only [List.append_assoc]
        _ |>.Perm (l2 ++ (k ++ z ++ (m2 ++ m1))) := List.perm_append_comm.append_left _
        _ |>.Perm (l2 ++ (k ++ z ++ (m2.reverse ++ m1.reverse))) := ((((List.reverse_perm m2).symm.append (List.reverse_perm m1).symm)).append_left _).append_left _
        _ = l2 ++ k ++ z ++ (m2.reverse ++ m1.reverse) := by simp only [List.append_assoc]
    · intro σ U x
      rw [step U x, runU_append U (s1 ++ s2) [_] x]
      congr 1
      funext y
      rw [if_pos h, runU]
      unfold updLast
      cases U (if incl then IN v2 else IN v2 + 1) (IN u2 + 1) y <;> rfl
  · have anc := V.chain T b1 b2 b3 (by omega)
    obtain ⟨k, k1, k2⟩ := V.segment T b2 anc b3
    have c1 := last b2 (by omega) k2
    refine ⟨u2, l2, (m1 ++ m2) ++ k, (s1 ++ s2) ++ [(if incl then IN u2 else IN u2 + 1, IN v2 + 1)], ⟨b4.anc, anc.trans (b5.anc.trans a3.anc), fun x h1 h2 => (com x h1 h2).1⟩, b4, (a3.append b5).append k1,
      ((a5.append b7).append c1).congr ?_, by simp only [List.length_append, List.length_singleton]; omega, ?_⟩
    · unfold path
      generalize (if incl then [u2] else []) = z
      calc (m1 ++ (l2 ++ m2) ++ (k ++ z)).Perm ((l2 ++ m2) ++ m1 ++ (z ++ k)) := List.perm_append_comm.append List.perm_append_comm
        _ = l2 ++ ((m2 ++ m1) ++ z ++ k) := by simp only [List.append_assoc]
        _ |>.Perm (l2 ++ (z ++ (m1 ++ m2) ++ k)) := (((List.perm_append_comm).trans (List.perm_append_comm.append_left _)).append_right _).append_left _
        _ = l2 ++ z ++ ((m1 ++ m2) ++ k) := by simp only [List.append_assoc]
        _ |>.Perm (l2 ++ z ++ (m1 ++ m2 ++ k).reverse) := (List.reverse_perm _).symm.append_left _
    · intro σ U x
      rw [step U x, runU_append U (s1 ++ s2) [_] x]
      congr 1
      funext y
      rw [if_neg h, runU]
      unfold updLast
      cases U (if incl then IN u2 else IN u2 + 1) (IN v2 + 1) y <;> rfl

theorem update_ok (incl : Bool) {u v : Nat} (hu : u < n) (hv : v < n) : ∃ c l m segs, IsLca P u v c ∧ Up P u c l ∧ Up P v c m ∧ Cov n IN segs (path incl l c m) ∧ segs.length ≤ DP u + DP v + 1 ∧
    ∀ {σ : Type} (U : Nat → Nat → σ → Option σ) (x : σ), update o U incl u v x = runU U segs x := by
  by_cases h : DP u > DP v
  · obtain ⟨c, l, m, segs, i, a, b, cov, len, e⟩ := update2_ok V T incl hv hu h.le
    refine ⟨c, m, l, segs, ⟨i.2.1, i.1, fun x h1 h2 => i.2.2 x h2 h1⟩, b, a, cov.congr ?_, by omega, ?_⟩
    · unfold path
      generalize (if incl then [c] else []) = z
      calc (l ++ z ++ m.reverse).Perm (l.reverse ++ z ++ m) := ((List.reverse_perm l).symm.append_right _).append (List.reverse_perm m)
        _ |>.Perm (m ++ (l.reverse ++ z)) := List.perm_append_comm
        _ |>.Perm (m ++ (z ++ l.reverse)) := List.perm_append_comm.append_left _
        _ = m ++ z ++ l.reverse := by simp only [List.append_assoc]
    · intro σ U x
      unfold update
      rw [V.depth u hu, Option.bind_some, V.depth v hv, Option.bind_some, if_pos h, e U x]
  · obtain ⟨c, l, m, segs, i, a, b, cov, len, e⟩ := update2_ok V T incl hu hv (by omega)
    refine ⟨c, l, m, segs, i, a, b, cov, len, ?_⟩
    intro σ U x
    unfold update
    rw [V.depth u hu, Option.bind_some, V.depth v hv, Option.bind_some, if_neg h, e U x]

end Verif.Hld
