import Verif.DualSegTree.Props
import Verif.Common.SegCost
/-!
# C151: the number of multiplications made by `DualSegmentTree`
-/
namespace Verif.DualSegTree
open Verif.SegLoop

section
variable {M : Type} [One M] [Mul M]

/-- `propagate` with the number of calls of `*=` (dual_segment_tree.hpp:97-103). -/
def propagateC (n : Nat) (id : Nat) (s : List M × Nat) : Option (List M × Nat) :=
  if n ≤ id then some s else
    (s.1[id]?).bind (fun e =>
      (wr s.1 id 1).bind (fun t1 =>
        (tick (fun i t => mulAt t i e) (id*2) (t1, s.2)).bind (tick (fun i t => mulAt t i e) (id*2+1))))

theorem propagateC_fst (n id : Nat) (s : List M × Nat) : (propagateC n id s).map Prod.fst = propagate n id s.1 := by
  unfold propagateC propagate
  by_cases h : n ≤ id
  · rw [if_pos h, if_pos h]; rfl
  · rw [if_neg h, if_neg h]
    exact bind_same _ (fun e => bind_same _ (fun t1 => bind_fst (tick_fst (fun i t => mulAt t i e) _ (t1, s.2)) (tick_fst (fun i t => mulAt t i e) _)))

theorem propagateC_cost {n id : Nat} {s s' : List M × Nat} (e : propagateC n id s = some s') : s'.2 ≤ s.2 + 2 := by
  unfold propagateC at e
  by_cases h : n ≤ id
  · rw [if_pos h] at e; cases e; omega
  · rw [if_neg h] at e
    simp only [Option.bind_eq_some_iff] at e
    obtain ⟨x, _, t1, _, s1, e1, e2⟩ := e
    have h1 := tick_cost e1
    have h2 := tick_cost e2
    dsimp only at h1
    omega

/-- `lazyProp` with the number of calls of `*=` (dual_segment_tree.hpp:105-110). -/
def lazyPropC (t : Tree M) (l r : Nat) : Option (List M × Nat) :=
  if l = r then some (t.tree, 0) else each (propagateC t.size) (setIds (l + t.size) (r + t.size)).reverse (t.tree, 0)

theorem lazyPropC_fst (t : Tree M) (l r : Nat) : (lazyPropC t l r).map Prod.fst = lazyProp t l r := by
  unfold lazyPropC lazyProp
  by_cases h : l = r
  · rw [if_pos h, if_pos h]; rfl
  · rw [if_neg h, if_neg h]; exact each_fst (propagateC_fst t.size) _ _

theorem lazyPropC_cost {t : Tree M} {l r K : Nat} {s : List M × Nat} (hlr : l ≤ r) (hK : r + t.size < 2^K) (e : lazyPropC t l r = some s) : s.2 ≤ 4 * K := by
  unfold lazyPropC at e
  by_cases h : l = r
  · rw [if_pos h] at e; cases e; exact Nat.zero_le _
  · rw [if_neg h] at e
    have h1 := each_cost (fun i s s' => propagateC_cost) _ _ _ e
    have h2 := setIds_length (show l + t.size ≤ r + t.size by omega) hK
    rw [List.length_reverse] at h1
    dsimp only at h1
    omega

/-- `update` with the number of calls of `*=` (dual_segment_tree.hpp:50-65). -/
def updateC (t : Tree M) (l r : Nat) (e : M) : Option (Tree M × Nat) :=
  if l ≤ r ∧ r ≤ t.size then
    if l = r then some (t, 0) else
      (lazyPropC t l r).bind (fun s1 =>
        (canonLoop (tick (fun i tr => mulAt tr i e)) (tick (fun i tr => mulAt tr i e)) (r + t.size + 1) (l + t.size) (r + t.size) s1).map
          (fun s2 => (⟨t.size, s2.1⟩, s2.2)))
  else none

/-- `set` with the number of calls of `*=` (dual_segment_tree.hpp:70-74). -/
def setC (t : Tree M) (index : Nat) (e : M) : Option (Tree M × Nat) :=
  if index < t.size then
    (lazyPropC t index (index+1)).bind (fun s1 => (wr s1.1 (t.size + index) e).map (fun t2 => (⟨t.size, t2⟩, s1.2)))
  else none

/-- `get` with the number of calls of `*=` (dual_segment_tree.hpp:76-80). -/
def getC (t : Tree M) (index : Nat) : Option ((Tree M × M) × Nat) :=
  if index < t.size then
    (lazyPropC t index (index+1)).bind (fun s1 => (s1.1[t.size + index]?).map (fun x => ((⟨t.size, s1.1⟩, x), s1.2)))
  else none

theorem updateC_fst (t : Tree M) (l r : Nat) (e : M) : (updateC t l r e).map Prod.fst = update t l r e := by
  unfold updateC update
  by_cases h : l ≤ r ∧ r ≤ t.size
  · rw [if_pos h, if_pos h]
    by_cases h' : l = r
    · rw [if_pos h', if_pos h']; rfl
    · rw [if_neg h', if_neg h']
      refine bind_fst (lazyPropC_fst t l r) (fun s => ?_)
      rw [← canonLoop_fst (tick_fst (fun i tr => mulAt tr i e)) (tick_fst (fun i tr => mulAt tr i e)), Option.map_map, Option.map_map]
      rfl
  · rw [if_neg h, if_neg h]; rfl

theorem setC_fst (t : Tree M) (i : Nat) (e : M) : (setC t i e).map Prod.fst = set t i e := by
  unfold setC set
  by_cases h : i < t.size
  · rw [if_pos h, if_pos h]
    refine bind_fst (lazyPropC_fst t i (i+1)) (fun s => ?_)
    rw [Option.map_map]
    rfl
  · rw [if_neg h, if_neg h]; rfl

theorem getC_fst (t : Tree M) (i : Nat) : (getC t i).map Prod.fst = get t i := by
  unfold getC get
  by_cases h : i < t.size
  · rw [if_pos h, if_pos h]
    refine bind_fst (lazyPropC_fst t i (i+1)) (fun s => ?_)
    rw [Option.map_map]
    rfl
  · rw [if_neg h, if_neg h]; rfl

theorem updateC_cost {t : Tree M} {l r K : Nat} {e : M} {s : Tree M × Nat} (hK : 2 * t.size < 2^K) (h : updateC t l r e = some s) : s.2 ≤ 6 * K := by
  unfold updateC at h
  by_cases hc : l ≤ r ∧ r ≤ t.size
  · rw [if_pos hc] at h
    by_cases h' : l = r
    · rw [if_pos h'] at h; cases h; exact Nat.zero_le _
    · rw [if_neg h', Option.bind_eq_some_iff] at h
      obtain ⟨s1, e1, e2⟩ := h
      rw [Option.map_eq_some_iff] at e2
      obtain ⟨s2, e2, rfl⟩ := e2
      have h1 := lazyPropC_cost hc.1 (show r + t.size < 2^K by omega) e1
      have h2 := canonLoop_cost (fun i s s' => tick_cost) (fun i s s' => tick_cost) K _ _ _ _ _ (show r + t.size < 2^K by omega) e2
      dsimp only
      omega
  · rw [if_neg hc] at h; cases h

theorem setC_cost {t : Tree M} {i K : Nat} {e : M} {s : Tree M × Nat} (hK : 2 * t.size < 2^K) (h : setC t i e = some s) : s.2 ≤ 4 * K := by
  unfold setC at h
  by_cases hc : i < t.size
  · rw [if_pos hc, Option.bind_eq_some_iff] at h
    obtain ⟨s1, e1, e2⟩ := h
    rw [Option.map_eq_some_iff] at e2
    obtain ⟨s2, e2, rfl⟩ := e2
    exact lazyPropC_cost (Nat.le_succ i) (by omega) e1
  · rw [if_neg hc] at h; cases h

theorem getC_cost {t : Tree M} {i K : Nat} {s : (Tree M × M) × Nat} (hK : 2 * t.size < 2^K) (h : getC t i = some s) : s.2 ≤ 4 * K := by
  unfold getC at h
  by_cases hc : i < t.size
  · rw [if_pos hc, Option.bind_eq_some_iff] at h
    obtain ⟨s1, e1, e2⟩ := h
    rw [Option.map_eq_some_iff] at e2
    obtain ⟨s2, e2, rfl⟩ := e2
    exact lazyPropC_cost (Nat.le_succ i) (by omega) e1
  · rw [if_neg hc] at h; cases h

theorem two_mul_lt_pow (n : Nat) : 2 * n < 2^(Nat.log2 n + 2) := by
  have : n < 2^(Nat.log2 n + 1) := Nat.lt_log2_self
  rw [Nat.pow_succ]
  omega
end

variable {M : Type} [Monoid M]

/-- The number of multiplications of a whole history. -/
def runC : List (Op M) → Tree M → Option (List M × Nat)
  | [], _ => some ([], 0)
  | .update l r e :: ops, t => (updateC t l r e).bind (fun p => (runC ops p.1).map (fun a => (a.1, p.2 + a.2)))
  | .set i x :: ops, t => (setC t i x).bind (fun p => (runC ops p.1).map (fun a => (a.1, p.2 + a.2)))
  | .get i :: ops, t => (getC t i).bind (fun p => (runC ops p.1.1).map (fun a => (p.1.2 :: a.1, p.2 + a.2)))

/-- C151: on a tree of `n` elements in any state reached by a history (`Inv`, kept by every call: C07), with `L = ⌊log2 n⌋`: `update` multiplies at most `6 (L+2)` times, `set` and `get` at most `4 (L+2)` times. -/
theorem C151_calls {n : Nat} (hn : 2 * n < 2^64) {t : Tree M} {vs : List M} (h : Inv n t vs) :
    (∀ l r e, l ≤ r → r ≤ n → ∃ t' k, updateC t l r e = some (t', k) ∧ update t l r e = some t' ∧ k ≤ 6 * (Nat.log2 n + 2)) ∧
    (∀ i x, i < n → ∃ t' k, setC t i x = some (t', k) ∧ set t i x = some t' ∧ k ≤ 4 * (Nat.log2 n + 2)) ∧
    (∀ i, i < n → ∃ t' v k, getC t i = some ((t', v), k) ∧ get t i = some (t', v) ∧ vs[i]? = some v ∧ k ≤ 4 * (Nat.log2 n + 2)) := by
  have hK : 2 * t.size < 2^(Nat.log2 n + 2) := by rw [h.sz]; exact two_mul_lt_pow n
  refine ⟨fun l r e hlr hr => ?_, fun i x hi => ?_, fun i hi => ?_⟩
  · obtain ⟨t', e', _⟩ := update_spec hn h hlr hr e
    obtain ⟨k, ek⟩ := of_fst (updateC_fst t l r e) e'
    exact ⟨t', k, ek, e', updateC_cost hK ek⟩
  · obtain ⟨t', e', _⟩ := set_spec hn h hi x
    obtain ⟨k, ek⟩ := of_fst (setC_fst t i x) e'
    exact ⟨t', k, ek, e', setC_cost hK ek⟩
  · obtain ⟨t', v, e', hv, _⟩ := get_spec hn h hi
    obtain ⟨k, ek⟩ := of_fst (getC_fst t i) e'
    exact ⟨t', v, k, ek, e', hv, getC_cost hK ek⟩

/-- C151, whole histories: `m` calls that meet their `assert`s on a tree built from `n` elements give the answers of the plain list with at most `6 m (L+2)` multiplications. -/
theorem C151_history {n : Nat} (hn : 2 * n < 2^64) : ∀ (ops : List (Op M)) (t : Tree M) (vs : List M) (ans : List M), Inv n t vs → spec ops vs = some ans →
    ∃ k, runC ops t = some (ans, k) ∧ k ≤ ops.length * (6 * (Nat.log2 n + 2))
  | [], t, vs, ans, _, e => by cases e; exact ⟨0, rfl, Nat.zero_le _⟩
  | op :: ops, t, vs, ans, h, e => by
      have hlen := h.len
      obtain ⟨c1, c2, c3⟩ := C151_calls hn h
      rw [List.length_cons, Nat.succ_mul]
      cases op with
      | update l r x =>
        rw [spec] at e
        by_cases hc : l ≤ r ∧ r ≤ vs.length
        · rw [if_pos hc] at e
          obtain ⟨t', k, ek, eu, hk⟩ := c1 l r x hc.1 (by omega)
          obtain ⟨t2, e2, h2⟩ := update_spec hn h hc.1 (show r ≤ n by omega) x
          obtain rfl : t' = t2 := Option.some.inj (eu.symm.trans e2)
          obtain ⟨k', ek', hk'⟩ := C151_history hn ops t' _ ans h2 e
          exact ⟨k + k', by rw [runC, ek, Option.bind_some, ek']; rfl, by omega⟩
        · rw [if_neg hc] at e; cases e
      | set i x =>
        rw [spec] at e
        by_cases hc : i < vs.length
        · rw [if_pos hc] at e
          obtain ⟨t', k, ek, eu, hk⟩ := c2 i x (by omega)
          obtain ⟨t2, e2, h2⟩ := set_spec hn h (show i < n by omega) x
          obtain rfl : t' = t2 := Option.some.inj (eu.symm.trans e2)
          obtain ⟨k', ek', hk'⟩ := C151_history hn ops t' _ ans h2 e
          exact ⟨k + k', by rw [runC, ek, Option.bind_some, ek']; rfl, by omega⟩
        · rw [if_neg hc] at e; cases e
      | get i =>
        rw [spec, Option.bind_eq_some_iff] at e
        obtain ⟨v, hv, e⟩ := e
        rw [Option.map_eq_some_iff] at e
        obtain ⟨a, e, rfl⟩ := e
        have hi := (List.getElem?_eq_some_iff.1 hv).1
        obtain ⟨t', v', k, ek, eu, hv', hk⟩ := c3 i (by omega)
        obtain rfl : v = v' := Option.some.inj (hv.symm.trans hv')
        obtain ⟨t2, v2, e2, _, h2⟩ := get_spec hn h (show i < n by omega)
        obtain rfl : t' = t2 := congrArg Prod.fst (Option.some.inj (eu.symm.trans e2))
        obtain ⟨k', ek', hk'⟩ := C151_history hn ops t' _ a h2 e
        exact ⟨k + k', by rw [runC, ek, Option.bind_some, ek']; rfl, by omega⟩

/-- C151 for both constructors. -/
theorem C151_from_start (xs : List M) (hn : 2 * xs.length < 2^64) (ops : List (Op M)) (ans : List M) :
    (spec ops xs = some ans → ∃ k, runC ops (ofRange xs) = some (ans, k) ∧ k ≤ ops.length * (6 * (Nat.log2 xs.length + 2))) ∧
    (spec ops (List.replicate xs.length 1) = some ans → ∃ k, runC ops (ofSize xs.length) = some (ans, k) ∧ k ≤ ops.length * (6 * (Nat.log2 xs.length + 2))) :=
  ⟨C151_history hn ops _ _ ans (ofRange_inv xs), C151_history hn ops _ _ ans (ofSize_inv xs.length)⟩

/-- Five elements: `L = 2`, two updates and a `get`. -/
example : runC [.update 1 4 2, .update 0 5 3, .get 2] (ofRange [1, 1, 5, 1, 7]) = some ([30], 31) := by decide

end Verif.DualSegTree
