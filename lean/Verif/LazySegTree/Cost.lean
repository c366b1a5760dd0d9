import Verif.LazySegTree.Props
import Verif.Common.SegCost
/-!
# C152: the number of node operations made by `lazy_segment_tree.hpp`

A node operation is a call of `_propagate`, a `tree_[i].second *= e` or a `tree_[i].first = tree_[i*2].first * tree_[i*2+1].first`.  Each makes at most three calls of operators of `M` and `A`.
-/
namespace Verif.LazySegTree
open Verif.SegLoop

section
variable {M A : Type} [One M] [Mul M]

/-- `lazyProp` with the number of calls of `_propagate` (lazy_segment_tree.hpp:145-150). -/
def lazyPropC (S : Acts M A) (t : Tree M A) (l r : Nat) : Option (List (M × A) × Nat) :=
  if l = r then some (t.tree, 0) else each (tick (propagate S t.size)) (setIds (l + t.size) (r + t.size)).reverse (t.tree, 0)

theorem lazyPropC_fst (S : Acts M A) (t : Tree M A) (l r : Nat) : (lazyPropC S t l r).map Prod.fst = lazyProp S t l r := by
  unfold lazyPropC lazyProp
  by_cases h : l = r
  · rw [if_pos h, if_pos h]; rfl
  · rw [if_neg h, if_neg h]; exact each_fst (tick_fst (propagate S t.size)) _ _

theorem lazyPropC_cost {S : Acts M A} {t : Tree M A} {l r K : Nat} {s : List (M × A) × Nat} (hlr : l ≤ r) (hK : r + t.size < 2^K) (e : lazyPropC S t l r = some s) : s.2 ≤ 2 * K := by
  unfold lazyPropC at e
  by_cases h : l = r
  · rw [if_pos h] at e; cases e; exact Nat.zero_le _
  · rw [if_neg h] at e
    have h1 := each_cost (fun i s s' => tick_cost) _ _ _ e
    have h2 := setIds_length (show l + t.size ≤ r + t.size by omega) hK
    rw [List.length_reverse] at h1
    dsimp only at h1
    omega

/-- `fixNode` with its three node operations (lazy_segment_tree.hpp:66-70). -/
def fixNodeC (S : Acts M A) (n id : Nat) (s : List (M × A) × Nat) : Option (List (M × A) × Nat) :=
  (tick (propagate S n) (id*2) s).bind (fun s1 => (tick (propagate S n) (id*2+1) s1).bind (tick (fun i t => pull t i) id))

theorem fixNodeC_fst (S : Acts M A) (n id : Nat) (s : List (M × A) × Nat) : (fixNodeC S n id s).map Prod.fst = fixNode S n id s.1 :=
  bind_fst (tick_fst _ _ s) (fun s1 => bind_fst (tick_fst _ _ s1) (tick_fst (fun i t => pull t i) id))

theorem fixNodeC_cost {S : Acts M A} {n id : Nat} {s s' : List (M × A) × Nat} (e : fixNodeC S n id s = some s') : s'.2 ≤ s.2 + 3 := by
  unfold fixNodeC at e
  simp only [Option.bind_eq_some_iff] at e
  obtain ⟨s1, e1, s2, e2, e3⟩ := e
  have h1 := tick_cost e1
  have h2 := tick_cost e2
  have h3 := tick_cost e3
  omega

/-- `rangeUpdate` with the number of node operations (lazy_segment_tree.hpp:53-71). -/
def rangeUpdateC (S : Acts M A) (t : Tree M A) (l r : Nat) (e : A) : Option (Tree M A × Nat) :=
  if l ≤ r ∧ r ≤ t.size then
    if l = r then some (t, 0) else
      (lazyPropC S t l r).bind (fun s1 =>
        (canonLoop (tick (fun i tr => compAt S tr i e)) (tick (fun i tr => compAt S tr i e)) (r + t.size + 1) (l + t.size) (r + t.size) s1).bind
          (fun s2 => (each (fixNodeC S t.size) (setIds (l + t.size) (r + t.size)) s2).map (fun s3 => (⟨t.size, s3.1⟩, s3.2))))
  else none

theorem rangeUpdateC_fst (S : Acts M A) (t : Tree M A) (l r : Nat) (e : A) : (rangeUpdateC S t l r e).map Prod.fst = rangeUpdate S t l r e := by
  unfold rangeUpdateC rangeUpdate
  by_cases h : l ≤ r ∧ r ≤ t.size
  · rw [if_pos h, if_pos h]
    by_cases h' : l = r
    · rw [if_pos h', if_pos h']; rfl
    · rw [if_neg h', if_neg h']
      refine bind_fst (lazyPropC_fst S t l r) (fun s => bind_fst (canonLoop_fst (tick_fst (fun i tr => compAt S tr i e)) (tick_fst (fun i tr => compAt S tr i e)) _ _ _ s) (fun s2 => ?_))
      rw [← each_fst (fixNodeC_fst S t.size), Option.map_map, Option.map_map]
      rfl
  · rw [if_neg h, if_neg h]; rfl

theorem rangeUpdateC_cost {S : Acts M A} {t : Tree M A} {l r K : Nat} {e : A} {s : Tree M A × Nat} (hK : 2 * t.size < 2^K) (h : rangeUpdateC S t l r e = some s) : s.2 ≤ 10 * K := by
  unfold rangeUpdateC at h
  by_cases hc : l ≤ r ∧ r ≤ t.size
  · rw [if_pos hc] at h
    by_cases h' : l = r
    · rw [if_pos h'] at h; cases h; exact Nat.zero_le _
    · rw [if_neg h', Option.bind_eq_some_iff] at h
      obtain ⟨s1, e1, e2⟩ := h
      rw [Option.bind_eq_some_iff] at e2
      obtain ⟨s2, e2, e3⟩ := e2
      rw [Option.map_eq_some_iff] at e3
      obtain ⟨s3, e3, rfl⟩ := e3
      have hr : r + t.size < 2^K := by omega
      have h1 := lazyPropC_cost hc.1 hr e1
      have h2 := canonLoop_cost (fun i s s' => tick_cost) (fun i s s' => tick_cost) K _ _ _ _ _ hr e2
      have h3 := each_cost (fun i s s' => fixNodeC_cost) _ _ _ e3
      have h4 := setIds_length (show l + t.size ≤ r + t.size by omega) hr
      dsimp only
      omega
  · rw [if_neg hc] at h; cases h

/-- `setLoop` with the number of recomputed nodes (lazy_segment_tree.hpp:84-88). -/
def setLoopC : Nat → Nat → List (M × A) × Nat → Option (List (M × A) × Nat)
  | 0, _, _ => none
  | k+1, u, s => if u > 0 then (tick (fun i t => pull t i) u s).bind (setLoopC k (u / 2)) else some s

theorem setLoopC_fst : ∀ k u (s : List (M × A) × Nat), (setLoopC k u s).map Prod.fst = setLoop k u s.1
  | 0, _, _ => rfl
  | k+1, u, s => by
      rw [setLoopC, setLoop]
      by_cases h : u > 0
      · rw [if_pos h, if_pos h]
        exact bind_fst (tick_fst (fun i t => pull t i) u s) (setLoopC_fst k (u/2))
      · rw [if_neg h, if_neg h]; rfl

theorem setLoopC_cost : ∀ K k u (s s' : List (M × A) × Nat), u < 2^K → setLoopC k u s = some s' → s'.2 ≤ s.2 + K
  | _, 0, _, _, _, _, e => by cases e
  | 0, k+1, u, s, s', h, e => by
      rw [Nat.pow_zero] at h
      rw [setLoopC, if_neg (by omega)] at e
      cases e
      exact Nat.le_refl _
  | K+1, k+1, u, s, s', h, e => by
      rw [setLoopC] at e
      by_cases hu : u > 0
      · rw [if_pos hu, Option.bind_eq_some_iff] at e
        obtain ⟨s1, e1, e2⟩ := e
        have h1 := tick_cost e1
        have h2 := setLoopC_cost K k (u/2) s1 s' (by rw [Nat.pow_succ] at h; omega) e2
        omega
      · rw [if_neg hu] at e
        cases e
        omega

/-- `set` with the number of node operations (lazy_segment_tree.hpp:79-89). -/
def setC (S : Acts M A) (t : Tree M A) (i : Nat) (e : M) : Option (Tree M A × Nat) :=
  (lazyPropC S t i (i+1)).bind (fun s1 => (s1.1[i + t.size]?).bind (fun p =>
    (wr s1.1 (i + t.size) (e, p.2)).bind (fun t2 =>
      (setLoopC (i + t.size + 1) ((i + t.size) / 2) (t2, s1.2)).map (fun s3 => (⟨t.size, s3.1⟩, s3.2)))))

theorem setC_fst (S : Acts M A) (t : Tree M A) (i : Nat) (e : M) : (setC S t i e).map Prod.fst = set S t i e := by
  unfold setC set
  refine bind_fst (lazyPropC_fst S t i (i+1)) (fun s => bind_same _ (fun p => bind_same _ (fun t2 => ?_)))
  rw [← setLoopC_fst _ _ (t2, s.2), Option.map_map, Option.map_map]
  rfl

theorem setC_cost {S : Acts M A} {t : Tree M A} {i K : Nat} {e : M} {s : Tree M A × Nat} (hi : i < t.size) (hK : 2 * t.size < 2^K) (h : setC S t i e = some s) : s.2 ≤ 3 * K := by
  unfold setC at h
  simp only [Option.bind_eq_some_iff, Option.map_eq_some_iff] at h
  obtain ⟨s1, e1, p, _, t2, _, s3, e3, rfl⟩ := h
  have h1 := lazyPropC_cost (Nat.le_succ i) (show i + 1 + t.size < 2^K by omega) e1
  have h2 := setLoopC_cost K _ _ _ _ (show (i + t.size) / 2 < 2^K by omega) e3
  dsimp only at h2 ⊢
  omega

/-- `query` with the number of calls of `_propagate` (lazy_segment_tree.hpp:91-108). -/
def queryC (S : Acts M A) (t : Tree M A) (l r : Nat) : Option ((Tree M A × M) × Nat) :=
  (lazyPropC S t l r).bind (fun s1 =>
    (canonLoop (tick (takeL S t.size)) (tick (takeR S t.size)) (r + t.size + 1) (l + t.size) (r + t.size) ((s1.1, 1, 1), s1.2)).map
      (fun s => ((⟨t.size, s.1.1⟩, s.1.2.1 * s.1.2.2), s.2)))

theorem queryC_fst (S : Acts M A) (t : Tree M A) (l r : Nat) : (queryC S t l r).map Prod.fst = query S t l r := by
  unfold queryC query
  refine bind_fst (lazyPropC_fst S t l r) (fun s => ?_)
  rw [← canonLoop_fst (tick_fst (takeL S t.size)) (tick_fst (takeR S t.size)) _ _ _ ((s.1, 1, 1), s.2), Option.map_map, Option.map_map]
  rfl

theorem queryC_cost {S : Acts M A} {t : Tree M A} {l r K : Nat} {s : (Tree M A × M) × Nat} (hlr : l ≤ r) (hr : r ≤ t.size) (hK : 2 * t.size < 2^K) (h : queryC S t l r = some s) :
    s.2 ≤ 4 * K := by
  unfold queryC at h
  simp only [Option.bind_eq_some_iff, Option.map_eq_some_iff] at h
  obtain ⟨s1, e1, s2, e2, rfl⟩ := h
  have hr' : r + t.size < 2^K := by omega
  have h1 := lazyPropC_cost hlr hr' e1
  have h2 := canonLoop_cost (fun i s s' => tick_cost) (fun i s s' => tick_cost) K _ _ _ _ _ hr' e2
  dsimp only at h2 ⊢
  omega

/-- `get` with the number of calls of `_propagate` (lazy_segment_tree.hpp:114-119). -/
def getC (S : Acts M A) (t : Tree M A) (index : Nat) : Option ((Tree M A × M) × Nat) :=
  (lazyPropC S t index (index+1)).bind (fun s1 =>
    (tick (propagate S t.size) (index + t.size) s1).bind (fun s2 =>
      (s2.1[index + t.size]?).map (fun p => ((⟨t.size, s2.1⟩, p.1), s2.2))))

theorem getC_fst (S : Acts M A) (t : Tree M A) (i : Nat) : (getC S t i).map Prod.fst = get S t i := by
  unfold getC get
  refine bind_fst (lazyPropC_fst S t i (i+1)) (fun s => bind_fst (tick_fst _ _ s) (fun s2 => ?_))
  rw [Option.map_map]
  rfl

theorem getC_cost {S : Acts M A} {t : Tree M A} {i K : Nat} {s : (Tree M A × M) × Nat} (hi : i < t.size) (hK : 2 * t.size < 2^K) (h : getC S t i = some s) : s.2 ≤ 2 * K + 1 := by
  unfold getC at h
  simp only [Option.bind_eq_some_iff, Option.map_eq_some_iff] at h
  obtain ⟨s1, e1, s2, e2, p, _, rfl⟩ := h
  have h1 := lazyPropC_cost (Nat.le_succ i) (show i + 1 + t.size < 2^K by omega) e1
  have h2 := tick_cost e2
  dsimp only
  omega

theorem two_mul_lt_pow (n : Nat) : 2 * n < 2^(Nat.log2 n + 2) := by
  have : n < 2^(Nat.log2 n + 1) := Nat.lt_log2_self
  rw [Nat.pow_succ]
  omega

/-- C152 (any state): whatever the contents of the tree (so also after the calls of `set` that C06 shows to be wrong), a call that returns makes at most the stated number of node operations, where
`L = ⌊log2 size_⌋`. -/
theorem C152_bounds (S : Acts M A) (t : Tree M A) :
    (∀ l r e t', rangeUpdate S t l r e = some t' → ∃ k, rangeUpdateC S t l r e = some (t', k) ∧ k ≤ 10 * (Nat.log2 t.size + 2)) ∧
    (∀ i x t', i < t.size → set S t i x = some t' → ∃ k, setC S t i x = some (t', k) ∧ k ≤ 3 * (Nat.log2 t.size + 2)) ∧
    (∀ l r q, l ≤ r → r ≤ t.size → query S t l r = some q → ∃ k, queryC S t l r = some (q, k) ∧ k ≤ 4 * (Nat.log2 t.size + 2)) ∧
    (∀ i q, i < t.size → get S t i = some q → ∃ k, getC S t i = some (q, k) ∧ k ≤ 2 * (Nat.log2 t.size + 2) + 1) := by
  have hK := two_mul_lt_pow t.size
  refine ⟨fun l r e t' h => ?_, fun i x t' hi h => ?_, fun l r q hlr hr h => ?_, fun i q hi h => ?_⟩
  · obtain ⟨k, ek⟩ := of_fst (rangeUpdateC_fst S t l r e) h
    exact ⟨k, ek, rangeUpdateC_cost hK ek⟩
  · obtain ⟨k, ek⟩ := of_fst (setC_fst S t i x) h
    exact ⟨k, ek, setC_cost hi hK ek⟩
  · obtain ⟨k, ek⟩ := of_fst (queryC_fst S t l r) h
    exact ⟨k, ek, queryC_cost hlr hr hK ek⟩
  · obtain ⟨k, ek⟩ := of_fst (getC_fst S t i) h
    exact ⟨k, ek, getC_cost hi hK ek⟩
end

variable {M A : Type} [Monoid M]

/-- C152 (states of C06): where the tree represents the sequence `vs`, `range_update`, `query` and `get` return, with the right results, within these bounds. -/
theorem C152_returns {S : Acts M A} (L : Laws S) {n : Nat} (hn : 2 * n < 2^64) (hn0 : 0 < n) {cl : Bool} {t : Tree M A} {vs : List M} (h : Inv S n cl t vs) :
    (∀ l r e, l ≤ r → r ≤ n → ∃ t' k, rangeUpdateC S t l r e = some (t', k) ∧ Inv S n false t' (vs.mapIdx (fun i v => if l ≤ i ∧ i < r then S.act e v else v)) ∧ k ≤ 10 * (Nat.log2 n + 2)) ∧
    (∀ l r, l ≤ r → r ≤ n → ∃ t' k, queryC S t l r = some ((t', segProd vs l r), k) ∧ Inv S n cl t' vs ∧ k ≤ 4 * (Nat.log2 n + 2)) ∧
    (∀ i, i < n → ∃ t' v k, getC S t i = some ((t', v), k) ∧ vs[i]? = some v ∧ Inv S n cl t' vs ∧ k ≤ 2 * (Nat.log2 n + 2) + 1) := by
  obtain ⟨c1, c2, c3, c4⟩ := C152_bounds S t
  rw [h.sz] at c1 c2 c3 c4
  refine ⟨fun l r e hlr hr => ?_, fun l r hlr hr => ?_, fun i hi => ?_⟩
  · obtain ⟨t', e1, h1⟩ := update_spec L hn h hlr hr e
    obtain ⟨k, ek, hk⟩ := c1 l r e t' e1
    exact ⟨t', k, ek, h1, hk⟩
  · obtain ⟨t', e1, h1⟩ := query_spec L hn hn0 h hlr hr
    obtain ⟨k, ek, hk⟩ := c3 l r _ hlr hr e1
    exact ⟨t', k, ek, h1, hk⟩
  · obtain ⟨t', v, e1, hv, h1⟩ := get_spec L hn h hi
    obtain ⟨k, ek, hk⟩ := c4 i _ hi e1
    exact ⟨t', v, k, ek, hv, h1, hk⟩

/-- Maximum with assignment on five elements (`size_` = 8, `L = 3`): an update, then a query. -/
example : ((@ofRange _ _ ⟨0⟩ ⟨max⟩ assign [9, 1, 5, 2, 8]).bind (fun t => (@rangeUpdateC _ _ ⟨max⟩ assign t 1 4 (some 3)).bind (fun p =>
    (@queryC _ _ ⟨0⟩ ⟨max⟩ assign p.1 1 5).map (fun q => (p.2, q.1.2, q.2))))) = some (14, 8, 8) := by decide

end Verif.LazySegTree
