import Verif.Hld.Path
import Verif.Hld.Subtree
import Mathlib.Data.Nat.Log
import Mathlib.Algebra.FreeMonoid.Basic
/-!
# Heavy-light decomposition (`/repo/include/mtl/hld.hpp`)

Specification: `Tree n r P` (`P` is a parent function on the vertices below `n`, the root is `r`), `EdgesOf n r P E` (`E` holds every edge of the tree once, in any order and direction),
`Anc P x y` (`x` is on the way from `y` to the root), `desc n P v` (the vertices below `v`), `IsLca`, `Up P u c l` (`l` is the way from `u` up to `c`, without `c`), `path`.
-/
namespace Verif.Hld

variable {n r : Nat} {P : Nat → Option Nat} {E : List (Nat × Nat)}

/-- **C69.** `build` works on every tree, and `lca` is the lowest common ancestor. -/
theorem C69 (T : Tree n r P) (hE : EdgesOf n r P E) :
    ∃ o, build n E r = some o ∧ ∀ a b, a < n → b < n → ∃ c, lca o a b = some c ∧ c < n ∧ IsLca P a b c := by
  obtain ⟨o, e, b⟩ := build_ok T hE
  obtain ⟨IN, HD, DP, CL, V⟩ := b.view T
  exact ⟨o, e, fun a b ha hb => lca_ok V T ha hb⟩

/-- Only one vertex is lowest common ancestor. -/
theorem C69_unique (T : Tree n r P) {a b c c' : Nat} (ha : a < n) (h : IsLca P a b c) (h' : IsLca P a b c') : c = c' :=
  Anc.antisymm T (h'.1.lt T ha) (h'.2.2 c h.1 h.2.1) (h.2.2 c' h'.1 h'.2.1)

/-- **C70.** The value of a path: with `val w` stored at position `in[w]`, `Q` multiplying from left to right, and `RQ` from right to left, `query(u, v)` multiplies the values along the path in the order
from `u` to `v`.  `e` is a default-initialised `T`; the result is right if it is the unit. -/
theorem C70 (T : Tree n r P) (hE : EdgesOf n r P E) : ∃ o, build n E r = some o ∧
    ∀ {M : Type} [Monoid M] (val a : Nat → M) (e : M) (Q RQ : Nat → Nat → Option M), (∀ w i, w < n → rdI o.hs.inn w = some i → a i = val w) →
    (∀ l r, l ≤ r → r ≤ n → Q l r = some ((List.range' l (r - l)).map a).prod) → (∀ l r, l ≤ r → r ≤ n → RQ l r = some ((List.range' l (r - l)).reverse.map a).prod) →
    ∀ u v incl, u < n → v < n → ∃ c l m, IsLca P u v c ∧ Up P u c l ∧ Up P v c m ∧ query o e Q RQ incl u v = some (e * ((l ++ (if incl then [c] else []) ++ m.reverse).map val).prod * e) := by
  obtain ⟨o, e, b⟩ := build_ok T hE
  obtain ⟨IN, HD, DP, CL, V⟩ := b.view T
  refine ⟨o, e, ?_⟩
  intro M _ val a e Q RQ ha hQ hRQ u v incl hu hv
  exact query_ok V T (fun w hw => ha w (IN w) hw (V.inn w hw)) hQ hRQ e hu hv incl

/-- The query with a commutative operation (lines 110-113). -/
theorem C70_comm (T : Tree n r P) (hE : EdgesOf n r P E) : ∃ o, build n E r = some o ∧
    ∀ {M : Type} [CommMonoid M] (val a : Nat → M) (Q : Nat → Nat → Option M), (∀ w i, w < n → rdI o.hs.inn w = some i → a i = val w) →
    (∀ l r, l ≤ r → r ≤ n → Q l r = some ((List.range' l (r - l)).map a).prod) →
    ∀ u v incl, u < n → v < n → ∃ c l m, IsLca P u v c ∧ Up P u c l ∧ Up P v c m ∧ query o 1 Q Q incl u v = some ((l ++ (if incl then [c] else []) ++ m.reverse).map val).prod := by
  obtain ⟨o, e, h⟩ := C70 T hE
  refine ⟨o, e, ?_⟩
  intro M _ val a Q ha hQ u v incl hu hv
  obtain ⟨c, l, m, h1, h2, h3, h4⟩ := h val a 1 Q Q ha hQ (fun l r h1 h2 => by rw [hQ l r h1 h2, ((List.reverse_perm (List.range' l (r - l))).map a).prod_eq]) u v incl hu hv
  rw [one_mul, mul_one] at h4
  exact ⟨c, l, m, h1, h2, h3, h4⟩

theorem up_strict {u c : Nat} {l : List Nat} (T : Tree n r P) (h : Up P u c l) (hu : u < n) : ∀ y ∈ l, Anc P c y ∧ y ≠ c ∧ Anc P y u := by
  induction h with
  | nil u => intro y hy; cases hy
  | @cons u p c l h t ih =>
    intro y hy
    rcases List.mem_cons.1 hy with rfl | hy
    · refine ⟨Anc.step h t.anc, ?_, Anc.refl⟩
      rintro rfl
      exact T.not_anc_par hu h t.anc
    · obtain ⟨a, b, c⟩ := ih (T.par_lt hu h) y hy
      exact ⟨a, b, Anc.step h c⟩

theorem up_nodup {u c : Nat} {l : List Nat} (T : Tree n r P) (h : Up P u c l) (hu : u < n) : l.Nodup := by
  induction h with
  | nil u => exact List.nodup_nil
  | @cons u p c l h t ih =>
    rw [List.nodup_cons]
    refine ⟨fun hm => ?_, ih (T.par_lt hu h)⟩
    exact T.not_anc_par hu h (up_strict T t (T.par_lt hu h) u hm).2.2

theorem path_nodup {u v c : Nat} {l m : List Nat} (T : Tree n r P) (hu : u < n) (hv : v < n) (hc : IsLca P u v c) (hl : Up P u c l) (hm : Up P v c m) (incl : Bool) : (path incl l c m).Nodup := by
  have sl := up_strict T hl hu
  have sm := up_strict T hm hv
  have hlm : ∀ y ∈ l, y ∉ m := by
    intro y h1 h2
    obtain ⟨a1, a2, a3⟩ := sl y h1
    obtain ⟨b1, b2, b3⟩ := sm y h2
    exact a2 (Anc.antisymm T (hc.1.lt T hu) (hc.2.2 y a3 b3) a1)
  unfold path
  cases incl
  · simp only [Bool.false_eq_true, if_false, List.append_nil]
    rw [List.nodup_append]
    refine ⟨up_nodup T hl hu, (List.nodup_reverse.2 (up_nodup T hm hv)), ?_⟩
    rintro a ha b hb rfl
    exact hlm a ha (List.mem_reverse.1 hb)
  · simp only [if_true]
    rw [List.nodup_append, List.nodup_append]
    refine ⟨⟨up_nodup T hl hu, by simp, ?_⟩, (List.nodup_reverse.2 (up_nodup T hm hv)), ?_⟩
    · rintro a ha b hb rfl
      rw [List.mem_singleton] at hb
      exact (sl a ha).2.1 hb
    · rintro a ha b hb rfl
      rw [List.mem_reverse] at hb
      rcases List.mem_append.1 ha with h | h
      · exact hlm a h hb
      · rw [List.mem_singleton] at h
        exact (sm a hb).2.1 h

theorem count_range' (l k i : Nat) : (List.range' l k).count i = if l ≤ i ∧ i < l + k then 1 else 0 := by
  rw [List.Nodup.count (List.nodup_range' (h := by omega))]
  congr 1
  rw [List.mem_range'_1]

theorem runU_count {σ α : Type} {ab : σ → Nat → α} {f : α → α} {U : Nat → Nat → σ → Option σ} (hU : ∀ l r x, l ≤ r → r ≤ n → ∃ x', U l r x = some x' ∧ ∀ i, ab x' i = if l ≤ i ∧ i < r then f (ab x i) else ab x i) :
    ∀ (segs : List (Nat × Nat)) (x : σ), (∀ lr ∈ segs, lr.1 ≤ lr.2 ∧ lr.2 ≤ n) → ∃ x', runU U segs x = some x' ∧ ∀ i, ab x' i = f^[(cells segs).count i] (ab x i) := by
  intro segs
  induction segs with
  | nil => intro x _; exact ⟨x, rfl, fun i => rfl⟩
  | cons lr t ih =>
    intro x h
    obtain ⟨h1, h2⟩ := h lr (List.mem_cons_self ..)
    obtain ⟨x1, e1, a1⟩ := hU lr.1 lr.2 x h1 h2
    obtain ⟨x2, e2, a2⟩ := ih x1 (fun s hs => h s (List.mem_cons_of_mem _ hs))
    refine ⟨x2, by rw [runU, e1, Option.bind_some, e2], fun i => ?_⟩
    have hc : cells (lr :: t) = List.range' lr.1 (lr.2 - lr.1) ++ cells t := List.flatMap_cons
    rw [a2, a1, hc, List.count_append, count_range', show lr.1 + (lr.2 - lr.1) = lr.2 by omega]
    split
    · rw [Nat.add_comm, Function.iterate_add_apply]; rfl
    · rw [Nat.zero_add]

/-- **C70**, `update`: if `U` applies `f` to the positions of an interval, `update(u, v)` applies `f` once to every vertex of the path and changes no other vertex. -/
theorem C70_update (T : Tree n r P) (hE : EdgesOf n r P E) : ∃ o, build n E r = some o ∧
    ∀ {σ α : Type} (ab : σ → Nat → α) (f : α → α) (U : Nat → Nat → σ → Option σ),
    (∀ l r x, l ≤ r → r ≤ n → ∃ x', U l r x = some x' ∧ ∀ i, ab x' i = if l ≤ i ∧ i < r then f (ab x i) else ab x i) →
    ∀ u v incl x, u < n → v < n → ∃ c l m x', IsLca P u v c ∧ Up P u c l ∧ Up P v c m ∧ update o U incl u v x = some x' ∧
      ∀ w i, w < n → rdI o.hs.inn w = some i → ab x' i = if w ∈ l ++ (if incl then [c] else []) ++ m.reverse then f (ab x i) else ab x i := by
  obtain ⟨o, e, b⟩ := build_ok T hE
  obtain ⟨IN, HD, DP, CL, V⟩ := b.view T
  refine ⟨o, e, ?_⟩
  intro σ α ab f U hU u v incl x hu hv
  obtain ⟨c, l, m, segs, h1, h2, h3, h4, _, h5⟩ := update_ok V T incl hu hv
  obtain ⟨x', e', hx'⟩ := runU_count hU segs x h4.ok
  refine ⟨c, l, m, x', h1, h2, h3, by rw [h5 U x, e'], fun w i hw hi => ?_⟩
  rw [V.inn w hw] at hi
  cases hi
  have hnd := path_nodup T hu hv h1 h2 h3 incl
  have hlt : ∀ y ∈ path incl l c m, y < n := by
    intro y hy
    unfold path at hy
    rw [List.mem_append, List.mem_append, List.mem_reverse] at hy
    rcases hy with (hy | hy) | hy
    · exact h2.mem_lt T hu y (List.mem_append_left _ hy)
    · cases incl
      · cases hy
      · exact h2.mem_lt T hu y (List.mem_append_right _ hy)
    · exact h3.mem_lt T hv y (List.mem_append_left _ hy)
  have hnd' : ((path incl l c m).map IN).Nodup := List.Nodup.map_on (fun a ha b hb e => V.inj (hlt a ha) (hlt b hb) e) hnd
  rw [hx', h4.perm.count_eq, hnd'.count]
  have hmem : IN w ∈ (path incl l c m).map IN ↔ w ∈ path incl l c m := by
    constructor
    · intro h
      obtain ⟨y, hy, e⟩ := List.mem_map.1 h
      rw [← V.inj (hlt y hy) hw e]
      exact hy
    · exact fun h => List.mem_map.2 ⟨w, h, rfl⟩
  by_cases hm : w ∈ path incl l c m
  · rw [if_pos (hmem.2 hm), if_pos (show w ∈ l ++ (if incl then [c] else []) ++ m.reverse from hm)]
    rfl
  · rw [if_neg (fun h => hm (hmem.1 h)), if_neg (show ¬ w ∈ l ++ (if incl then [c] else []) ++ m.reverse from hm)]
    rfl

/-- **C71.** The vertices below `w` are those whose position is between `in[w]` and `out[w]`; `in` numbers the vertices from `0` to `n-1`, and `rev` is its inverse. -/
theorem C71_interval (T : Tree n r P) (hE : EdgesOf n r P E) : ∃ o, build n E r = some o ∧
    (∀ w, w < n → ∃ i, i < n ∧ rdI o.hs.inn w = some i ∧ rdI o.hs.rev i = some w) ∧
    ∀ w u, w < n → u < n → ∃ iw ow iu, rdI o.hs.inn w = some iw ∧ rdI o.hs.out w = some ow ∧ rdI o.hs.inn u = some iu ∧ ow = iw + (desc n P w).card ∧ ow ≤ n ∧ (Anc P w u ↔ iw ≤ iu ∧ iu < ow) := by
  obtain ⟨o, e, b⟩ := build_ok T hE
  obtain ⟨IN, HD, DP, CL, V⟩ := b.view T
  refine ⟨o, e, fun w hw => ⟨IN w, V.lt hw, V.inn w hw, V.rev w hw⟩, fun w u hw hu => ⟨IN w, _, IN u, V.inn w hw, V.out w hw, V.inn u hu, rfl, V.range w hw, ?_⟩⟩
  rw [V.iff T hu]
  exact ⟨fun h => ⟨h.1, h.2.1⟩, fun h => ⟨h.1, h.2, hw⟩⟩

/-- Calls of `subtree_point_add`. -/
def pointAdds {σ M : Type} (o : Obj) (A : Nat → M → σ → Option σ) : List (Nat × M) → σ → Option σ
  | [], x => some x
  | uy :: t, x => (pointAdd o A uy.2 (o.n + 2) (some uy.1) x).bind (pointAdds o A t)

/-- The weights after the additions of a list. -/
def weights {M : Type} [Add M] (g : Nat → M) : List (Nat × M) → Nat → M
  | [] => g
  | uy :: t => weights (fun w => if w = uy.1 then g w + uy.2 else g w) t

/-- **C71.** After `subtree_build` and any calls of `subtree_point_add`, `subtree_sum(v)` is the sum of the weights below `v`.  `A` adds at a position, `S` sums over an interval of positions. -/
theorem C71_sum (T : Tree n r P) (hE : EdgesOf n r P E) : ∃ o, build n E r = some o ∧
    ∀ {σ M : Type} [AddCommMonoid M] (ab : σ → Nat → M) (A : Nat → M → σ → Option σ) (S : Nat → Nat → σ → Option M) (g : Nat → M) (x : σ),
    (∀ i y x, i < n → ∃ x', A i y x = some x' ∧ ∀ j, ab x' j = if j = i then ab x j + y else ab x j) → (∀ l r x, l ≤ r → r ≤ n → S l r x = some (∑ i ∈ Finset.Ico l r, ab x i)) →
    (∀ w i, w < n → rdI o.hs.inn w = some i → ab x i = g w) →
    ∃ x0, subtreeBuild o A S x = some x0 ∧ ∀ L : List (Nat × M), (∀ uy ∈ L, uy.1 < n) → ∃ x', pointAdds o A L x0 = some x' ∧ ∀ v, v < n → subtreeSum o S v x' = some (∑ w ∈ desc n P v, weights g L w) := by
  obtain ⟨o, e, b⟩ := build_ok T hE
  obtain ⟨IN, HD, DP, CL, V⟩ := b.view T
  refine ⟨o, e, ?_⟩
  intro σ M _ ab A S g x hA hS hx
  obtain ⟨x0, e0, acc0⟩ := subtreeBuild_ok V T hA hS g x (fun w hw => hx w (IN w) hw (V.inn w hw))
  refine ⟨x0, e0, ?_⟩
  intro L
  clear hx e0
  induction L generalizing x0 g with
  | nil =>
    intro _
    exact ⟨x0, rfl, fun v hv => subtreeSum_ok V T hS hv (fun w hw a => acc0 w hw (T.root_anc hw))⟩
  | cons uy L ih =>
    intro hL
    obtain ⟨x1, e1, acc1⟩ := pointAdd_acc V T hA acc0 (hL uy (List.mem_cons_self ..)) uy.2
    obtain ⟨x', e', h'⟩ := ih (addAt g uy.1 uy.2) x1 acc1 (fun s hs => hL s (List.mem_cons_of_mem _ hs))
    exact ⟨x', by rw [pointAdds, e1, Option.bind_some, e'], h'⟩

/-- **C72.** `depth[v]` counts light edges: `2 ^ depth[v]` times the size of the subtree of `v` is at most `n`; and `update` makes at most `2 log₂ n + 1` calls of `U`, one after another, on intervals inside `[0, n]`. -/
theorem C72 (T : Tree n r P) (hE : EdgesOf n r P E) : ∃ o, build n E r = some o ∧
    (∀ v, v < n → ∃ d, rdI o.hs.depth v = some d ∧ 2 ^ d * (desc n P v).card ≤ n) ∧
    ∀ u v incl, u < n → v < n → ∃ segs : List (Nat × Nat), segs.length ≤ 2 * Nat.log 2 n + 1 ∧ (∀ lr ∈ segs, lr.1 ≤ lr.2 ∧ lr.2 ≤ n) ∧ ∀ {σ : Type} (U : Nat → Nat → σ → Option σ) (x : σ), update o U incl u v x = runU U segs x := by
  obtain ⟨o, e, b⟩ := build_ok T hE
  obtain ⟨IN, HD, DP, CL, V⟩ := b.view T
  have hlog : ∀ w, w < n → DP w ≤ Nat.log 2 n := by
    intro w hw
    refine Nat.le_log_of_pow_le (by omega) (le_trans ?_ (V.halve T hw))
    exact Nat.le_mul_of_pos_right _ (sz_pos hw)
  refine ⟨o, e, fun v hv => ⟨DP v, V.depth v hv, V.halve T hv⟩, fun u v incl hu hv => ?_⟩
  obtain ⟨c, l, m, segs, _, _, _, h4, h5, h6⟩ := update_ok V T incl hu hv
  have := hlog u hu
  have := hlog v hv
  exact ⟨segs, by omega, h4.ok, h6⟩

/-! Examples: the tree with root 0, the edges 1-0, 0-2, 1-3, 4-1, 3-5, and the vertex 6 below 2. -/

def exP : Nat → Option Nat := fun v => [none, some 0, some 0, some 1, some 1, some 3, some 2].getD v none

def exE : List (Nat × Nat) := [(3, 5), (1, 0), (0, 2), (1, 3), (6, 2), (4, 1)]

theorem exTree : Tree 7 0 exP := ⟨by decide, rfl, by decide, ⟨fun v => [0, 1, 1, 2, 2, 3, 2].getD v 0, by
  intro v p hv h
  have : ∀ v < 7, ∀ p < 7, exP v = some p → [0, 1, 1, 2, 2, 3, 2].getD p 0 < [0, 1, 1, 2, 2, 3, 2].getD v 0 := by decide
  refine this v hv p ?_ h
  have hb : ∀ v < 7, (exP v).getD 0 < 7 := by decide
  have := hb v hv
  rw [h] at this
  exact this⟩⟩

theorem exEdges : EdgesOf 7 0 exP exE := ⟨fun v => [false, true, false, false, true, false, true].getD v false, by decide⟩

example : ∃ o, build 7 exE 0 = some o ∧ ∀ a b, a < 7 → b < 7 → ∃ c, lca o a b = some c ∧ c < 7 ∧ IsLca exP a b c := C69 exTree exEdges
example : (build 7 exE 0).bind (fun o => lca o 5 4) = some 1 := by decide +kernel
example : (build 7 exE 0).bind (fun o => lca o 5 6) = some 0 := by decide +kernel
example : (build 7 exE 0).map (fun o => (o.hs.inn, o.hs.out)) = some ([some 0, some 1, some 5, some 2, some 4, some 3, some 6], [some 7, some 5, some 7, some 4, some 5, some 4, some 7]) := by decide +kernel
/-- A query that collects the positions: the path 5, 3, 1, 0, 2, 6. -/
example : ((build 7 exE 0).bind (fun o => query (M := FreeMonoid Nat) o 1 (fun l r => some (FreeMonoid.ofList (List.range' l (r - l)))) (fun l r => some (FreeMonoid.ofList (List.range' l (r - l)).reverse)) true 5 6)).map FreeMonoid.toList
    = some [3, 2, 1, 0, 5, 6] := by decide +kernel
example : (build 7 exE 0).bind (fun o => update o (fun l r (x : List Nat) => some (x ++ List.range' l (r - l))) false 5 6 []) = some [5, 6, 1, 2, 3] := by decide +kernel

/-- Subtree sums with weights `10 w + 1`, kept in a list. -/
example : (build 7 exE 0).bind (fun o => (subtreeBuild o (fun i y (x : List Nat) => some (x.modify i (· + y))) (fun l r x => some ((x.drop l).take (r - l)).sum) [1, 11, 31, 51, 41, 21, 61]).bind
    (fun x => (pointAdds o (fun i y (x : List Nat) => some (x.modify i (· + y))) [(5, 1000), (2, 100)] x).bind (fun x => subtreeSum o (fun l r x => some ((x.drop l).take (r - l)).sum) 1 x))) = some 1134 := by decide +kernel
example := C70 exTree exEdges
example := C70_update exTree exEdges
example := C71_interval exTree exEdges
example := C71_sum exTree exEdges
example := C72 exTree exEdges

end Verif.Hld
