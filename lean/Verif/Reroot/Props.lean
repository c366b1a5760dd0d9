import Verif.Reroot.Proof
import Verif.Hld.Build
import Mathlib.Algebra.Group.Nat.Defs
import Mathlib.Algebra.Group.Int.Defs
import Mathlib.Algebra.Group.TypeTags.Basic
/-!
Rerooting: the properties.

Specification: the tree is given by its edge list `E` (`EdgesOf`), with weights; `adjOf n E` is the list of neighbours of every vertex, `Val F G (adjOf n E) t (some s) x` says that `x` is the DP value of `t` when `s` is its parent.
-/
namespace Verif.Reroot
open Verif.Hld

variable {W W' T : Type}

theorem addEdge_ok (cv : W → W') {g : List (List (Nat × W'))} {e : Nat × Nat × W} (h1 : e.1 < g.length) (h2 : e.2.1 < g.length) (hne : e.1 ≠ e.2.1) :
    ∃ g', addEdge cv g e = some g' ∧ g'.length = g.length ∧ ∀ v ev, g[v]? = some ev → g'[v]? = some (ev ++ (ends v e).map (Prod.map id cv)) := by
  have g1 : g[e.1]? = some g[e.1] := List.getElem?_eq_getElem h1
  have g2 : g[e.2.1]? = some g[e.2.1] := List.getElem?_eq_getElem h2
  obtain ⟨ed1, w1, l1, a1, b1⟩ := wr_ok h1 (g[e.1] ++ [(e.2.1, cv e.2.2)])
  obtain ⟨ed2, w2, l2, a2, b2⟩ := wr_ok (l := ed1) (i := e.2.1) (by rw [l1]; exact h2) (g[e.2.1] ++ [(e.1, cv e.2.2)])
  refine ⟨ed2, ?_, l2.trans l1, ?_⟩
  · unfold addEdge
    rw [g1, Option.bind_some, w1, Option.bind_some, b1 _ hne.symm, g2, Option.bind_some, w2]
  · intro v ev hv
    unfold ends
    by_cases e1 : e.1 = v
    · have e2 : e.2.1 ≠ v := by rw [← e1]; exact hne.symm
      subst e1
      rw [if_pos rfl, if_neg e2, b2 _ hne, a1]
      rw [g1] at hv
      cases hv
      simp [Prod.map]
    · rw [if_neg e1]
      by_cases e2 : e.2.1 = v
      · subst e2
        rw [if_pos rfl, a2]
        rw [g2] at hv
        cases hv
        simp
      · rw [if_neg e2, b2 _ (Ne.symm e2), b1 _ (Ne.symm e1), hv]
        simp

theorem addEdges_ok (cv : W → W') : ∀ (E : List (Nat × Nat × W)) (g : List (List (Nat × W'))), (∀ e ∈ E, e.1 < g.length ∧ e.2.1 < g.length ∧ e.1 ≠ e.2.1) →
    ∃ g', addEdges cv E g = some g' ∧ g'.length = g.length ∧ ∀ v ev, g[v]? = some ev → g'[v]? = some (ev ++ (E.flatMap (ends v)).map (Prod.map id cv)) := by
  intro E
  induction E with
  | nil => intro g _; exact ⟨g, rfl, rfl, fun v ev h => by rw [h]; simp⟩
  | cons e E ih =>
    intro g h
    obtain ⟨a1, a2, a3⟩ := h e (List.mem_cons_self ..)
    obtain ⟨ed1, e1, l1, h1⟩ := addEdge_ok cv a1 a2 a3
    obtain ⟨ed2, e2, l2, h2⟩ := ih ed1 (fun x hx => by rw [l1]; exact h x (List.mem_cons_of_mem _ hx))
    refine ⟨ed2, by rw [addEdges, e1]; exact e2, l2.trans l1, fun v ev hv => ?_⟩
    rw [h2 v _ (h1 v ev hv)]
    simp [List.flatMap_cons]

variable {n r : Nat} {P : Nat → Option Nat}

theorem edges_lt (H : Tree n r P) {E : List (Nat × Nat)} (hE : EdgesOf n r P E) : ∀ e ∈ E, e.1 < n ∧ e.2 < n ∧ e.1 ≠ e.2 := by
  intro e he
  obtain ⟨dir, hp⟩ := hE
  rw [hp.mem_iff, List.mem_map] at he
  obtain ⟨v, hv, rfl⟩ := he
  rw [List.mem_filter, List.mem_range, decide_eq_true_iff] at hv
  obtain ⟨q, hq, e⟩ := H.par v hv.1 hv.2
  have hne := H.par_ne hv.1 e
  rw [e, Option.getD_some]
  split
  · exact ⟨hv.1, hq, hne.symm⟩
  · exact ⟨hq, hv.1, hne⟩

theorem ends_fst (v : Nat) (E : List (Nat × Nat × W)) : (E.flatMap (ends v)).map Prod.fst = (E.map (fun e => (e.1, e.2.1))).flatMap (nb v) := by
  induction E with
  | nil => rfl
  | cons e E ih =>
    rw [List.flatMap_cons, List.map_append, ih, List.map_cons, List.flatMap_cons]
    congr 1
    unfold ends nb
    by_cases h1 : e.1 = v <;> by_cases h2 : e.2.1 = v <;> simp [h1, h2]

theorem adjOf_get {E : List (Nat × Nat × W)} {v : Nat} (hv : v < n) : (adjOf n E)[v]? = some (E.flatMap (ends v)) := by
  unfold adjOf
  rw [List.getElem?_map, List.getElem?_range hv]
  rfl

theorem adjOf_tree (H : Tree n r P) {E : List (Nat × Nat × W)} (hE : EdgesOf n r P (E.map (fun e => (e.1, e.2.1)))) : TreeG n P (adjOf n E) := by
  refine ⟨by simp [adjOf], fun v hv => ⟨_, adjOf_get hv, ?_⟩⟩
  rw [ends_fst]
  exact adj_flatMap H hE hv

theorem built (cv : W → W') (H : Tree n r P) {E : List (Nat × Nat × W)} (hE : EdgesOf n r P (E.map (fun e => (e.1, e.2.1)))) :
    addEdges cv E (List.replicate n []) = some (adjOf n (E.map (fun e => (e.1, e.2.1, cv e.2.2)))) := by
  obtain ⟨g, e, l, h⟩ := addEdges_ok cv E (List.replicate n []) (fun x hx => by
    rw [List.length_replicate]
    exact edges_lt H hE (x.1, x.2.1) (List.mem_map.2 ⟨x, hx, rfl⟩))
  rw [e]
  refine congrArg some (List.ext_getElem? fun v => ?_)
  by_cases hv : v < n
  · rw [h v [] (by rw [List.getElem?_replicate, if_pos hv]), adjOf_get hv, List.nil_append]
    refine congrArg some ?_
    rw [List.map_flatMap, List.flatMap_map]
    refine congrArg (fun f => List.flatMap f E) (funext fun x => ?_)
    unfold ends
    by_cases h1 : x.1 = v <;> by_cases h2 : x.2.1 = v <;> simp [h1, h2, Prod.map]
  · rw [List.getElem?_eq_none (by rw [l, List.length_replicate]; omega), List.getElem?_eq_none (by simp [adjOf]; omega)]

variable [CommMonoid T]

/-- What `calc` must leave in `dp`: `dp[s][i]` is the DP value of the `i`-th neighbour `t` of `s` with `s` as its parent; and the value of `s` as the root of the whole tree is got from the row `dp[s]`. -/
def Correct (F : T → Nat → W → T) (G : T → Nat → T) (n : Nat) (E : List (Nat × Nat × W)) (dp : List (List T)) : Prop :=
  ∀ s, s < n → (∃ row : List T, dp[s]? = some row ∧ row.length = (E.flatMap (ends s)).length ∧
    (∀ (i t : Nat) (w : W), (E.flatMap (ends s))[i]? = some (t, w) → ∃ x : T, row[i]? = some x ∧ Val F G (adjOf n E) t (some s) x) ∧
    Val F G (adjOf n E) s none (G ((row.zip (E.flatMap (ends s))).map (fun a => F a.1 a.2.1 a.2.2)).prod s))

theorem correct_of {F : T → Nat → W → T} {G : T → Nat → T} {E : List (Nat × Nat × W)} {dp : List (List T)} (S : Shape (adjOf n E) dp) (h : ∀ w, w < n → Full F G (adjOf n E) dp w) : Correct F G n E dp := by
  intro s hs
  obtain ⟨row, h1, h2⟩ := S s _ (adjOf_get hs)
  have hf := fun i tw hi => h s hs _ i tw (adjOf_get hs) hi
  have hv : ∀ (i : Nat) (tw : Nat × W), (E.flatMap (ends s))[i]? = some tw → D F G (adjOf n E) tw.1 (some s) ∧ row[i]? = some (vf F G (adjOf n E) tw.1 (some s)) := by
    intro i tw hi
    obtain ⟨a, b⟩ := hf i tw hi
    unfold rd2 at b
    rw [h1, Option.bind_some] at b
    exact ⟨a, b⟩
  refine ⟨row, h1, h2, fun i t w hi => ⟨_, (hv i (t, w) hi).2, (hv i (t, w) hi).1⟩, ?_⟩
  have := Val.node (F := F) (G := G) (p := none) (fun w => vf F G (adjOf n E) w (some s)) (adjOf_get (E := E) hs) (fun tw hm _ => by
    obtain ⟨k, hk⟩ := List.getElem?_of_mem hm
    exact (hv k tw hk).1)
  have e : (row.zip (E.flatMap (ends s))).map (fun a => F a.1 a.2.1 a.2.2) = ((E.flatMap (ends s)).filter (fun tw => decide (some tw.1 ≠ none))).map (fun tw => F (vf F G (adjOf n E) tw.1 (some s)) tw.1 tw.2) := by
    rw [List.filter_eq_self.2 (by simp)]
    refine List.ext_getElem? fun i => ?_
    rw [List.getElem?_map, List.getElem?_map]
    cases hi : (E.flatMap (ends s))[i]? with
    | none =>
      rw [List.getElem?_eq_none_iff] at hi
      rw [List.getElem?_eq_none (by rw [List.length_zip]; omega)]
      rfl
    | some tw =>
      have : (row.zip (E.flatMap (ends s)))[i]? = some (vf F G (adjOf n E) tw.1 (some s), tw) := by
        rw [List.getElem?_zip_eq_some]
        exact ⟨(hv i tw hi).2, hi⟩
      rw [this]
      rfl
  rw [e]
  exact this

/-- **C73.** `ReRootingGraph`: for a tree built with `add_edge` (any order and direction of the edges), a commutative monoid (`merge`, `e`) and any `F`, `G`, `calc(r)` ends and leaves the DP value of every neighbour `t` of `s`, seen from `s`, in `dp[s]`. -/
theorem C73 (H : Tree n r P) {E : List (Nat × Nat × Unit)} (hE : EdgesOf n r P (E.map (fun e => (e.1, e.2.1)))) (F : T → Nat → Unit → T) (G : T → Nat → T) :
    ∃ dp, solve id F G n E r = some (adjOf n E, dp) ∧ Correct F G n E dp := by
  unfold solve
  have hb := built id H hE
  rw [show E.map (fun e => (e.1, e.2.1, id e.2.2)) = E by simp] at hb
  rw [hb, Option.bind_some]
  obtain ⟨dp, e, S, h⟩ := calc_ok (F := F) (G := G) H (adjOf_tree H hE)
  rw [e]
  exact ⟨dp, rfl, correct_of S h⟩

/-- The full claim about `ReRootingNetwork` with integer weights: the weights are those passed to `add_edge`. -/
def C74_full : Prop := ∀ (T : Type) (_ : CommMonoid T) (n r : Nat) (P : Nat → Option Nat) (E : List (Nat × Nat × Int)), Tree n r P → EdgesOf n r P (E.map (fun e => (e.1, e.2.1))) →
  ∀ (F : T → Nat → Int → T) (G : T → Nat → T), ∃ g dp, solve toInt F G n E r = some (g, dp) ∧ Correct F G n E dp

/-- **C74 (partial).** `ReRootingNetwork`, for weights that fit in an `int`. -/
theorem C74_partial (H : Tree n r P) {E : List (Nat × Nat × Int)} (hE : EdgesOf n r P (E.map (fun e => (e.1, e.2.1)))) (hw : ∀ e ∈ E, -2 ^ 31 ≤ e.2.2 ∧ e.2.2 < 2 ^ 31) (F : T → Nat → Int → T) (G : T → Nat → T) :
    ∃ dp, solve toInt F G n E r = some (adjOf n E, dp) ∧ Correct F G n E dp := by
  unfold solve
  have hb := built toInt H hE
  have : E.map (fun e => (e.1, e.2.1, toInt e.2.2)) = E := by
    refine (List.map_congr_left (g := id) fun e he => ?_).trans (List.map_id _)
    have := hw e he
    have : toInt e.2.2 = e.2.2 := by
      unfold toInt
      rw [Int.bmod_eq_of_le] <;> omega
    rw [this]
    rfl
  rw [this] at hb
  rw [hb, Option.bind_some]
  obtain ⟨dp, e, S, h⟩ := calc_ok (F := F) (G := G) H (adjOf_tree H hE)
  rw [e]
  exact ⟨dp, rfl, correct_of S h⟩

def badP : Nat → Option Nat := fun v => [none, some 0, some 1].getD v none

theorem badTree : Tree 3 0 badP := ⟨by decide, rfl, by decide, ⟨id, by
  intro v p hv h
  have : ∀ v < 3, ∀ p < 3, badP v = some p → p < v := by decide
  refine this v hv p ?_ h
  have hb : ∀ v < 3, (badP v).getD 0 < 3 := by decide
  have := hb v hv
  rw [h] at this
  exact this⟩⟩

def badE : List (Nat × Nat × Int) := [(0, 1, 1), (1, 2, 2 ^ 32)]

theorem badEdges : EdgesOf 3 0 badP (badE.map (fun e => (e.1, e.2.1))) := ⟨fun _ => false, by decide⟩

theorem bad_run : (solve (T := Multiplicative Int) toInt (fun x _ w => x * .ofAdd w) (fun x _ => x) 3 badE 0).map (fun gd => gd.2) = some [[.ofAdd 0], [.ofAdd 0, .ofAdd 0], [.ofAdd 1]] := by decide +kernel

/-- **C74 fails** for `long long` weights: the path 0 - 1 - 2 with weights 1 and 2^32, the DP adds up the weights below a vertex; `dp[0]` says that the subtree of 1 has total weight 0. -/
theorem C74_violated : ¬ C74_full := by
  intro h
  obtain ⟨g, dp, e, hc⟩ := h (Multiplicative Int) inferInstance 3 0 badP badE badTree badEdges (fun x _ w => x * .ofAdd w) (fun x _ => x)
  have hr := bad_run
  rw [e, Option.map_some] at hr
  have hdp := Option.some.inj hr
  dsimp only at hdp
  subst hdp
  obtain ⟨row, h1, _, h2, _⟩ := hc 0 (by decide)
  cases h1
  obtain ⟨x, h3, h4⟩ := h2 0 1 1 (by decide)
  cases h3
  have v2 : Val (T := Multiplicative Int) (fun x _ (w : Int) => x * .ofAdd w) (fun x _ => x) (adjOf 3 badE) 2 (some 1) (.ofAdd 0) := by
    refine Val.node (gs := [(1, 2 ^ 32)]) (fun _ => 1) (by decide +kernel) ?_
    intro tw hm hne
    rw [List.mem_singleton] at hm
    subst hm
    exact absurd rfl hne
  have v1 : Val (T := Multiplicative Int) (fun x _ (w : Int) => x * .ofAdd w) (fun x _ => x) (adjOf 3 badE) 1 (some 0) (.ofAdd (2 ^ 32)) := by
    have e : (.ofAdd (2 ^ 32) : Multiplicative Int) = ((([(0, 1), (2, 2 ^ 32)] : List (Nat × Int)).filter (fun tw => decide (some tw.1 ≠ some 0))).map (fun tw => (Multiplicative.ofAdd (0 : Int)) * .ofAdd tw.2)).prod := by decide +kernel
    rw [e]
    refine Val.node (T := Multiplicative Int) (F := fun x _ (w : Int) => x * .ofAdd w) (G := fun x _ => x) (g := adjOf 3 badE) (t := 1) (p := some 0) (gs := [(0, 1), (2, 2 ^ 32)]) (fun _ => Multiplicative.ofAdd 0) (by decide +kernel) ?_
    intro tw hm hne
    rw [List.mem_cons, List.mem_singleton] at hm
    rcases hm with rfl | rfl
    · exact absurd rfl hne
    · exact v2
  have := h4.unique v1
  exact absurd this (by decide +kernel)

/-! Examples: the tree with the edges 0-1, 2-0, 1-3. -/

def exP : Nat → Option Nat := fun v => [none, some 0, some 0, some 1].getD v none

theorem exTree : Tree 4 0 exP := ⟨by decide, rfl, by decide, ⟨fun v => [0, 1, 1, 2].getD v 0, by
  intro v p hv h
  have : ∀ v < 4, ∀ p < 4, exP v = some p → [0, 1, 1, 2].getD p 0 < [0, 1, 1, 2].getD v 0 := by decide
  refine this v hv p ?_ h
  have hb : ∀ v < 4, (exP v).getD 0 < 4 := by decide
  have := hb v hv
  rw [h] at this
  exact this⟩⟩

theorem exEdges : EdgesOf 4 0 exP [(0, 1), (2, 0), (1, 3)] := ⟨fun v => [false, false, true, false].getD v false, by decide⟩

/-- Subtree sizes: `merge` is `+`, `F` the identity, `G` adds one. -/
example : ∃ dp, solve (T := Multiplicative Nat) id (fun x _ _ => x) (fun x _ => x * .ofAdd 1) 4 [(0, 1, ()), (2, 0, ()), (1, 3, ())] 0 = some (adjOf 4 [(0, 1, ()), (2, 0, ()), (1, 3, ())], dp) ∧ Correct (T := Multiplicative Nat) (fun x _ _ => x) (fun x _ => x * .ofAdd 1) 4 [(0, 1, ()), (2, 0, ()), (1, 3, ())] dp :=
  C73 exTree (E := [(0, 1, ()), (2, 0, ()), (1, 3, ())]) exEdges _ _
example : (solve (T := Multiplicative Nat) id (fun x _ _ => x) (fun x _ => x * .ofAdd 1) 4 [(0, 1, ()), (2, 0, ()), (1, 3, ())] 0).map (fun gd => gd.2.map (fun r => r.map Multiplicative.toAdd)) = some [[2, 1], [2, 1], [3], [3]] := by decide +kernel
example := C74_partial (T := Multiplicative Int) exTree (E := [(0, 1, -5), (2, 0, 7), (1, 3, 9)]) exEdges (by decide) (fun x _ w => x * .ofAdd w) (fun x _ => x)
example : (solve (T := Multiplicative Int) toInt (fun x _ w => x * .ofAdd w) (fun x _ => x) 4 [(0, 1, -5), (2, 0, 7), (1, 3, 9)] 0).map (fun gd => gd.2.map (fun r => r.map Multiplicative.toAdd)) = some [[9, 0], [7, 0], [4], [2]] := by decide +kernel

end Verif.Reroot
