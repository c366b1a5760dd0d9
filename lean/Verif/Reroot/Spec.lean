import Mathlib.Algebra.BigOperators.Group.List.Basic
/-!
What rerooting computes: the tree DP `dp(t, p) = G(merge_{w ≠ p} F(dp(w, t), w), t)` of vertex `t` seen from its parent `p`.
-/
namespace Verif.Reroot

variable {T W : Type} [CommMonoid T]

/-- `Val F G g t p x`: the tree with edges `g`, cut between `t` and `p` (not cut at all for `p = none`), has DP value `x` at `t`. -/
inductive Val (F : T → Nat → W → T) (G : T → Nat → T) (g : List (List (Nat × W))) : Nat → Option Nat → T → Prop where
  | node {t : Nat} {p : Option Nat} {gs : List (Nat × W)} (x : Nat → T) (hg : g[t]? = some gs)
      (h : ∀ tw, tw ∈ gs → some tw.1 ≠ p → Val F G g tw.1 (some t) (x tw.1)) :
      Val F G g t p (G ((gs.filter (fun tw => decide (some tw.1 ≠ p))).map (fun tw => F (x tw.1) tw.1 tw.2)).prod t)

/-- There is at most one value. -/
theorem Val.unique {F : T → Nat → W → T} {G : T → Nat → T} {g : List (List (Nat × W))} {t : Nat} {p : Option Nat} {x y : T}
    (h : Val F G g t p x) (h' : Val F G g t p y) : x = y := by
  induction h generalizing y with
  | @node t p gs x hg _ ih =>
    cases h' with
    | @node _ _ gs' x' hg' h' =>
      rw [hg] at hg'
      cases hg'
      have : (gs.filter (fun tw => decide (some tw.1 ≠ p))).map (fun tw => F (x tw.1) tw.1 tw.2) = (gs.filter (fun tw => decide (some tw.1 ≠ p))).map (fun tw => F (x' tw.1) tw.1 tw.2) := by
        refine List.map_congr_left fun tw hm => ?_
        rw [List.mem_filter, decide_eq_true_iff] at hm
        rw [ih tw hm.1 hm.2 (h' tw hm.1 hm.2)]
      rw [this]

/-- The ends at `v` of an edge, with its weight. -/
def ends {W : Type} (v : Nat) (e : Nat × Nat × W) : List (Nat × W) := (if e.1 = v then [(e.2.1, e.2.2)] else []) ++ (if e.2.1 = v then [(e.1, e.2.2)] else [])

/-- The neighbours of every vertex, in the order of the edge list. -/
def adjOf {W : Type} (n : Nat) (E : List (Nat × Nat × W)) : List (List (Nat × W)) := (List.range n).map (fun v => E.flatMap (ends v))

end Verif.Reroot
