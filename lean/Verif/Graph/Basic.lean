import Verif.Graph.Model
import Mathlib.Data.Finset.Card
import Mathlib.Data.Finset.Range
/-!
Specification of graphs given by an edge list, and the adjacency lists built by `add_edge_dir`.
-/
namespace Verif.Graph

/-- Targets of the edges leaving `a`, in order of insertion. -/
def outs (E : List (Nat × Nat)) (a : Nat) : List Nat := (E.filter (fun e => e.1 == a)).map Prod.snd

/-- Number of edges entering `b`. -/
def indeg (E : List (Nat × Nat)) (b : Nat) : Nat := E.countP (fun e => e.2 == b)

/-- `Walk E u v k`: there is a walk with `k` edges from `u` to `v`. -/
inductive Walk (E : List (Nat × Nat)) : Nat → Nat → Nat → Prop
  | nil (u : Nat) : Walk E u u 0
  | snoc {u v w k : Nat} : Walk E u v k → (v, w) ∈ E → Walk E u w (k+1)

/-- All end points are vertices. -/
def InRange (n : Nat) (E : List (Nat × Nat)) : Prop := ∀ e ∈ E, e.1 < n ∧ e.2 < n

theorem mem_outs {E : List (Nat × Nat)} {a b : Nat} : b ∈ outs E a ↔ (a, b) ∈ E := by
  unfold outs
  simp

theorem Walk.trans {E : List (Nat × Nat)} {u v w k l : Nat} (h1 : Walk E u v k) (h2 : Walk E v w l) : Walk E u w (k + l) := by
  induction h2 with
  | nil => exact h1
  | snoc _ he ih => exact Walk.snoc ih he

theorem Walk.single {E : List (Nat × Nat)} {u v : Nat} (h : (u, v) ∈ E) : Walk E u v 1 := Walk.snoc (Walk.nil u) h

theorem Walk.lt {n : Nat} {E : List (Nat × Nat)} (hE : InRange n E) {u v k : Nat} (h : Walk E u v k) (hu : u < n) : v < n := by
  cases h with
  | nil => exact hu
  | snoc _ he => exact (hE _ he).2

/-- `G` is the graph with edge list `E` on `n` vertices. -/
structure Built (n : Nat) (E : List (Nat × Nat)) (G : Graph) : Prop where
  size : G.n = n
  adj : Rep G.g n (outs E)
  inn : Rep G.inn n (indeg E)

theorem new_built (n : Nat) : Built n [] (Graph.new n) := ⟨rfl, Rep.replicate n [], Rep.replicate n 0⟩

theorem addEdgeDir_ok {n : Nat} {E : List (Nat × Nat)} {G : Graph} (h : Built n E G) {a b : Nat} (ha : a < n) (hb : b < n) :
    ∃ G', G.addEdgeDir a b = some G' ∧ Built n (E ++ [(a, b)]) G' := by
  obtain ⟨g', e1, h1⟩ := h.adj.wr ha (outs E a ++ [b])
  obtain ⟨i', e2, h2⟩ := h.inn.wr hb (indeg E b + 1)
  refine ⟨⟨G.n, g', i'⟩, ?_, h.size, h1.congr ?_, h2.congr ?_⟩
  · rw [Graph.addEdgeDir, h.adj.val a ha, Option.bind_some, e1, Option.bind_some, h.inn.val b hb, Option.bind_some, e2]; rfl
  · intro x _
    unfold outs
    by_cases hx : x = a
    · subst hx; rw [upd_same, List.filter_append, List.map_append]; simp
    · rw [upd_ne _ _ hx, List.filter_append, List.map_append]
      have : (a == x) = false := by simp [Ne.symm hx]
      simp [this]
  · intro x _
    unfold indeg
    by_cases hx : x = b
    · subst hx; rw [upd_same, List.countP_append]; simp
    · rw [upd_ne _ _ hx, List.countP_append]
      have : (b == x) = false := by simp [Ne.symm hx]
      simp [this]

theorem build_ok {n : Nat} {E : List (Nat × Nat)} (hE : InRange n E) : ∃ G, build n E = some G ∧ Built n E G := by
  suffices H : ∀ (E2 E1 : List (Nat × Nat)) (G : Graph), InRange n E2 → Built n E1 G →
      ∃ G', E2.foldlM (fun G e => G.addEdgeDir e.1 e.2) G = some G' ∧ Built n (E1 ++ E2) G' from H E [] _ hE (new_built n)
  intro E2
  induction E2 with
  | nil => intro E1 G _ h; exact ⟨G, rfl, by rwa [List.append_nil]⟩
  | cons e E2 ih =>
    intro E1 G hr h
    obtain ⟨h1, h2⟩ := hr e List.mem_cons_self
    obtain ⟨G1, e1, b1⟩ := addEdgeDir_ok h h1 h2
    obtain ⟨G2, e2, b2⟩ := ih (E1 ++ [e]) G1 (fun x hx => hr x (List.mem_cons_of_mem e hx)) b1
    refine ⟨G2, ?_, by rwa [List.append_assoc] at b2⟩
    rw [List.foldlM_cons, e1]; exact e2

end Verif.Graph
