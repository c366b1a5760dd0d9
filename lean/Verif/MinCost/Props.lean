import Verif.MinCost.Flow
/-!
# C79: `MinCostFlowGraph`
-/
namespace Verif.MinCost
open Verif.MaxFlow (Arc arc net IsFlow IsMax Rp FlowPath getE)

/-! ### Adding edges -/

variable {n : Nat} {es : List Arc} {ct : Nat → Int} {pf pr φ : Nat → Nat} {g : G}

theorem addEdge_rc (X : RC n es ct pf pr φ g) {a b c : Nat} {w : Int} (hw : ct es.length = w) (ha : a < n) (hb : b < n) (hab : a ≠ b) :
    ∃ g' pf' pr', addEdge g a b c w = some g' ∧ RC n (es ++ [⟨a, b, c⟩]) ct pf' pr' (upd φ es.length 0) g' := by
  obtain ⟨g0, ra0, rb0, q1, q2, q3, R⟩ := Verif.MaxFlow.addEdge_full X.R c ha hb hab
  have hal : a < g.length := X.len ▸ ha
  have hbl : b < g.length := X.len ▸ hb
  obtain ⟨ra, hra⟩ : ∃ r, g[a]? = some r := ⟨_, List.getElem?_eq_getElem hal⟩
  obtain ⟨rb, hrb⟩ : ∃ r, g[b]? = some r := ⟨_, List.getElem?_eq_getElem hbl⟩
  have era_get : ∀ u : Nat, (era g)[u]? = (g[u]?).map (fun r : List Path => r.map er) := fun u => by unfold era; rw [List.getElem?_map]
  have hra0 : ra0 = ra.map er := by rw [era_get, hra] at q2; exact (Option.some.inj q2).symm
  have hrb0 : rb0 = rb.map er := by rw [era_get, hrb] at q3; exact (Option.some.inj q3).symm
  subst hra0
  subst hrb0
  rw [List.length_map, List.length_map] at R
  let g1 := g.set a (ra ++ [⟨b, rb.length, c, w⟩])
  let g2 := g1.set b (rb ++ [⟨a, ra.length, 0, -w⟩])
  have e1 : addEdge g a b c w = some g2 := by
    unfold addEdge
    rw [hrb, Option.bind_some, hra, Option.bind_some]
    have : wr g a (ra ++ [⟨b, rb.length, c, w⟩]) = some g1 := by unfold wr; rw [if_pos hal]
    rw [this, Option.bind_some]
    have h1 : g1[a]? = some (ra ++ [⟨b, rb.length, c, w⟩]) := List.getElem?_set_self hal
    have h2 : g1[b]? = some rb := by rw [List.getElem?_set_ne hab, hrb]
    rw [h1, Option.bind_some, h2, Option.bind_some]
    unfold wr
    rw [if_pos (by rw [List.length_set]; exact hbl)]
    simp [g2]
  have e2 : g0 = era g2 := by
    unfold Verif.MaxFlow.addEdge at q1
    rw [q3, Option.bind_some, q2, Option.bind_some] at q1
    have hle : (era g).length = g.length := by unfold era; rw [List.length_map]
    have hw1 : wr (era g) a (ra.map er ++ [⟨b, c, (rb.map er).length⟩]) = some (era g1) := by
      unfold wr
      rw [if_pos (by rw [hle]; exact hal)]
      simp [g1, era, List.map_set, er]
    rw [hw1, Option.bind_some] at q1
    have h1 : (era g1)[a]? = some (ra.map er ++ [⟨b, c, rb.length⟩]) := by
      unfold era
      rw [List.getElem?_map, List.getElem?_set_self hal]
      simp [er]
    have h2 : (era g1)[b]? = some (rb.map er) := by
      unfold era
      rw [List.getElem?_map, List.getElem?_set_ne hab, hrb]
      rfl
    rw [h1, Option.bind_some, h2, Option.bind_some] at q1
    unfold wr at q1
    rw [if_pos (by unfold era; rw [List.length_map, List.length_set]; exact hbl)] at q1
    rw [← Option.some.inj q1]
    simp [g2, era, List.map_set, er]
  have hg2 : ∀ v j, rd2 g2 v j = if v = a ∧ j = ra.length then some ⟨b, rb.length, c, w⟩ else if v = b ∧ j = rb.length then some ⟨a, ra.length, 0, -w⟩ else rd2 g v j := by
    intro v j
    unfold rd2
    by_cases hv : v = b
    · subst hv
      have : g2[v]? = some (rb ++ [⟨a, ra.length, 0, -w⟩]) := List.getElem?_set_self (by rw [List.length_set]; exact hbl)
      rw [this, Option.bind_some, if_neg (fun e => hab e.1.symm), hrb, Option.bind_some]
      by_cases hj : j = rb.length
      · subst hj; simp
      · rw [if_neg (fun e => hj e.2)]
        by_cases hj' : j < rb.length
        · rw [List.getElem?_append_left hj']
        · rw [List.getElem?_eq_none (by simp; omega), List.getElem?_eq_none (by omega)]
    · have h0 : g2[v]? = g1[v]? := List.getElem?_set_ne (fun e => hv e.symm)
      rw [h0]
      by_cases hv' : v = a
      · subst hv'
        have : g1[v]? = some (ra ++ [⟨b, rb.length, c, w⟩]) := List.getElem?_set_self hal
        rw [this, Option.bind_some, hra, Option.bind_some]
        by_cases hj : j = ra.length
        · subst hj; simp
        · rw [if_neg (fun e => hj e.2), if_neg (fun e => hv e.1)]
          by_cases hj' : j < ra.length
          · rw [List.getElem?_append_left hj']
          · rw [List.getElem?_eq_none (by simp; omega), List.getElem?_eq_none (by omega)]
      · have : g1[v]? = g[v]? := List.getElem?_set_ne (fun e => hv' e.symm)
        rw [this, if_neg (fun e => hv' e.1), if_neg (fun e => hv e.1)]
  have hold : ∀ v j y, cst g v j = some y → cst g2 v j = some y := by
    intro v j y h
    unfold cst at h ⊢
    rw [hg2, if_neg, if_neg]
    · exact h
    · rintro ⟨rfl, rfl⟩
      unfold rd2 at h
      rw [hrb] at h
      simp at h
    · rintro ⟨rfl, rfl⟩
      unfold rd2 at h
      rw [hra] at h
      simp at h
  subst e2
  have cases_lt : ∀ k, k < (es ++ [(⟨a, b, c⟩ : Arc)]).length → k < es.length ∨ k = es.length := by
    intro k hk; simp at hk; omega
  refine ⟨g2, _, _, e1, R, ?_, ?_⟩
  · intro k hk
    rcases cases_lt k hk with h | rfl
    · rw [Verif.MaxFlow.arc_append_lt _ _ h, upd_ne _ _ (by omega)]
      exact hold _ _ _ (X.cf k h)
    · rw [Verif.MaxFlow.arc_append_eq, upd_same, hw]
      unfold cst
      rw [hg2, if_pos ⟨rfl, rfl⟩]
      rfl
  · intro k hk
    rcases cases_lt k hk with h | rfl
    · rw [Verif.MaxFlow.arc_append_lt _ _ h, upd_ne _ _ (by omega)]
      exact hold _ _ _ (X.cb k h)
    · rw [Verif.MaxFlow.arc_append_eq, upd_same, hw]
      unfold cst
      rw [hg2, if_neg (fun e => hab e.1.symm), if_pos ⟨rfl, rfl⟩]
      rfl

/-! ### Specification -/

/-- An edge `(a, b, cap, cost)` as given to `add_edge`. -/
abbrev Edge := Nat × Nat × Nat × Int

/-- The network without the costs. -/
def arcs (E : List Edge) : List Arc := E.map (fun e => ⟨e.1, e.2.1, e.2.2.1⟩)

/-- The cost of the `k`-th edge. -/
def costs (E : List Edge) (k : Nat) : Int := (E.map (fun e => e.2.2.2)).getD k 0

/-- Vertices in range, no loops. -/
def Valid (n : Nat) (E : List Edge) : Prop := ∀ e ∈ E, e.1 < n ∧ e.2.1 < n ∧ e.1 ≠ e.2.1

/-- `(F, c)` are the value and the cost of a flow that is cheapest among the flows of value `F`. -/
def Cheapest (E : List Edge) (s t F : Nat) (c : Int) : Prop :=
  (∃ φ, IsFlow (arcs E) s t φ F ∧ costOf (arcs E) (costs E) φ = c) ∧ ∀ ψ, IsFlow (arcs E) s t ψ F → c ≤ costOf (arcs E) (costs E) ψ

/-- What the results of calls with limits `lims` must be when a flow of value `F` and cost `c` was sent before: each call sends at most its limit, and less only if the flow
becomes a maximum flow; the total flow is always the cheapest of its value. -/
def Good (E : List Edge) (s t : Nat) : Nat → Int → List Nat → List (Nat × Int) → Prop
  | _, _, [], outs => outs = []
  | F, c, lim :: ls, outs => ∃ f r os, outs = (f, r) :: os ∧ f ≤ lim ∧ (f = lim ∨ IsMax (arcs E) s t (F + f)) ∧ Cheapest E s t (F + f) (c + r) ∧ Good E s t (F + f) (c + r) ls os

/-- No negative cycle among the edges that can take flow, witnessed by potentials. -/
def NoNegCycle (E : List Edge) : Prop := ∃ π : Nat → Int, ∀ e ∈ E, 0 < e.2.2.1 → 0 ≤ e.2.2.2 + π e.1 - π e.2.1

theorem arcs_append (E : List Edge) (e : Edge) : arcs (E ++ [e]) = arcs E ++ [⟨e.1, e.2.1, e.2.2.1⟩] := by unfold arcs; rw [List.map_append]; rfl

theorem costs_at (E E' : List Edge) (e : Edge) : costs (E ++ e :: E') E.length = e.2.2.2 := by
  unfold costs
  rw [List.map_append, List.getD_append_right _ _ _ _ (by simp)]
  simp

theorem addEdges_ok {n : Nat} (E0 : List Edge) : ∀ (E' E : List Edge) (g : G) (pf pr : Nat → Nat), E0 = E ++ E' → Valid n E' → RC n (arcs E) (costs E0) pf pr (fun _ => 0) g →
    ∃ g' pf' pr', addEdges E' g = some g' ∧ RC n (arcs E0) (costs E0) pf' pr' (fun _ => 0) g' := by
  intro E'
  induction E' with
  | nil =>
    intro E g pf pr h0 _ X
    rw [List.append_nil] at h0
    subst h0
    exact ⟨g, pf, pr, rfl, X⟩
  | cons e E' ih =>
    intro E g pf pr h0 hv X
    obtain ⟨h1, h2, h3⟩ := hv e (List.mem_cons_self ..)
    have hlen : (arcs E).length = E.length := by unfold arcs; rw [List.length_map]
    obtain ⟨g1, pf1, pr1, a1, X1⟩ := addEdge_rc X (c := e.2.2.1) (w := e.2.2.2) (by rw [hlen, h0]; exact costs_at ..) h1 h2 h3
    have eφ : upd (fun _ : Nat => (0 : Nat)) (arcs E).length 0 = fun _ => 0 := by
      funext k
      by_cases hk : k = (arcs E).length
      · rw [hk, upd_same]
      · rw [upd_ne _ _ hk]
    rw [eφ, ← arcs_append] at X1
    obtain ⟨g', pf', pr', b1, b2⟩ := ih (E ++ [e]) g1 pf1 pr1 (by rw [h0]; simp) (fun e' h' => hv e' (List.mem_cons_of_mem _ h')) X1
    exact ⟨g', pf', pr', by rw [addEdges, a1, Option.bind_some]; exact b1, b2⟩

variable {E : List Edge} {s t : Nat} {C inf : Int}

theorem flows_ok (hst : s ≠ t) (hs : s < n) (ht : t < n) (hC : 0 ≤ C) (hct : ∀ k < (arcs E).length, -C ≤ costs E k ∧ costs E k ≤ C) (hi : 2 * (n * C) < inf) : ∀ (lims : List Nat) (o : Obj) (φ : Nat → Nat) (π : Nat → Int) (F : Nat) (c : Int), OI n s t (arcs E) (costs E) pf pr φ π F o → costOf (arcs E) (costs E) φ = c →
    ∃ K o' outs, (∀ K', K ≤ K' → flows inf K' s t lims o = some (o', outs)) ∧ Good E s t F c lims outs := by
  intro lims
  induction lims with
  | nil => intro o φ π F c _ _; exact ⟨0, o, [], fun _ _ => rfl, rfl⟩
  | cons lim ls ih =>
    intro o φ π F c I hc
    obtain ⟨K1, o1, f, res, φ1, π1, q1, q2, q3, q4, q5⟩ := flow_ok hst hs ht hC hct hi lim I
    obtain ⟨K2, o2, outs, r1, r2⟩ := ih o1 φ1 π1 (F + f) (c + res) q2 (by rw [q3, hc])
    refine ⟨max K1 K2, o2, (f, res) :: outs, fun K' hK => ?_, f, res, outs, rfl, q4, q5, ⟨⟨φ1, q2.fl, by rw [q3, hc]⟩, fun ψ hψ => ?_⟩, r2⟩
    · rw [flows, q1 K' (by omega), Option.bind_some, r1 K' (by omega)]
      rfl
    · rw [← hc, ← q3]
      exact opt_of_feas hst q2.fl hψ q2.fe

/-- **C79**: any calls of `flow` with the same two ends on a graph without negative cycles (for instance, with non-negative costs) terminate without undefined behaviour; every call
returns a flow within its limit and the cost of it, the total being the cheapest flow of its value, and stops below its limit only at a maximum flow.
Costs have absolute value at most `C`, and all path lengths fit into the cost type. -/
theorem C79 (E : List Edge) (lims : List Nat) (hv : Valid n E) (hst : s ≠ t) (hs : s < n) (ht : t < n) (hC : ∀ e ∈ E, -C ≤ e.2.2.2 ∧ e.2.2.2 ≤ C) (h0 : 0 ≤ C) (hi : 2 * (n * C) < inf) (hN : NoNegCycle E) :
    ∃ K outs, (∀ K', K ≤ K' → solve inf K' n E s t lims = some outs) ∧ Good E s t 0 0 lims outs := by
  obtain ⟨π, hπ⟩ := hN
  have hX : RC n (arcs []) (costs E) (fun _ => 0) (fun _ => 0) (fun _ => 0) (List.replicate n []) := by
    refine ⟨?_, (fun k hk => by cases hk), (fun k hk => by cases hk)⟩
    have : era (List.replicate n []) = List.replicate n [] := by unfold era; rw [List.map_replicate]; rfl
    rw [this]
    exact Rp.nil n _ _ _
  obtain ⟨g, pf, pr, a1, X⟩ := addEdges_ok E E [] _ _ _ rfl hv hX
  have hlen : (arcs E).length = E.length := by unfold arcs; rw [List.length_map]
  have hk : ∀ k (hk : k < E.length), costs E k = E[k].2.2.2 ∧ arc (arcs E) k = ⟨E[k].1, E[k].2.1, E[k].2.2.1⟩ := by
    intro k hk
    constructor
    · unfold costs
      rw [List.getD_eq_getElem?_getD, List.getElem?_map, List.getElem?_eq_getElem hk]; rfl
    · unfold arc arcs
      rw [List.getD_eq_getElem?_getD, List.getElem?_map, List.getElem?_eq_getElem hk]; rfl
  obtain ⟨K, o, outs, q1, q2⟩ := flows_ok (pf := pf) (pr := pr) (E := E) (C := C) (inf := inf) hst hs ht h0 (fun k h => by
      rw [hlen] at h
      rw [(hk k h).1]
      exact hC _ (List.getElem_mem h)) hi lims ⟨g, (new n).pv, (new n).pe⟩ (fun _ => 0) π 0 0
    ⟨X, fun k h => by
        rw [hlen] at h
        rw [(hk k h).1, (hk k h).2]
        exact ⟨fun hp => hπ _ (List.getElem_mem h) hp, fun hp => by omega⟩,
      ⟨fun k _ => Nat.zero_le _, fun u _ _ => Verif.MaxFlow.net_zero _ _, Verif.MaxFlow.net_zero _ _⟩, ⟨_, Rep.replicate n 0⟩, ⟨_, Rep.replicate n 0⟩⟩
    (by unfold costOf; simp)
  refine ⟨K, outs, fun K' hK => ?_, q2⟩
  unfold solve
  have : (new n).g = List.replicate n [] := rfl
  rw [this, a1, Option.bind_some, q1 K' hK]
  rfl

/-- Graphs with non-negative costs qualify. -/
theorem C79_nonneg {E : List Edge} (h : ∀ e ∈ E, 0 ≤ e.2.2.2) : NoNegCycle E := ⟨fun _ => 0, fun e he _ => by have := h e he; dsimp only; omega⟩

/-- A small network with a costly short cut and a reverse arc that pays off. -/
def exE : List Edge := [(0, 1, 2, 1), (0, 2, 1, 2), (1, 2, 1, 1), (1, 3, 1, 3), (2, 3, 2, 1)]

example : ∃ K outs, (∀ K', K ≤ K' → solve (2^31-1) K' 4 exE 0 3 [1, 5] = some outs) ∧ Good exE 0 3 0 0 [1, 5] outs :=
  C79 (C := 3) exE _ (by unfold Valid exE; decide) (by decide) (by decide) (by decide) (by unfold exE; decide) (by decide) (by decide) (C79_nonneg (by unfold exE; decide))

/-- The runs themselves. -/
example : solve (2^31-1) 50 4 exE 0 3 [1, 5] = some [(1, 3), (2, 7)] := by decide +kernel

/-- With a negative cost. -/
example : solve (2^31-1) 50 4 [(0, 1, 2, 5), (1, 2, 1, -4), (0, 2, 1, 2), (2, 3, 2, 1)] 0 3 [9] = some [(2, 5)] := by decide +kernel

example : NoNegCycle [(0, 1, 2, 5), (1, 2, 1, -4), (0, 2, 1, 2), (2, 3, 2, 1)] := ⟨fun v => if v = 1 then 4 else 0, by decide⟩

end Verif.MinCost
