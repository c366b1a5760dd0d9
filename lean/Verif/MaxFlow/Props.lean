import Verif.MaxFlow.DinicDfs
import Mathlib.Data.List.Induction
/-!
C36: `FordFulkerson::flow` and `Dinic::flow`.
-/
namespace Verif.MaxFlow

/-- `g` is the residual graph of the flow `φ` in the network `es` over `n` vertices: every edge `k` is stored at its tail with capacity `c - φ k` and, reversed, at
its head with capacity `φ k`, each copy knows the position of the other, and there are no further arcs. -/
def Residual (n : Nat) (es : List Arc) (φ : Nat → Nat) (g : G) : Prop := ∃ pf pr, Rp n es pf pr φ g

/-- Some cut between `s` and `t` has capacity `F`. -/
def HasCut (es : List Arc) (s t F : Nat) : Prop := ∃ X : Nat → Bool, X s = true ∧ X t = false ∧ F = cutCap es (fun v => X v = true)

/-- A call on an object with fixed source and sink. -/
inductive Op where
  | add (a b c : Nat)
  | flow (lim : Int)

/-- An implementation of `flow`: fuel, graph, source, sink, limit. -/
abbrev Alg := Nat → G → Nat → Nat → Int → Option (G × Nat)

/-- A sequence of calls; the outputs are the values returned by `flow`. -/
def run (alg : Alg) (fuel s t : Nat) : G → List Op → Option (G × List Nat)
  | g, [] => some (g, [])
  | g, .add a b c :: ops => (addEdge g a b c).bind (fun g => run alg fuel s t g ops)
  | g, .flow lim :: ops => (alg fuel g s t lim).bind (fun p => (run alg fuel s t p.1 ops).map (fun q => (q.1, p.2 :: q.2)))

/-- The edges added by the calls. -/
def edges : List Op → List Arc
  | [] => []
  | .add a b c :: ops => ⟨a, b, c⟩ :: edges ops
  | .flow _ :: ops => edges ops

/-- Precondition of `add_edge`: vertices exist and differ. -/
def Valid (n : Nat) (es : List Arc) : Prop := ∀ e ∈ es, e.a < n ∧ e.b < n ∧ e.a ≠ e.b

/-- What the outputs must be: `stop lim r` says that a call returning `r` may end early.  `F` is the flow sent so far. -/
def Outs (stop : Int → Nat → Prop) (s t : Nat) : List Arc → Nat → List Op → List Nat → Prop
  | _, _, [], outs => outs = []
  | es, F, .add a b c :: ops, outs => Outs stop s t (es ++ [⟨a, b, c⟩]) F ops outs
  | es, F, .flow lim :: ops, outs => ∃ r outs', outs = r :: outs' ∧
      ((stop lim r ∧ ∀ M, IsMax es s t M → F + r ≤ M) ∨ (IsMax es s t (F + r) ∧ HasCut es s t (F + r))) ∧ Outs stop s t es (F + r) ops outs'

/-- One call of `flow` is right whatever the flow already present, if `need` holds of the network and the fuel. -/
def AlgOk (need : List Arc → Nat → Prop) (alg : Alg) (stop : Int → Nat → Prop) (n s t : Nat) : Prop :=
  ∀ es pf pr φ g F0 fuel lim, Rp n es pf pr φ g → IsFlow es s t φ F0 → need es fuel →
    ∃ g' F, alg fuel g s t lim = some (g', F) ∧ FlowPost n es pf pr s t F0 g' F (stop lim F)

theorem ff_ok {n s t : Nat} (hst : s ≠ t) (hs : s < n) : AlgOk (fun es fuel => total es < fuel) ffFlow (fun lim r => lim ≤ r) n s t := by
  intro es pf pr φ g F0 fuel lim R h hf
  have := ffFlowLoop_ok hst hs lim F0 fuel φ g 0 R h (by omega)
  have e : lim - ((0 : Nat) : Int) = lim := by simp
  rw [e] at this
  exact this

theorem dinic_ok {n s t : Nat} (hst : s ≠ t) (hs : s < n) (ht : t < n) (hn : n < IINF) : AlgOk (fun es fuel => total es < fuel) dFlow (fun lim r => lim = r) n s t := by
  intro es pf pr φ g F0 fuel lim R h hf
  have := dFlowLoop_ok hst hs ht hn lim F0 fuel φ g 0 R h (by omega)
  have e : lim - ((0 : Nat) : Int) = lim := by simp
  rw [e] at this
  exact this

theorem total_append (l m : List Arc) : total l ≤ total (l ++ m) := by
  induction m using List.reverseRecOn with
  | nil => simp
  | append_singleton m e ih =>
    refine ih.trans ?_
    rw [← List.append_assoc]
    unfold total
    rw [List.length_append (as := l ++ m), List.length_singleton, Finset.sum_range_succ]
    refine (Finset.sum_le_sum (fun k hk => ?_)).trans (Nat.le_add_right _ _)
    rw [arc_append_lt _ _ (Finset.mem_range.1 hk)]

theorem isFlow_append {es : List Arc} {s t : Nat} {φ : Nat → Nat} {F : Nat} (h : IsFlow es s t φ F) (e : Arc) : IsFlow (es ++ [e]) s t (upd φ es.length 0) F := by
  have hn : ∀ u, net (es ++ [e]) (upd φ es.length 0) u = net es φ u := by
    intro u
    rw [net_append _ _ _ (upd_same _ _ _)]
    exact net_congr _ _ _ (fun k hk => upd_ne _ _ (by omega)) u
  refine ⟨?_, fun u h1 h2 => by rw [hn]; exact h.cons u h1 h2, by rw [hn]; exact h.val⟩
  intro k hk
  simp at hk
  by_cases c : k = es.length
  · rw [c, upd_same]; omega
  · rw [upd_ne _ _ c, arc_append_lt _ _ (by omega)]
    exact h.cap k (by omega)

theorem run_ok {alg : Alg} {stop : Int → Nat → Prop} {n s t fuel : Nat} {need : List Arc → Nat → Prop}
    (hneed : ∀ l m : List Arc, need (l ++ m) fuel → need l fuel) (A : AlgOk need alg stop n s t) : ∀ (ops : List Op) (es : List Arc) (pf pr φ : Nat → Nat) (g : G) (F : Nat),
    Rp n es pf pr φ g → IsFlow es s t φ F → Valid n (edges ops) → need (es ++ edges ops) fuel →
    ∃ g' outs φ', run alg fuel s t g ops = some (g', outs) ∧ Residual n (es ++ edges ops) φ' g' ∧ IsFlow (es ++ edges ops) s t φ' (F + outs.sum) ∧
      Outs stop s t es F ops outs := by
  intro ops
  induction ops with
  | nil =>
    intro es pf pr φ g F R h _ _
    refine ⟨g, [], φ, rfl, ?_, ?_, rfl⟩
    · exact ⟨pf, pr, by simpa [edges] using R⟩
    · simpa [edges] using h
  | cons o ops ih =>
    intro es pf pr φ g F R h hv ht
    cases o with
    | add a b c =>
      obtain ⟨ha, hb, hab⟩ := hv ⟨a, b, c⟩ List.mem_cons_self
      obtain ⟨g1, pf', pr', e1, R1⟩ := addEdge_ok R c ha hb hab
      have eq : es ++ edges (Op.add a b c :: ops) = (es ++ [⟨a, b, c⟩]) ++ edges ops := by simp [edges]
      obtain ⟨g', outs, φ', q1, q2, q3, q4⟩ := ih (es ++ [⟨a, b, c⟩]) pf' pr' _ g1 F R1 (isFlow_append h _) (fun e he => hv e (List.mem_cons_of_mem _ he))
        (by rw [← eq]; exact ht)
      refine ⟨g', outs, φ', ?_, by rw [eq]; exact q2, by rw [eq]; exact q3, q4⟩
      unfold run
      rw [e1, Option.bind_some, q1]
    | flow lim =>
      obtain ⟨g1, r, e1, φ1, R1, h1, hs⟩ := A es pf pr φ g F fuel lim R h (hneed es _ ht)
      obtain ⟨g', outs, φ', q1, q2, q3, q4⟩ := ih es pf pr φ1 g1 (F + r) R1 h1 hv ht
      refine ⟨g', r :: outs, φ', ?_, q2, ?_, r, outs, rfl, ?_, q4⟩
      · unfold run
        rw [e1, Option.bind_some]
        dsimp only
        rw [q1]; rfl
      · rw [List.sum_cons, ← Nat.add_assoc]; exact q3
      · rcases hs with hs | ⟨X, x1, x2, x3⟩
        · exact Or.inl ⟨hs, fun M hM => hM.2 _ _ h1⟩
        · exact Or.inr ⟨cut_max h1 (fun v => X v = true) x1 (by simp [x2]) x3, X, x1, x2, x3⟩

theorem isFlow_nil (s t : Nat) : IsFlow [] s t (fun _ => 0) 0 :=
  ⟨fun k hk => by simp at hk, fun u _ _ => net_zero _ _, net_zero _ _⟩

/-- **C36** (partial) for `FordFulkerson`: any sequence of `add_edge` and `flow` calls on a new graph succeeds and leaves the residual graph of a feasible flow
whose value is the sum of the returned values; every `flow` call completes the flow to a maximum flow, unless it returns at least its limit.  Missing: the returned
value may exceed the limit (`C36_violated`). -/
theorem C36_ford_fulkerson_partial {n s t fuel : Nat} (ops : List Op) (hst : s ≠ t) (hs : s < n) (hv : Valid n (edges ops)) (hf : total (edges ops) < fuel) :
    ∃ g outs φ, run ffFlow fuel s t (List.replicate n []) ops = some (g, outs) ∧ Residual n (edges ops) φ g ∧ IsFlow (edges ops) s t φ outs.sum ∧
      Outs (fun lim r => lim ≤ r) s t [] 0 ops outs := by
  obtain ⟨g, outs, φ, h1, h2, h3, h4⟩ := run_ok (fuel := fuel) (fun l m h => (total_append l m).trans_lt h) (ff_ok hst hs) ops [] (fun _ => 0) (fun _ => 0) (fun _ => 0) (List.replicate n []) 0 (Rp.nil n _ _ _)
    (isFlow_nil s t) hv (by simpa using hf)
  exact ⟨g, outs, φ, h1, by simpa using h2, by simpa using h3, h4⟩

/-- **C36** (partial) for `Dinic`: as above, but a `flow` call that does not complete a maximum flow returns exactly its limit.  Missing: a call that does complete it
may exceed the limit (`C36_violated`). -/
theorem C36_dinic_partial {n s t fuel : Nat} (ops : List Op) (hst : s ≠ t) (hs : s < n) (ht : t < n) (hn : n < 2^31 - 1) (hv : Valid n (edges ops))
    (hf : total (edges ops) < fuel) :
    ∃ g outs φ, run dFlow fuel s t (List.replicate n []) ops = some (g, outs) ∧ Residual n (edges ops) φ g ∧ IsFlow (edges ops) s t φ outs.sum ∧
      Outs (fun lim r => lim = r) s t [] 0 ops outs := by
  obtain ⟨g, outs, φ, h1, h2, h3, h4⟩ := run_ok (fuel := fuel) (fun l m h => (total_append l m).trans_lt h) (dinic_ok hst hs ht hn) ops [] (fun _ => 0) (fun _ => 0) (fun _ => 0) (List.replicate n []) 0
    (Rp.nil n _ _ _) (isFlow_nil s t) hv (by simpa using hf)
  exact ⟨g, outs, φ, h1, by simpa using h2, by simpa using h3, h4⟩

/-- The edges of a network as calls. -/
def adds (es : List Arc) : List Op := es.map (fun e => Op.add e.a e.b e.c)

theorem edges_adds (es : List Arc) (lim : Int) : edges (adds es ++ [.flow lim]) = es := by
  induction es with
  | nil => rfl
  | cons e es ih => show _ :: edges (adds es ++ [.flow lim]) = _; rw [ih]

theorem outs_adds {stop : Int → Nat → Prop} {s t : Nat} (es' : List Arc) (lim : Int) {outs : List Nat} : ∀ es, Outs stop s t es' 0 (adds es ++ [.flow lim]) outs →
    ∃ r, outs = [r] ∧ ((stop lim r ∧ ∀ M, IsMax (es' ++ es) s t M → r ≤ M) ∨ (IsMax (es' ++ es) s t r ∧ HasCut (es' ++ es) s t r)) := by
  intro es
  induction es generalizing es' with
  | nil =>
    intro h
    obtain ⟨r, outs', h1, h2, h3⟩ := h
    have h3 : outs' = [] := h3
    rw [h3] at h1
    rw [Nat.zero_add] at h2
    exact ⟨r, h1, by simpa using h2⟩
  | cons e es ih =>
    intro h
    have := ih (es' ++ [e]) h
    rwa [List.append_assoc, List.singleton_append] at this

theorem max_of_total {es : List Arc} {s t F : Nat} {φ : Nat → Nat} (hst : s ≠ t) (h : IsFlow es s t φ F) (hF : total es ≤ F) : IsMax es s t F ∧ HasCut es s t F := by
  refine ⟨⟨⟨φ, h⟩, fun _ _ h' => (flow_le_total h' hst).trans hF⟩, fun v => decide (v = s), by simp, by simpa using fun e => hst e.symm, ?_⟩
  have h1 := flow_le_cut h (fun v => decide (v = s) = true) (by simp) (by simpa using fun e => hst e.symm)
  have h2 := cut_le_total es (fun v => decide (v = s) = true)
  show F = cutCap es (fun v => decide (v = s) = true)
  omega

/-- **C36** (the default limit) for `FordFulkerson`: `flow(s, t)` on a network whose capacities sum to at most `2^63 - 1` returns the value of a maximum flow, which is
the capacity of some cut, and leaves the residual graph of such a flow. -/
theorem C36_ford_fulkerson {n s t fuel : Nat} (es : List Arc) (hst : s ≠ t) (hs : s < n) (hv : Valid n es) (hI : total es ≤ 2^63 - 1) (hf : total es < fuel) :
    ∃ g r φ, run ffFlow fuel s t (List.replicate n []) (adds es ++ [.flow (2^63 - 1)]) = some (g, [r]) ∧ Residual n es φ g ∧ IsFlow es s t φ r ∧ IsMax es s t r ∧ HasCut es s t r := by
  obtain ⟨g, outs, φ, h1, h2, h3, h4⟩ := C36_ford_fulkerson_partial (n := n) (fuel := fuel) (adds es ++ [.flow (2^63 - 1)]) hst hs (by rw [edges_adds]; exact hv)
    (by rw [edges_adds]; exact hf)
  rw [edges_adds] at h2 h3
  obtain ⟨r, rfl, hr⟩ := outs_adds [] _ es h4
  rw [List.sum_singleton] at h3
  refine ⟨g, r, φ, h1, h2, h3, ?_⟩
  rcases hr with hr | hr
  · exact max_of_total hst h3 (by have := hr.1; omega)
  · simpa using hr

/-- **C36** (the default limit) for `Dinic`. -/
theorem C36_dinic {n s t fuel : Nat} (es : List Arc) (hst : s ≠ t) (hs : s < n) (ht : t < n) (hn : n < 2^31 - 1) (hv : Valid n es) (hI : total es ≤ 2^63 - 1)
    (hf : total es < fuel) :
    ∃ g r φ, run dFlow fuel s t (List.replicate n []) (adds es ++ [.flow (2^63 - 1)]) = some (g, [r]) ∧ Residual n es φ g ∧ IsFlow es s t φ r ∧ IsMax es s t r ∧ HasCut es s t r := by
  obtain ⟨g, outs, φ, h1, h2, h3, h4⟩ := C36_dinic_partial (n := n) (fuel := fuel) (adds es ++ [.flow (2^63 - 1)]) hst hs ht hn (by rw [edges_adds]; exact hv)
    (by rw [edges_adds]; exact hf)
  rw [edges_adds] at h2 h3
  obtain ⟨r, rfl, hr⟩ := outs_adds [] _ es h4
  rw [List.sum_singleton] at h3
  refine ⟨g, r, φ, h1, h2, h3, ?_⟩
  rcases hr with hr | hr
  · exact max_of_total hst h3 (by have := hr.1; omega)
  · simpa using hr

/-- **C36 is violated**: with one edge of capacity 10 and limit 3 both implementations return 10. -/
theorem C36_violated :
    (run ffFlow 20 0 1 (List.replicate 2 []) [.add 0 1 10, .flow 3]).map (·.2) = some [10] ∧
    (run dFlow 20 0 1 (List.replicate 2 []) [.add 0 1 10, .flow 3]).map (·.2) = some [10] := by
  constructor <;> decide +kernel

/-- A network in which the first augmenting path has to be partly undone. -/
def exNet : List Arc := [⟨0, 1, 2⟩, ⟨1, 3, 2⟩, ⟨3, 5, 2⟩, ⟨0, 2, 2⟩, ⟨2, 3, 2⟩, ⟨1, 4, 1⟩, ⟨4, 5, 1⟩]

example : Valid 6 exNet ∧ total exNet < 20 := by
  constructor
  · unfold Valid; decide
  · decide

example : (run ffFlow 20 0 5 (List.replicate 6 []) (adds exNet ++ [.flow (2^63 - 1)])).map (·.2) = some [3] := by decide +kernel
example : (run dFlow 20 0 5 (List.replicate 6 []) (adds exNet ++ [.flow (2^63 - 1)])).map (·.2) = some [3] := by decide +kernel
example : (run dFlow 20 0 5 (List.replicate 6 []) (adds exNet ++ [.flow 1, .add 2 4 3, .add 4 5 7, .flow 100])).map (·.2) = some [3, 1] := by decide +kernel
example : (run ffFlow 20 0 5 (List.replicate 6 []) (adds exNet ++ [.flow 1, .add 2 4 3, .add 4 5 7, .flow 100])).map (·.2) = some [2, 2] := by decide +kernel

end Verif.MaxFlow
