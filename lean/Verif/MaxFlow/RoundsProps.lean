import Verif.MaxFlow.Rounds
/-!
C130: the number of rounds (level graph and augmentation, max_flow.hpp:97-123) of `Dinic::flow`.  The fuel of `dFlow` is the number of rounds it may take, the last one, which
sends nothing, included.
-/
namespace Verif.MaxFlow

theorem dinic_rounds {n s t : Nat} (hst : s ≠ t) (hs : s < n) (ht : t < n) (hn : n < IINF) :
    AlgOk (fun es fuel => total es < INF ∧ (n - 1) * es.length < fuel) dFlow (fun lim r => lim = r) n s t := by
  intro es pf pr φ g F0 fuel lim R h hf
  have := dFlowLoop_rounds hst hs ht hn hf.1 lim F0 fuel φ g 0 R h (by have := hf.2; omega)
    (fun D dist I _ => (pend_le es pf pr hst hs ht I).trans_lt hf.2)
  have e : lim - ((0 : Nat) : Int) = lim := by simp
  rw [e] at this
  exact this

/-- **C130** (partial): whatever the capacities, every `flow` call in any sequence of `add_edge` and `flow` calls ends within `(|V| - 1) |E| + 1` rounds (and then has the
effect stated in C36).  Missing: the bound `|V|` of Dinic's algorithm, which the code does not meet (`C130_violated`). -/
theorem C130_rounds_partial {n s t fuel : Nat} (ops : List Op) (hst : s ≠ t) (hs : s < n) (ht : t < n) (hn : n < 2^31 - 1) (hv : Valid n (edges ops))
    (hI : total (edges ops) < 2^63 - 1) (hf : (n - 1) * (edges ops).length + 1 ≤ fuel) :
    ∃ g outs φ, run dFlow fuel s t (List.replicate n []) ops = some (g, outs) ∧ Residual n (edges ops) φ g ∧ IsFlow (edges ops) s t φ outs.sum ∧
      Outs (fun lim r => lim = r) s t [] 0 ops outs := by
  obtain ⟨g, outs, φ, h1, h2, h3, h4⟩ := run_ok (fuel := fuel) (fun l m h => ⟨(total_append l m).trans_lt h.1,
      (Nat.mul_le_mul_left (n - 1) (by simp : l.length ≤ (l ++ m).length)).trans_lt h.2⟩)
    (dinic_rounds hst hs ht hn) ops [] (fun _ => 0) (fun _ => 0) (fun _ => 0) (List.replicate n [])
    0 (Rp.nil n _ _ _) (isFlow_nil s t) hv ⟨by rw [List.nil_append]; exact hI, by rw [List.nil_append]; omega⟩
  exact ⟨g, outs, φ, h1, by simpa using h2, by simpa using h3, h4⟩

/-- **C130** for a new network: `flow(s, t)` finds the maximum flow within `(|V| - 1) |E| + 1` rounds. -/
theorem C130_max_flow_partial {n s t fuel : Nat} (es : List Arc) (hst : s ≠ t) (hs : s < n) (ht : t < n) (hn : n < 2^31 - 1) (hv : Valid n es) (hI : total es < 2^63 - 1)
    (hf : (n - 1) * es.length + 1 ≤ fuel) :
    ∃ g r, run dFlow fuel s t (List.replicate n []) (adds es ++ [.flow (2^63 - 1)]) = some (g, [r]) ∧ IsMax es s t r := by
  obtain ⟨g, outs, φ, h1, h2, h3, h4⟩ := C130_rounds_partial (n := n) (fuel := fuel) (adds es ++ [.flow (2^63 - 1)]) hst hs ht hn (by rw [edges_adds]; exact hv)
    (by rw [edges_adds]; exact hI) (by rw [edges_adds]; exact hf)
  rw [edges_adds] at h2 h3
  obtain ⟨r, rfl, hr⟩ := outs_adds [] _ es h4
  rw [List.sum_singleton] at h3
  refine ⟨g, r, h1, ?_⟩
  rcases hr with hr | hr
  · exact (max_of_total hst h3 (by have := hr.1; omega)).1
  · simpa using hr.1

/-- Five parallel edges `0 → 1` of capacity 1 and one edge `1 → 2` of capacity 5. -/
def fanNet : List Arc := ⟨1, 2, 5⟩ :: List.replicate 5 ⟨0, 1, 1⟩

/-- **C130 is violated**: line 82 advances the iterator also past an arc that has not been exhausted, so that only one unit per round passes vertex 1.  With three vertices
five rounds are not enough (the sixth finds that nothing is left); the five rounds all see the sink at level 2. -/
theorem C130_violated :
    run dFlow 5 0 2 (List.replicate 3 []) (adds fanNet ++ [.flow (2^63 - 1)]) = none ∧
    (run dFlow 6 0 2 (List.replicate 3 []) (adds fanNet ++ [.flow (2^63 - 1)])).map (·.2) = some [5] := by
  constructor <;> decide +kernel

/-- Simple graphs are affected too: four vertices `1 … 4` between the source 0 and vertex 5, each with one unit.  Two rounds would do; it takes five. -/
theorem C130_violated_simple :
    run dFlow 4 0 6 (List.replicate 7 []) (adds ((List.range 4).flatMap (fun i => [⟨0, i+1, 1⟩, ⟨i+1, 5, 1⟩]) ++ [⟨5, 6, 4⟩]) ++ [.flow (2^63 - 1)]) = none := by
  decide +kernel

/-- Huge capacities: the bound `2 · 4 + 1` on the rounds does not depend on them. -/
example : Valid 3 [⟨0, 1, 10^17⟩, ⟨1, 2, 10^17⟩, ⟨0, 2, 10^16⟩, ⟨0, 1, 1⟩] ∧ total [⟨0, 1, 10^17⟩, ⟨1, 2, 10^17⟩, ⟨0, 2, 10^16⟩, ⟨0, 1, 1⟩] < 2^63 - 1 := by
  constructor
  · unfold Valid; decide
  · decide +kernel
example : (run dFlow 9 0 2 (List.replicate 3 []) (adds [⟨0, 1, 10^17⟩, ⟨1, 2, 10^17⟩, ⟨0, 2, 10^16⟩, ⟨0, 1, 1⟩] ++ [.flow (2^63 - 1)])).map (·.2) = some [110000000000000000] := by
  decide +kernel

end Verif.MaxFlow
