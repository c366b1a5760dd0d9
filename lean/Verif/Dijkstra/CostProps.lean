import Verif.Dijkstra.Cost
/-!
C134: the running time of `Network<W>::dijkstra_search`.
-/
namespace Verif.Dijkstra
open Verif.FibHeap

theorem dijkstraC_ok {E : List (Nat × Nat × Int)} {s n : Nat} {inf B : Int} (hE : ∀ u t w, (u, t, w) ∈ E → u < n ∧ t < n ∧ 0 ≤ w ∧ inf + w ≤ B) (hs : s < n) (hinf : 0 < inf) {g : List (List (Nat × Int))} (hlen : g.length = n)
    (hg : ∀ v, v < n → ∃ es, g[v]? = some es ∧ ∀ t w, (t, w) ∈ es ↔ (v, t, w) ∈ E) :
    ∃ dist c, dijkstraC B g s inf = some (dist, c) ∧ c ≤ 9 * (g.map List.length).sum + (8 * Nat.log 2 n + 13) * n + 9 := by
  unfold dijkstraC
  rw [hlen]
  obtain ⟨H, e, W⟩ := mk_wf (α := Int) gt n
  rw [e, Option.bind_some]
  obtain ⟨dist, e1, R1⟩ := (Verif.Rep.replicate n inf).wr hs 0
  rw [e1, Option.bind_some]
  obtain ⟨H1, e2, W1⟩ := push_spec gt_swo W hs 0
  obtain ⟨c1, e2'⟩ := fst_some (pushC_fst gt H s 0) e2
  obtain ⟨p1, p2⟩ := pushC_pot W e2'
  rw [e2', Option.bind_some]
  have : insertRaise gt (fun _ => none) s 0 = upd (fun _ => none) s (some 0) := rfl
  rw [this] at W1
  have I : Inv E s n inf ∅ (upd (fun _ => inf) s 0) (upd (fun _ => none) s (some 0)) := by
    refine ⟨(fun v hv => by cases hv), ?_, ?_, (fun v hv => by cases hv), ?_, ?_⟩
    · intro v x hx
      by_cases hv : v = s
      · subst hv
        rw [upd_same] at hx
        cases hx
        exact ⟨hs, by simp, upd_same .., hinf, fun u hu => by cases hu⟩
      · rw [upd_ne _ _ hv] at hx
        cases hx
    · intro v _ _ hx
      have hv : v ≠ s := by rintro rfl; rw [upd_same] at hx; cases hx
      rw [upd_ne _ _ hv]
    · intro v _ hx
      by_cases hv : v = s
      · subst hv
        rw [upd_same]
        exact Walk.nil
      · rw [upd_ne _ _ hv] at hx
        exact absurd hx (lt_irrefl _)
    · rw [upd_same]
  obtain ⟨dist', c, e3, b⟩ := searchC_ok hE hs hg H1.tab.length (n+1) ∅ dist _ _ H1 (by simp) R1 W1 I (fun v hv => by cases hv) rfl
  dsimp only
  rw [e3]
  refine ⟨dist', _, rfl, ?_⟩
  rw [Finset.sdiff_empty, Finset.sum_add_distrib, ← Finset.mul_sum, Finset.sum_const, Finset.card_range, smul_eq_mul] at b
  have hd := sum_deg g
  rw [hlen] at hd
  rw [hd, p2] at b
  have h0 := mk_pot e
  have ht := mk_tab e
  have : n * (4 * H.tab.length + 1) ≤ (8 * Nat.log 2 n + 13) * n := by
    rw [Nat.mul_comm]
    exact Nat.mul_le_mul_right _ (by omega)
  omega

/-- **C134.** On a graph with `n` vertices and `m` edges, `dijkstra_search` takes at most `9 m + (8 ⌊log₂ n⌋ + 13) n + 9` steps: every vertex leaves the heap at most once, every edge is looked at at most once,
and the operations of the heap have their amortised cost. -/
theorem C134_dijkstra_time {n : Nat} {E : List (Nat × Nat × Int)} {s : Nat} {inf B : Int} (hE : Input n E inf B) (hw : ∀ e ∈ E, e.2.2 < 2 ^ 31) (hs : s < n) (hinf : 0 < inf) :
    ∃ dist c, solveC toInt B n E s inf = some (dist, c) ∧ solve toInt B n E s inf = some dist ∧ c ≤ 9 * E.length + (8 * Nat.log 2 n + 13) * n + 9 := by
  obtain ⟨g, e, l, h⟩ := addDirs_ok toInt E (List.replicate n []) (fun x hx => by rw [List.length_replicate]; exact ⟨(hE x hx).1, (hE x hx).2.1⟩)
  rw [List.length_replicate] at l
  have hm := addDirs_edges toInt E _ _ e
  rw [show ((List.replicate n ([] : List (Nat × Int))).map List.length).sum = 0 by simp, Nat.zero_add] at hm
  obtain ⟨dist, c, e2, b⟩ := dijkstraC_ok (B := B) (g := g) (fun u t w hm => hE (u, t, w) hm) hs hinf l (fun v hv => by
    obtain ⟨es, h1, h2⟩ := h v [] (by rw [List.getElem?_replicate, if_pos hv])
    refine ⟨es, h1, fun t w => ?_⟩
    have ht : ∀ c, (v, t, c) ∈ E → toInt c = c := by
      intro c hc
      have a := hw _ hc
      have b := (hE _ hc).2.2.1
      dsimp only at a b
      unfold toInt
      rw [Int.bmod_eq_of_le] <;> omega
    rw [h2]
    constructor
    · rintro (h | ⟨c, hc, hw⟩)
      · cases h
      · rw [← hw, ht c hc]; exact hc
    · intro hm
      exact Or.inr ⟨w, hm, ht w hm⟩)
  have e3 : solveC toInt B n E s inf = some (dist, c) := by unfold solveC; rw [e, Option.bind_some, e2]
  refine ⟨dist, c, e3, ?_, by omega⟩
  rw [← solveC_fst, e3]
  rfl

/-- Five vertices, eight edges; vertices 1, 2 and 3 are lowered more than once. -/
def timeE : List (Nat × Nat × Int) := [(0, 1, 10), (0, 2, 20), (0, 3, 40), (1, 2, 5), (2, 3, 5), (1, 3, 20), (0, 4, 3), (4, 1, 1)]

example : Input 5 timeE (2 ^ 60) (2 ^ 63 - 1) ∧ ∀ e ∈ timeE, e.2.2 < 2 ^ 31 := by unfold Input; decide
example : solveC toInt (2 ^ 63 - 1) 5 timeE 0 (2 ^ 60) = some ([0, 4, 9, 14, 3], 59) := by decide +kernel

end Verif.Dijkstra
