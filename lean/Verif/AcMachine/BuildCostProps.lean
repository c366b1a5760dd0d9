import Verif.AcMachine.BuildCost
/-!
C141: `build` costs time proportional to the total length of the keys.
-/
namespace Verif.AcMachine

variable {α T : Type} [DecidableEq α]

theorem kept_sum (l : List (List α × T)) : ((kept l).map (fun p => p.1.length)).sum ≤ (l.map (fun p => p.1.length)).sum := by
  have key : ∀ (l C : List (List α × T)), ((l.foldl (fun C p => keep C p.1 p.2) C).map (fun p => p.1.length)).sum ≤ (C.map (fun p => p.1.length)).sum + (l.map (fun p => p.1.length)).sum := by
    intro l
    induction l with
    | nil => intro C; simp
    | cons q l ih =>
      intro C
      rw [List.foldl_cons, List.map_cons, List.sum_cons]
      refine Nat.le_trans (ih _) ?_
      unfold keep
      by_cases c : q.1 = [] ∨ (C.any (fun p => q.1.isPrefixOf p.1)) = true
      · rw [if_pos c]; omega
      · rw [if_neg c, List.map_append, List.sum_append]
        simp only [List.map_cons, List.map_nil, List.sum_cons, List.sum_nil]
        omega
  have := key l []
  simpa [kept] using this

theorem sum_le_map {β : Type} (f h : β → Nat) : ∀ l : List β, (∀ x ∈ l, f x ≤ h x) → (l.map f).sum ≤ (l.map h).sum
  | [], _ => Nat.le_refl _
  | x :: l, hl => by
      rw [List.map_cons, List.map_cons, List.sum_cons, List.sum_cons]
      exact Nat.add_le_add (hl x List.mem_cons_self) (sum_le_map f h l (fun y hy => hl y (List.mem_cons_of_mem _ hy)))

theorem sum_mul (f : List α × T → Nat) (c : Nat) : ∀ l : List (List α × T), (l.map (fun p => c * f p)).sum = c * (l.map f).sum
  | [] => rfl
  | p :: l => by rw [List.map_cons, List.map_cons, List.sum_cons, List.sum_cons, sum_mul f c l, Nat.mul_add]

/-- C141.  For every sequence of insertions and rebuildings that starts with an insertion, every order of iteration over the edge maps: the machine has at most `1 + L` nodes when the
inserted keys have `L` letters altogether, so the queue of `_build_fail` has at most `L` rounds (each node enters it once), and `build` calls `_go` (lines 110-111) at most
`2 L` times in all. -/
theorem C141_build_linear {ord ord' : List (α × Nat) → List (α × Nat)} (hord : ∀ l, (ord l).Perm l) (hord' : ∀ l, (ord' l).Perm l) (k : List α) (v : T) (acts : List (Act α T)) :
    ∃ s s' n, runActs ord' ⟨[], []⟩ (.ins k v :: acts) = some s ∧ buildC ord s = some (s', n) ∧ build ord s = some s' ∧
      n ≤ 2 * ((inserted (.ins k v :: acts)).map (fun p => p.1.length)).sum ∧ s.nodes.length ≤ 1 + ((inserted (.ins k v :: acts)).map (fun p => p.1.length)).sum := by
  obtain ⟨s1, N1, g1, lab1, h1, h2, h3⟩ := insert_keys (new_keys (α := α) (T := T)) k v (by simp)
  obtain ⟨s, N, g, lab, k1, K, k3⟩ := runActs_keys hord' acts s1 h2
  have hcont : s.cont = kept (inserted (.ins k v :: acts)) := by rw [k3, h3]; rfl
  have hks := kept_sum (inserted (.ins k v :: acts))
  rw [← hcont] at hks
  obtain ⟨sb, gb, b1, B, b3⟩ := build_keys K hord
  obtain ⟨s', n, D, e, d1, d2, d3⟩ := buildC_cost K.rep K.tr (pays K.tr) hord
  refine ⟨s, s', n, ?_, e, by rw [← buildC_fst, e]; rfl, ?_, ?_⟩
  · unfold runActs
    have : step ord' (⟨[], []⟩ : Ac α T) (.ins k v) = some s1 := h1
    rw [this, Option.bind_some, k1]
  · have h4 := sum_nodes K (pay N lab) d1 d2
    have h5 : pay N lab [] = 0 := by simp [pay]
    have h6 : (s.cont.map (fun p => ((List.range (p.1.length + 1)).map (fun j => pay N lab (p.1.take j))).sum)).sum ≤ (s.cont.map (fun p => 2 * p.1.length)).sum := by
      refine sum_le_map _ _ _ (fun p hp => ?_)
      have hw : ∃ u, u < N ∧ lab u = p.1 := (K.labs p.1).mpr (Or.inr ⟨p, hp, List.prefix_rfl⟩)
      have := sum_take B hw p.1.length (Nat.le_refl _)
      omega
    rw [sum_mul (fun p => p.1.length)] at h6
    omega
  · -- count the nodes other than the root
    have h4 := sum_nodes K (fun x => if x = [] then 0 else 1) (D := List.range N) List.nodup_range (fun v hv => List.mem_range.mp hv)
    have h6 : (s.cont.map (fun p => ((List.range (p.1.length + 1)).map (fun j => if p.1.take j = [] then 0 else 1)).sum)).sum ≤ (s.cont.map (fun p => p.1.length)).sum := by
      refine sum_le_map _ _ _ (fun p _ => ?_)
      rw [List.range_succ_eq_map, List.map_cons, List.sum_cons, List.map_map, List.take_zero, if_pos rfl, Nat.zero_add]
      refine Nat.le_trans (sum_le_map _ (fun _ => 1) _ (fun j _ => ?_)) ?_
      · dsimp only [Function.comp]
        split <;> omega
      · simp
    have h7 : N ≤ 1 + ((List.range N).map (fun v => if lab v = [] then 0 else 1)).sum := by
      obtain ⟨M, hM⟩ : ∃ M, N = M + 1 := ⟨N - 1, by have := K.tr.pos; omega⟩
      subst hM
      rw [List.range_succ_eq_map, List.map_cons, List.sum_cons, K.tr.root, if_pos rfl, Nat.zero_add, List.map_map]
      have : ((List.range M).map (fun _ => 1)).sum ≤ ((List.range M).map ((fun v => if lab v = [] then 0 else 1) ∘ Nat.succ)).sum := by
        refine sum_le_map _ _ _ (fun j hj => ?_)
        have hj := List.mem_range.mp hj
        dsimp only [Function.comp]
        rw [if_neg (K.tr.ne_nil (by omega) (by omega))]
      simp only [List.map_const', List.sum_replicate_nat, List.length_range, Nat.mul_one] at this
      omega
    rw [K.rep.len]
    rw [if_pos rfl] at h4
    omega

/-- Keys of 21 letters: 14 nodes, 19 calls of `_go`. -/
example : (runActs id ⟨[], []⟩ [.ins [1, 1, 1, 1, 2] 1, .ins [1, 1, 1, 3] 2, .ins [2, 1, 1, 2, 1, 1, 1] 3, .ins [1, 1, 1, 1, 2] 4]).map (fun s =>
    (s.nodes.length, (buildC id s).map Prod.snd)) = some (14, some 19) := by decide +kernel

end Verif.AcMachine
