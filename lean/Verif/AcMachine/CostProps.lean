import Verif.AcMachine.Cost
/-!
C140: a search costs time proportional to the text.
-/
namespace Verif.AcMachine

variable {α T : Type} [DecidableEq α]

/-- C140 (partial: for `find_all` and `find` the second count is only bounded by the length of the text times that of the longest key, and this is attained, see
`C140_violated`).  For every machine, built from at least one insertion, whose keys have at most `m` letters, and every text of `n` letters, the calls of `_go` made by
`push` (lines 207-208) and the evaluations of the loop condition of `to_exact` (line 181) number

* at most `2 n` and at most `min(m, n) + 1` in `find_suffix(text)`, so `find_suffix` is linear,
* at most `2 n` and at most `(min(m, n) + 1) n` in `find_all(text)` and in `find(text)`.

The first components are the results of the functions. -/
theorem C140_search_partial {ord : List (α × Nat) → List (α × Nat)} (hord : ∀ l, (ord l).Perm l) (k : List α) (v : T) (acts : List (Act α T)) (m : Nat)
    (hm : ∀ p ∈ inserted (.ins k v :: acts), p.1.length ≤ m) (text : List α) :
    ∃ s, setup ord (.ins k v :: acts) = some s ∧
      (∃ x a b, findSuffixC s text = some (x, a, b) ∧ findSuffix s text = some x ∧ a ≤ 2 * text.length ∧ b ≤ min m text.length + 1) ∧
      (∃ L a b, findAllC s text = some (L, a, b) ∧ findAll s text = some L ∧ a ≤ 2 * text.length ∧ b ≤ (min m text.length + 1) * text.length) ∧
      (∃ x a b, findC s text = some (x, a, b) ∧ find s text = some x ∧ a ≤ 2 * text.length ∧ b ≤ (min m text.length + 1) * text.length) := by
  obtain ⟨s, N, g, lab, h1, B, h3⟩ := setup_built hord k v acts
  have hkept : ∀ (l C : List (List α × T)), (∀ p ∈ C, p.1.length ≤ m) → (∀ p ∈ l, p.1.length ≤ m) → ∀ p ∈ l.foldl (fun C p => keep C p.1 p.2) C, p.1.length ≤ m := by
    intro l
    induction l with
    | nil => intro C hC _; exact hC
    | cons q l ih =>
      intro C hC hl
      rw [List.foldl_cons]
      refine ih _ ?_ (fun p hp => hl p (List.mem_cons_of_mem _ hp))
      intro p hp
      unfold keep at hp
      by_cases c : q.1 = [] ∨ (C.any (fun p => q.1.isPrefixOf p.1)) = true
      · rw [if_pos c] at hp; exact hC p hp
      · rw [if_neg c] at hp
        rcases List.mem_append.mp hp with hp | hp
        · exact hC p hp
        · rw [List.mem_singleton] at hp
          subst hp
          exact hl q List.mem_cons_self
  have hmc : ∀ p ∈ s.cont, p.1.length ≤ m := by
    rw [h3]
    exact hkept _ [] (fun p hp => (List.not_mem_nil hp).elim) hm
  have hlab : ∀ u, u < N → (lab u).length ≤ m := fun u hu => lab_le B.keys hmc hu
  have hroot := B.keys.tr.root
  refine ⟨s, h1, ?_, ?_, ?_⟩
  · obtain ⟨x, a, e, ha, hx⟩ := pushAllC_cost B text [] 0 (root_long B)
    obtain ⟨y, b, ey, hb⟩ := exact_cost B hx.1
    have ef : findSuffixC s text = some (y, a, b) := by
      unfold findSuffixC
      rw [e, Option.bind_some, ey]; rfl
    refine ⟨y, a, b, ef, by rw [← findSuffixC_fst, ef]; rfl, ?_, ?_⟩
    · rw [hroot] at ha
      simpa using ha
    · have h4 := hlab x hx.1
      have h5 := hx.2.1.length_le
      rw [List.nil_append] at h5
      omega
  · obtain ⟨L, a, b, e, ha, hb⟩ := findAllFromC_cost B hlab text [] 0 0 (root_long B)
    rw [hroot] at ha
    refine ⟨L, a, b, e, ?_, by simpa using ha, by simpa using hb⟩
    unfold findAll
    rw [← findAllFromC_fst, e]; rfl
  · obtain ⟨L, a, b, e, ha, hb⟩ := findFromC_cost B hlab text [] 0 0 (root_long B)
    rw [hroot] at ha
    refine ⟨L, a, b, e, ?_, by simpa using ha, by simpa using hb⟩
    unfold find
    rw [← findFromC_fst, e]; rfl

/-- A machine meeting the hypotheses with the counts of the three functions. -/
example : (setup id [.ins [1] 10, .ins [2, 1] 20, .ins [1, 2, 1] 30]).bind (fun s => findSuffixC s [1, 2, 1, 3, 2, 2, 1]) = some (3, 11, 1) := by decide +kernel
example : (setup id [.ins [1] 10, .ins [2, 1] 20, .ins [1, 2, 1] 30]).bind (fun s => findAllC s [1, 2, 1, 3, 2, 2, 1]) = some ([(1, 1), (3, 5), (7, 3)], 11, 11) := by decide +kernel
example : (setup id [.ins [1] 10, .ins [2, 1] 20, .ins [1, 2, 1] 30]).bind (fun s => findC s [3, 2, 2, 1]) = some (some (4, 3), 5, 6) := by decide +kernel

/-- `find_all` is not linear in the text and the number of results: in the machine of the key `a…ab` (`n` times `a`), searching the text `a…a` of `n` letters finds nothing and evaluates
the condition of line 181 `n (n + 3) / 2` times, since at every position `to_exact` follows all the links to the root (lines 225-231) although no key ends there. -/
theorem C140_violated {ord : List (α × Nat) → List (α × Nat)} (hord : ∀ l, (ord l).Perm l) {a b : α} (hab : a ≠ b) (v : T) (n : Nat) :
    ∃ s x k, setup ord [.ins (List.replicate n a ++ [b]) v] = some s ∧ findAll s (List.replicate n a) = some [] ∧
      findAllC s (List.replicate n a) = some ([], x, k) ∧ 2 * k = n * (n + 3) := by
  obtain ⟨s, N, g, lab, h1, B, h3⟩ := setup_built hord (List.replicate n a ++ [b]) v []
  have hc : s.cont = [(List.replicate n a ++ [b], v)] := by
    rw [h3]
    show keep [] _ v = _
    unfold keep
    rw [if_neg (by simp)]
    rfl
  have hr : ∀ i, i ≤ n → ∃ x, x < N ∧ lab x = List.replicate i a := by
    intro i hi
    rw [B.keys.labs]
    right
    refine ⟨(List.replicate n a ++ [b], v), by rw [hc]; exact List.mem_singleton.mpr rfl, ?_⟩
    refine ⟨List.replicate (n - i) a ++ [b], ?_⟩
    rw [← List.append_assoc, List.replicate_append_replicate, show i + (n - i) = n by omega]
  have hk : ∀ p ∈ s.cont, ∀ i, p.1 ≠ List.replicate i a := by
    intro p hp i he
    rw [hc, List.mem_singleton] at hp
    subst hp
    have : b ∈ List.replicate i a := by rw [← he]; simp
    exact hab (List.eq_of_mem_replicate this).symm
  obtain ⟨x, k, e, ek⟩ := findAll_run B hr hk n 0 0 0 (root_long B) (by omega)
  refine ⟨s, x, k, h1, ?_, e, ?_⟩
  · unfold findAll
    rw [← findAllFromC_fst, e]; rfl
  · rw [ek]; ring

/-- 20 letters, no result, 230 steps. -/
example : (setup id [.ins (List.replicate 20 0 ++ [1]) 7]).map (fun s => findAllC s (List.replicate 20 0)) = some (some ([], 20, 230)) := by decide +kernel

end Verif.AcMachine
