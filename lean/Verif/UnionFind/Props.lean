import Verif.UnionFind.Proofs
/-! C01: union-find refines the equivalence relation generated by the united pairs. -/
namespace Verif.UnionFind

/-- Any history of valid calls on `UnionFind(n)` runs without undefined behaviour, and in the state
reached `are_union` answers connectivity. -/
theorem C01_are_union (n : Nat) (ops : List Op) (hv : ∀ op ∈ ops, op.Valid n) :
    ∃ par, exec (init n) ops = some par ∧
      ∀ u v, u < n → v < n → ∃ b par', areUnion par u v = some (b, par') ∧
        (b = true ↔ Connected (united ops) u v) := by
  obtain ⟨par, e, hps, f, d, hi, hr⟩ := exec_good ops [] (init n) (init_good n) hv
  refine ⟨par, e, fun u v hu hv => ?_⟩
  obtain ⟨p, e1, _⟩ := areUnion_spec hi hu hv
  refine ⟨_, p, e1, ?_⟩
  simpa using hr u v hu hv

/-- `unite` reports exactly whether the two arguments were not connected before. -/
theorem C01_unite_result (n : Nat) (ops : List Op) (hv : ∀ op ∈ ops, op.Valid n) :
    ∃ par, exec (init n) ops = some par ∧
      ∀ u v, u < n → v < n → ∃ b par', unite par u v = some (b, par') ∧
        (b = true ↔ ¬ Connected (united ops) u v) := by
  obtain ⟨par, e, g⟩ := exec_good ops [] (init n) (init_good n) hv
  refine ⟨par, e, fun u v hu hv => ?_⟩
  obtain ⟨b, p, e1, hb, _⟩ := unite_good g hu hv
  exact ⟨b, p, e1, by simpa using hb⟩

/-- `size_of(u)` is the number of indices connected to `u`. -/
theorem C01_size_of (n : Nat) (ops : List Op) (hv : ∀ op ∈ ops, op.Valid n) :
    ∃ par, exec (init n) ops = some par ∧
      ∀ u, u < n → ∃ s par', sizeOf par u = some (s, par') ∧
        ∃ l, Enumerates n (united ops) u l ∧ s = (l.length : Int) := by
  obtain ⟨par, e, hps, f, d, hi, hr⟩ := exec_good ops [] (init n) (init_good n) hv
  refine ⟨par, e, fun u hu => ?_⟩
  obtain ⟨p, e1, _⟩ := sizeOf_spec hi hu
  refine ⟨_, p, e1, (List.range n).filter (fun w => f w == f u), ⟨?_, ?_⟩, ?_⟩
  · exact List.Pairwise.filter _ List.nodup_range
  · intro w
    simp only [List.mem_filter, List.mem_range, beq_iff_eq]
    constructor
    · rintro ⟨h1, h2⟩
      exact ⟨h1, by simpa using (hr u w hu h1).1 h2.symm⟩
    · rintro ⟨h1, h2⟩
      exact ⟨h1, ((hr u w hu h1).2 (by simpa using h2)).symm⟩
  · simp [cls, List.countP_eq_length_filter]

/-- `root(u)` returns a fixed representative of the class: two indices get the same one exactly when connected,
and it is itself connected to the argument. -/
theorem C01_root (n : Nat) (ops : List Op) (hv : ∀ op ∈ ops, op.Valid n) :
    ∃ par, exec (init n) ops = some par ∧ ∃ rep : Nat → Nat,
      (∀ u, u < n → ∃ par', root par u = some (rep u, par') ∧ rep u < n ∧ Connected (united ops) u (rep u)) ∧
      (∀ u v, u < n → v < n → (rep u = rep v ↔ Connected (united ops) u v)) := by
  obtain ⟨par, e, hps, f, d, hi, hr⟩ := exec_good ops [] (init n) (init_good n) hv
  refine ⟨par, e, f, fun u hu => ?_, fun u v hu hv => by simpa using hr u v hu hv⟩
  obtain ⟨p, e1, _⟩ := root_spec hi hu
  refine ⟨p, e1, hi.lt u hu, ?_⟩
  simpa using (hr u (f u) hu (hi.lt u hu)).1 (hi.idem u hu).symm

/-- The hypotheses are met by a non-trivial history. -/
example : ∀ op ∈ [Op.unite 0 1, .sizeOf 1, .unite 2 3, .unite 1 3, .areUnion 0 2], op.Valid 5 := by
  simp [Op.Valid]
example : (exec (init 5) [Op.unite 0 1, .unite 2 3, .unite 1 3]).bind (fun p => (sizeOf p 0).map (·.1)) = some 4 := by
  decide

end Verif.UnionFind
