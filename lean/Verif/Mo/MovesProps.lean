import Verif.Mo.Moves
/-!
C131: the number of calls of the callbacks that move the window in `MoSolver::solve` and `solve_rollback`.
-/
namespace Verif.Mo

/-- **C131** for any block size `b`: with `q` queries inside `[0, n]` the window moves at most `(q + 1) b + n + (n / b + 2) n` times, in either of the two orders. -/
theorem C131_blocks (segs : List Seg) (hseg : ∀ s ∈ segs, 0 ≤ s.1 ∧ s.1 ≤ s.2) (b : Int) (hn : 0 < maxR segs) (hb : 0 < b) (odd : Bool) (I : List Nat)
    (hI : I.Perm (List.range segs.length)) (hS : Sorted odd b segs I) :
    ∃ es, solve segs b I = some es ∧ rems es = I ∧
      (moves es : Int) ≤ (segs.length + 1) * b + maxR segs + (maxR segs / b + 2) * maxR segs := by
  have hmax := foldl_maxR segs 0
  obtain ⟨f, B⟩ := blk_exists odd hb
  have hlt : ∀ t ∈ I, t < segs.length := fun t ht => List.mem_range.mp (hI.mem_iff.mp ht)
  obtain ⟨es, h1, h2, _⟩ := C48_solve_partial segs (fun s hs => (hseg s hs).2) b (Or.inr ⟨hn, hb⟩) I hI (Or.inl hn)
  have hne : segs.length ≠ 0 := by
    intro h
    rw [List.length_eq_zero_iff] at h
    subst h
    exact absurd hn (by decide)
  have h0 : f 0 = 0 := by
    have a := B.nn 0 (le_refl _)
    have c := B.hi 0 (le_refl _)
    have e := B.eq 0
    cases odd with
    | false =>
      rw [block, if_neg (by decide), blockEven, cdiv_some hb] at e
      simpa using (Option.some.inj e).symm
    | true =>
      rw [block, if_pos rfl, blockOdd, if_pos] at e
      · exact (Option.some.inj e).symm
      · rw [Int.tdiv_eq_ediv_of_nonneg (by omega)]; omega
  obtain ⟨es', q1, q2⟩ := solveLoop_moves (n := maxR segs) B (fun s hs => ⟨(hseg s hs).1, (hseg s hs).2, hmax.2 s hs⟩) hb (by omega) I hlt hS 0 0 (le_refl _) (by omega)
    (le_refl _) (by omega) (by
      intro i _ t ht
      obtain ⟨t1, t2⟩ := hseg t (List.mem_of_getElem? ht)
      refine ⟨B.mono _ _ t1, fun _ => ?_⟩
      rw [h0]
      simpa using t1.trans t2)
  have he : es' = es := by
    rw [solve, if_neg hne] at h1
    split_ifs at h1 with h
    rw [q1] at h1
    exact Option.some.inj h1
  subst he
  refine ⟨es', h1, h2, ?_⟩
  rw [h0, hI.length_eq, List.length_range] at q2
  have hz := bend_zero odd hb
  have hr : rpot (maxR segs) 0 0 = maxR segs := by unfold rpot; simp
  rw [hr] at q2
  have e1 : ((segs.length : Int) + 1) * b = segs.length * b + b := by ring
  have e2 : (maxR segs / b + 2) * maxR segs = (maxR segs / b + 1 - 0) * maxR segs + maxR segs := by ring
  rw [e1, e2]
  omega

/-- **C131** for `solve_rollback` and any block size: at most `q b + (n / b + 2) n` pushes. -/
theorem C131_rollback (segs : List Seg) (hseg : ∀ s ∈ segs, 0 ≤ s.1 ∧ s.1 ≤ s.2) (b : Int) (hn : 0 < maxR segs) (hb : 0 < b) (odd : Bool) (J : List Nat)
    (hJ : J.Perm (longIds segs b))
    (hsort : J.Pairwise (fun i j => ∀ s u, segs[i]? = some s → segs[j]? = some u → compRb odd b u s ≠ some true)) :
    ∃ es, solveRollback segs b odd J = some es ∧ (rems es).Perm (List.range segs.length) ∧
      (moves es : Int) ≤ segs.length * b + (maxR segs / b + 2) * maxR segs := by
  have hmax := foldl_maxR segs 0
  obtain ⟨f, B⟩ := blk_exists odd hb
  obtain ⟨es, h1, h2, _⟩ := C60_rollback_partial segs hseg b (Or.inr ⟨hn, hb⟩) odd J hJ (Or.inl hn) hsort []
  refine ⟨es, h1, h2, ?_⟩
  unfold solveRollback at h1
  split_ifs at h1 with h0
  · cases h1
    have : 0 ≤ (maxR segs / b + 2) * maxR segs := Int.mul_nonneg (by have := Int.ediv_nonneg hn.le hb.le; omega) hn.le
    have e : moves [] = 0 := rfl
    rw [e, h0]
    push_cast
    omega
  · obtain ⟨e1, s1, _, _⟩ := shorts_ok (fun s hs => (hseg s hs).2) b segs 0 rfl (by simp)
    have hm := shorts_moves b segs 0 (fun s hs => (hseg s hs).2) _ s1
    rw [s1, Option.bind_some] at h1
    split_ifs at h1 with hbd
    dsimp only at hm
    cases hq : longs odd b segs J (-1) 0 with
    | none => rw [hq] at h1; cases h1
    | some q =>
      rw [hq] at h1
      cases h1
      have hl := longs_moves B (n := maxR segs) (fun s hs => ⟨(hseg s hs).1, (hseg s hs).2, hmax.2 s hs⟩) hb hn.le J hsort (-1) 0
        (by have := Int.ediv_nonneg hn.le hb.le; omega) (fun h => absurd h (by decide))
        (fun t _ s hs => by have := B.nn s.1 (hseg s (List.mem_of_getElem? hs)).1; omega) q hq
      rw [if_neg (by decide), hJ.length_eq] at hl
      unfold longIds at hl
      rw [List.range_eq_range'] at hl
      rw [moves_append]
      have e2 : (maxR segs / b + 1 - -1) * maxR segs = (maxR segs / b + 2) * maxR segs := by ring
      rw [e2] at hl
      push_cast
      omega

/-- **C131**: for the block size `⌈n / √q⌉` of line 35 the window moves at most `2 n ⌊√q⌋ + 5 n + q` times. -/
theorem C131_moves (segs : List Seg) (hseg : ∀ s ∈ segs, 0 ≤ s.1 ∧ s.1 ≤ s.2) (b : Int) (hn : 0 < maxR segs) (hb : IsCeil (maxR segs) segs.length b) (odd : Bool) (I : List Nat)
    (hI : I.Perm (List.range segs.length)) (hS : Sorted odd b segs I) :
    ∃ es, solve segs b I = some es ∧ rems es = I ∧
      (moves es : Int) ≤ 2 * maxR segs * Nat.sqrt segs.length + 5 * maxR segs + segs.length := by
  obtain ⟨es, h1, h2, h3⟩ := C131_blocks segs hseg b hn hb.1 odd I hI hS
  refine ⟨es, h1, h2, h3.trans ?_⟩
  obtain ⟨w1, w2, w3⟩ := hb.arith hn
  generalize maxR segs = n at *
  generalize segs.length = q at *
  generalize Nat.sqrt q = r at *
  have w4 : (n / b + 2) * n ≤ (r + 2) * n := Int.mul_le_mul_of_nonneg_right (by omega) hn.le
  have e1 : (q : Int) * b = (b - 1) * q + q := by ring
  have e0 : ((q : Int) + 1) * b = q * b + b := by ring
  have e2 : ((r : Int) + 2) * n = n * r + 2 * n := by ring
  have e3 : n * ((r : Int) + 1) = n * r + n := by ring
  have e4 : 2 * n * (r : Int) = 2 * (n * r) := by ring
  rw [e4]
  rw [e2] at w4
  rw [e3] at w1
  omega

/-- **C131** for `solve_rollback`: at most `2 n ⌊√q⌋ + 3 n + q` pushes. -/
theorem C131_rollback_moves (segs : List Seg) (hseg : ∀ s ∈ segs, 0 ≤ s.1 ∧ s.1 ≤ s.2) (b : Int) (hn : 0 < maxR segs) (hb : IsCeil (maxR segs) segs.length b) (odd : Bool)
    (J : List Nat) (hJ : J.Perm (longIds segs b))
    (hsort : J.Pairwise (fun i j => ∀ s u, segs[i]? = some s → segs[j]? = some u → compRb odd b u s ≠ some true)) :
    ∃ es, solveRollback segs b odd J = some es ∧ (rems es).Perm (List.range segs.length) ∧
      (moves es : Int) ≤ 2 * maxR segs * Nat.sqrt segs.length + 3 * maxR segs + segs.length := by
  obtain ⟨es, h1, h2, h3⟩ := C131_rollback segs hseg b hn hb.1 odd J hJ hsort
  refine ⟨es, h1, h2, h3.trans ?_⟩
  obtain ⟨w1, w2, w3⟩ := hb.arith hn
  generalize maxR segs = n at *
  generalize segs.length = q at *
  generalize Nat.sqrt q = r at *
  have w4 : (n / b + 2) * n ≤ (r + 2) * n := Int.mul_le_mul_of_nonneg_right (by omega) hn.le
  have e1 : (q : Int) * b = (b - 1) * q + q := by ring
  have e0 : ((q : Int) + 1) * b = q * b + b := by ring
  have e2 : ((r : Int) + 2) * n = n * r + 2 * n := by ring
  have e3 : n * ((r : Int) + 1) = n * r + n := by ring
  have e4 : 2 * n * (r : Int) = 2 * (n * r) := by ring
  rw [e4]
  rw [e2] at w4
  rw [e3] at w1
  omega

/-- Nine queries in `[0, 9]`; `b = 3`; the order of `EvenComp`. -/
def exSegs : List Seg := [(0,9), (1,4), (2,6), (3,5), (4,9), (5,7), (6,8), (8,9), (7,7)]

example : maxR exSegs = 9 ∧ IsCeil 9 exSegs.length 3 := by
  refine ⟨by decide, by decide, by decide, by decide⟩
example : Sorted false 3 exSegs [1, 2, 0, 4, 5, 3, 8, 6, 7] := by unfold Sorted; decide
example : (solve exSegs 3 [1, 2, 0, 4, 5, 3, 8, 6, 7]).map moves = some 35 := by decide

example : [1, 2, 0, 4].Perm (longIds exSegs 3) := by decide
example : [1, 2, 0, 4].Pairwise (fun i j => (exSegs[i]?).bind (fun s => (exSegs[j]?).bind (fun u => compRb false 3 u s)) ≠ some true) := by decide
example : (solveRollback exSegs 3 false [1, 2, 0, 4]).map moves = some 24 := by decide

end Verif.Mo
