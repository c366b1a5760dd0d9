import Verif.TreapShape.Shape
import Verif.TreapShape.Average
/-!
C127: balance of the treap (`/repo/include/mtl/treap.hpp`, model `Verif.Treap.Model`): heap order of the priorities after every history; the shape depends only on the
priorities that the present keys were inserted with; the nodes that `find` looks at; their average number over all orders of the priorities.
-/
namespace Verif.TreapShape

open Verif.Treap Finset

variable {K V V' : Type} [LinearOrder K]

/-- What a history leaves behind, by the sorted list of (key, priority) pairs. -/
theorem ledger_facts {ops : List (Op K V)} {Ts : List (Treap K V)} {os : List (Out K V)} {Ls : List (List (K × Nat))} {os' : List (Out K Nat)} (hr : run [] ops = some (Ts, os)) (hl : srun [] (ops.map ledger) = some (Ls, os'))
    {i : Nat} {T : Treap K V} {L : List (K × Nat)} (hT : Ts[i]? = some T) (hL : Ls[i]? = some L) : LeastOnTop T.root ∧ inorder (skel T.root) = L ∧ Sorted L := by
  obtain ⟨os1, h1⟩ := skel_run ops [] _ hr
  obtain ⟨Ts', h2, h3, h4⟩ := run_ok false (ops.map ledger) [] Ls os' (by simp) (fun a ha => by obtain ⟨b, -, rfl⟩ := List.mem_map.1 ha; exact ⟨ledger_ok b, fun e => by cases e⟩) hl
  have h2' : run ([] : List (Treap K Nat)) (ops.map ledger) = some (Ts', os') := h2
  have h1' : run ([] : List (Treap K Nat)) (ops.map ledger) = some (Ts.map skelT, os1) := h1
  rw [h1'] at h2'
  cases h2'
  have hx : (contents (Ts.map skelT))[i]? = some (inorder (skel T.root)) := by
    simp [contents, hT, skelT]
  rw [h3, hL] at hx
  cases hx
  refine ⟨(heap_least _ (heap_run ops [] _ (by simp) hr T (List.mem_of_getElem? hT))).1, rfl, ?_⟩
  exact (h4 (skelT T) (List.mem_map.2 ⟨T, List.mem_of_getElem? hT, rfl⟩)).1

/-- C127: after every history of calls that does not run into undefined behaviour, with any priorities drawn and any iterators and hints given, every node of every treap has the least priority of its subtree. -/
theorem C127_heap (ops : List (Op K V)) (Ts : List (Treap K V)) (os : List (Out K V)) (h : run [] ops = some (Ts, os)) : ∀ T ∈ Ts, LeastOnTop T.root :=
  fun T hT => (heap_least _ (heap_run ops [] _ (by simp) h T hT)).1

example : (run (K := Nat) (V := Unit) [] [.create, .insert 0 5 1 (), .insert 0 3 2 (), .insert 0 4 7 (), .insert 0 1 3 (), .split 0 (some 2), .insert 1 0 0 (), .absorb 0 1, .eraseKey 0 3]).map (fun q => q.1.map (fun T => skel T.root)) =
    some [.node .nil 0 0 0 (.node (.node .nil 5 1 5 .nil) 3 2 3 (.node .nil 4 7 4 .nil)), .nil] := by decide +kernel

/-- C127: history independence.  Two treaps, from any two histories of inserts, erases, splits, joins and copies, that hold the same keys, each with the same priority drawn at its insertion, and without equal priorities, have the same shape, with the
same keys and priorities at the same places. -/
theorem C127_shape (ops : List (Op K V)) (ops' : List (Op K V')) (Ts : List (Treap K V)) (Ts' : List (Treap K V')) (os : List (Out K V)) (os' : List (Out K V')) (Ls Ls' : List (List (K × Nat))) (ps ps' : List (Out K Nat))
    (hr : run [] ops = some (Ts, os)) (hr' : run [] ops' = some (Ts', os')) (hl : srun [] (ops.map ledger) = some (Ls, ps)) (hl' : srun [] (ops'.map ledger) = some (Ls', ps'))
    (i i' : Nat) (T : Treap K V) (T' : Treap K V') (L : List (K × Nat)) (hT : Ts[i]? = some T) (hT' : Ts'[i']? = some T') (hL : Ls[i]? = some L) (hL' : Ls'[i']? = some L) (hd : (L.map Prod.snd).Nodup) :
    skel T.root = skel T'.root := by
  obtain ⟨h1, h2, h3⟩ := ledger_facts hr hl hT hL
  obtain ⟨h1', h2', h3'⟩ := ledger_facts hr' hl' hT' hL'
  exact shape_unique T.root T'.root h1 h1' (by rw [← prios_skel, h2]; exact hd) (by rw [h2, h2'])

/-- Two different histories with the same ledger. -/
example : srun (K := Nat) [] ([Op.create, .insert 0 5 1 'a', .insert 0 3 2 'b', .insert 0 9 2 'c', .insert 0 4 7 'd', .insert 0 1 3 'e', .eraseKey 0 3].map ledger) =
      some ([[(1, 5), (2, 3), (7, 4)]], [.unit, .itb (some 1) true, .itb (some 2) true, .itb (some 2) false, .itb (some 7) true, .itb (some 3) true, .b true]) ∧
    srun (K := Nat) [] ([Op.create, .insert 0 4 7 (), .insert 0 8 2 (), .eraseKey 0 2, .create, .insert 1 3 2 (), .insert 1 5 1 (), .absorb 0 1].map ledger) =
      some ([[(1, 5), (2, 3), (7, 4)], []], [.unit, .itb (some 7) true, .itb (some 2) true, .b true, .unit, .itb (some 2) true, .itb (some 1) true, .it (some 7)]) := by decide +kernel

/-- `find` answers by the keys it looks at. -/
theorem find_path (x : K) : ∀ t : Tree K V, findT x t = (path x t).find? (fun k => decide (k = x)) := by
  intro t
  induction t with
  | nil => rfl
  | node l p k v r ihl ihr =>
    unfold findT path
    rw [List.find?_cons]
    by_cases h : k = x
    · simp [h]
    · simp only [h, if_false, decide_false]
      split_ifs
      · exact ihl
      · exact ihr

/-- C127: `find(x)`, for `x` present or not, looks at exactly those keys whose priority is the least among the keys between them and `x`, each once. -/
theorem C127_path (ops : List (Op K V)) (Ts : List (Treap K V)) (os : List (Out K V)) (Ls : List (List (K × Nat))) (ps : List (Out K Nat))
    (hr : run [] ops = some (Ts, os)) (hl : srun [] (ops.map ledger) = some (Ls, ps)) (i : Nat) (T : Treap K V) (L : List (K × Nat)) (hT : Ts[i]? = some T) (hL : Ls[i]? = some L) (hd : (L.map Prod.snd).Nodup) (x : K) :
    (path x T.root).Nodup ∧ ∀ y, y ∈ path x T.root ↔ ∃ p, (y, p) ∈ L ∧ ∀ z q, (z, q) ∈ L → Between x y z → p ≤ q := by
  obtain ⟨h1, h2, h3⟩ := ledger_facts hr hl hT hL
  have hs : Sorted (inorder (skel T.root)) := h2 ▸ h3
  refine ⟨path_nodup x T.root hs, fun y => ?_⟩
  have hi := path_iff x T.root h1 hs (by rw [← prios_skel, h2]; exact hd) y
  rw [h2] at hi
  constructor
  · intro hy
    obtain ⟨p, hp⟩ := path_keys x T.root y hy
    rw [h2] at hp
    exact ⟨p, hp, (hi p hp).1 hy⟩
  · rintro ⟨p, hp, h⟩
    exact (hi p hp).2 h

example : (run (K := Nat) (V := Unit) [] [.create, .insert 0 5 1 (), .insert 0 3 2 (), .insert 0 4 7 (), .insert 0 1 3 (), .insert 0 2 9 ()]).map (fun q => q.1.map (fun T => (path 7 T.root, path 6 T.root, path 1 T.root))) =
    some [([3, 9, 7], [3, 9, 7], [3, 2, 1])] := by decide +kernel

/-! ### The average over all orders of the priorities -/

theorem path_card {n : Nat} (key : Fin n → K) (hk : StrictMono key) (σ : Equiv.Perm (Fin n)) (a : Fin n) (P : List K) (hn : P.Nodup)
    (hP : ∀ y, y ∈ P ↔ ∃ p, (y, p) ∈ List.ofFn (fun j => (key j, (σ j).val)) ∧ ∀ z q, (z, q) ∈ List.ofFn (fun j => (key j, (σ j).val)) → Between (key a) y z → p ≤ q) :
    P.length = (univ.filter (fun b : Fin n => ∀ c ∈ uIcc a b, σ b ≤ σ c)).card := by
  have hset : P.toFinset = (univ.filter (fun b : Fin n => ∀ c ∈ uIcc a b, σ b ≤ σ c)).image key := by
    ext y
    rw [List.mem_toFinset, hP, Finset.mem_image]
    constructor
    · rintro ⟨p, hp, h⟩
      obtain ⟨b, hb⟩ := List.mem_ofFn.1 hp
      cases hb
      refine ⟨b, Finset.mem_filter.2 ⟨Finset.mem_univ _, fun c hc => ?_⟩, rfl⟩
      refine h (key c) (σ c).val (List.mem_ofFn.2 ⟨c, rfl⟩) ?_
      rcases le_total a b with hab | hab
      · rw [Finset.uIcc_of_le hab, Finset.mem_Icc] at hc
        exact Or.inl ⟨hk.monotone hc.1, hk.monotone hc.2⟩
      · rw [Finset.uIcc_of_ge hab, Finset.mem_Icc] at hc
        exact Or.inr ⟨hk.monotone hc.1, hk.monotone hc.2⟩
    · rintro ⟨b, hb, rfl⟩
      refine ⟨(σ b).val, List.mem_ofFn.2 ⟨b, rfl⟩, ?_⟩
      intro z q hz hbt
      obtain ⟨c, hc⟩ := List.mem_ofFn.1 hz
      cases hc
      refine (Finset.mem_filter.1 hb).2 c ?_
      rw [Finset.mem_uIcc']
      rcases hbt with h | h
      · exact Or.inl ⟨hk.le_iff_le.1 h.1, hk.le_iff_le.1 h.2⟩
      · exact Or.inr ⟨hk.le_iff_le.1 h.1, hk.le_iff_le.1 h.2⟩
  rw [← List.toFinset_card_of_nodup hn, hset, Finset.card_image_of_injective _ hk.injective]

/-- C127: the average.  Let treaps come from any histories, one for each order `σ` of `n` priorities, the `j`-th key of the treap having been inserted with the `σ j`-th smallest priority.  Over all the `n!` orders, the number of keys that `find` of the
`a`-th key (from 0) looks at is `H(a+1) + H(n-a) - 1` on average. -/
theorem C127_average {n : Nat} (key : Fin n → K) (hk : StrictMono key) (ops : Equiv.Perm (Fin n) → List (Op K V)) (Ts : Equiv.Perm (Fin n) → List (Treap K V)) (os : Equiv.Perm (Fin n) → List (Out K V))
    (Ls : Equiv.Perm (Fin n) → List (List (K × Nat))) (ps : Equiv.Perm (Fin n) → List (Out K Nat)) (i : Equiv.Perm (Fin n) → Nat) (T : Equiv.Perm (Fin n) → Treap K V)
    (hr : ∀ σ, run [] (ops σ) = some (Ts σ, os σ)) (hl : ∀ σ, srun [] ((ops σ).map ledger) = some (Ls σ, ps σ)) (hT : ∀ σ, (Ts σ)[i σ]? = some (T σ))
    (hL : ∀ σ, (Ls σ)[i σ]? = some (List.ofFn (fun j => (key j, (σ j).val)))) (a : Fin n) :
    ∑ σ, ((path (key a) (T σ).root).length : ℚ) = n.factorial * (harmonic (a.val + 1) + harmonic (n - a.val) - 1) := by
  have h1 : ∀ σ, (path (key a) (T σ).root).length = (univ.filter (fun b : Fin n => ∀ c ∈ uIcc a b, σ b ≤ σ c)).card := by
    intro σ
    obtain ⟨p1, p2⟩ := C127_path (ops σ) (Ts σ) (os σ) (Ls σ) (ps σ) (hr σ) (hl σ) (i σ) (T σ) _ (hT σ) (hL σ) (by
      rw [List.map_ofFn]
      exact List.nodup_ofFn.2 (fun x y h => σ.injective (Fin.ext h))) (key a)
    exact path_card key hk σ a _ p1 p2
  simp only [h1, Finset.card_filter]
  push_cast
  rw [Finset.sum_comm]
  have h2 : ∀ b : Fin n, (∑ σ : Equiv.Perm (Fin n), if ∀ c ∈ uIcc a b, σ b ≤ σ c then (1 : ℚ) else 0) = n.factorial * (1 / ((uIcc a b).card : ℚ)) := by
    intro b
    have h3 := minAt_card (uIcc a b) b Finset.right_mem_uIcc
    have h4 : ((uIcc a b).card : ℚ) ≠ 0 := Nat.cast_ne_zero.2 (Finset.card_ne_zero_of_mem (Finset.right_mem_uIcc (a := a) (b := b)))
    rw [← h3]
    unfold minAt
    rw [Finset.card_filter]
    push_cast
    rw [mul_assoc, mul_one_div_cancel h4, mul_one]
  rw [Finset.sum_congr rfl (fun b _ => h2 b), ← Finset.mul_sum, sum_dist]

/-! ### Insertions in any order -/

theorem insert_perm (L : List (K × Nat)) (x : K) (p : Nat) (hx : x ∉ L.map Prod.fst) : (sInsert L x p).Perm ((x, p) :: L) := by
  unfold sInsert
  rw [if_neg (by rw [hasKey_iff]; exact hx)]
  have : (below L x ++ above L x).Perm L := by
    have h : above L x = L.filter (fun q => !decide (q.1 < x)) := by
      unfold above
      apply List.filter_congr
      intro q hq
      have hne : q.1 ≠ x := fun e => hx (List.mem_map.2 ⟨q, hq, e⟩)
      rcases lt_or_gt_of_ne hne with h | h
      · simp [h, le_of_lt h]
      · simp [h, le_of_lt h]
    rw [h]
    exact List.filter_append_perm _ L
  exact List.perm_middle.trans (this.cons _)

theorem srun_inserts {n : Nat} (key : Fin n → K) (hk : StrictMono key) (f : Fin n → Nat) : ∀ (order : List (Fin n)) (L : List (K × Nat)), Sorted L → order.Nodup → (∀ j ∈ order, key j ∉ L.map Prod.fst) →
    ∃ L' ps, srun [L] (order.map (fun j => Op.insert 0 (f j) (key j) (f j))) = some ([L'], ps) ∧ Sorted L' ∧ L'.Perm (order.map (fun j => (key j, f j)) ++ L) := by
  intro order
  induction order with
  | nil => intro L hs _ _; exact ⟨L, [], rfl, hs, List.Perm.refl _⟩
  | cons j order ih =>
    intro L hs hn hf
    obtain ⟨hj, hn⟩ := List.nodup_cons.1 hn
    have hp := insert_perm L (key j) (f j) (hf j List.mem_cons_self)
    obtain ⟨L', ps, h1, h2, h3⟩ := ih (sInsert L (key j) (f j)) (sorted_insert (key j) (f j) hs) hn (by
      intro b hb hm
      rcases List.mem_cons.1 ((hp.map Prod.fst).mem_iff.1 hm) with h | h
      · exact hj (hk.injective h ▸ hb)
      · exact hf b (List.mem_cons_of_mem _ hb) h)
    refine ⟨L', Out.itb (some (key j)) (!hasKey L (key j)) :: ps, ?_, h2, h3.trans ?_⟩
    · unfold srun at h1 ⊢
      rw [List.map_cons, runWith]
      change Option.map _ (runWith sstep [sInsert L (key j) (f j)] _) = _
      rw [h1]; rfl
    · exact (List.Perm.append_left _ hp).trans List.perm_middle

theorem run_inserts {n : Nat} (key : Fin n → K) (val : Fin n → V) (f : Fin n → Nat) : ∀ (order : List (Fin n)) (T : Treap K V),
    ∃ T' os, run [T] (order.map (fun j => Op.insert 0 (f j) (key j) (val j))) = some ([T'], os) := by
  intro order
  induction order with
  | nil => intro T; exact ⟨T, [], rfl⟩
  | cons j order ih =>
    intro T
    obtain ⟨T', os, h⟩ := ih (Treap.insert T (f j) (key j) (val j)).1
    refine ⟨T', .itb (Treap.insert T (f j) (key j) (val j)).2.1 (Treap.insert T (f j) (key j) (val j)).2.2 :: os, ?_⟩
    unfold run at h ⊢
    rw [List.map_cons, runWith]
    change Option.map _ (runWith step [(Treap.insert T (f j) (key j) (val j)).1] _) = _
    rw [h]; rfl

/-- The history: an empty treap, and the keys inserted in the order `order` with the priorities `σ`. -/
def inserts {n : Nat} (key : Fin n → K) (val : Fin n → V) (order : List (Fin n)) (σ : Equiv.Perm (Fin n)) : List (Op K V) :=
  .create :: order.map (fun j => .insert 0 (σ j).val (key j) (val j))

/-- C127: insert `n` different keys in any order, however bad, with priorities in random order.  Then `find` of the `a`-th key looks at `H(a+1) + H(n-a) - 1` keys on average over the `n!` orders of the priorities, and this is at most `1 + 2 log2 n`. -/
theorem C127_insert_average {n : Nat} (key : Fin n → K) (hk : StrictMono key) (val : Fin n → V) (order : List (Fin n)) (ho : order.Perm (List.finRange n)) (a : Fin n) :
    ∃ T : Equiv.Perm (Fin n) → Treap K V, (∀ σ, ∃ os, run [] (inserts key val order σ) = some ([T σ], os)) ∧
      ∑ σ, ((path (key a) (T σ).root).length : ℚ) = n.factorial * (harmonic (a.val + 1) + harmonic (n - a.val) - 1) ∧
      ∑ σ, ((path (key a) (T σ).root).length : ℚ) ≤ n.factorial * (1 + 2 * Nat.log 2 n) := by
  have hrun : ∀ σ : Equiv.Perm (Fin n), ∃ T : Treap K V, ∃ os, run [] (inserts key val order σ) = some ([T], os) := by
    intro σ
    obtain ⟨T, os, h⟩ := run_inserts key val (fun j => (σ j).val) order empty
    refine ⟨T, .unit :: os, ?_⟩
    unfold run at h ⊢
    rw [inserts, runWith]
    change Option.map _ (runWith step [empty] _) = _
    rw [h]; rfl
  have hsrun : ∀ σ : Equiv.Perm (Fin n), ∃ ps, srun [] ((inserts key val order σ).map ledger) = some ([List.ofFn (fun j => (key j, (σ j).val))], ps) := by
    intro σ
    obtain ⟨L, ps, h1, h2, h3⟩ := srun_inserts key hk (fun j => (σ j).val) order [] List.Pairwise.nil (ho.nodup_iff.2 (List.nodup_finRange n)) (by simp)
    have hL : L = List.ofFn (fun j => (key j, (σ j).val)) := by
      have hp : L.Perm (List.ofFn (fun j => (key j, (σ j).val))) := by
        rw [List.append_nil] at h3
        refine h3.trans ?_
        rw [List.ofFn_eq_map]
        exact ho.map _
      refine List.Perm.eq_of_pairwise (le := fun (a b : K × Nat) => a.1 < b.1) ?_ h2 ?_ hp
      · intro x y _ _ hxy hyx
        exact absurd (lt_trans hxy hyx) (lt_irrefl _)
      · rw [List.pairwise_ofFn]
        exact fun _ _ h => hk h
    refine ⟨.unit :: ps, ?_⟩
    rw [← hL]
    unfold srun at h1 ⊢
    rw [inserts, List.map_cons, runWith, List.map_map]
    change Option.map _ (runWith sstep [[]] (order.map (fun j => Op.insert 0 (σ j).val (key j) (σ j).val))) = _
    rw [h1]; rfl
  choose T os hT using hrun
  choose ps hps using hsrun
  have hav := C127_average key hk (fun σ => inserts key val order σ) (fun σ => [T σ]) os (fun σ => [List.ofFn (fun j => (key j, (σ j).val))]) ps (fun _ => 0) T hT hps (fun _ => rfl) (fun _ => rfl) a
  refine ⟨T, fun σ => ⟨os σ, hT σ⟩, hav, ?_⟩
  rw [hav]
  have hn : 1 ≤ n := by have := a.isLt; omega
  have b1 : harmonic (a.val + 1) ≤ Nat.log 2 n + 1 := (harmonic_mono (by have := a.isLt; omega)).trans (harmonic_log n hn)
  have b2 : harmonic (n - a.val) ≤ Nat.log 2 n + 1 := (harmonic_mono (Nat.sub_le _ _)).trans (harmonic_log n hn)
  exact mul_le_mul_of_nonneg_left (by linarith) (Nat.cast_nonneg _)

/-- Three keys in increasing order (the worst order for a tree without rotations); the middle key costs 1 + 1/2 + 1/2 on average: 2 lookups in 3! cases, 12 in all. -/
example : ∑ σ : Equiv.Perm (Fin 3), ((run (K := Nat) (V := Unit) [] (inserts (fun j => 10 * j.val) (fun _ => ()) [0, 1, 2] σ)).map (fun q => (q.1.map (fun T => (path 10 T.root).length)).sum)).getD 0 = 12 := by decide +kernel

end Verif.TreapShape
