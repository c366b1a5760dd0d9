import Verif.Treap.Ops
import Mathlib.Order.Nat
/-!
C40: a treap is a sorted set (map) for every history of operations on any number of treaps and every sequence of priorities; exceptions: `size()` after `split` and range erase, and the iterator returned by `erase(b, end())`.

C63: `emplace_hint` with a hint next to the place of the key is `insert`; with another hint it can break the order or insert a present key again.
-/
namespace Verif.Treap

/-! ### Histories -/

/-- Operations on treap number `i`; `p` is the priority drawn.  `split`, `copy` and `create` add a treap at the end. -/
inductive Op (K V : Type)
  | create
  | insert (i p : Nat) (k : K) (v : V)
  | insertHint (i : Nat) (h : Iter K) (p : Nat) (k : K) (v : V)
  | eraseKey (i : Nat) (k : K)
  | eraseIt (i : Nat) (it : Iter K)
  /-- range erase, the returned iterator is not looked at -/
  | eraseRange (i : Nat) (b e : Iter K)
  /-- range erase, the returned iterator is looked at -/
  | eraseRangeIt (i : Nat) (b e : Iter K)
  | find (i : Nat) (k : K)
  | lower (i : Nat) (k : K)
  | upper (i : Nat) (k : K)
  | pred (i : Nat) (k : K)
  | begin_ (i : Nat)
  | next (i : Nat) (it : Iter K)
  | prev (i : Nat) (it : Iter K)
  | deref (i : Nat) (it : Iter K)
  | assign (i : Nat) (it : Iter K) (v : V)
  | split (i : Nat) (it : Iter K)
  | absorb (i j : Nat)
  | clear (i : Nat)
  | copy (i : Nat)
  | isEmpty (i : Nat)

/-- What an operation returns. -/
inductive Out (K V : Type)
  | unit
  | it (x : Iter K)
  | itb (x : Iter K) (b : Bool)
  | b (b : Bool)
  | kv (q : K × V)
deriving DecidableEq

variable {K V : Type} [LinearOrder K]

/-- An operation on one member of a list. -/
def on1 {A O : Type} (Ts : List A) (i : Nat) (f : A → Option (A × O)) : Option (List A × O) :=
  Ts[i]?.bind (fun T => (f T).map (fun q => (Ts.set i q.1, q.2)))

def isNil : Tree K V → Bool
  | .nil => true
  | _ => false

/-- One call on the treaps. -/
def step (Ts : List (Treap K V)) : Op K V → Option (List (Treap K V) × Out K V)
  | .create => some (Ts ++ [empty], .unit)
  | .insert i p k v => on1 Ts i (fun T => some ((insert T p k v).1, .itb (insert T p k v).2.1 (insert T p k v).2.2))
  | .insertHint i h p k v => on1 Ts i (fun T => (insertHint T h p k v).map (fun q => (q.1, .it q.2)))
  | .eraseKey i k => on1 Ts i (fun T => (eraseKey T k).map (fun q => (q.1, .b q.2)))
  | .eraseIt i it => on1 Ts i (fun T => (eraseIt T it).map (fun q => (q.1, .it q.2)))
  | .eraseRange i b e => on1 Ts i (fun T => (eraseRange T b e).map (fun q => (q.1, .unit)))
  | .eraseRangeIt i b e => on1 Ts i (fun T => (eraseRange T b e).map (fun q => (q.1, .it q.2)))
  | .find i k => on1 Ts i (fun T => some (T, .it (findT k T.root)))
  | .lower i k => on1 Ts i (fun T => some (T, .it (lowerT k T.root none)))
  | .upper i k => on1 Ts i (fun T => some (T, .it (upperT k T.root none)))
  | .pred i k => on1 Ts i (fun T => some (T, .it (predT k T.root none)))
  | .begin_ i => on1 Ts i (fun T => some (T, .it (Treap.begin_ T.root)))
  | .next i it => on1 Ts i (fun T => (next T.root it).map (fun x => (T, .it x)))
  | .prev i it => on1 Ts i (fun T => (prev T.root it).map (fun x => (T, .it x)))
  | .deref i it => on1 Ts i (fun T => (deref T.root it).map (fun q => (T, .kv q)))
  | .assign i it v => on1 Ts i (fun T => (assign T it v).map (fun T' => (T', .unit)))
  | .split i it => Ts[i]?.bind (fun T => (split T it).map (fun q => (Ts.set i q.1 ++ [q.2], .unit)))
  | .absorb i j => if i = j then none else Ts[i]?.bind (fun T => Ts[j]?.bind (fun S => (absorb T S).map (fun q => ((Ts.set i q.1).set j q.2.1, .it q.2.2))))
  | .clear i => on1 Ts i (fun T => some (T.clear, .unit))
  | .copy i => Ts[i]?.map (fun T => (Ts ++ [⟨clone T.root, T.size⟩], .unit))
  | .isEmpty i => on1 Ts i (fun T => some (T, .b (isNil T.root)))

/-- A step of an option returning list machine. -/
def runWith {S A O : Type} (stp : S → A → Option (S × O)) : S → List A → Option (S × List O)
  | s, [] => some (s, [])
  | s, a :: as => (stp s a).bind (fun q => (runWith stp q.1 as).map (fun w => (w.1, q.2 :: w.2)))

/-- A history of calls. -/
def run : List (Treap K V) → List (Op K V) → Option (List (Treap K V) × List (Out K V)) := runWith step

/-- The same calls on sorted lists; `none` when the call is not allowed (bad iterator, bad order of ranges, ...). -/
def sstep (Ls : List (List (K × V))) : Op K V → Option (List (List (K × V)) × Out K V)
  | .create => some (Ls ++ [[]], .unit)
  | .insert i _ k v => on1 Ls i (fun L => some (sInsert L k v, .itb (some k) (!hasKey L k)))
  | .insertHint i h _ k v => on1 Ls i (fun L => if goodIt L h && hintNear L k h then some (sInsert L k v, .it (some k)) else none)
  | .eraseKey i k => on1 Ls i (fun L => some (sErase L k, .b (hasKey L k)))
  | .eraseIt i none => on1 Ls i (fun L => some (L, .it none))
  | .eraseIt i (some x) => on1 Ls i (fun L => if hasKey L x then some (sErase L x, .it (first (above L x))) else none)
  | .eraseRange i b e => on1 Ls i (fun L => if goodIt L b && goodIt L e && itLe b e then some (sEraseRange L b e, .unit) else none)
  | .eraseRangeIt i b e => on1 Ls i (fun L => if goodIt L b && goodIt L e && itLe b e then some (sEraseRange L b e, .it e) else none)
  | .find i k => on1 Ls i (fun L => some (L, .it (if hasKey L k then some k else none)))
  | .lower i k => on1 Ls i (fun L => some (L, .it (first (from_ L k))))
  | .upper i k => on1 Ls i (fun L => some (L, .it (first (above L k))))
  | .pred i k => on1 Ls i (fun L => some (L, .it (last (below L k))))
  | .begin_ i => on1 Ls i (fun L => some (L, .it (first L)))
  | .next _ none => none
  | .next i (some x) => on1 Ls i (fun L => if hasKey L x then some (L, .it (first (above L x))) else none)
  | .prev i none => on1 Ls i (fun L => (last L).map (fun x => (L, .it (some x))))
  | .prev i (some x) => on1 Ls i (fun L => if hasKey L x then (last (below L x)).map (fun x => (L, .it (some x))) else none)
  | .deref _ none => none
  | .deref i (some x) => on1 Ls i (fun L => (L.find? (fun q => decide (q.1 = x))).map (fun q => (L, .kv q)))
  | .assign _ none _ => none
  | .assign i (some x) v => on1 Ls i (fun L => if hasKey L x then some (sAssign L x v, .unit) else none)
  | .split i it => Ls[i]?.bind (fun L => if goodIt L it then some (Ls.set i (fromIt L it) ++ [belowIt L it], .unit) else none)
  | .absorb i j => if i = j then none else Ls[i]?.bind (fun L => Ls[j]?.bind (fun M =>
      if M.all (fun a => L.all (fun b => decide (a.1 < b.1))) then some ((Ls.set i (M ++ L)).set j [], .it ((first L).or (first M))) else none))
  | .clear i => on1 Ls i (fun _ => some ([], .unit))
  | .copy i => Ls[i]?.map (fun L => (Ls ++ [L], .unit))
  | .isEmpty i => on1 Ls i (fun L => some (L, .b L.isEmpty))

def srun : List (List (K × V)) → List (Op K V) → Option (List (List (K × V)) × List (Out K V)) := runWith sstep

/-- Calls for which the full claim is proved: the iterator of a range erase up to `end()` is not looked at. -/
def Op.okIt : Op K V → Bool
  | .eraseRangeIt _ _ none => false
  | _ => true

/-- Calls that keep the element count right. -/
def Op.okSize : Op K V → Bool
  | .split _ _ => false
  | .eraseRange _ _ _ => false
  | .eraseRangeIt _ _ _ => false
  | _ => true

/-- The contents of the treaps. -/
def contents (Ts : List (Treap K V)) : List (List (K × V)) := Ts.map (fun T => inorder T.root)

/-- Good treaps: in order, and with the right count if `z`. -/
def Good (z : Bool) (T : Treap K V) : Prop := Sorted (inorder T.root) ∧ (z = true → T.size = (inorder T.root).length)

theorem on1_ok {z : Bool} {Ts : List (Treap K V)} {i : Nat} {f : Treap K V → Option (Treap K V × Out K V)} {g : List (K × V) → Option (List (K × V) × Out K V)}
    {Ls : List (List (K × V))} {o : Out K V} (hT : ∀ T ∈ Ts, Good z T)
    (hfg : ∀ T L o, Good z T → g (inorder T.root) = some (L, o) → ∃ T', f T = some (T', o) ∧ inorder T'.root = L ∧ Good z T')
    (h : on1 (contents Ts) i g = some (Ls, o)) : ∃ Ts', on1 Ts i f = some (Ts', o) ∧ contents Ts' = Ls ∧ ∀ T ∈ Ts', Good z T := by
  unfold on1 at *
  unfold contents at *
  rw [List.getElem?_map] at h
  cases hi : Ts[i]? with
  | none => rw [hi] at h; simp at h
  | some T =>
    rw [hi, Option.map_some, Option.bind_some] at h
    obtain ⟨⟨L, o'⟩, hg, he⟩ := Option.map_eq_some_iff.1 h
    cases he
    obtain ⟨T', h1, h2, h3⟩ := hfg T L o' (hT T (List.mem_of_getElem? hi)) hg
    refine ⟨Ts.set i T', by simp [h1], by simp [List.map_set, h2], ?_⟩
    intro T hT'
    rcases List.mem_or_eq_of_mem_set hT' with hT' | rfl
    · exact hT T hT'
    · exact h3

theorem first_find {L : List (K × V)} {P : K × V → Bool} : (L.find? P).map Prod.fst = first (L.filter P) := by
  unfold first; rw [← List.head?_filter]

theorem good_nil (z : Bool) {T : Treap K V} (h : inorder T.root = []) (hs : T.size = 0) : Good z T :=
  ⟨by rw [h]; exact List.Pairwise.nil, fun _ => by rw [h, hs]; rfl⟩

/-- One call does what the sorted lists do. -/
theorem step_ok (z : Bool) (Ts : List (Treap K V)) (a : Op K V) (Ls : List (List (K × V))) (o : Out K V) (hT : ∀ T ∈ Ts, Good z T)
    (hok : a.okIt = true) (hz : z = true → a.okSize = true) (h : sstep (contents Ts) a = some (Ls, o)) :
    ∃ Ts', step Ts a = some (Ts', o) ∧ contents Ts' = Ls ∧ ∀ T ∈ Ts', Good z T := by
  have hrd : ∀ {i : Nat} {r : Treap K V → Out K V} {s : List (K × V) → Out K V}, (∀ T, Good z T → r T = s (inorder T.root)) →
      on1 (contents Ts) i (fun L => some (L, s L)) = some (Ls, o) → ∃ Ts', on1 Ts i (fun T => some (T, r T)) = some (Ts', o) ∧ contents Ts' = Ls ∧ ∀ T ∈ Ts', Good z T := by
    intro i r s hrs h
    refine on1_ok hT ?_ h
    intro T L o hg he
    cases he
    exact ⟨T, by rw [hrs T hg], rfl, hg⟩
  cases a with
  | create =>
    cases h
    refine ⟨Ts ++ [empty], rfl, by simp [contents, empty, inorder], ?_⟩
    intro T hm
    rcases List.mem_append.1 hm with hm | hm
    · exact hT T hm
    · rw [List.mem_singleton.1 hm]; exact good_nil z rfl rfl
  | insert i p k v =>
    refine on1_ok hT ?_ h
    intro T L o hg he
    cases he
    obtain ⟨i1, i2, i3⟩ := insert_ok T p k v hg.1
    refine ⟨_, by rw [i2], i1, i1 ▸ sorted_insert k v hg.1, ?_⟩
    intro hz'
    rw [i3, i1]
    by_cases hk : hasKey (inorder T.root) k = true
    · rw [if_pos hk, sInsert, if_pos hk]; exact hg.2 hz'
    · rw [if_neg hk, length_insert hg.1 hk, hg.2 hz']
  | insertHint i hint p k v =>
    refine on1_ok hT ?_ h
    intro T L o hg he
    split_ifs at he with hc
    cases he
    rw [Bool.and_eq_true] at hc
    obtain ⟨T', i1, i2, i3⟩ := insertHint_ok T hint p k v hg.1 hc.1 hc.2
    refine ⟨T', by rw [i1]; rfl, i2, i2 ▸ sorted_insert k v hg.1, ?_⟩
    intro hz'
    rw [i3, i2]
    by_cases hk : hasKey (inorder T.root) k = true
    · rw [if_pos hk, sInsert, if_pos hk]; exact hg.2 hz'
    · rw [if_neg hk, length_insert hg.1 hk, hg.2 hz']
  | eraseKey i k =>
    refine on1_ok hT ?_ h
    intro T L o hg he
    cases he
    obtain ⟨T', i1, i2, i3⟩ := eraseKey_ok T k hg.1
    refine ⟨T', by rw [i1]; rfl, i2, i2 ▸ sorted_filter hg.1 _, ?_⟩
    intro hz'
    rw [i3]
    by_cases hk : hasKey (inorder T.root) k = true
    · rw [if_pos hk, i2]
      have := length_erase hg.1 hk
      have := hg.2 hz'
      omega
    · rw [if_neg hk, i2, hg.2 hz']
      unfold sErase
      rw [filter_all]
      intro q hq
      simp only [ne_eq, decide_not, Bool.not_eq_eq_eq_not, Bool.not_true, decide_eq_false_iff_not]
      intro e
      exact hk (hasKey_iff.2 (List.mem_map.2 ⟨q, hq, e⟩))
  | eraseIt i it =>
    cases it with
    | none =>
      refine on1_ok hT ?_ h
      intro T L o hg he
      cases he
      exact ⟨T, rfl, rfl, hg⟩
    | some x =>
      refine on1_ok hT ?_ h
      intro T L o hg he
      split_ifs at he with hk
      cases he
      obtain ⟨T', i1, i2, i3⟩ := eraseIt_ok T x hg.1 hk
      refine ⟨T', by rw [i1]; rfl, i2, i2 ▸ sorted_filter hg.1 _, ?_⟩
      intro hz'
      rw [i3, i2]
      have := length_erase hg.1 hk
      have := hg.2 hz'
      omega
  | eraseRange i b e =>
    refine on1_ok hT ?_ h
    intro T L o hg he
    split_ifs at he with hc
    cases he
    rw [Bool.and_eq_true, Bool.and_eq_true] at hc
    obtain ⟨T', i1, i2⟩ := eraseRange_ok T b e hg.1 hc.1.1 hc.1.2 hc.2
    exact ⟨T', by rw [i1]; rfl, i2, i2 ▸ sorted_eraseRange hg.1 hc.2, fun hz' => by cases hz hz'⟩
  | eraseRangeIt i b e =>
    refine on1_ok hT ?_ h
    intro T L o hg he
    split_ifs at he with hc
    cases he
    rw [Bool.and_eq_true, Bool.and_eq_true] at hc
    obtain ⟨T', i1, i2⟩ := eraseRange_ok T b e hg.1 hc.1.1 hc.1.2 hc.2
    cases e with
    | none => cases hok
    | some y =>
      exact ⟨T', by rw [i1]; rfl, i2, i2 ▸ sorted_eraseRange hg.1 hc.2, fun hz' => by cases hz hz'⟩
  | find i k => exact hrd (fun T hg => by rw [find_eq k _ hg.1, find_key]) h
  | lower i k => exact hrd (fun T hg => by rw [lower_eq k _ none hg.1, Option.or_none, first_find]; rfl) h
  | upper i k => exact hrd (fun T hg => by rw [upper_eq k _ none hg.1, Option.or_none, first_find]; rfl) h
  | pred i k => exact hrd (fun T hg => by rw [pred_eq k _ none hg.1, Option.or_none]; rfl) h
  | begin_ i => exact hrd (fun T hg => by rw [begin_eq]; rfl) h
  | next i it =>
    cases it with
    | none => cases h
    | some x =>
      refine on1_ok hT ?_ h
      intro T L o hg he
      split_ifs at he with hk
      cases he
      exact ⟨T, by rw [next_ok hg.1 hk]; rfl, rfl, hg⟩
  | prev i it =>
    cases it with
    | none =>
      refine on1_ok hT ?_ h
      intro T L o hg he
      obtain ⟨x, hx, e⟩ := Option.map_eq_some_iff.1 he
      cases e
      exact ⟨T, by rw [prev_end, hx]; rfl, rfl, hg⟩
    | some x =>
      refine on1_ok hT ?_ h
      intro T L o hg he
      split_ifs at he with hk
      obtain ⟨y, hy, e⟩ := Option.map_eq_some_iff.1 he
      cases e
      exact ⟨T, by rw [prev_ok hg.1 hk, hy]; rfl, rfl, hg⟩
  | deref i it =>
    cases it with
    | none => cases h
    | some x =>
      refine on1_ok hT ?_ h
      intro T L o hg he
      obtain ⟨q, hq, e⟩ := Option.map_eq_some_iff.1 he
      cases e
      have hk : hasKey (inorder T.root) x = true := by
        have := List.find?_some hq
        simp only [decide_eq_true_eq] at this
        exact hasKey_iff.2 (List.mem_map.2 ⟨q, List.mem_of_find?_eq_some hq, this⟩)
      exact ⟨T, by rw [deref_ok hg.1 hk, hq]; rfl, rfl, hg⟩
  | assign i it v =>
    cases it with
    | none => cases h
    | some x =>
      refine on1_ok hT ?_ h
      intro T L o hg he
      split_ifs at he with hk
      cases he
      obtain ⟨T', i1, i2, i3⟩ := assign_ok T x v hg.1 hk
      refine ⟨T', by rw [i1]; rfl, i2, i2 ▸ sorted_assign x v hg.1, ?_⟩
      intro hz'
      rw [i3, i2, hg.2 hz']
      simp [sAssign]
  | split i it =>
    unfold sstep contents at h
    dsimp only at h
    rw [List.getElem?_map] at h
    cases hi : Ts[i]? with
    | none => rw [hi] at h; simp at h
    | some T =>
      rw [hi, Option.map_some, Option.bind_some] at h
      split_ifs at h with hc
      cases h
      have hg := hT T (List.mem_of_getElem? hi)
      obtain ⟨T', S', i1, i2, i3, -, -⟩ := split_ok T it hg.1 hc
      refine ⟨Ts.set i T' ++ [S'], by unfold step; dsimp only; rw [hi, Option.bind_some, i1]; rfl, by simp [contents, List.map_set, i2, i3], ?_⟩
      intro X hX
      rcases List.mem_append.1 hX with hX | hX
      · rcases List.mem_or_eq_of_mem_set hX with hX | rfl
        · exact hT X hX
        · exact ⟨i2 ▸ sorted_from it hg.1, fun hz' => by cases hz hz'⟩
      · rw [List.mem_singleton.1 hX]
        exact ⟨i3 ▸ sorted_below it hg.1, fun hz' => by cases hz hz'⟩
  | absorb i j =>
    unfold sstep contents at h
    dsimp only at h
    split_ifs at h with hij
    rw [List.getElem?_map] at h
    cases hi : Ts[i]? with
    | none => rw [hi] at h; simp at h
    | some T =>
      rw [hi, Option.map_some, Option.bind_some, List.getElem?_map] at h
      cases hj : Ts[j]? with
      | none => rw [hj] at h; simp at h
      | some S =>
        rw [hj, Option.map_some, Option.bind_some] at h
        split_ifs at h with hc
        cases h
        have hc' : ∀ a ∈ inorder S.root, ∀ b ∈ inorder T.root, a.1 < b.1 := by
          intro a ha b hb
          simpa using List.all_eq_true.1 (List.all_eq_true.1 hc a ha) b hb
        have hgT := hT T (List.mem_of_getElem? hi)
        have hgS := hT S (List.mem_of_getElem? hj)
        obtain ⟨T', S', i1, i2, i3, i4⟩ := absorb_ok T S hc'
        refine ⟨(Ts.set i T').set j S', by unfold step; dsimp only; rw [if_neg hij, hi, Option.bind_some, hj, Option.bind_some, i1]; rfl, by simp [contents, List.map_set, i2, i3], ?_⟩
        intro X hX
        rcases List.mem_or_eq_of_mem_set hX with hX | rfl
        · rcases List.mem_or_eq_of_mem_set hX with hX | rfl
          · exact hT X hX
          · refine ⟨by rw [i2]; exact List.pairwise_append.2 ⟨hgS.1, hgT.1, hc'⟩, ?_⟩
            intro hz'
            rw [(i4 (hgS.2 hz') (hgT.2 hz')).1, i2, List.length_append, hgS.2 hz', hgT.2 hz']
        · refine ⟨by rw [i3]; exact List.Pairwise.nil, ?_⟩
          intro hz'
          rw [(i4 (hgS.2 hz') (hgT.2 hz')).2, i3]; rfl
  | clear i =>
    refine on1_ok hT ?_ h
    intro T L o hg he
    cases he
    exact ⟨_, rfl, rfl, good_nil z rfl rfl⟩
  | copy i =>
    unfold sstep contents at h
    dsimp only at h
    rw [List.getElem?_map] at h
    cases hi : Ts[i]? with
    | none => rw [hi] at h; simp at h
    | some T =>
      rw [hi] at h
      cases h
      refine ⟨Ts ++ [⟨clone T.root, T.size⟩], by unfold step; dsimp only; rw [hi]; rfl, by simp [contents, clone_eq], ?_⟩
      intro X hX
      rcases List.mem_append.1 hX with hX | hX
      · exact hT X hX
      · rw [List.mem_singleton.1 hX, clone_eq]; exact hT T (List.mem_of_getElem? hi)
  | isEmpty i =>
    refine hrd (r := fun T => .b (isNil T.root)) (s := fun L => .b L.isEmpty) (fun T hg => ?_) h
    cases T.root <;> simp [isNil, inorder]

theorem run_ok (z : Bool) : ∀ (ops : List (Op K V)) (Ts : List (Treap K V)) (Ls : List (List (K × V))) (os : List (Out K V)), (∀ T ∈ Ts, Good z T) →
    (∀ a ∈ ops, a.okIt = true ∧ (z = true → a.okSize = true)) → srun (contents Ts) ops = some (Ls, os) →
    ∃ Ts', run Ts ops = some (Ts', os) ∧ contents Ts' = Ls ∧ ∀ T ∈ Ts', Good z T := by
  intro ops
  induction ops with
  | nil => intro Ts Ls os hT _ h; cases h; exact ⟨Ts, rfl, rfl, hT⟩
  | cons a ops ih =>
    intro Ts Ls os hT hok h
    unfold srun at h
    rw [runWith] at h
    obtain ⟨⟨L1, o1⟩, h1, h2⟩ := Option.bind_eq_some_iff.1 h
    obtain ⟨⟨L2, o2⟩, h3, h4⟩ := Option.map_eq_some_iff.1 h2
    cases h4
    have ha := hok a List.mem_cons_self
    obtain ⟨T1, a1, a2, a3⟩ := step_ok z Ts a L1 o1 hT ha.1 ha.2 h1
    obtain ⟨T2, b1, b2, b3⟩ := ih T1 L2 o2 a3 (fun b hb => hok b (List.mem_cons_of_mem _ hb)) (by rw [a2]; exact h3)
    refine ⟨T2, ?_, b2, b3⟩
    unfold run at b1 ⊢
    rw [runWith, a1, Option.bind_some, b1]; rfl

/-- C40 in part.  For every history of calls on any number of treaps, with any priorities drawn: if sorted sets allow the history, then no call is undefined, every call returns what sorted sets return, the contents are those of the sorted sets and
strictly increasing; and if the history has no `split` and no range erase, every `size()` is the number of elements.  (Missing: the iterator returned by `erase(b, end())`, and `size()` after `split` and range erase, where the code is wrong.) -/
theorem C40_partial (ops : List (Op K V)) (Ls : List (List (K × V))) (os : List (Out K V)) (hok : ∀ a ∈ ops, a.okIt = true) (h : srun [] ops = some (Ls, os)) :
    ∃ Ts, run [] ops = some (Ts, os) ∧ contents Ts = Ls ∧ (∀ L ∈ Ls, L.Pairwise (fun a b => a.1 < b.1)) ∧
      ((∀ a ∈ ops, a.okSize = true) → ∀ T ∈ Ts, T.size = (inorder T.root).length) := by
  by_cases hz : ∀ a ∈ ops, a.okSize = true
  · obtain ⟨Ts, h1, h2, h3⟩ := run_ok true ops [] Ls os (by simp) (fun a ha => ⟨hok a ha, fun _ => hz a ha⟩) h
    refine ⟨Ts, h1, h2, ?_, fun _ T hT => (h3 T hT).2 rfl⟩
    intro L hL
    rw [← h2] at hL
    obtain ⟨T, hT, rfl⟩ := List.mem_map.1 hL
    exact (h3 T hT).1
  · obtain ⟨Ts, h1, h2, h3⟩ := run_ok false ops [] Ls os (by simp) (fun a ha => ⟨hok a ha, fun e => by cases e⟩) h
    refine ⟨Ts, h1, h2, ?_, fun e => absurd e hz⟩
    intro L hL
    rw [← h2] at hL
    obtain ⟨T, hT, rfl⟩ := List.mem_map.1 hL
    exact (h3 T hT).1

/-- Several elements, a second treap split off and glued back, a range erased. -/
example : srun (K := Nat) (V := Nat) [] [.create, .insert 0 5 10 1, .insert 0 3 4 2, .insert 0 7 20 3, .insert 0 1 15 4, .insert 0 9 4 5, .insertHint 0 (some 15) 2 12 6, .lower 0 11, .pred 0 15, .next 0 (some 15), .prev 0 none,
      .split 0 (some 12), .insert 1 0 11 7, .isEmpty 1, .absorb 0 1, .eraseRange 0 (some 10) (some 15), .deref 0 (some 20), .eraseKey 0 4, .assign 0 (some 15) 8] =
    some ([[(15, 8), (20, 3)], []],
      [.unit, .itb (some 10) true, .itb (some 4) true, .itb (some 20) true, .itb (some 15) true, .itb (some 4) false, .it (some 12), .it (some 12), .it (some 12), .it (some 20), .it (some 20),
       .unit, .itb (some 11) true, .b false, .it (some 12), .unit, .kv (20, 3), .b true, .unit]) := by decide +kernel

/-- The size claim is not empty: a history without `split`. -/
example : (run (K := Nat) (V := Unit) [] [.create, .insert 0 5 10 (), .insert 0 3 4 (), .insert 0 3 4 (), .eraseKey 0 10, .create, .insert 1 1 2 (), .absorb 0 1]).map (fun q => q.1.map Treap.size) = some [2, 0] := by decide +kernel

/-- Violation: after `split` the first treap keeps the old count and the other has none. -/
theorem C40_size_violation : ∃ ops Ts os, run (K := Nat) (V := Unit) [] ops = some (Ts, os) ∧ contents Ts = [[(2, ())], [(1, ())]] ∧ Ts.map Treap.size = [2, 0] :=
  ⟨[.create, .insert 0 5 1 (), .insert 0 3 2 (), .split 0 (some 2)], [⟨.node .nil 3 2 () .nil, 2⟩, ⟨.node .nil 5 1 () .nil, 0⟩], [.unit, .itb (some 1) true, .itb (some 2) true, .unit], rfl, rfl, rfl⟩

/-- Violation: `erase(it(2), end())` on {1, 2} returns an iterator at 1 instead of `end()`. -/
theorem C40_erase_violation : ∃ ops Ts os os', run (K := Nat) (V := Unit) [] ops = some (Ts, os ++ [.it (some 1)]) ∧ srun [] ops = some (contents Ts, os' ++ [.it none]) :=
  ⟨[.create, .insert 0 5 1 (), .insert 0 3 2 (), .eraseRangeIt 0 (some 2) none], [⟨.node .nil 5 1 () .nil, 0⟩], [.unit, .itb (some 1) true, .itb (some 2) true], [.unit, .itb (some 1) true, .itb (some 2) true], rfl, rfl⟩

/-! ### Hints -/

/-- C63 in part: with `end()` or a hint next to the place of `x` (every element before the hint is less than `x` and every element after it greater), `emplace_hint` is `insert`: same elements, same count, iterator at `x`. -/
theorem C63_partial (T : Treap K V) (h : Iter K) (p p' : Nat) (x : K) (v : V) (hs : (inorder T.root).Pairwise (fun a b => a.1 < b.1))
    (hg : ∀ y, h = some y → y ∈ (inorder T.root).map Prod.fst ∧ ∀ q ∈ inorder T.root, (q.1 < y → q.1 < x) ∧ (y < q.1 → x < q.1)) :
    ∃ T', insertHint T h p x v = some (T', (insert T p' x v).2.1) ∧ inorder T'.root = inorder (insert T p' x v).1.root ∧ T'.size = (insert T p' x v).1.size := by
  have h1 : goodIt (inorder T.root) h = true := by
    cases h with
    | none => rfl
    | some y => exact hasKey_iff.2 (hg y rfl).1
  have h2 : hintNear (inorder T.root) x h = true := by
    cases h with
    | none => rfl
    | some y =>
      apply List.all_eq_true.2
      intro q hq
      simp only [decide_eq_true_eq]
      exact (hg y rfl).2 q hq
  obtain ⟨T', i1, i2, i3⟩ := insertHint_ok T h p x v hs h1 h2
  obtain ⟨j1, j2, j3⟩ := insert_ok T p' x v hs
  exact ⟨T', by rw [i1, j2], by rw [i2, j1], by rw [i3, j3]⟩

/-- In particular with the hint `lower_bound(x)`, whether `x` is present or not. -/
theorem C63_lower_bound_partial (T : Treap K V) (p p' : Nat) (x : K) (v : V) (hs : (inorder T.root).Pairwise (fun a b => a.1 < b.1)) :
    ∃ T', insertHint T (lowerT x T.root none) p x v = some (T', (insert T p' x v).2.1) ∧ inorder T'.root = inorder (insert T p' x v).1.root ∧ T'.size = (insert T p' x v).1.size := by
  apply C63_partial T _ p p' x v hs
  intro y hy
  rw [lower_eq x _ none hs, Option.or_none] at hy
  obtain ⟨q, hq, rfl⟩ := Option.map_eq_some_iff.1 hy
  obtain ⟨A, B, hAB, hA⟩ := (List.find?_eq_some_iff_append.1 hq).2
  have hqx : x ≤ q.1 := by simpa using List.find?_some hq
  refine ⟨List.mem_map.2 ⟨q, List.mem_of_find?_eq_some hq, rfl⟩, ?_⟩
  intro r hr
  refine ⟨fun hlt => ?_, fun hgt => lt_of_le_of_lt hqx hgt⟩
  by_contra hnl
  rw [hAB] at hr hs
  obtain ⟨k, w⟩ := q
  obtain ⟨s1, s2, -, -⟩ := sorted_split hs
  rcases List.mem_append.1 hr with hr | hr
  · have := hA r hr
    simp only [Bool.not_eq_eq_eq_not, Bool.not_true, decide_eq_false_iff_not] at this
    exact this (not_lt.1 hnl)
  · rcases List.mem_cons.1 hr with rfl | hr
    · exact lt_irrefl _ hlt
    · exact lt_irrefl _ (hlt.trans (s2 r hr))

/-- The key of the parent of a node. -/
def parentKey : Ctx K V → Option K
  | [] => none
  | .fl _ k _ _ :: _ => some k
  | .fr _ _ k _ :: _ => some k

/-- Wrong hints that are noticed: if the key of the parent of the hint lies between the hint and `x` (or is `x`), `emplace_hint` is `insert`. -/
theorem C63_noticed_partial (T : Treap K V) (h : K) (p : Nat) (x xp : K) (v : V) (u : Loc K V) (hs : (inorder T.root).Pairwise (fun a b => a.1 < b.1)) (hu : locate h T.root [] = some u)
    (hp : parentKey u.ctx = some xp) (hb : (h < xp ∧ xp ≤ x) ∨ (xp < h ∧ x ≤ xp)) :
    insertHint T (some h) p x v = some ((insert T p x v).1, (insert T p x v).2.1) ∨
      x ∈ (inorder T.root).map Prod.fst ∧ insertHint T (some h) p x v = some (T, some x) ∧ inorder (insert T p x v).1.root = inorder T.root ∧ (insert T p x v).2.1 = some x := by
  obtain ⟨h1, h2, h3⟩ := locate_some T.root [] h u hu
  have h3' : inorder T.root = (ctxL u.ctx ++ inorder u.l) ++ (h, u.v) :: (inorder u.r ++ ctxR u.ctx) := by
    simpa [ctxL, ctxR] using h3.symm
  obtain ⟨s1, s2, -, -⟩ := sorted_split (show Sorted _ from h3' ▸ hs)
  obtain ⟨j1, j2, j3⟩ := insert_ok T p x v hs
  unfold insertHint
  dsimp only
  rw [hu, Option.map_some]
  cases hc : u.ctx with
  | nil => rw [hc] at hp; cases hp
  | cons f c =>
    have hmem : ∃ w, (xp, w) ∈ inorder T.root := by
      rw [h3', hc]
      cases f with
      | fl pp pk pv pr => rw [hc] at hp; cases hp; exact ⟨pv, by simp [ctxR]⟩
      | fr pl pp pk pv => rw [hc] at hp; cases hp; exact ⟨pv, by simp [ctxL]⟩
    by_cases e : xp = x
    · right
      obtain ⟨w, hw⟩ := hmem
      have hk : x ∈ (inorder T.root).map Prod.fst := List.mem_map.2 ⟨_, hw, e⟩
      refine ⟨hk, ?_, ?_, by rw [j2]⟩
      · cases f with
        | fl pp pk pv pr => rw [hc] at hp; cases hp; simp [hintFrame, e]
        | fr pl pp pk pv => rw [hc] at hp; cases hp; simp [hintFrame, e]
      · rw [j1, sInsert, if_pos (hasKey_iff.2 hk)]
    · left
      cases f with
      | fl pp pk pv pr =>
        rw [hc] at hp; cases hp
        have : h < xp := s2 (xp, pv) (by rw [hc]; simp [ctxR])
        have hx : xp < x := by
          rcases hb with hb | hb
          · exact lt_of_le_of_ne hb.2 e
          · exact absurd (this.trans hb.1) (lt_irrefl _)
        simp [hintFrame, e, hx]
      | fr pl pp pk pv =>
        rw [hc] at hp; cases hp
        have : xp < h := s1 (xp, pv) (by rw [hc]; simp [ctxL])
        have hx : x < xp := by
          rcases hb with hb | hb
          · exact absurd (this.trans hb.1) (lt_irrefl _)
          · exact lt_of_le_of_ne hb.2 (fun e' => e e'.symm)
        simp [hintFrame, e, hx]

/-- A treap with the keys 5, 7, 10 and the root 10. -/
def sampleT : Treap Nat Unit := ⟨.node (.node .nil 2 5 () (.node .nil 3 7 () .nil)) 1 10 () .nil, 3⟩

/-- It is a reachable state. -/
example : run (K := Nat) (V := Unit) [] [.create, .insert 0 1 10 (), .insert 0 2 5 (), .insert 0 3 7 ()] = some ([sampleT], [.unit, .itb (some 10) true, .itb (some 5) true, .itb (some 7) true]) := rfl

/-- The hypotheses hold for the hint 7 and the key 8. -/
example : (inorder sampleT.root).Pairwise (fun a b => a.1 < b.1) ∧ ∀ y, (some 7 : Iter Nat) = some y → y ∈ (inorder sampleT.root).map Prod.fst ∧ ∀ q ∈ inorder sampleT.root, (q.1 < y → q.1 < 8) ∧ (y < q.1 → 8 < q.1) := by
  refine ⟨by decide, ?_⟩
  intro y hy
  cases hy
  decide

/-- The parent of 5 is 10: the hint 5 for 100 is noticed. -/
example : ∃ u, locate 5 sampleT.root [] = some u ∧ parentKey u.ctx = some 10 ∧ ((5 < 10 ∧ 10 ≤ 100) ∨ (10 < 5 ∧ 100 ≤ 10)) := ⟨_, rfl, rfl, by decide⟩

/-- Violation: `emplace_hint(it(7), 100)` on {5, 7, 10} puts 100 before 10: the order is broken. -/
theorem C63_order_violation : ∃ T, insertHint sampleT (some 7) 9 100 () = some (T, some 100) ∧ (inorder T.root).map Prod.fst = [5, 7, 100, 10] := ⟨_, rfl, rfl⟩

/-- Violation: `emplace_hint(it(7), 10)` on {5, 7, 10}, with the predecessor of 10 as the hint, inserts 10 again. -/
theorem C63_duplicate_violation : ∃ T, insertHint sampleT (some 7) 9 10 () = some (T, some 10) ∧ (inorder T.root).map Prod.fst = [5, 7, 10, 10] ∧ T.size = 4 := ⟨_, rfl, rfl, rfl⟩

end Verif.Treap
