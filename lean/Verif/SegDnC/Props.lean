import Verif.SegDnC.Model
import Verif.DualSegTree.Proofs
import Verif.LazySegTree.Ops
import Mathlib.Data.Multiset.AddSub
/-!
# C08: `SegmentTreeDivideAndConquer` presents to each leaf exactly the containers covering it

Specification: replay the callbacks with a stack (`upd` pushes, `undo` pops, popping an empty stack is an error) and record, at
every `fn t`, the time `t` and the containers on the stack.
-/
namespace Verif.SegDnC
open Verif.SegLoop

variable {X : Type}

/-- Replay callbacks on a stack of applied containers; yields the recorded visits and the final stack. -/
def replay : List (Ev X) → List (List X) → Option (List (Nat × List (List X)) × List (List X))
  | [], stk => some ([], stk)
  | .upd c :: es, stk => replay es (c :: stk)
  | .fn t :: es, stk => (replay es stk).map (fun p => ((t, stk) :: p.1, p.2))
  | .undo :: _, [] => none
  | .undo :: es, _ :: stk => replay es stk

theorem replay_append : ∀ (a b : List (Ev X)) (stk stk' : List (List X)) (v : List (Nat × List (List X))),
    replay a stk = some (v, stk') → replay (a ++ b) stk = (replay b stk').map (fun p => (v ++ p.1, p.2)) := by
  intro a
  induction a with
  | nil =>
    intro b stk stk' v h
    simp only [replay, Option.some.injEq, Prod.mk.injEq] at h
    obtain ⟨rfl, rfl⟩ := h
    simp
  | cons e es ih =>
    intro b stk stk' v h
    cases e with
    | upd c => exact ih b _ _ _ h
    | undo =>
      cases stk with
      | nil => simp [replay] at h
      | cons _ stk => exact ih b _ _ _ h
    | fn t =>
      simp only [replay, List.cons_append] at h ⊢
      obtain ⟨⟨v1, s1⟩, h1, h2⟩ := Option.map_eq_some_iff.1 h
      simp only [Prod.mk.injEq] at h2
      obtain ⟨rfl, rfl⟩ := h2
      rw [ih b _ _ _ h1]
      cases replay b s1 <;> simp

/-- The containers on the path from node `x` to the root. -/
def path (C : Nat → List X) (x : Nat) : List (List X) := if x = 0 then [] else C x :: path C (x / 2)
termination_by x
decreasing_by omega

theorem path_zero (C : Nat → List X) : path C 0 = [] := by rw [path]; simp
theorem path_pos (C : Nat → List X) {x : Nat} (h : x ≠ 0) : path C x = C x :: path C (x/2) := by rw [path]; simp [h]

/-- `a, a+1, …, b-1`. -/
def rng (a b : Nat) : List Nat := List.range' a (b - a)

theorem rng_append {a b c : Nat} (h1 : a ≤ b) (h2 : b ≤ c) : rng a b ++ rng b c = rng a c := by
  unfold rng
  have := List.range'_append_1 (s := a) (m := b - a) (n := c - b)
  rw [show a + (b - a) = b by omega] at this
  rw [this]
  congr 1; omega

theorem rng_empty {a b : Nat} (h : b ≤ a) : rng a b = [] := by
  unfold rng; rw [show b - a = 0 by omega]; rfl

/-- The trace below a node of height `k`. -/
theorem dfsAt_spec {t : Tree X} {C : Nat → List X} (hrep : Rep t.tree (t.size + t.time) C) (htl : t.time ≤ t.size) (hs : 0 < t.size) :
    ∀ k fuel x, k < fuel → t.size ≤ x * 2^k → (x+1) * 2^k ≤ 2 * t.size →
    ∃ tr, dfsAt t fuel x = some tr ∧ replay tr (path C (x/2)) =
      some ((rng (min (x * 2^k - t.size) t.time) (min ((x+1) * 2^k - t.size) t.time)).map (fun i => (i, path C (t.size + i))), path C (x/2)) := by
  intro k
  induction k with
  | zero =>
    intro fuel x hf h1 h2
    simp only [Nat.pow_zero, Nat.mul_one] at h1 h2 ⊢
    obtain ⟨f, rfl⟩ : ∃ f, fuel = f + 1 := ⟨fuel - 1, by omega⟩
    unfold dfsAt
    by_cases hx : t.size + t.time ≤ x
    · rw [if_pos hx]
      refine ⟨[], rfl, ?_⟩
      rw [rng_empty (by omega)]
      rfl
    · rw [if_neg hx, hrep.val x (by omega), Option.bind_some, if_neg (by omega)]
      refine ⟨_, rfl, ?_⟩
      simp only [replay, Option.map_some]
      rw [show min (x - t.size) t.time = x - t.size by omega, show min (x + 1 - t.size) t.time = x - t.size + 1 by omega]
      unfold rng
      rw [show x - t.size + 1 - (x - t.size) = 1 by omega]
      simp only [List.range'_one, List.map_cons, List.map_nil]
      rw [show t.size + (x - t.size) = x by omega, ← path_pos C (by omega)]
  | succ k ih =>
    intro fuel x hf h1 h2
    have hp := Nat.two_pow_pos k
    have e1 : x * 2^(k+1) = x*2 * 2^k := by rw [Nat.pow_succ]; ring
    have e2 : (x+1) * 2^(k+1) = (x*2+1+1) * 2^k := by rw [Nat.pow_succ]; ring
    have e3 : (x*2+1) * 2^k = x*2 * 2^k + 2^k := by ring
    have e4 : (x*2+1+1) * 2^k = x*2 * 2^k + 2 * 2^k := by ring
    rw [e1] at h1 ⊢
    rw [e2] at h2 ⊢
    have hx0 : x ≠ 0 := by
      rintro rfl
      simp at h1; omega
    have hxn : x < t.size := by
      have : x*2+1+1 ≤ (x*2+1+1) * 2^k := Nat.le_mul_of_pos_right _ hp
      omega
    obtain ⟨f, rfl⟩ : ∃ f, fuel = f + 1 := ⟨fuel - 1, by omega⟩
    obtain ⟨a, ea, ra⟩ := ih f (x*2) (by omega) h1 (by omega)
    obtain ⟨b, eb, rb⟩ := ih f (x*2+1) (by omega) (by omega) h2
    rw [show x*2/2 = x by omega] at ra
    rw [show (x*2+1)/2 = x by omega] at rb
    unfold dfsAt
    rw [if_neg (by omega), hrep.val x (by omega), Option.bind_some, if_pos hxn, ea, Option.bind_some, eb, Option.map_some]
    refine ⟨_, rfl, ?_⟩
    have h0 : replay [Ev.upd (C x)] (path C (x/2)) = some ([], path C x) := by
      simp only [replay]; rw [← path_pos C hx0]
    have h3 : replay [Ev.undo] (path C x) = some ([], path C (x/2)) := by
      rw [path_pos C hx0]; rfl
    have ha := replay_append _ a _ _ _ h0
    rw [ra, Option.map_some] at ha
    have hb := replay_append _ b _ _ _ ha
    rw [rb, Option.map_some] at hb
    have hc := replay_append _ [Ev.undo] _ _ _ hb
    rw [h3, Option.map_some] at hc
    rw [hc]
    congr 2
    simp only [List.nil_append, List.append_nil]
    rw [← List.map_append, rng_append (by omega) (by omega)]

/-- All items on the path from `x` to the root. -/
def chain (C : Nat → List X) (x : Nat) : Multiset X := if x = 0 then 0 else (C x : Multiset X) + chain C (x / 2)
termination_by x
decreasing_by omega

theorem chain_zero (C : Nat → List X) : chain C 0 = 0 := by rw [chain]; simp
theorem chain_pos (C : Nat → List X) {x : Nat} (h : x ≠ 0) : chain C x = (C x : Multiset X) + chain C (x/2) := by rw [chain]; simp [h]

theorem chain_path (C : Nat → List X) : ∀ x, ((path C x).flatten : Multiset X) = chain C x := by
  intro x
  induction x using Nat.strongRecOn with
  | ind x ih =>
    by_cases h : x = 0
    · subst h; rw [path_zero, chain_zero]; rfl
    · rw [path_pos C h, chain_pos C h, ← ih (x/2) (by omega)]; simp

theorem chain_other {C : Nat → List X} {c : Nat} (w : List X) : ∀ y, (∀ k, y / 2^k ≠ c) → chain (upd C c w) y = chain C y := by
  intro y
  induction y using Nat.strongRecOn with
  | ind y ih =>
    intro h
    by_cases h0 : y = 0
    · subst h0; rw [chain_zero, chain_zero]
    · have h1 := h 0
      simp only [Nat.pow_zero, Nat.div_one] at h1
      rw [chain_pos _ h0, chain_pos C h0, upd_ne _ _ h1, ih (y/2) (by omega) (by intro k; rw [div_succ_pow]; exact h (k+1))]

theorem chain_anc {C : Nat → List X} {c : Nat} (hc : c ≠ 0) (x : X) : ∀ k y, y / 2^k = c →
    chain (upd C c (C c ++ [x])) y = chain C y + {x} := by
  intro k
  induction k with
  | zero =>
    intro y hy
    simp at hy
    subst hy
    rw [chain_pos _ hc, chain_pos C hc, upd_same, chain_other _ _ (by
      intro k hk
      have : y/2/2^k ≤ y/2 := Nat.div_le_self _ _
      omega)]
    rw [← Multiset.coe_add, add_assoc, add_assoc, add_comm (([x] : List X) : Multiset X)]
    rfl
  | succ k ih =>
    intro y hy
    have hyc : y ≠ c := by
      rintro rfl
      have : y / 2^(k+1) ≤ y / 2 := by rw [← div_succ_pow]; exact Nat.div_le_self _ _
      omega
    have hy0 : y ≠ 0 := by
      rintro rfl
      simp at hy; exact hc hy.symm
    rw [chain_pos _ hy0, chain_pos C hy0, upd_ne _ _ hyc, ih (y/2) (by rw [div_succ_pow]; exact hy), add_assoc]

/-- `items` have been registered so far. -/
structure Inv (time : Nat) (t : Tree X) (items : List (Nat × Nat × X)) : Prop where
  time_eq : t.time = time
  size_eq : t.size = LazySegTree.pow2 time
  rep : ∃ C, Rep t.tree (t.size + time) C ∧ ∀ i, i < time →
    chain C (t.size + i) = (((items.filter (fun it => it.1 ≤ i ∧ i < it.2.1)).map (·.2.2) : List X) : Multiset X)

theorem mk_inv (time : Nat) : Inv time (mk time : Tree X) [] := by
  refine ⟨rfl, rfl, fun _ => [], Rep.replicate _ _, ?_⟩
  intro i _
  generalize (mk time : Tree X).size + i = y
  induction y using Nat.strongRecOn with
  | ind y ih =>
    by_cases h0 : y = 0
    · subst h0; rw [chain_zero]; rfl
    · rw [chain_pos _ h0, ih (y/2) (by omega)]; rfl

theorem app_step {N m a b k c : Nat} (hna : N ≤ a) (ha0 : 0 < a) (hb : b ≤ N + m) (hm : m ≤ N) (hc : Canon a b k c) {x : X}
    {tree : List (List X)} {C : Nat → List X} (h : Rep tree (N + m) C) :
    ∃ t', app x c tree = some t' ∧ Rep t' (N + m) (upd C c (C c ++ [x])) ∧ ∀ j, N ≤ j → j < N + m →
      chain (upd C c (C c ++ [x])) j = chain C j + (if c * 2^k ≤ j ∧ j < (c+1) * 2^k then {x} else 0) := by
  have hp := Nat.two_pow_pos k
  have hc1 := hc.1
  have hc2 := hc.2.1
  rw [Nat.add_mul] at hc2
  have hcle : c ≤ c * 2^k := Nat.le_mul_of_pos_right _ hp
  have hc0 : c ≠ 0 := by
    rintro rfl
    omega
  obtain ⟨t', e, h'⟩ := h.wr (i := c) (by omega) (C c ++ [x])
  refine ⟨t', by simp [app, h.val c (by omega), e], h', ?_⟩
  intro j hj hj2
  have hiff := DualSegTree.anc_iff (n := N) (j := j) hna (by omega) hc hj (by omega)
  by_cases hin : c * 2^k ≤ j ∧ j < (c+1) * 2^k
  · rw [if_pos hin]
    obtain ⟨m', hm'⟩ := hiff.2 hin
    exact chain_anc hc0 x m' j hm'
  · rw [if_neg hin, add_zero]
    exact chain_other _ _ (fun m' hm' => hin (hiff.1 ⟨m', hm'⟩))

theorem set_inv {time : Nat} {t : Tree X} {items : List (Nat × Nat × X)} (h : Inv time t items) {l r : Nat} (hlr : l ≤ r) (hr : r ≤ time)
    (x : X) : ∃ t', set t l r x = some t' ∧ Inv time t' (items ++ [(l, r, x)]) := by
  obtain ⟨C, hC, hch⟩ := h.rep
  have hle : time ≤ t.size := by rw [h.size_eq]; exact LazySegTree.le_pow2 time
  have hpos : 0 < t.size := by rw [h.size_eq]; exact LazySegTree.pow2_pos time
  generalize hN : t.size = N at *
  obtain ⟨tr, q, e, _, _, C', hC', hq⟩ := canonLoop_run (a := l+N) (b := r+N) (by omega) (s := t.tree) (fl := app x) (fr := app x)
    (fun u v tree => l + N ≤ u ∧ v ≤ r + N ∧ ∃ C', Rep tree (N + time) C' ∧ ∀ j, N ≤ j → j < N + time →
      chain C' j = chain C j + (if (l + N ≤ j ∧ j < u) ∨ (v ≤ j ∧ j < r + N) then {x} else 0))
    (by
      intro k c y s hc hy hyb ⟨hu, hv, C', hC', hq⟩
      have hp := Nat.two_pow_pos k
      have hmul : (c+1) * 2^k = c * 2^k + 2^k := by ring
      obtain ⟨t', e', h1, h2⟩ := app_step (N := N) (m := time) (by omega) (by omega) (by omega) hle hc (x := x) hC'
      refine ⟨t', e', by omega, hv, _, h1, ?_⟩
      intro j hj hj2
      rw [h2 j hj hj2, hq j hj hj2, add_assoc]
      congr 1
      by_cases h1 : c * 2^k ≤ j ∧ j < (c+1) * 2^k
      · rw [if_pos h1, if_neg (by omega), if_pos (by omega), zero_add]
      · rw [if_neg h1, add_zero]
        by_cases h2 : (l + N ≤ j ∧ j < c * 2^k) ∨ (y ≤ j ∧ j < r + N)
        · rw [if_pos h2, if_pos (by omega)]
        · rw [if_neg h2, if_neg (by omega)])
    (by
      intro k c u s hc hu hua ⟨hu', hv, C', hC', hq⟩
      have hp := Nat.two_pow_pos k
      have hmul : (c+1) * 2^k = c * 2^k + 2^k := by ring
      obtain ⟨t', e', h1, h2⟩ := app_step (N := N) (m := time) (by omega) (by omega) (by omega) hle hc (x := x) hC'
      refine ⟨t', e', hua, by omega, _, h1, ?_⟩
      intro j hj hj2
      rw [h2 j hj hj2, hq j hj hj2, add_assoc]
      congr 1
      by_cases h1 : c * 2^k ≤ j ∧ j < (c+1) * 2^k
      · rw [if_pos h1, if_neg (by omega), if_pos (by omega), zero_add]
      · rw [if_neg h1, add_zero]
        by_cases h2 : (l + N ≤ j ∧ j < u) ∨ ((c+1) * 2^k ≤ j ∧ j < r + N)
        · rw [if_pos h2, if_pos (by omega)]
        · rw [if_neg h2, if_neg (by omega)])
    ⟨Nat.le_refl _, Nat.le_refl _, C, hC, fun j _ _ => by rw [if_neg (by omega), add_zero]⟩
  refine ⟨{ t with tree := tr }, by unfold set; rw [hN, e]; rfl, h.time_eq, by simpa [hN] using h.size_eq, C', ?_, ?_⟩
  · show Rep tr (t.size + time) C'
    rw [hN]; exact hC'
  · intro i hi
    show chain C' (t.size + i) = _
    rw [hN, hq _ (by omega) (by omega), hch i hi, List.filter_append, List.map_append, ← Multiset.coe_add]
    congr 1
    by_cases hin : l ≤ i ∧ i < r
    · rw [if_pos (by omega)]
      simp [hin.1, hin.2]
    · rw [if_neg (by omega)]
      have : ¬ (l ≤ i ∧ i < r) := hin
      simp [this]

/-- Register all items in turn. -/
def setAll : List (Nat × Nat × X) → Tree X → Option (Tree X)
  | [], t => some t
  | (l, r, x) :: items, t => (set t l r x).bind (setAll items)

/-- **C08.** Whatever ranges are registered on a tree over `time` instants, `dfs` makes a sequence of callbacks such that
(1) every `undo` matches an earlier `upd` and at the end everything has been undone;
(2) the leaves are visited in the order `0, 1, …, time-1`, each once;
(3) when leaf `i` is visited, the items applied and not yet undone are exactly the registered items whose range contains `i`, each once. -/
theorem C08_dfs (time : Nat) (items : List (Nat × Nat × X)) (hok : ∀ it ∈ items, it.1 ≤ it.2.1 ∧ it.2.1 ≤ time) :
    ∃ t tr visits, setAll items (mk time) = some t ∧ dfs t = some tr ∧ replay tr [] = some (visits, []) ∧
      visits.map (·.1) = List.range time ∧
      ∀ v ∈ visits, v.2.flatten.Perm ((items.filter (fun it => it.1 ≤ v.1 ∧ v.1 < it.2.1)).map (·.2.2)) := by
  have key : ∀ (items done : List (Nat × Nat × X)) (t : Tree X), Inv time t done → (∀ it ∈ items, it.1 ≤ it.2.1 ∧ it.2.1 ≤ time) →
      ∃ t', setAll items t = some t' ∧ Inv time t' (done ++ items) := by
    intro items
    induction items with
    | nil => intro done t h _; exact ⟨t, rfl, by simpa using h⟩
    | cons it items ih =>
      intro done t h hok
      obtain ⟨l, r, x⟩ := it
      have := hok (l, r, x) (by simp)
      obtain ⟨t1, e1, h1⟩ := set_inv h this.1 this.2 x
      obtain ⟨t2, e2, h2⟩ := ih _ t1 h1 (fun it hi => hok it (by simp [hi]))
      exact ⟨t2, by simp [setAll, e1, e2], by simpa using h2⟩
  obtain ⟨t, e, h⟩ := key items [] _ (mk_inv time) hok
  obtain ⟨C, hC, hch⟩ := h.rep
  have hle : time ≤ t.size := by rw [h.size_eq]; exact LazySegTree.le_pow2 time
  have hpos : 0 < t.size := by rw [h.size_eq]; exact LazySegTree.pow2_pos time
  obtain ⟨K, hK⟩ : ∃ K, t.size = 2^K := by
    rw [h.size_eq]; unfold LazySegTree.pow2
    split
    · exact ⟨0, rfl⟩
    · exact ⟨_, rfl⟩
  have hKs : K < t.size := by rw [hK]; exact Nat.lt_two_pow_self
  obtain ⟨tr, e1, e2⟩ := dfsAt_spec (t := t) (C := C) (by rw [h.time_eq]; exact hC) (by rw [h.time_eq]; exact hle) hpos K
    (t.size + t.time + 1) 1 (by omega) (by omega) (by omega)
  rw [show 1 / 2 = 0 by omega, path_zero] at e2
  refine ⟨t, tr, _, by simpa using e, e1, e2, ?_, ?_⟩
  · rw [List.map_map]
    have : min (1 * 2^K - t.size) t.time = 0 := by omega
    rw [this, show min ((1+1) * 2^K - t.size) t.time = time by rw [h.time_eq]; omega]
    unfold rng
    rw [← List.range_eq_range', show time - 0 = time by omega]
    exact List.map_id _
  · intro v hv
    obtain ⟨i, hi, rfl⟩ := List.mem_map.1 hv
    have hit : i < time := by
      unfold rng at hi
      rw [List.mem_range'_1] at hi
      rw [h.time_eq] at hi
      omega
    rw [← Multiset.coe_eq_coe, chain_path, hch i hit]
    rfl

/-- Three instants, two overlapping ranges: the callbacks made. -/
example : ((setAll [(0, 2, 'a'), (1, 3, 'b')] (mk 3)).bind dfs).bind (fun tr => (replay tr []).map (·.1)) =
    some [(0, [[], ['a'], []]), (1, [['b'], ['a'], []]), (2, [['b'], [], []])] := by decide

end Verif.SegDnC
