import Verif.SegTree.Props
/-!
# C148: the number of rounds of the loops of SegmentTree

The first argument of each loop of the model is a number of rounds (tests of the loop condition); the loop is `none` if it does not suffice.  Here it is shown that logarithmically many suffice.
-/
namespace Verif.SegTree

section
variable {M : Type} [One M] [Mul M]

theorem setLoop_budget : ∀ k k' (tree : List M) i, i < 2^k → i < 2^k' → setLoop (k+1) tree i = setLoop (k'+1) tree i
  | 0, k', tree, i, h, _ => by
      obtain rfl : i = 0 := by omega
      rfl
  | k+1, 0, tree, i, _, h => by
      obtain rfl : i = 0 := by omega
      rfl
  | k+1, k'+1, tree, i, h, h' => by
      rw [setLoop, setLoop]
      congr 1
      refine congrArg _ (funext fun t => setLoop_budget k k' t (i / 2) ?_ ?_)
      · rw [Nat.pow_succ] at h; omega
      · rw [Nat.pow_succ] at h'; omega

theorem takeR_le {tree : List M} {rhs : M} {r : Nat} {x : M × Nat} (h : takeR tree rhs r = some x) : x.2 ≤ r := by
  unfold takeR at h
  by_cases hr : r % 2 = 1
  · rw [if_pos hr, Option.bind_eq_some_iff] at h
    obtain ⟨y, _, e⟩ := h
    cases e
    exact Nat.sub_le _ _
  · rw [if_neg hr] at h
    cases h
    exact Nat.le_refl _

theorem queryLoop_budget (tree : List M) : ∀ k k' (lhs rhs : M) l r, r < 2^k → r < 2^k' → queryLoop tree (k+1) lhs rhs l r = queryLoop tree (k'+1) lhs rhs l r
  | 0, k', lhs, rhs, l, r, h, _ => by
      obtain rfl : r = 0 := by omega
      rw [queryLoop, queryLoop, if_neg (Nat.not_lt_zero l), if_neg (Nat.not_lt_zero l)]
  | k+1, 0, lhs, rhs, l, r, _, h => by
      obtain rfl : r = 0 := by omega
      rw [queryLoop, queryLoop, if_neg (Nat.not_lt_zero l), if_neg (Nat.not_lt_zero l)]
  | k+1, k'+1, lhs, rhs, l, r, h, h' => by
      rw [queryLoop, queryLoop]
      congr 1
      refine congrArg _ (funext fun x => ?_)
      cases hr : takeR tree rhs r with
      | none => rfl
      | some y =>
        have := takeR_le hr
        refine queryLoop_budget tree k k' x.1 y.1 (x.2 / 2) (y.2 / 2) ?_ ?_
        · rw [Nat.pow_succ] at h; omega
        · rw [Nat.pow_succ] at h'; omega

theorem pushR_le {tree : List M} {rps : List (Nat × M)} {r : Nat} {x : List (Nat × M) × Nat} (h : pushR tree rps r = some x) : x.2 ≤ r ∧ x.1.length ≤ rps.length + 1 ∧ ∀ q ∈ x.1, q ∈ rps ∨ q.1 = r := by
  unfold pushR at h
  by_cases hr : r % 2 = 1
  · rw [if_pos hr, Option.bind_eq_some_iff] at h
    obtain ⟨y, _, e⟩ := h
    cases e
    exact ⟨Nat.sub_le _ _, Nat.le_refl _, fun q hq => (List.mem_cons.1 hq).elim (fun e => Or.inr (e ▸ rfl)) Or.inl⟩
  · rw [if_neg hr] at h
    cases h
    exact ⟨Nat.le_refl _, Nat.le_succ _, fun q hq => Or.inl hq⟩

theorem pushL_le {tree : List M} {lps : List (Nat × M)} {l : Nat} {x : List (Nat × M) × Nat} (h : pushL tree lps l = some x) : (1 ≤ l → 2 ≤ x.2) ∧ x.1.length ≤ lps.length + 1 ∧ ∀ q ∈ x.1, q ∈ lps ∨ q.1 = l := by
  unfold pushL at h
  by_cases hr : l % 2 = 1
  · rw [if_pos hr, Option.bind_eq_some_iff] at h
    obtain ⟨y, _, e⟩ := h
    cases e
    exact ⟨fun h => by dsimp only; omega, Nat.le_refl _, fun q hq => (List.mem_cons.1 hq).elim (fun e => Or.inr (e ▸ rfl)) Or.inl⟩
  · rw [if_neg hr] at h
    cases h
    exact ⟨fun h => by dsimp only; omega, Nat.le_succ _, fun q hq => Or.inl hq⟩

theorem takeL_two {tree : List M} {lhs : M} {l : Nat} {x : M × Nat} (h : takeL tree lhs l = some x) (hl : 1 ≤ l) : 2 ≤ x.2 := by
  unfold takeL at h
  by_cases hr : l % 2 = 1
  · rw [if_pos hr, Option.bind_eq_some_iff] at h
    obtain ⟨y, _, e⟩ := h
    cases e
    dsimp only
    omega
  · rw [if_neg hr] at h
    cases h
    dsimp only
    omega

theorem mrUp_budget (tree : List M) (f : M → Bool) : ∀ k k' l r (p : M) rps, r < 2^k → r < 2^k' → mrUp tree f (k+1) l r p rps = mrUp tree f (k'+1) l r p rps
  | 0, k', l, r, p, rps, h, _ => by
      obtain rfl : r = 0 := by omega
      rw [mrUp, mrUp, if_neg (Nat.not_lt_zero l), if_neg (Nat.not_lt_zero l)]
  | k+1, 0, l, r, p, rps, _, h => by
      obtain rfl : r = 0 := by omega
      rw [mrUp, mrUp, if_neg (Nat.not_lt_zero l), if_neg (Nat.not_lt_zero l)]
  | k+1, k'+1, l, r, p, rps, h, h' => by
      rw [mrUp, mrUp]
      congr 1
      refine congrArg _ (funext fun x => ?_)
      congr 1
      refine congrArg _ (funext fun y => ?_)
      cases hr : pushR tree rps r with
      | none => rfl
      | some z =>
        have := (pushR_le hr).1
        refine mrUp_budget tree f k k' (y.2 / 2) (z.2 / 2) y.1 z.1 ?_ ?_
        · rw [Nat.pow_succ] at h; omega
        · rw [Nat.pow_succ] at h'; omega

theorem mrUp_out {tree : List M} {f : M → Bool} : ∀ k l r (p : M) rps x, mrUp tree f (k+1) l r p rps = some x → 1 ≤ l → (∀ q ∈ rps, 2 ≤ q.1) →
    1 ≤ x.1 ∧ (∀ q ∈ x.2.2.2, 2 ≤ q.1) ∧ x.2.2.2.length ≤ rps.length + k := by
  intro k
  induction k with
  | zero =>
    intro l r p rps x e h1 h2
    rw [mrUp] at e
    by_cases hlr : l < r
    · rw [if_pos hlr, Option.bind_eq_bind, Option.bind_eq_some_iff] at e
      obtain ⟨y, _, e⟩ := e
      by_cases hf : f (p * y) = true
      · rw [if_pos hf, Option.bind_eq_bind, Option.bind_eq_some_iff] at e
        obtain ⟨z, _, e⟩ := e
        dsimp only at e
        rw [Option.bind_eq_bind, Option.bind_eq_some_iff] at e
        obtain ⟨w, _, e⟩ := e
        rw [mrUp] at e
        cases e
      · rw [if_neg hf] at e; cases e; exact ⟨h1, h2, Nat.le_refl _⟩
    · rw [if_neg hlr] at e; cases e; exact ⟨h1, h2, Nat.le_refl _⟩
  | succ k ih =>
    intro l r p rps x e h1 h2
    rw [mrUp] at e
    by_cases hlr : l < r
    · rw [if_pos hlr, Option.bind_eq_bind, Option.bind_eq_some_iff] at e
      obtain ⟨y, _, e⟩ := e
      by_cases hf : f (p * y) = true
      · rw [if_pos hf, Option.bind_eq_bind, Option.bind_eq_some_iff] at e
        obtain ⟨z, hz, e⟩ := e
        dsimp only at e
        rw [Option.bind_eq_bind, Option.bind_eq_some_iff] at e
        obtain ⟨w, hw, e⟩ := e
        have := takeL_two hz h1
        obtain ⟨a1, a2, a3⟩ := pushR_le hw
        obtain ⟨b1, b2, b3⟩ := ih _ _ _ _ _ e (by omega) (fun q hq => (a3 q hq).elim (h2 q) (fun e => by omega))
        exact ⟨b1, b2, by omega⟩
      · rw [if_neg hf] at e; cases e; exact ⟨h1, h2, by dsimp only; omega⟩
    · rw [if_neg hlr] at e; cases e; exact ⟨h1, h2, by dsimp only; omega⟩

theorem mrStack_one (f : M → Bool) : ∀ (rps : List (Nat × M)) l p, 1 ≤ l → (∀ q ∈ rps, 2 ≤ q.1) → 1 ≤ (mrStack f rps l p).1
  | [], _, _, h, _ => h
  | q :: rps, l, p, h, h2 => by
      rw [mrStack]
      by_cases hf : (!f (p * q.2)) = true
      · rw [if_pos hf]
        have := h2 q List.mem_cons_self
        dsimp only
        omega
      · rw [if_neg hf]
        exact mrStack_one f rps l _ h (fun a ha => h2 a (List.mem_cons_of_mem _ ha))

theorem mrDown_succ (n : Nat) (tree : List M) (f : M → Bool) (k l : Nat) (p : M) : mrDown n tree f (k+1) l p = if l < n then (tree[l]?).bind (fun x => if f (p * x) then none else
    (tree[2*l]?).bind (fun y => if f (p * y) then mrDown n tree f k (2*l+1) (p * y) else mrDown n tree f k (2*l) p)) else some l := rfl

theorem mrDown_budget (n : Nat) (tree : List M) (f : M → Bool) : ∀ k k' l (p : M), 1 ≤ l → n ≤ l * 2^k → n ≤ l * 2^k' → mrDown n tree f (k+1) l p = mrDown n tree f (k'+1) l p
  | 0, k', l, p, _, h, _ => by
      have hn : ¬ l < n := by omega
      simp only [mrDown_succ, if_neg hn]
  | k+1, 0, l, p, _, _, h => by
      have hn : ¬ l < n := by omega
      simp only [mrDown_succ, if_neg hn]
  | k+1, k'+1, l, p, hl, h, h' => by
      have e : l * 2^(k+1) = 2 * l * 2^k := by rw [Nat.pow_succ']; ac_rfl
      have e' : l * 2^(k'+1) = 2 * l * 2^k' := by rw [Nat.pow_succ']; ac_rfl
      have g : ∀ j, 2 * l * 2^j ≤ (2 * l + 1) * 2^j := fun j => Nat.mul_le_mul_right _ (Nat.le_succ _)
      rw [mrDown_succ n tree f (k+1) l p, mrDown_succ n tree f (k'+1) l p]
      congr 1
      refine congrArg _ (funext fun x => ?_)
      congr 1
      refine congrArg _ (funext fun y => ?_)
      rw [mrDown_budget n tree f k k' (2*l+1) (p * y) (by omega) (by have := g k; omega) (by have := g k'; omega),
        mrDown_budget n tree f k k' (2*l) p (by omega) (by omega) (by omega)]

/-- `maxRight` with given numbers of rounds of its two `while` loops. -/
def maxRightB (u d : Nat) (t : Tree M) (f : M → Bool) (b e : Nat) : Option Nat :=
  if b = e then some e else do
    let (l, r, p, rps) ← mrUp t.tree f u (t.size + b) (t.size + e) 1 []
    if l ≥ r then
      let (l, p, rps) := mrStack f rps l p
      if rps.isEmpty then some e else do
        let l ← mrDown t.size t.tree f d l p
        some (l - t.size)
    else do
      let l ← mrDown t.size t.tree f d l p
      some (l - t.size)

theorem maxRight_budget (u d : Nat) (t : Tree M) (f : M → Bool) (b e : Nat) (h0 : 1 ≤ t.size) (hu : t.size + e < 2^u) (hd : t.size ≤ 2^d) : maxRightB (u+1) (d+1) t f b e = maxRight t f b e := by
  unfold maxRightB maxRight
  congr 1
  rw [mrUp_budget t.tree f u (t.size + e) _ _ _ _ hu Nat.lt_two_pow_self]
  cases hm : mrUp t.tree f (t.size + e + 1) (t.size + b) (t.size + e) 1 [] with
  | none => rfl
  | some x =>
    obtain ⟨l, r, p, rps⟩ := x
    obtain ⟨a1, a2, _⟩ := mrUp_out _ _ _ _ _ _ hm (by omega) (fun q hq => absurd hq List.not_mem_nil)
    have key : ∀ l p, 1 ≤ l → mrDown t.size t.tree f (d+1) l p = mrDown t.size t.tree f (t.size+1) l p := fun l p hl =>
      mrDown_budget t.size t.tree f d t.size l p hl (Nat.le_trans hd (Nat.le_mul_of_pos_left _ hl)) (Nat.le_trans (Nat.le_of_lt Nat.lt_two_pow_self) (Nat.le_mul_of_pos_left _ hl))
    show (if l ≥ r then _ else _) = (if l ≥ r then _ else _)
    have a3 := mrStack_one f rps l p a1 a2
    congr 1
    · congr 1
      rw [key _ _ a3]
    · rw [key _ _ a1]

theorem mlUp_budget (tree : List M) (f : M → Bool) : ∀ k k' l r (p : M) lps, r < 2^k → r < 2^k' → mlUp tree f (k+1) l r p lps = mlUp tree f (k'+1) l r p lps
  | 0, k', l, r, p, lps, h, _ => by
      obtain rfl : r = 0 := by omega
      rw [mlUp, mlUp, if_neg (Nat.not_lt_zero l), if_neg (Nat.not_lt_zero l)]
  | k+1, 0, l, r, p, lps, _, h => by
      obtain rfl : r = 0 := by omega
      rw [mlUp, mlUp, if_neg (Nat.not_lt_zero l), if_neg (Nat.not_lt_zero l)]
  | k+1, k'+1, l, r, p, lps, h, h' => by
      rw [mlUp, mlUp]
      congr 1
      refine congrArg _ (funext fun x => ?_)
      congr 1
      refine congrArg _ (funext fun y => ?_)
      refine mlUp_budget tree f k k' (y.2 / 2) (r / 2) _ y.1 ?_ ?_
      · rw [Nat.pow_succ] at h; omega
      · rw [Nat.pow_succ] at h'; omega

theorem mlUp_out {tree : List M} {f : M → Bool} : ∀ k l r (p : M) lps x, mlUp tree f (k+1) l r p lps = some x → 1 ≤ l → (∀ q ∈ lps, 1 ≤ q.1) →
    1 ≤ x.1 ∧ (∀ q ∈ x.2.2.2, 1 ≤ q.1) ∧ x.2.2.2.length ≤ lps.length + k := by
  intro k
  induction k with
  | zero =>
    intro l r p lps x e h1 h2
    rw [mlUp] at e
    by_cases hlr : l < r
    · rw [if_pos hlr, Option.bind_eq_bind, Option.bind_eq_some_iff] at e
      obtain ⟨y, _, e⟩ := e
      by_cases hf : f (y * p) = true
      · rw [if_pos hf, Option.bind_eq_bind, Option.bind_eq_some_iff] at e
        obtain ⟨z, _, e⟩ := e
        dsimp only at e
        rw [mlUp] at e
        cases e
      · rw [if_neg hf] at e; cases e; exact ⟨h1, h2, Nat.le_refl _⟩
    · rw [if_neg hlr] at e; cases e; exact ⟨h1, h2, Nat.le_refl _⟩
  | succ k ih =>
    intro l r p lps x e h1 h2
    rw [mlUp] at e
    by_cases hlr : l < r
    · rw [if_pos hlr, Option.bind_eq_bind, Option.bind_eq_some_iff] at e
      obtain ⟨y, _, e⟩ := e
      by_cases hf : f (y * p) = true
      · rw [if_pos hf, Option.bind_eq_bind, Option.bind_eq_some_iff] at e
        obtain ⟨z, hz, e⟩ := e
        dsimp only at e
        obtain ⟨a1, a2, a3⟩ := pushL_le hz
        have := a1 h1
        obtain ⟨b1, b2, b3⟩ := ih _ _ _ _ _ e (by omega) (fun q hq => (a3 q hq).elim (h2 q) (fun e => by omega))
        exact ⟨b1, b2, by omega⟩
      · rw [if_neg hf] at e; cases e; exact ⟨h1, h2, by dsimp only; omega⟩
    · rw [if_neg hlr] at e; cases e; exact ⟨h1, h2, by dsimp only; omega⟩

/-- Either the whole stack is used up or the node found is at least 2. -/
theorem mlStack_two (f : M → Bool) : ∀ (lps : List (Nat × M)) r p, (∀ q ∈ lps, 1 ≤ q.1) → (mlStack f lps r p).2.2.isEmpty = true ∨ 2 ≤ (mlStack f lps r p).1
  | [], _, _, _ => Or.inl rfl
  | q :: lps, r, p, h2 => by
      rw [mlStack]
      by_cases hf : (!f (q.2 * p)) = true
      · rw [if_pos hf]
        have := h2 q List.mem_cons_self
        exact Or.inr (by dsimp only; omega)
      · rw [if_neg hf]
        exact mlStack_two f lps r _ (fun a ha => h2 a (List.mem_cons_of_mem _ ha))

theorem mlDown_succ (n : Nat) (tree : List M) (f : M → Bool) (k r : Nat) (p : M) : mlDown n tree f (k+1) r p = if r ≤ n then (tree[r-1]?).bind (fun x => if f (x * p) then none else
    (tree[2*r-1]?).bind (fun y => if f (y * p) then mlDown n tree f k (2*r-1) (y * p) else mlDown n tree f k (2*r) p)) else some r := rfl

theorem mlDown_budget (n : Nat) (tree : List M) (f : M → Bool) : ∀ k k' r (p : M), 2 ≤ r → n ≤ (r - 1) * 2^k → n ≤ (r - 1) * 2^k' → mlDown n tree f (k+1) r p = mlDown n tree f (k'+1) r p
  | 0, k', r, p, _, h, _ => by
      have hn : ¬ r ≤ n := by omega
      simp only [mlDown_succ, if_neg hn]
  | k+1, 0, r, p, _, _, h => by
      have hn : ¬ r ≤ n := by omega
      simp only [mlDown_succ, if_neg hn]
  | k+1, k'+1, r, p, hr, h, h' => by
      have e : ∀ j, (r - 1) * 2^(j+1) = (2 * r - 1 - 1) * 2^j := fun j => by
        rw [show 2 * r - 1 - 1 = 2 * (r - 1) by omega, Nat.pow_succ']
        ac_rfl
      have g : ∀ j, (2 * r - 1 - 1) * 2^j ≤ (2 * r - 1) * 2^j := fun j => Nat.mul_le_mul_right _ (by omega)
      rw [e] at h h'
      rw [mlDown_succ n tree f (k+1) r p, mlDown_succ n tree f (k'+1) r p]
      congr 1
      refine congrArg _ (funext fun x => ?_)
      congr 1
      refine congrArg _ (funext fun y => ?_)
      rw [mlDown_budget n tree f k k' (2*r-1) (y * p) (by omega) h h', mlDown_budget n tree f k k' (2*r) p (by omega) (Nat.le_trans h (g k)) (Nat.le_trans h' (g k'))]

/-- `minLeft` with given numbers of rounds of its two `while` loops. -/
def minLeftB (u d : Nat) (t : Tree M) (f : M → Bool) (b e : Nat) : Option Nat :=
  if e = b then some b else do
    let (l, r, p, lps) ← mlUp t.tree f u (t.size + b) (t.size + e) 1 []
    if l ≥ r then
      let (r, p, lps) := mlStack f lps r p
      if lps.isEmpty then some b else do
        let r ← mlDown t.size t.tree f d r p
        some (r - t.size)
    else do
      let r ← mlDown t.size t.tree f d r p
      some (r - t.size)

theorem minLeft_budget (u d : Nat) (t : Tree M) (f : M → Bool) (b e : Nat) (h0 : 1 ≤ t.size) (hu : t.size + e < 2^u) (hd : t.size ≤ 2^d) : minLeftB (u+1) (d+1) t f b e = minLeft t f b e := by
  unfold minLeftB minLeft
  congr 1
  rw [mlUp_budget t.tree f u (t.size + e) _ _ _ _ hu Nat.lt_two_pow_self]
  cases hm : mlUp t.tree f (t.size + e + 1) (t.size + b) (t.size + e) 1 [] with
  | none => rfl
  | some x =>
    obtain ⟨l, r, p, lps⟩ := x
    obtain ⟨a1, a2, _⟩ := mlUp_out _ _ _ _ _ _ hm (by omega) (fun q hq => absurd hq List.not_mem_nil)
    have key : ∀ r p, 2 ≤ r → mlDown t.size t.tree f (d+1) r p = mlDown t.size t.tree f (t.size+2) r p := fun r p hr =>
      mlDown_budget t.size t.tree f d (t.size+1) r p hr (Nat.le_trans hd (Nat.le_mul_of_pos_left _ (by omega)))
        (Nat.le_trans (Nat.le_of_lt (Nat.lt_trans (Nat.lt_succ_self _) Nat.lt_two_pow_self)) (Nat.le_mul_of_pos_left _ (by omega)))
    show (if l ≥ r then _ else _) = (if l ≥ r then _ else _)
    by_cases hlr : l ≥ r
    · rw [if_pos hlr, if_pos hlr]
      rcases mlStack_two f lps r p a2 with h | h
      · rw [if_pos h, if_pos h]
      · congr 1
        rw [key _ _ h]
    · rw [if_neg hlr, if_neg hlr, key _ _ (by dsimp only at a1; omega)]

end

/-! ### C148 -/

variable {M : Type} [Monoid M]

theorem log_bounds {n : Nat} (hn : 1 ≤ n) : n ≤ 2^(Nat.log2 n + 1) ∧ 2 * n < 2^(Nat.log2 n + 2) := by
  have : n < 2^(Nat.log2 n + 1) := Nat.lt_log2_self
  constructor
  · omega
  · rw [Nat.pow_succ]; omega

theorem run_size (st : Start M) (ops : List (Nat × M)) (hv : ∀ op ∈ ops, op.1 < st.values.length) : ∃ t, run st ops = some t ∧ Inv t (plain st ops) ∧ t.size = st.values.length := by
  obtain ⟨t, e, h⟩ := run_inv st ops hv
  obtain ⟨t', e', hl, _⟩ := C04_query_get st ops hv
  obtain rfl : t = t' := by rw [e] at e'; cases e'; rfl
  exact ⟨t, e, h, by rw [h.sz]; exact hl⟩

/-- C148: on a tree of `n ≥ 1` elements reached by any history, with `L = ⌊log2 n⌋`: `set` updates at most `L+1` inner nodes and `query` makes at most `L+2` rounds.  (The budget counts one more, for the
test that ends the loop.) -/
theorem C148_set_query (st : Start M) (ops : List (Nat × M)) (hv : ∀ op ∈ ops, op.1 < st.values.length) (hn : 1 ≤ st.values.length) :
    ∃ t, run st ops = some t ∧
      (∀ i x, i < st.values.length → ∃ tr, set t i x = some ⟨t.size, tr⟩ ∧ setLoop (Nat.log2 st.values.length + 2) (t.tree.set (t.size + i) x) ((t.size + i) / 2) = some tr) ∧
      (∀ l r, l ≤ r → r ≤ st.values.length → ∃ v, query t l r = some v ∧ queryLoop t.tree (Nat.log2 st.values.length + 3) 1 1 (l + t.size) (r + t.size) = some v) := by
  obtain ⟨t, e, h, hs⟩ := run_size st ops hv
  obtain ⟨b1, b2⟩ := log_bounds hn
  have hpl : (plain st ops).length = st.values.length := by rw [← h.sz]; exact hs
  refine ⟨t, e, fun i x hi => ?_, fun l r hlr hr => ?_⟩
  · obtain ⟨t', e', h'⟩ := set_inv h (show i < (plain st ops).length by omega) x
    unfold set at e'
    dsimp only at e'
    by_cases hc : t.size + i < t.tree.length
    · rw [if_pos hc, Option.bind_eq_bind, Option.bind_eq_some_iff] at e'
      obtain ⟨tr, e1, e2⟩ := e'
      refine ⟨tr, ?_, ?_⟩
      · unfold set
        dsimp only
        rw [if_pos hc, e1]
        rfl
      · rw [← e1]
        refine setLoop_budget _ (t.size + i) _ _ ?_ ?_
        · rw [Nat.pow_succ] at b2 ⊢; omega
        · exact Nat.lt_of_le_of_lt (Nat.div_le_self _ _) Nat.lt_two_pow_self
    · rw [if_neg hc] at e'; cases e'
  · refine ⟨_, query_spec h hlr (by omega), ?_⟩
    rw [← query_spec h hlr (by omega)]
    unfold query
    exact queryLoop_budget _ _ _ _ _ _ _ (by omega) Nat.lt_two_pow_self

/-- C148: likewise `max_right` and `min_left`: at most `L+2` rounds upwards, at most `L+2` entries on the stack, and at most `L+1` rounds downwards. -/
theorem C148_search (st : Start M) (ops : List (Nat × M)) (hv : ∀ op ∈ ops, op.1 < st.values.length) (hn : 1 ≤ st.values.length) (f : M → Bool) (hf : f 1 = true) (b e : Nat) (hbe : b ≤ e)
    (he : e ≤ st.values.length) :
    ∃ t x y, run st ops = some t ∧
      maxRight t f b e = some x ∧ maxRightB (Nat.log2 st.values.length + 3) (Nat.log2 st.values.length + 2) t f b e = some x ∧
      minLeft t f b e = some y ∧ minLeftB (Nat.log2 st.values.length + 3) (Nat.log2 st.values.length + 2) t f b e = some y ∧
      (∀ l r p rps, mrUp t.tree f (Nat.log2 st.values.length + 3) (t.size + b) (t.size + e) 1 [] = some (l, r, p, rps) → rps.length ≤ Nat.log2 st.values.length + 2) ∧
      (∀ l r p lps, mlUp t.tree f (Nat.log2 st.values.length + 3) (t.size + b) (t.size + e) 1 [] = some (l, r, p, lps) → lps.length ≤ Nat.log2 st.values.length + 2) := by
  obtain ⟨t, e1, h, hs⟩ := run_size st ops hv
  obtain ⟨b1, b2⟩ := log_bounds hn
  have hpl : (plain st ops).length = st.values.length := by rw [← h.sz]; exact hs
  obtain ⟨x, hx, _⟩ := maxRight_spec h f hbe (by omega) hf
  obtain ⟨y, hy, _⟩ := minLeft_spec h f hbe (by omega) hf
  refine ⟨t, x, y, e1, hx, ?_, hy, ?_, fun l r p rps hm => ?_, fun l r p lps hm => ?_⟩
  · rw [maxRight_budget _ _ t f b e (by omega) (by omega) (by omega)]; exact hx
  · rw [minLeft_budget _ _ t f b e (by omega) (by omega) (by omega)]; exact hy
  · have := (mrUp_out _ _ _ _ _ _ hm (by omega) (fun q hq => absurd hq List.not_mem_nil)).2.2
    rwa [List.length_nil, Nat.zero_add] at this
  · have := (mlUp_out _ _ _ _ _ _ hm (by omega) (fun q hq => absurd hq List.not_mem_nil)).2.2
    rwa [List.length_nil, Nat.zero_add] at this

/-- Five elements (products of numbers): `L = 2`. -/
example : ((ofRange [2, 3, 5, 7, 11]).bind (fun t => queryLoop t.tree 5 1 1 (1 + t.size) (4 + t.size))) = some 105 := by decide
example : ((ofRange [2, 3, 5, 7, 11]).bind (fun t => maxRightB 5 4 t (fun p => decide (p ≤ 40)) 0 5)) = some 3 := by decide
example : ((ofRange [2, 3, 5, 7, 11]).bind (fun t => minLeftB 5 4 t (fun p => decide (p ≤ 80)) 0 5)) = some 3 := by decide

end Verif.SegTree
