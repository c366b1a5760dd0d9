import Verif.LazySegTree.Cost
/-!
# C153: the number of rounds of `max_right` and `min_left` of `lazy_segment_tree.hpp`

The loops of the model take a budget of rounds and are `none` if it runs out.  Logarithmic budgets give the same results as the budgets of the model, in every state.
-/
namespace Verif.LazySegTree

variable {M A : Type} [One M] [Mul M]

/-! ### max_right -/

theorem mrPushR_le {S : Acts M A} {n r : Nat} {tree : List (M × A)} {rps : List (Nat × M)} {w : List (M × A) × Nat × List (Nat × M)} (h : mrPushR S n r tree rps = some w) :
    w.2.1 ≤ r ∧ w.2.2.length ≤ rps.length + 1 ∧ ∀ q ∈ w.2.2, q ∈ rps ∨ q.1 = r := by
  unfold mrPushR at h
  by_cases hr : r % 2 = 1
  · rw [if_pos hr, Option.map_eq_some_iff] at h
    obtain ⟨y, _, rfl⟩ := h
    exact ⟨Nat.sub_le _ _, Nat.le_refl _, fun q hq => (List.mem_cons.1 hq).elim (fun e => Or.inr (e ▸ rfl)) Or.inl⟩
  · rw [if_neg hr] at h
    cases h
    exact ⟨Nat.le_refl _, Nat.le_succ _, fun q hq => Or.inl hq⟩

theorem mrLoop_budget (S : Acts M A) (n : Nat) (f : M → Bool) : ∀ k k' l r (p : M) rps tree, r < 2^k → r < 2^k' → mrLoop S n f (k+1) l r p rps tree = mrLoop S n f (k'+1) l r p rps tree
  | 0, k', l, r, p, rps, tree, h, _ => by
      obtain rfl : r = 0 := by omega
      rw [mrLoop, mrLoop, if_neg (Nat.not_lt_zero l), if_neg (Nat.not_lt_zero l)]
  | k+1, 0, l, r, p, rps, tree, _, h => by
      obtain rfl : r = 0 := by omega
      rw [mrLoop, mrLoop, if_neg (Nat.not_lt_zero l), if_neg (Nat.not_lt_zero l)]
  | k+1, k'+1, l, r, p, rps, tree, h, h' => by
      rw [mrLoop, mrLoop]
      congr 1
      refine congrArg _ (funext fun q => ?_)
      congr 1
      cases hr : mrPushR S n r q.1 rps with
      | none => rfl
      | some w =>
        have := (mrPushR_le hr).1
        rw [Nat.pow_succ] at h h'
        rw [Option.bind_some, Option.bind_some, mrLoop_budget S n f k k' ((l+1)/2) (w.2.1/2) (p * q.2) w.2.2 w.1 (by omega) (by omega),
          mrLoop_budget S n f k k' (l/2) (w.2.1/2) p w.2.2 w.1 (by omega) (by omega)]

theorem mrLoop_out {S : Acts M A} {n : Nat} {f : M → Bool} : ∀ k l r (p : M) rps tree x, mrLoop S n f k l r p rps tree = some x → 1 ≤ l → (∀ q ∈ rps, 2 ≤ q.1) →
    1 ≤ x.2.1 ∧ (∀ q ∈ x.2.2.2.2, 2 ≤ q.1) ∧ x.2.2.2.2.length + 1 ≤ rps.length + k
  | 0, _, _, _, _, _, _, e, _, _ => by cases e
  | k+1, l, r, p, rps, tree, x, e, h1, h2 => by
      rw [mrLoop] at e
      by_cases hlr : l < r
      · rw [if_pos hlr, Option.bind_eq_some_iff] at e
        obtain ⟨q, _, e⟩ := e
        by_cases hf : f (p * q.2) = true
        · rw [if_pos hf, Option.bind_eq_some_iff] at e
          obtain ⟨w, hw, e⟩ := e
          obtain ⟨a1, a2, a3⟩ := mrPushR_le hw
          have h3 : ∀ q ∈ w.2.2, 2 ≤ q.1 := fun q hq => (a3 q hq).elim (h2 q) (fun e => by omega)
          by_cases hl : l % 2 = 1
          · rw [if_pos hl] at e
            obtain ⟨b1, b2, b3⟩ := mrLoop_out k _ _ _ _ _ _ e (by omega) h3
            exact ⟨b1, b2, by omega⟩
          · rw [if_neg hl] at e
            obtain ⟨b1, b2, b3⟩ := mrLoop_out k _ _ _ _ _ _ e (by omega) h3
            exact ⟨b1, b2, by omega⟩
        · rw [if_neg hf] at e; cases e; exact ⟨h1, h2, by dsimp only; omega⟩
      · rw [if_neg hlr] at e; cases e; exact ⟨h1, h2, by dsimp only; omega⟩

theorem mrStack_one {f : M → Bool} : ∀ {rps : List (Nat × M)} {p : M} {x : Nat × M}, mrStack f p rps = some x → (∀ q ∈ rps, 2 ≤ q.1) → 1 ≤ x.1
  | [], _, _, e, _ => by cases e
  | (r, rp) :: rps, p, x, e, h => by
      rw [mrStack] at e
      by_cases hf : (!f (p * rp)) = true
      · rw [if_pos hf] at e
        cases e
        have := h (r, rp) List.mem_cons_self
        dsimp only at this ⊢
        omega
      · rw [if_neg hf] at e
        exact mrStack_one e (fun a ha => h a (List.mem_cons_of_mem _ ha))

theorem mrDesc_succ (S : Acts M A) (n : Nat) (f : M → Bool) (k l : Nat) (p : M) (tree : List (M × A)) : mrDesc S n f (k+1) l p tree = if l < n then
      (access S n l tree).bind (fun q => if f (p * q.2) then none else
        (access S n (l*2) q.1).bind (fun w => if f (p * w.2) then mrDesc S n f k (l*2+1) (p * w.2) w.1 else mrDesc S n f k (l*2) p w.1))
    else some (tree, l - n) := rfl

theorem mrDesc_budget (S : Acts M A) (n : Nat) (f : M → Bool) : ∀ k k' l (p : M) tree, n ≤ l * 2^k → n ≤ l * 2^k' → mrDesc S n f (k+1) l p tree = mrDesc S n f (k'+1) l p tree
  | 0, k', l, p, tree, h, _ => by
      have hn : ¬ l < n := by omega
      simp only [mrDesc_succ, if_neg hn]
  | k+1, 0, l, p, tree, _, h => by
      have hn : ¬ l < n := by omega
      simp only [mrDesc_succ, if_neg hn]
  | k+1, k'+1, l, p, tree, h, h' => by
      have e : l * 2^(k+1) = l * 2 * 2^k := by rw [Nat.pow_succ']; ac_rfl
      have e' : l * 2^(k'+1) = l * 2 * 2^k' := by rw [Nat.pow_succ']; ac_rfl
      have g : ∀ j, l * 2 * 2^j ≤ (l * 2 + 1) * 2^j := fun j => Nat.mul_le_mul_right _ (Nat.le_succ _)
      rw [mrDesc_succ S n f (k+1) l p, mrDesc_succ S n f (k'+1) l p]
      congr 1
      refine congrArg _ (funext fun q => ?_)
      congr 1
      refine congrArg _ (funext fun w => ?_)
      rw [mrDesc_budget S n f k k' (l*2+1) (p * w.2) w.1 (by have := g k; omega) (by have := g k'; omega), mrDesc_budget S n f k k' (l*2) p w.1 (by omega) (by omega)]

/-- `maxRight` with given numbers of rounds of its two `while` loops (lazy_segment_tree.hpp:153-195). -/
def maxRightB (u d : Nat) (S : Acts M A) (t : Tree M A) (b e : Nat) (f : M → Bool) : Option (Tree M A × Nat) :=
  if b = e then some (t, e) else
    (lazyProp S t b e).bind (fun t1 =>
      (mrLoop S t.size f u (t.size + b) (t.size + e) 1 [] t1).bind (fun w =>
        if w.2.2.1 ≤ w.2.1 then
          match mrStack f w.2.2.2.1 w.2.2.2.2 with
          | none => some (⟨t.size, w.1⟩, e)
          | some (l, p) => (mrDesc S t.size f d l p w.1).map (fun z => (⟨t.size, z.1⟩, z.2))
        else (mrDesc S t.size f d w.2.1 w.2.2.2.1 w.1).map (fun z => (⟨t.size, z.1⟩, z.2))))

theorem maxRight_budget (u d : Nat) (S : Acts M A) (t : Tree M A) (f : M → Bool) (b e : Nat) (h0 : 1 ≤ t.size) (hu : t.size + e < 2^u) (hd : t.size ≤ 2^d) :
    maxRightB (u+1) (d+1) S t b e f = maxRight S t b e f := by
  have hdd : ∀ l, 1 ≤ l → ∀ p tree, mrDesc S t.size f (d+1) l p tree = mrDesc S t.size f (t.size+1) l p tree := fun l hl p tree => by
    refine mrDesc_budget S t.size f d t.size l p tree ?_ ?_
    · exact hd.trans (Nat.le_mul_of_pos_left _ hl)
    · exact (Nat.le_of_lt Nat.lt_two_pow_self).trans (Nat.le_mul_of_pos_left _ hl)
  unfold maxRightB maxRight
  congr 1
  refine congrArg _ (funext fun t1 => ?_)
  rw [mrLoop_budget S t.size f u (t.size + e) (t.size + b) (t.size + e) 1 [] t1 hu Nat.lt_two_pow_self]
  cases hw : mrLoop S t.size f (t.size + e + 1) (t.size + b) (t.size + e) 1 [] t1 with
  | none => rfl
  | some w =>
    obtain ⟨b1, b2, _⟩ := mrLoop_out _ _ _ _ _ _ _ hw (by omega) (fun q hq => absurd hq List.not_mem_nil)
    rw [Option.bind_some, Option.bind_some, hdd w.2.1 b1]
    congr 1
    cases hs : mrStack f w.2.2.2.1 w.2.2.2.2 with
    | none => rfl
    | some x =>
      dsimp only
      rw [hdd x.1 (mrStack_one hs b2)]

/-! ### min_left -/

theorem mlPushL_le {S : Acts M A} {n l : Nat} {tree : List (M × A)} {lps : List (Nat × M)} {w : List (M × A) × Nat × List (Nat × M)} (h : mlPushL S n l tree lps = some w) :
    (1 ≤ l → 2 ≤ w.2.1) ∧ w.2.2.length ≤ lps.length + 1 ∧ ∀ q ∈ w.2.2, q ∈ lps ∨ q.1 = l := by
  unfold mlPushL at h
  by_cases hr : l % 2 = 1
  · rw [if_pos hr, Option.map_eq_some_iff] at h
    obtain ⟨y, _, rfl⟩ := h
    exact ⟨fun h => by dsimp only; omega, Nat.le_refl _, fun q hq => (List.mem_cons.1 hq).elim (fun e => Or.inr (e ▸ rfl)) Or.inl⟩
  · rw [if_neg hr] at h
    cases h
    exact ⟨fun h => by dsimp only; omega, Nat.le_succ _, fun q hq => Or.inl hq⟩

theorem mlLoop_budget (S : Acts M A) (n : Nat) (f : M → Bool) : ∀ k k' l r (p : M) lps tree, r < 2^k → r < 2^k' → mlLoop S n f (k+1) l r p lps tree = mlLoop S n f (k'+1) l r p lps tree
  | 0, k', l, r, p, lps, tree, h, _ => by
      obtain rfl : r = 0 := by omega
      rw [mlLoop, mlLoop, if_neg (Nat.not_lt_zero l), if_neg (Nat.not_lt_zero l)]
  | k+1, 0, l, r, p, lps, tree, _, h => by
      obtain rfl : r = 0 := by omega
      rw [mlLoop, mlLoop, if_neg (Nat.not_lt_zero l), if_neg (Nat.not_lt_zero l)]
  | k+1, k'+1, l, r, p, lps, tree, h, h' => by
      rw [mlLoop, mlLoop]
      rw [Nat.pow_succ] at h h'
      congr 1
      refine congrArg _ (funext fun q => ?_)
      congr 1
      refine congrArg _ (funext fun w => ?_)
      refine congrArg _ (funext fun y => ?_)
      exact mlLoop_budget S n f k k' _ _ _ _ _ (by omega) (by omega)

theorem mlLoop_out {S : Acts M A} {n : Nat} {f : M → Bool} : ∀ k l r (p : M) lps tree x, mlLoop S n f k l r p lps tree = some x → 1 ≤ l → (∀ q ∈ lps, 1 ≤ q.1) →
    1 ≤ x.2.1 ∧ (∀ q ∈ x.2.2.2.2, 1 ≤ q.1) ∧ x.2.2.2.2.length + 1 ≤ lps.length + k
  | 0, _, _, _, _, _, _, e, _, _ => by cases e
  | k+1, l, r, p, lps, tree, x, e, h1, h2 => by
      rw [mlLoop] at e
      by_cases hlr : l < r
      · rw [if_pos hlr, Option.bind_eq_some_iff] at e
        obtain ⟨q, _, e⟩ := e
        by_cases hf : f (q.2 * p) = true
        · rw [if_pos hf, Option.bind_eq_some_iff] at e
          obtain ⟨w, hw, e⟩ := e
          rw [Option.bind_eq_some_iff] at e
          obtain ⟨y, _, e⟩ := e
          obtain ⟨a1, a2, a3⟩ := mlPushL_le hw
          have := a1 h1
          obtain ⟨b1, b2, b3⟩ := mlLoop_out k _ _ _ _ _ _ e (by omega) (fun q hq => (a3 q hq).elim (h2 q) (fun e => by omega))
          exact ⟨b1, b2, by omega⟩
        · rw [if_neg hf] at e; cases e; exact ⟨h1, h2, by dsimp only; omega⟩
      · rw [if_neg hlr] at e; cases e; exact ⟨h1, h2, by dsimp only; omega⟩

theorem mlStack_two {f : M → Bool} : ∀ {lps : List (Nat × M)} {p : M} {x : Nat × M}, mlStack f p lps = some x → (∀ q ∈ lps, 1 ≤ q.1) → 2 ≤ x.1
  | [], _, _, e, _ => by cases e
  | (l, lp) :: lps, p, x, e, h => by
      rw [mlStack] at e
      by_cases hf : (!f (lp * p)) = true
      · rw [if_pos hf] at e
        cases e
        have := h (l, lp) List.mem_cons_self
        dsimp only at this ⊢
        omega
      · rw [if_neg hf] at e
        exact mlStack_two e (fun a ha => h a (List.mem_cons_of_mem _ ha))

theorem mlDesc_succ (S : Acts M A) (n : Nat) (f : M → Bool) (k r : Nat) (p : M) (tree : List (M × A)) : mlDesc S n f (k+1) r p tree = if r ≤ n then
      (access S n (r-1) tree).bind (fun q => if f (q.2 * p) then none else
        (access S n (r*2-1) q.1).bind (fun w => if f (w.2 * p) then mlDesc S n f k (r*2-1) (w.2 * p) w.1 else mlDesc S n f k (r*2) p w.1))
    else some (tree, r - n) := rfl

theorem mlDesc_budget (S : Acts M A) (n : Nat) (f : M → Bool) : ∀ k k' r (p : M) tree, 2 ≤ r → n ≤ (r - 1) * 2^k → n ≤ (r - 1) * 2^k' → mlDesc S n f (k+1) r p tree = mlDesc S n f (k'+1) r p tree
  | 0, k', r, p, tree, h2, h, _ => by
      have hn : ¬ r ≤ n := by omega
      simp only [mlDesc_succ, if_neg hn]
  | k+1, 0, r, p, tree, h2, _, h => by
      have hn : ¬ r ≤ n := by omega
      simp only [mlDesc_succ, if_neg hn]
  | k+1, k'+1, r, p, tree, h2, h, h' => by
      have e : ∀ j, (r - 1) * 2^(j+1) = (r - 1) * 2 * 2^j := fun j => by rw [Nat.pow_succ']; ac_rfl
      have g : ∀ j, (r - 1) * 2 * 2^j ≤ (r * 2 - 1 - 1) * 2^j := fun j => Nat.mul_le_mul_right _ (by omega)
      have g' : ∀ j, (r - 1) * 2 * 2^j ≤ (r * 2 - 1) * 2^j := fun j => Nat.mul_le_mul_right _ (by omega)
      rw [e] at h h'
      rw [mlDesc_succ S n f (k+1) r p, mlDesc_succ S n f (k'+1) r p]
      congr 1
      refine congrArg _ (funext fun q => ?_)
      congr 1
      refine congrArg _ (funext fun w => ?_)
      rw [mlDesc_budget S n f k k' (r*2-1) (w.2 * p) w.1 (by omega) (h.trans (g k)) (h'.trans (g k')), mlDesc_budget S n f k k' (r*2) p w.1 (by omega) (h.trans (g' k)) (h'.trans (g' k'))]

/-- `minLeft` with given numbers of rounds of its two `while` loops (lazy_segment_tree.hpp:201-243). -/
def minLeftB (u d : Nat) (S : Acts M A) (t : Tree M A) (b e : Nat) (f : M → Bool) : Option (Tree M A × Nat) :=
  if e = b then some (t, b) else
    (lazyProp S t b e).bind (fun t1 =>
      (mlLoop S t.size f u (t.size + b) (t.size + e) 1 [] t1).bind (fun w =>
        if w.2.2.1 ≤ w.2.1 then
          match mlStack f w.2.2.2.1 w.2.2.2.2 with
          | none => some (⟨t.size, w.1⟩, b)
          | some (r, p) => (mlDesc S t.size f d r p w.1).map (fun z => (⟨t.size, z.1⟩, z.2))
        else (mlDesc S t.size f d w.2.2.1 w.2.2.2.1 w.1).map (fun z => (⟨t.size, z.1⟩, z.2))))

theorem minLeft_budget (u d : Nat) (S : Acts M A) (t : Tree M A) (f : M → Bool) (b e : Nat) (h0 : 1 ≤ t.size) (hu : t.size + e < 2^u) (hd : t.size ≤ 2^d) :
    minLeftB (u+1) (d+1) S t b e f = minLeft S t b e f := by
  have hdd : ∀ r, 2 ≤ r → ∀ p tree, mlDesc S t.size f (d+1) r p tree = mlDesc S t.size f (t.size+2) r p tree := fun r hr p tree => by
    refine mlDesc_budget S t.size f d (t.size + 1) r p tree hr ?_ ?_
    · exact hd.trans (Nat.le_mul_of_pos_left _ (by omega))
    · have : t.size + 1 < 2^(t.size + 1) := Nat.lt_two_pow_self
      exact (show t.size ≤ 2^(t.size + 1) by omega).trans (Nat.le_mul_of_pos_left _ (by omega))
  unfold minLeftB minLeft
  congr 1
  refine congrArg _ (funext fun t1 => ?_)
  rw [mlLoop_budget S t.size f u (t.size + e) (t.size + b) (t.size + e) 1 [] t1 hu Nat.lt_two_pow_self]
  cases hw : mlLoop S t.size f (t.size + e + 1) (t.size + b) (t.size + e) 1 [] t1 with
  | none => rfl
  | some w =>
    obtain ⟨b1, b2, _⟩ := mlLoop_out _ _ _ _ _ _ _ hw (by omega) (fun q hq => absurd hq List.not_mem_nil)
    rw [Option.bind_some, Option.bind_some]
    by_cases hc : w.2.2.1 ≤ w.2.1
    · rw [if_pos hc, if_pos hc]
      cases hs : mlStack f w.2.2.2.1 w.2.2.2.2 with
      | none => rfl
      | some x =>
        dsimp only
        rw [hdd x.1 (mlStack_two hs b2)]
    · rw [if_neg hc, if_neg hc, hdd w.2.2.1 (by omega)]

/-- C153: in every state of a tree with `size_ = n ≥ 1` (also where C55 shows the answer to be wrong), with `L = ⌊log2 n⌋`: `max_right` and `min_left` make at most `L+2` rounds upwards and at most `L+1`
rounds downwards, and their stack holds at most `L+2` entries.  (The budgets count one more, for the test that ends the loop.) -/
theorem C153_rounds (S : Acts M A) (t : Tree M A) (f : M → Bool) (b e : Nat) (h0 : 1 ≤ t.size) (he : e ≤ t.size) :
    maxRightB (Nat.log2 t.size + 3) (Nat.log2 t.size + 2) S t b e f = maxRight S t b e f ∧
    minLeftB (Nat.log2 t.size + 3) (Nat.log2 t.size + 2) S t b e f = minLeft S t b e f ∧
    (∀ t1 x, mrLoop S t.size f (t.size + e + 1) (t.size + b) (t.size + e) 1 [] t1 = some x → x.2.2.2.2.length ≤ Nat.log2 t.size + 2) ∧
    (∀ t1 x, mlLoop S t.size f (t.size + e + 1) (t.size + b) (t.size + e) 1 [] t1 = some x → x.2.2.2.2.length ≤ Nat.log2 t.size + 2) := by
  have hK := two_mul_lt_pow t.size
  have hd : t.size ≤ 2^(Nat.log2 t.size + 1) := by
    have : t.size < 2^(Nat.log2 t.size + 1) := Nat.lt_log2_self
    omega
  refine ⟨maxRight_budget _ _ S t f b e h0 (by omega) hd, minLeft_budget _ _ S t f b e h0 (by omega) hd, fun t1 x hx => ?_, fun t1 x hx => ?_⟩
  · rw [mrLoop_budget S t.size f (t.size + e) (Nat.log2 t.size + 2) _ _ _ _ _ Nat.lt_two_pow_self (by omega)] at hx
    have := (mrLoop_out _ _ _ _ _ _ _ hx (by omega) (fun q hq => absurd hq List.not_mem_nil)).2.2
    rw [List.length_nil] at this
    omega
  · rw [mlLoop_budget S t.size f (t.size + e) (Nat.log2 t.size + 2) _ _ _ _ _ Nat.lt_two_pow_self (by omega)] at hx
    have := (mlLoop_out _ _ _ _ _ _ _ hx (by omega) (fun q hq => absurd hq List.not_mem_nil)).2.2
    rw [List.length_nil] at this
    omega

/-- Maximum with assignment on five elements (`size_` = 8, `L = 3`). -/
example : ((@ofRange _ _ ⟨0⟩ ⟨max⟩ assign [1, 4, 2, 7, 3]).bind (fun t => (@maxRightB _ _ ⟨0⟩ ⟨max⟩ 6 5 assign t 0 8 (fun x => x < 5)).map (·.2))) = some 3 ∧
    ((@ofRange _ _ ⟨0⟩ ⟨max⟩ assign [1, 4, 2, 7, 3]).bind (fun t => (@minLeftB _ _ ⟨0⟩ ⟨max⟩ 6 5 assign t 0 3 (fun x => x < 4)).map (·.2))) = some 2 := by decide

end Verif.LazySegTree
