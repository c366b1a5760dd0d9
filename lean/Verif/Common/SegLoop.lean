import Verif.Fenwick.Proofs
/-!
Two loops that occur verbatim in several segment tree headers:

* `for (_l = a, _r = b; _l < _r; _l >>= 1, _r >>= 1) { if (_l&1) fl(_l++); if (_r&1) fr(--_r); }`
  (lazy_segment_tree.hpp:59-64 and 95-106, dual_segment_tree.hpp:55-64, segment_tree_divide_and_conquer.hpp:18-21);
* `_set_ids` (lazy_segment_tree.hpp:122-133, dual_segment_tree.hpp:83-95).
-/
namespace Verif.SegLoop

variable {σ : Type}

/-- `if (_l&1) fl(_l++)`. -/
def stepL (fl : Nat → σ → Option σ) (l : Nat) (s : σ) : Option (Nat × σ) :=
  if l % 2 = 1 then (fl l s).map (fun s => (l + 1, s)) else some (l, s)

/-- `if (_r&1) fr(--_r)`. -/
def stepR (fr : Nat → σ → Option σ) (r : Nat) (s : σ) : Option (Nat × σ) :=
  if r % 2 = 1 then (fr (r - 1) s).map (fun s => (r - 1, s)) else some (r, s)

/-- The bottom-up loop over a range; the first argument bounds the number of rounds (`none` if it does not suffice). -/
def canonLoop (fl fr : Nat → σ → Option σ) : Nat → Nat → Nat → σ → Option σ
  | 0, _, _, _ => none
  | fuel+1, l, r, s =>
    if l < r then
      (stepL fl l s).bind (fun p =>
        (stepR fr r p.2).bind (fun q => canonLoop fl fr fuel (p.1 / 2) (q.1 / 2) q.2))
    else some s

/-- `for (; _l>0; _l>>=1) ids_.push_back(_l)` (first argument: round budget). -/
def idsUp : Nat → Nat → List Nat
  | 0, _ => []
  | k+1, x => if 0 < x then x :: idsUp k (x / 2) else []

/-- The first loop of `_set_ids`, followed by the second (first argument: round budget). -/
def idsLoop (lth rth : Nat) : Nat → Nat → Nat → List Nat
  | 0, _, _ => []
  | k+1, l, r =>
    if l < r then
      (if r ≤ rth then [r] else []) ++ ((if l ≤ lth then [l] else []) ++ idsLoop lth rth k (l / 2) (r / 2))
    else idsUp (l + 1) l

/-- `_l/(_l&(-_l))/2` on `size_t`. -/
def oddHalf (x : Nat) : Nat := x / Fenwick.lowbit x / 2

/-- `_set_ids` with `_l = a`, `_r = b`: the contents of `ids_` in order. -/
def setIds (a b : Nat) : List Nat := idsLoop (oddHalf a) (oddHalf b) (b + 1) a b

/-- `for (auto id : ids) f(id)`. -/
def each (f : Nat → σ → Option σ) : List Nat → σ → Option σ
  | [], s => some s
  | x :: xs, s => (f x s).bind (each f xs)

/-! ### The nodes visited by the loop -/

/-- `c`, at height `k`, is one of the nodes into which the loop decomposes `[a, b)`. -/
def Canon (a b k c : Nat) : Prop :=
  a ≤ c * 2^k ∧ (c+1) * 2^k ≤ b ∧ ((c % 2 = 1 ∧ c * 2^k < a + 2^k) ∨ (c % 2 = 0 ∧ b < (c+2) * 2^k))

/-- Rule for the loop: `Q x y s` says that exactly the leaves of `[a, x)` and `[y, b)` have been dealt with. -/
theorem canonLoop_inv {fl fr : Nat → σ → Option σ} {a b : Nat} (Q : Nat → Nat → σ → Prop)
    (hl : ∀ k c y s, Canon a b k c → (c+1) * 2^k ≤ y → y ≤ b → Q (c * 2^k) y s → ∃ s', fl c s = some s' ∧ Q ((c+1) * 2^k) y s')
    (hr : ∀ k c x s, Canon a b k c → x ≤ c * 2^k → a ≤ x → Q x ((c+1) * 2^k) s → ∃ s', fr c s = some s' ∧ Q x (c * 2^k) s') :
    ∀ fuel k l r s, r < fuel → l ≤ r → a ≤ l * 2^k → l * 2^k < a + 2^k → r * 2^k ≤ b → b < (r+1) * 2^k →
      Q (l * 2^k) (r * 2^k) s → ∃ s' x, canonLoop fl fr fuel l r s = some s' ∧ Q x x s' := by
  intro fuel
  induction fuel with
  | zero => intro k l r s h; omega
  | succ fuel ih =>
    intro k l r s hf hlr ha ha' hb hb' hQ
    have hpk := Nat.two_pow_pos k
    unfold canonLoop
    by_cases hlt : l < r
    · rw [if_pos hlt]
      -- left
      obtain ⟨l', s1, e1, hl'2, hl'r, hl'a, hl'a', hQ1⟩ : ∃ l' s1, stepL fl l s = some (l', s1) ∧ l' % 2 = 0 ∧ l' ≤ r ∧
          a ≤ l' * 2^k ∧ l' * 2^k < a + 2 * 2^k ∧ Q (l' * 2^k) (r * 2^k) s1 := by
        unfold stepL
        by_cases h2 : l % 2 = 1
        · rw [if_pos h2]
          have hc : (l+1) * 2^k ≤ r * 2^k := Nat.mul_le_mul_right _ hlt
          obtain ⟨s1, e, h⟩ := hl k l (r * 2^k) s ⟨ha, by omega, Or.inl ⟨h2, ha'⟩⟩ hc hb hQ
          refine ⟨l+1, s1, by simp [e], by omega, hlt, ?_, ?_, h⟩ <;> rw [Nat.add_mul] <;> omega
        · rw [if_neg h2]
          exact ⟨l, s, rfl, by omega, by omega, ha, by omega, hQ⟩
      obtain ⟨r', s2, e2, hr'2, hl'r', hr'b, hr'b', hr'le, hQ2⟩ : ∃ r' s2, stepR fr r s1 = some (r', s2) ∧ r' % 2 = 0 ∧ l' ≤ r' ∧
          r' * 2^k ≤ b ∧ b < (r'+2) * 2^k ∧ r' ≤ r ∧ Q (l' * 2^k) (r' * 2^k) s2 := by
        unfold stepR
        by_cases h2 : r % 2 = 1
        · rw [if_pos h2]
          obtain ⟨c, rfl⟩ : ∃ c, r = c + 1 := ⟨r - 1, by omega⟩
          have hlc : l' ≤ c := by omega
          have h1 : l' * 2^k ≤ c * 2^k := Nat.mul_le_mul_right _ hlc
          obtain ⟨s2, e, h⟩ := hr k c (l' * 2^k) s1 ⟨by omega, hb, Or.inr ⟨by omega, hb'⟩⟩ h1 hl'a hQ1
          refine ⟨c, s2, by simp [e], by omega, hlc, ?_, hb', by omega, h⟩
          rw [Nat.add_mul] at hb; omega
        · rw [if_neg h2]
          refine ⟨r, s1, rfl, by omega, by omega, hb, ?_, by omega, hQ1⟩
          rw [Nat.add_mul] at hb' ⊢; omega
      simp only [e1, e2, Option.bind_some]
      obtain ⟨l2, rfl⟩ : ∃ m, l' = 2 * m := ⟨l'/2, by omega⟩
      obtain ⟨r2, rfl⟩ : ∃ m, r' = 2 * m := ⟨r'/2, by omega⟩
      have el : l2 * 2^(k+1) = 2 * l2 * 2^k := by rw [Nat.pow_succ]; ring
      have er : r2 * 2^(k+1) = 2 * r2 * 2^k := by rw [Nat.pow_succ]; ring
      have er' : (r2+1) * 2^(k+1) = (2 * r2 + 2) * 2^k := by rw [Nat.pow_succ]; ring
      have ep : 2^(k+1) = 2 * 2^k := by rw [Nat.pow_succ]; ring
      rw [show 2 * l2 / 2 = l2 by omega, show 2 * r2 / 2 = r2 by omega]
      exact ih (k+1) l2 r2 s2 (by omega) (by omega) (by omega) (by omega) (by omega) (by omega) (by rw [el, er]; exact hQ2)
    · rw [if_neg hlt]
      have : l = r := by omega
      subst this
      exact ⟨s, _, rfl, hQ⟩

/-- The loop started on `[a, b)`. -/
theorem canonLoop_run {fl fr : Nat → σ → Option σ} {a b : Nat} (hab : a ≤ b) {s : σ} (Q : Nat → Nat → σ → Prop)
    (hl : ∀ k c y s, Canon a b k c → (c+1) * 2^k ≤ y → y ≤ b → Q (c * 2^k) y s → ∃ s', fl c s = some s' ∧ Q ((c+1) * 2^k) y s')
    (hr : ∀ k c x s, Canon a b k c → x ≤ c * 2^k → a ≤ x → Q x ((c+1) * 2^k) s → ∃ s', fr c s = some s' ∧ Q x (c * 2^k) s')
    (h0 : Q a b s) : ∃ s' x, canonLoop fl fr (b+1) a b s = some s' ∧ Q x x s' :=
  canonLoop_inv Q hl hr (b+1) 0 a b s (by omega) hab (by simp) (by simp) (by simp) (by simp) (by simpa using h0)

/-! ### The nodes in `ids_` -/

theorem mem_idsUp {x y : Nat} : ∀ k, y < k → (x ∈ idsUp k y ↔ 0 < x ∧ ∃ j, x = y / 2^j) := by
  intro k
  induction k generalizing y with
  | zero => intro h; omega
  | succ k ih =>
    intro hk
    unfold idsUp
    by_cases h0 : 0 < y
    · rw [if_pos h0, List.mem_cons, ih (by omega)]
      constructor
      · rintro (rfl | ⟨h, j, rfl⟩)
        · exact ⟨h0, 0, by simp⟩
        · exact ⟨h, j+1, by rw [Nat.div_div_eq_div_mul, Nat.pow_succ, Nat.mul_comm]⟩
      · rintro ⟨h, j, rfl⟩
        cases j with
        | zero => left; simp
        | succ j => right; exact ⟨h, j, by rw [Nat.div_div_eq_div_mul, Nat.pow_succ, Nat.mul_comm]⟩
    · rw [if_neg h0]
      have : y = 0 := by omega
      subst this
      simp; omega

/-- Membership in `ids_`, level by level. -/
def InIds (lth rth a b x : Nat) : Prop :=
  ∃ j, (a / 2^j < b / 2^j ∧ ((x = b / 2^j ∧ x ≤ rth) ∨ (x = a / 2^j ∧ x ≤ lth))) ∨ (a / 2^j = b / 2^j ∧ x = a / 2^j ∧ 0 < x)

theorem div_succ_pow (a j : Nat) : a / 2 / 2^j = a / 2^(j+1) := by
  rw [Nat.div_div_eq_div_mul, Nat.pow_succ, Nat.mul_comm]

theorem mem_idsLoop {lth rth x : Nat} : ∀ k l r, r < k → l ≤ r → (x ∈ idsLoop lth rth k l r ↔ InIds lth rth l r x) := by
  intro k
  induction k with
  | zero => intro l r h; omega
  | succ k ih =>
    intro l r hk hlr
    unfold idsLoop
    by_cases hlt : l < r
    · rw [if_pos hlt, List.mem_append, List.mem_append, ih _ _ (by omega) (by omega)]
      constructor
      · rintro (h | h | ⟨j, h⟩)
        · by_cases h1 : r ≤ rth
          · rw [if_pos h1, List.mem_singleton] at h
            subst h
            exact ⟨0, Or.inl ⟨by simpa using hlt, Or.inl ⟨by simp, h1⟩⟩⟩
          · rw [if_neg h1] at h; simp at h
        · by_cases h1 : l ≤ lth
          · rw [if_pos h1, List.mem_singleton] at h
            subst h
            exact ⟨0, Or.inl ⟨by simpa using hlt, Or.inr ⟨by simp, h1⟩⟩⟩
          · rw [if_neg h1] at h; simp at h
        · simp only [div_succ_pow] at h
          exact ⟨j+1, h⟩
      · rintro ⟨j, h⟩
        cases j with
        | zero =>
          simp only [Nat.pow_zero, Nat.div_one] at h
          rcases h with ⟨_, ⟨rfl, h2⟩ | ⟨rfl, h2⟩⟩ | ⟨h1, _⟩
          · left; rw [if_pos h2]; simp
          · right; left; rw [if_pos h2]; simp
          · omega
        | succ j =>
          right; right
          exact ⟨j, by simp only [div_succ_pow]; exact h⟩
    · rw [if_neg hlt]
      have : l = r := by omega
      subst this
      rw [mem_idsUp _ (by omega)]
      constructor
      · rintro ⟨h, j, rfl⟩
        exact ⟨j, Or.inr ⟨rfl, rfl, h⟩⟩
      · rintro ⟨j, h | h⟩
        · omega
        · exact ⟨h.2.2, j, h.2.1⟩

theorem mem_setIds {a b x : Nat} (hab : a ≤ b) : x ∈ setIds a b ↔ InIds (oddHalf a) (oddHalf b) a b x :=
  mem_idsLoop _ _ _ (by omega) hab

theorem idsUp_le {x : Nat} : ∀ k y, x ∈ idsUp k y → x ≤ y := by
  intro k
  induction k with
  | zero => intro y h; simp [idsUp] at h
  | succ k ih =>
    intro y h
    unfold idsUp at h
    by_cases h0 : 0 < y
    · rw [if_pos h0, List.mem_cons] at h
      rcases h with rfl | h
      · exact Nat.le_refl _
      · have := ih _ h; omega
    · rw [if_neg h0] at h; simp at h

theorem idsUp_sorted : ∀ k y, (idsUp k y).Pairwise (· ≥ ·) := by
  intro k
  induction k with
  | zero => intro y; simp [idsUp]
  | succ k ih =>
    intro y
    unfold idsUp
    by_cases h0 : 0 < y
    · rw [if_pos h0, List.pairwise_cons]
      exact ⟨fun x hx => by have := idsUp_le _ _ hx; show x ≤ y; omega, ih _⟩
    · rw [if_neg h0]; simp

theorem idsLoop_le {lth rth x : Nat} : ∀ k l r, l ≤ r → x ∈ idsLoop lth rth k l r → x ≤ r := by
  intro k
  induction k with
  | zero => intro l r _ h; simp [idsLoop] at h
  | succ k ih =>
    intro l r hlr h
    unfold idsLoop at h
    by_cases hlt : l < r
    · rw [if_pos hlt, List.mem_append, List.mem_append] at h
      rcases h with h | h | h
      · by_cases h1 : r ≤ rth
        · rw [if_pos h1, List.mem_singleton] at h; omega
        · rw [if_neg h1] at h; simp at h
      · by_cases h1 : l ≤ lth
        · rw [if_pos h1, List.mem_singleton] at h; omega
        · rw [if_neg h1] at h; simp at h
      · have := ih _ _ (by omega) h; omega
    · rw [if_neg hlt] at h
      have := idsUp_le _ _ h; omega

theorem idsLoop_sorted {lth rth : Nat} : ∀ k l r, l ≤ r → r / 2 ≤ l → (idsLoop lth rth k l r).Pairwise (· ≥ ·) := by
  intro k
  induction k with
  | zero => intro l r _ _; simp [idsLoop]
  | succ k ih =>
    intro l r hlr h2
    unfold idsLoop
    by_cases hlt : l < r
    · rw [if_pos hlt]
      have hle : ∀ x ∈ idsLoop lth rth k (l/2) (r/2), x ≤ l := by
        intro x hx
        have := idsLoop_le _ _ _ (by omega) hx
        omega
      rw [List.pairwise_append, List.pairwise_append]
      refine ⟨by split <;> simp, ⟨by split <;> simp, ih _ _ (by omega) (by omega), ?_⟩, ?_⟩
      · intro x hx y hy
        have := hle y hy
        by_cases h1 : l ≤ lth
        · rw [if_pos h1, List.mem_singleton] at hx; subst hx; exact this
        · rw [if_neg h1] at hx; simp at hx
      · intro x hx y hy
        have hxr : x = r := by
          by_cases h1 : r ≤ rth
          · rw [if_pos h1, List.mem_singleton] at hx; exact hx
          · rw [if_neg h1] at hx; simp at hx
        subst hxr
        show y ≤ x
        rw [List.mem_append] at hy
        rcases hy with hy | hy
        · by_cases h1 : l ≤ lth
          · rw [if_pos h1, List.mem_singleton] at hy; omega
          · rw [if_neg h1] at hy; simp at hy
        · have := hle y hy; omega
    · rw [if_neg hlt]; exact idsUp_sorted _ _

theorem setIds_sorted {a b : Nat} (hab : a ≤ b) (h2 : b / 2 ≤ a) : (setIds a b).Pairwise (· ≥ ·) :=
  idsLoop_sorted _ _ _ hab h2

/-- The odd part of a positive number. -/
theorem oddHalf_spec {x : Nat} (h0 : 0 < x) (h : x < 2^64) : ∃ t o, x = (2*o+1) * 2^t ∧ oddHalf x = o := by
  unfold oddHalf
  rw [Fenwick.lowbit_eq h0 h]
  clear h
  induction x using Nat.strongRecOn with
  | ind x ih =>
    rcases Nat.even_or_odd' x with ⟨m, rfl | rfl⟩
    · obtain ⟨t, o, h1, h2⟩ := ih m (by omega) (by omega)
      refine ⟨t+1, o, ?_, ?_⟩
      · rw [Nat.pow_succ]; conv_lhs => rw [h1]
        ring
      · rw [Fenwick.low_even, Nat.mul_div_mul_left _ _ (by omega : 0 < 2)]; exact h2
    · refine ⟨0, m, by simp, ?_⟩
      rw [Fenwick.low_odd]; omega

theorem div_le_oddHalf {x j : Nat} (h0 : 0 < x) (h : x < 2^64) (hodd : x % 2^j ≠ 0) : x / 2^j ≤ oddHalf x := by
  obtain ⟨t, o, e, ho⟩ := oddHalf_spec h0 h
  rw [ho]
  have htj : t < j := by
    by_contra hc
    obtain ⟨d, rfl⟩ : ∃ d, t = j + d := ⟨t - j, by omega⟩
    apply hodd
    rw [e, Nat.pow_add, show (2*o+1) * (2^j * 2^d) = 2^j * ((2*o+1) * 2^d) by ring]
    exact Nat.mul_mod_right _ _
  obtain ⟨d, rfl⟩ : ∃ d, j = t + 1 + d := ⟨j - t - 1, by omega⟩
  rw [e, show t + 1 + d = t + (1 + d) by omega, Nat.pow_add, ← Nat.div_div_eq_div_mul,
    Nat.mul_div_cancel _ (Nat.two_pow_pos t), Nat.pow_add, ← Nat.div_div_eq_div_mul]
  calc (2*o+1) / 2^1 / 2^d ≤ (2*o+1) / 2^1 := Nat.div_le_self _ _
    _ = o := by omega

theorem oddHalf_le {x : Nat} (h0 : 0 < x) (h : x < 2^64) : oddHalf x ≤ x / 2 := by
  obtain ⟨t, o, e, ho⟩ := oddHalf_spec h0 h
  rw [ho]
  have : 2*o+1 ≤ x := by rw [e]; exact Nat.le_mul_of_pos_right _ (Nat.two_pow_pos t)
  omega

theorem mod_pow_of_le {x j m : Nat} (hjm : j ≤ m) (h : x % 2^j ≠ 0) : x % 2^m ≠ 0 := by
  intro hc
  apply h
  exact Nat.mod_eq_zero_of_dvd (Nat.dvd_trans (Nat.pow_dvd_pow 2 hjm) (Nat.dvd_of_mod_eq_zero hc))

theorem div_mono_pow (a b j m : Nat) (hjm : j ≤ m) (h : a / 2^j = b / 2^j) : a / 2^m = b / 2^m := by
  obtain ⟨d, rfl⟩ : ∃ d, m = j + d := ⟨m - j, by omega⟩
  rw [Nat.pow_add, ← Nat.div_div_eq_div_mul, ← Nat.div_div_eq_div_mul, h]

/-- `a >> j` is in `ids_` once bit pattern below `j` is nonzero. -/
theorem left_mem {a b j : Nat} (ha : 0 < a) (hab : a ≤ b) (hb : b < 2^64) (hodd : a % 2^j ≠ 0) (hpos : 0 < a / 2^j) :
    a / 2^j ∈ setIds a b := by
  rw [mem_setIds hab]
  refine ⟨j, ?_⟩
  have hle : a / 2^j ≤ b / 2^j := Nat.div_le_div_right hab
  by_cases h : a / 2^j = b / 2^j
  · exact Or.inr ⟨h, rfl, hpos⟩
  · exact Or.inl ⟨by omega, Or.inr ⟨rfl, div_le_oddHalf ha (by omega) hodd⟩⟩

theorem right_mem {a b j : Nat} (hab : a ≤ b) (hb0 : 0 < b) (hb : b < 2^64) (hodd : b % 2^j ≠ 0) (hpos : 0 < b / 2^j) :
    b / 2^j ∈ setIds a b := by
  rw [mem_setIds hab]
  refine ⟨j, ?_⟩
  have hle : a / 2^j ≤ b / 2^j := Nat.div_le_div_right hab
  by_cases h : a / 2^j = b / 2^j
  · exact Or.inr ⟨h, h.symm, hpos⟩
  · exact Or.inl ⟨by omega, Or.inl ⟨rfl, div_le_oddHalf hb0 hb hodd⟩⟩

/-- Every proper ancestor of a node of the decomposition is in `ids_`. -/
theorem anc_mem {a b k c m : Nat} (ha : 0 < a) (hb : b < 2^64) (hc : Canon a b k c) (hpos : 0 < c / 2^(m+1)) :
    c / 2^(m+1) ∈ setIds a b := by
  obtain ⟨h1, h2, h3⟩ := hc
  have hpk := Nat.two_pow_pos k
  have hmul : (c+1) * 2^k = c * 2^k + 2^k := by ring
  have hab : a ≤ b := by omega
  rcases h3 with ⟨hodd, h3⟩ | ⟨heven, h3⟩
  · -- parent = a >> (k+1)
    have e : a / 2^(k+1) = c / 2 := by
      rw [Nat.pow_succ]
      apply Nat.div_eq_of_lt_le
      · calc c / 2 * (2^k * 2) = (2 * (c/2)) * 2^k := by ring
          _ = (c - 1) * 2^k := by congr 1; omega
          _ ≤ a := by rw [Nat.sub_mul]; omega
      · calc a ≤ c * 2^k := h1
          _ < (c+1) * 2^k := by omega
          _ ≤ (2 * (c/2) + 2) * 2^k := Nat.mul_le_mul_right _ (by omega)
          _ = (c/2 + 1) * (2^k*2) := by ring
    have hm : a % 2^(k+1) ≠ 0 := by
      intro h0
      have := Nat.div_add_mod a (2^(k+1))
      rw [h0, e, Nat.pow_succ] at this
      have e2 : 2^k * 2 * (c/2) = (2 * (c/2)) * 2^k := by ring
      rw [Nat.add_zero, e2, show 2 * (c/2) = c - 1 by omega] at this
      rw [Nat.sub_mul] at this
      omega
    have ec : c / 2^(m+1) = a / 2^(k+1+m) := by
      rw [← div_succ_pow, ← e, Nat.div_div_eq_div_mul, ← Nat.pow_add]
    rw [ec] at hpos ⊢
    exact left_mem ha hab hb (mod_pow_of_le (by omega) hm) hpos
  · have e : b / 2^(k+1) = c / 2 := by
      rw [Nat.pow_succ]
      apply Nat.div_eq_of_lt_le
      · calc c / 2 * (2^k * 2) = (2 * (c/2)) * 2^k := by ring
          _ = c * 2^k := by congr 1; omega
          _ ≤ b := by omega
      · calc b < (c+2) * 2^k := h3
          _ ≤ (2 * (c/2) + 2) * 2^k := Nat.mul_le_mul_right _ (by omega)
          _ = (c/2 + 1) * (2^k*2) := by ring
    have hm : b % 2^(k+1) ≠ 0 := by
      intro h0
      have := Nat.div_add_mod b (2^(k+1))
      rw [h0, e, Nat.pow_succ] at this
      have e2 : 2^k * 2 * (c/2) = (2 * (c/2)) * 2^k := by ring
      rw [Nat.add_zero, e2, show 2 * (c/2) = c by omega] at this
      omega
    have ec : c / 2^(m+1) = b / 2^(k+1+m) := by
      rw [← div_succ_pow, ← e, Nat.div_div_eq_div_mul, ← Nat.pow_add]
    rw [ec] at hpos ⊢
    exact right_mem hab (by omega) hb (mod_pow_of_le (by omega) hm) hpos

/-- `ids_` is closed under taking (positive) parents. -/
theorem parent_mem {a b x : Nat} (hab : a ≤ b) (h : x ∈ setIds a b) (hx : 0 < x / 2) : x / 2 ∈ setIds a b := by
  rw [mem_setIds hab] at h ⊢
  obtain ⟨j, h⟩ := h
  have ea : a / 2^(j+1) = a / 2^j / 2 := by rw [Nat.pow_succ, Nat.div_div_eq_div_mul]
  have eb : b / 2^(j+1) = b / 2^j / 2 := by rw [Nat.pow_succ, Nat.div_div_eq_div_mul]
  refine ⟨j+1, ?_⟩
  rw [ea, eb]
  rcases h with ⟨h1, ⟨rfl, h2⟩ | ⟨rfl, h2⟩⟩ | ⟨h1, rfl, h2⟩
  · by_cases h : a / 2^j / 2 = b / 2^j / 2
    · exact Or.inr ⟨h, h.symm, by omega⟩
    · exact Or.inl ⟨by omega, Or.inl ⟨rfl, by omega⟩⟩
  · by_cases h : a / 2^j / 2 = b / 2^j / 2
    · exact Or.inr ⟨h, rfl, by omega⟩
    · exact Or.inl ⟨by omega, Or.inr ⟨rfl, by omega⟩⟩
  · exact Or.inr ⟨by rw [h1], rfl, by omega⟩

/-- Nodes of `ids_` are internal. -/
theorem lt_of_mem {a b x : Nat} (ha : 0 < a) (hab : a < b) (hb : b < 2^64) (h : x ∈ setIds a b) : 2 * x < b := by
  rw [mem_setIds (by omega)] at h
  obtain ⟨j, h⟩ := h
  have h1 := oddHalf_le ha (by omega : a < 2^64)
  have h2 := oddHalf_le (by omega : 0 < b) hb
  have key : ∀ t o, b = (2*o+1) * 2^t → 2 * o < b := by
    intro t o e
    have : 2*o+1 ≤ b := by rw [e]; exact Nat.le_mul_of_pos_right _ (Nat.two_pow_pos t)
    omega
  rcases h with ⟨_, ⟨rfl, h⟩ | ⟨rfl, h⟩⟩ | ⟨h, rfl, _⟩
  · obtain ⟨t, o, e, ho⟩ := oddHalf_spec (by omega : 0 < b) hb
    have := key t o e
    omega
  · omega
  · cases j with
    | zero => simp at h; omega
    | succ j =>
      have : a / 2^(j+1) ≤ a / 2 := by
        rw [← div_succ_pow]; exact Nat.div_le_self _ _
      omega

end Verif.SegLoop
