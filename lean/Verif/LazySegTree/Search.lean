import Verif.LazySegTree.Ops
import Verif.SegTree.Search
/-! `max_right` and `min_left` of the lazy segment tree on a tree without pending operators: they follow those of `SegmentTree`. -/
namespace Verif.LazySegTree
open Verif.SegLoop

variable {M A : Type} [Monoid M]

/-- No operator is pending and the products stored are `g`. -/
def Sim (S : Acts M A) (n : Nat) (vs g : List M) (tree : List (M × A)) : Prop :=
  ∃ F, InvF S n (fun _ => False) tree F vs ∧ (∀ y, Clean S F y) ∧ Rep g (2*n) (fun i => (F i).1)

theorem access_sim {S : Acts M A} (L : Laws S) {n : Nat} {vs g : List M} {tree : List (M × A)} (h : Sim S n vs g tree) {x : Nat} {v : M}
    (hv : g[x]? = some v) : ∃ t', access S n x tree = some (t', v) ∧ t'[x]?.map (·.1) = some v ∧ Sim S n vs g t' := by
  obtain ⟨F, hF, hcl, hg⟩ := h
  have hx : x < 2*n := by
    apply Nat.lt_of_not_le
    intro hc
    rw [List.getElem?_eq_none (by rw [hg.len]; exact hc)] at hv
    exact absurd hv (by simp)
  have hv' : v = (F x).1 := by rw [hg.val x hx] at hv; exact (Option.some.inj hv).symm
  obtain ⟨t', e, h'⟩ := propagate_spec L hF hx
  have hfst : ∀ y, ((if x = 0 then pushed0 S F else pushed S F x) y).1 = (F y).1 := by
    intro y
    by_cases h0 : x = 0
    · rw [if_pos h0]
      by_cases hy : y = 0
      · subst hy; simp [pushed0, L.act_id]
      · exact fst_pushed0 F hy
    · rw [if_neg h0]
      unfold pushed
      by_cases hy : y = x
      · subst hy; rw [if_pos rfl]; exact hcl y _
      · rw [if_neg hy]; split <;> rfl
  refine ⟨t', ?_, ?_, _, h', ?_, hg.congr (fun i _ => (hfst i).symm)⟩
  · unfold access
    rw [e, Option.bind_some, h'.rep.val x hx, Option.map_some, hfst, hv']
  · rw [h'.rep.val x hx, Option.map_some, hfst, hv']
  · by_cases h0 : x = 0
    · rw [if_pos h0]; exact fun y => clean_pushed0 L (hcl y)
    · rw [if_neg h0]; exact clean_pushed_all L hcl

theorem mrPushR_sim {S : Acts M A} (L : Laws S) {n : Nat} {vs g : List M} {tree : List (M × A)} (h : Sim S n vs g tree) {r : Nat}
    {rps : List (Nat × M)} {w : List (Nat × M) × Nat} (e : SegTree.pushR g rps r = some w) :
    ∃ t', mrPushR S n r tree rps = some (t', w.2, w.1) ∧ Sim S n vs g t' := by
  unfold SegTree.pushR at e
  unfold mrPushR
  by_cases h2 : r % 2 = 1
  · rw [if_pos h2] at e ⊢
    obtain ⟨y, hy, e⟩ := Option.bind_eq_some_iff.1 e
    obtain ⟨t', e', _, h'⟩ := access_sim L h hy
    simp only [Option.some.injEq] at e
    subst e
    exact ⟨t', by rw [e']; rfl, h'⟩
  · rw [if_neg h2] at e ⊢
    simp only [Option.some.injEq] at e
    subst e
    exact ⟨tree, rfl, h⟩

theorem mrLoop_sim {S : Acts M A} (L : Laws S) {n : Nat} {vs g : List M} (f : M → Bool) : ∀ (k l r : Nat) (p : M) (rps : List (Nat × M))
    (tree : List (M × A)) (w : Nat × Nat × M × List (Nat × M)), Sim S n vs g tree → SegTree.mrUp g f k l r p rps = some w →
    ∃ t', mrLoop S n f k l r p rps tree = some (t', w) ∧ Sim S n vs g t' := by
  intro k
  induction k with
  | zero => intro l r p rps tree w _ e; simp [SegTree.mrUp] at e
  | succ k ih =>
    intro l r p rps tree w h e
    unfold SegTree.mrUp at e
    unfold mrLoop
    by_cases hlr : l < r
    · rw [if_pos hlr] at e ⊢
      obtain ⟨x, hx, e⟩ := Option.bind_eq_some_iff.1 e
      obtain ⟨t1, e1, _, h1⟩ := access_sim L h hx
      rw [e1, Option.bind_some]
      by_cases hf : f (p * x)
      · rw [if_pos hf] at e
        rw [if_pos hf]
        obtain ⟨q1, hq1, e⟩ := Option.bind_eq_some_iff.1 e
        obtain ⟨q2, hq2, e⟩ := Option.bind_eq_some_iff.1 e
        obtain ⟨t2, e2, h2⟩ := mrPushR_sim L h1 hq2
        rw [e2, Option.bind_some]
        unfold SegTree.takeL at hq1
        by_cases h2' : l % 2 = 1
        · rw [if_pos h2', hx] at hq1
          simp only [Option.bind_some, Option.some.injEq] at hq1
          subst hq1
          rw [if_pos h2']
          exact ih _ _ _ _ _ _ h2 e
        · rw [if_neg h2'] at hq1
          simp only [Option.some.injEq] at hq1
          subst hq1
          rw [if_neg h2']
          exact ih _ _ _ _ _ _ h2 e
      · rw [if_neg hf] at e
        rw [if_neg hf]
        simp only [Option.some.injEq] at e
        subst e
        exact ⟨t1, rfl, h1⟩
    · rw [if_neg hlr] at e ⊢
      simp only [Option.some.injEq] at e
      subst e
      exact ⟨tree, rfl, h⟩

theorem mrStack_sim (f : M → Bool) : ∀ (rps : List (Nat × M)) (l0 : Nat) (p : M), ∀ w, SegTree.mrStack f rps l0 p = w →
    (w.2.2.isEmpty = true → mrStack f p rps = none) ∧ (w.2.2.isEmpty = false → mrStack f p rps = some (w.1, w.2.1)) := by
  intro rps
  induction rps with
  | nil => rintro l0 p w rfl; simp [SegTree.mrStack, mrStack]
  | cons q rest ih =>
    rintro l0 p w rfl
    obtain ⟨r, rp⟩ := q
    unfold SegTree.mrStack mrStack
    by_cases hf : (!f (p * rp)) = true
    · rw [if_pos hf, if_pos hf]; simp
    · rw [if_neg hf, if_neg hf]; exact ih l0 _ _ rfl

theorem mrDesc_sim {S : Acts M A} (L : Laws S) {n : Nat} {vs g : List M} (f : M → Bool) : ∀ (k l : Nat) (p : M)
    (tree : List (M × A)) (q : Nat), Sim S n vs g tree → SegTree.mrDown n g f k l p = some q →
    ∃ t', mrDesc S n f k l p tree = some (t', q - n) ∧ Sim S n vs g t' := by
  intro k
  induction k with
  | zero => intro l p tree q _ e; simp [SegTree.mrDown] at e
  | succ k ih =>
    intro l p tree q h e
    unfold SegTree.mrDown at e
    unfold mrDesc
    by_cases hl : l < n
    · rw [if_pos hl] at e ⊢
      obtain ⟨x, hx, e⟩ := Option.bind_eq_some_iff.1 e
      obtain ⟨t1, e1, _, h1⟩ := access_sim L h hx
      rw [e1, Option.bind_some]
      by_cases hf : f (p * x)
      · rw [if_pos hf] at e; exact absurd e (by simp)
      · rw [if_neg hf] at e
        rw [if_neg hf]
        obtain ⟨y, hy, e⟩ := Option.bind_eq_some_iff.1 e
        obtain ⟨t2, e2, _, h2⟩ := access_sim L h1 hy
        rw [show l * 2 = 2 * l by omega, e2, Option.bind_some]
        by_cases hf2 : f (p * y)
        · rw [if_pos hf2] at e
          rw [if_pos hf2]
          exact ih _ _ _ _ h2 e
        · rw [if_neg hf2] at e
          rw [if_neg hf2]
          exact ih _ _ _ _ h2 e
    · rw [if_neg hl] at e ⊢
      simp only [Option.some.injEq] at e
      subst e
      exact ⟨tree, rfl, h⟩

/-- The stored products form an ordinary segment tree. -/
theorem sim_inv {S : Acts M A} {n : Nat} {vs g : List M} {tree : List (M × A)} (h : Sim S n vs g tree) :
    SegTree.Inv ⟨n, g⟩ vs := by
  obtain ⟨F, hF, hcl, hg⟩ := h
  refine ⟨hF.len.symm, by rw [hF.len]; exact hg.len, ?_, ?_⟩
  · intro i hi
    rw [hF.len] at hi ⊢
    show g[n+i]? = _
    rw [hg.val (n+i) (by omega), hF.val i hi]
    unfold D
    rw [up_clean _ _ (fun m _ => hcl _)]
  · intro i h0 hi
    rw [hF.len] at hi
    refine ⟨_, _, hg.val (2*i) (by omega), hg.val (2*i+1) (by omega), ?_⟩
    rw [hg.val i (by omega)]
    have := hF.pulled i h0 hi (fun h => h)
    unfold Pull V at this
    rw [hcl, hcl] at this
    rw [this]

theorem inv_sim {S : Acts M A} {n : Nat} {vs : List M} {t : Tree M A} (h : Inv S n true t vs) :
    t.size = n ∧ ∃ g, Sim S n vs g t.tree := by
  obtain ⟨F, hF, hcl⟩ := h.inv
  exact ⟨h.sz, (List.range (2*n)).map (fun i => (F i).1), F, hF, hcl rfl, Rep.map_range _ _⟩

theorem sim_lazyProp {S : Acts M A} (L : Laws S) {n : Nat} (hn : 2 * n < 2^64) {vs g : List M} {t : Tree M A} (hsz : t.size = n)
    (h : Sim S n vs g t.tree) {l r : Nat} (hlr : l ≤ r) (hr : r ≤ n) : ∃ t' g', lazyProp S t l r = some t' ∧ Sim S n vs g' t' := by
  obtain ⟨F, hF, hcl, hg⟩ := h
  obtain ⟨t', F', e, h', _, ha⟩ := lazyProp_spec L hn hsz hF hlr hr
  exact ⟨t', _, e, F', h', ha hcl, Rep.map_range _ _⟩

theorem Sim.inv {S : Acts M A} {n : Nat} {vs g : List M} {tree : List (M × A)} (h : Sim S n vs g tree) :
    Inv S n true ⟨n, tree⟩ vs := by
  obtain ⟨F, hF, hcl, _⟩ := h
  exact ⟨rfl, F, hF, fun _ => hcl⟩

theorem maxRight_spec {S : Acts M A} (L : Laws S) {n : Nat} (hn : 2 * n < 2^64) {vs : List M} {t : Tree M A} (h : Inv S n true t vs)
    (f : M → Bool) {b e : Nat} (hbe : b ≤ e) (he : e ≤ n) (hf : f 1 = true) :
    ∃ t' r, maxRight S t b e f = some (t', r) ∧ Inv S n true t' vs ∧ b ≤ r ∧ r ≤ e ∧ f (segProd vs b r) = true ∧
      (r = e ∨ f (segProd vs b (r+1)) = false) := by
  obtain ⟨hsz, g0, hs⟩ := inv_sim h
  obtain ⟨t1, g, e1, h1⟩ := sim_lazyProp L hn hsz hs hbe he
  have hvl := h.len
  obtain ⟨r, er, hr⟩ := SegTree.maxRight_spec (sim_inv h1) f hbe (by rw [hvl]; exact he) hf
  suffices ∃ t', maxRight S t b e f = some (t', r) ∧ Inv S n true t' vs by
    obtain ⟨t', e', h'⟩ := this
    exact ⟨t', r, e', h', hr⟩
  unfold SegTree.maxRight at er
  unfold maxRight
  by_cases hbe' : b = e
  · rw [if_pos hbe'] at er ⊢
    simp only [Option.some.injEq] at er
    subst er
    exact ⟨t, rfl, h⟩
  · rw [if_neg hbe'] at er ⊢
    obtain ⟨w, hw, er⟩ := Option.bind_eq_some_iff.1 er
    obtain ⟨t2, e2, h2⟩ := mrLoop_sim L f _ _ _ _ _ _ _ h1 hw
    rw [e1, hsz, Option.bind_some, e2, Option.bind_some]
    obtain ⟨l, r', p, rps⟩ := w
    simp only at er ⊢
    by_cases hlr : r' ≤ l
    · rw [if_pos hlr] at er ⊢
      have hst := mrStack_sim f rps l p _ rfl
      by_cases hem : (SegTree.mrStack f rps l p).2.2.isEmpty = true
      · rw [if_pos hem] at er
        simp only [Option.some.injEq] at er
        subst er
        rw [hst.1 hem]
        exact ⟨_, rfl, h2.inv⟩
      · rw [if_neg hem] at er
        rw [hst.2 (by simpa using hem)]
        obtain ⟨q, hq, er⟩ := Option.bind_eq_some_iff.1 er
        simp only [Option.some.injEq] at er
        subst er
        obtain ⟨t3, e3, h3⟩ := mrDesc_sim L f _ _ _ _ _ h2 hq
        simp only
        rw [e3]
        exact ⟨_, rfl, h3.inv⟩
    · rw [if_neg hlr] at er ⊢
      obtain ⟨q, hq, er⟩ := Option.bind_eq_some_iff.1 er
      simp only [Option.some.injEq] at er
      subst er
      obtain ⟨t3, e3, h3⟩ := mrDesc_sim L f _ _ _ _ _ h2 hq
      rw [e3]
      exact ⟨_, rfl, h3.inv⟩

/-! ### min_left -/

theorem mlPushL_sim {S : Acts M A} (L : Laws S) {n : Nat} {vs g : List M} {tree : List (M × A)} (h : Sim S n vs g tree) {l : Nat}
    {lps : List (Nat × M)} {w : List (Nat × M) × Nat} (e : SegTree.pushL g lps l = some w) :
    ∃ t', mlPushL S n l tree lps = some (t', w.2, w.1) ∧ Sim S n vs g t' := by
  unfold SegTree.pushL at e
  unfold mlPushL
  by_cases h2 : l % 2 = 1
  · rw [if_pos h2] at e ⊢
    obtain ⟨y, hy, e⟩ := Option.bind_eq_some_iff.1 e
    obtain ⟨t', e', _, h'⟩ := access_sim L h hy
    simp only [Option.some.injEq] at e
    subst e
    exact ⟨t', by rw [e']; rfl, h'⟩
  · rw [if_neg h2] at e ⊢
    simp only [Option.some.injEq] at e
    subst e
    exact ⟨tree, rfl, h⟩

theorem sim_read {S : Acts M A} {n : Nat} {vs g : List M} {tree : List (M × A)} (h : Sim S n vs g tree) {x : Nat} {v : M}
    (hv : g[x]? = some v) : ∃ q : M × A, tree[x]? = some q ∧ q.1 = v := by
  obtain ⟨F, hF, hcl, hg⟩ := h
  have hx : x < 2*n := by
    apply Nat.lt_of_not_le
    intro hc
    rw [List.getElem?_eq_none (by rw [hg.len]; exact hc)] at hv
    exact absurd hv (by simp)
  refine ⟨F x, hF.rep.val x hx, ?_⟩
  rw [hg.val x hx] at hv
  exact Option.some.inj hv

theorem mlLoop_sim {S : Acts M A} (L : Laws S) {n : Nat} {vs g : List M} (f : M → Bool) : ∀ (k l r : Nat) (p : M) (lps : List (Nat × M))
    (tree : List (M × A)) (w : Nat × Nat × M × List (Nat × M)), Sim S n vs g tree → SegTree.mlUp g f k l r p lps = some w →
    ∃ t', mlLoop S n f k l r p lps tree = some (t', w) ∧ Sim S n vs g t' := by
  intro k
  induction k with
  | zero => intro l r p rps tree w _ e; simp [SegTree.mlUp] at e
  | succ k ih =>
    intro l r p lps tree w h e
    unfold SegTree.mlUp at e
    unfold mlLoop
    by_cases hlr : l < r
    · rw [if_pos hlr] at e ⊢
      obtain ⟨x, hx, e⟩ := Option.bind_eq_some_iff.1 e
      obtain ⟨t1, e1, _, h1⟩ := access_sim L h hx
      rw [e1, Option.bind_some]
      by_cases hf : f (x * p)
      · rw [if_pos hf] at e
        rw [if_pos hf]
        obtain ⟨q2, hq2, e⟩ := Option.bind_eq_some_iff.1 e
        obtain ⟨t2, e2, h2⟩ := mlPushL_sim L h1 hq2
        obtain ⟨y, hy, hyx⟩ := sim_read h2 hx
        rw [e2, Option.bind_some, hy, Option.bind_some, hyx]
        exact ih _ _ _ _ _ _ h2 e
      · rw [if_neg hf] at e
        rw [if_neg hf]
        simp only [Option.some.injEq] at e
        subst e
        exact ⟨t1, rfl, h1⟩
    · rw [if_neg hlr] at e ⊢
      simp only [Option.some.injEq] at e
      subst e
      exact ⟨tree, rfl, h⟩

theorem mlStack_sim (f : M → Bool) : ∀ (rps : List (Nat × M)) (l0 : Nat) (p : M), ∀ w, SegTree.mlStack f rps l0 p = w →
    (w.2.2.isEmpty = true → mlStack f p rps = none) ∧ (w.2.2.isEmpty = false → mlStack f p rps = some (w.1, w.2.1)) := by
  intro rps
  induction rps with
  | nil => rintro l0 p w rfl; simp [SegTree.mlStack, mlStack]
  | cons q rest ih =>
    rintro l0 p w rfl
    obtain ⟨r, rp⟩ := q
    unfold SegTree.mlStack mlStack
    by_cases hf : (!f (rp * p)) = true
    · rw [if_pos hf, if_pos hf]; simp
    · rw [if_neg hf, if_neg hf]; exact ih l0 _ _ rfl

theorem mlDesc_sim {S : Acts M A} (L : Laws S) {n : Nat} {vs g : List M} (f : M → Bool) : ∀ (k l : Nat) (p : M)
    (tree : List (M × A)) (q : Nat), Sim S n vs g tree → SegTree.mlDown n g f k l p = some q →
    ∃ t', mlDesc S n f k l p tree = some (t', q - n) ∧ Sim S n vs g t' := by
  intro k
  induction k with
  | zero => intro l p tree q _ e; simp [SegTree.mlDown] at e
  | succ k ih =>
    intro l p tree q h e
    unfold SegTree.mlDown at e
    unfold mlDesc
    by_cases hl : l ≤ n
    · rw [if_pos hl] at e ⊢
      obtain ⟨x, hx, e⟩ := Option.bind_eq_some_iff.1 e
      obtain ⟨t1, e1, _, h1⟩ := access_sim L h hx
      rw [e1, Option.bind_some]
      by_cases hf : f (x * p)
      · rw [if_pos hf] at e; exact absurd e (by simp)
      · rw [if_neg hf] at e
        rw [if_neg hf]
        obtain ⟨y, hy, e⟩ := Option.bind_eq_some_iff.1 e
        obtain ⟨t2, e2, _, h2⟩ := access_sim L h1 hy
        rw [show l * 2 = 2 * l by omega, e2, Option.bind_some]
        by_cases hf2 : f (y * p)
        · rw [if_pos hf2] at e
          rw [if_pos hf2]
          exact ih _ _ _ _ h2 e
        · rw [if_neg hf2] at e
          rw [if_neg hf2]
          exact ih _ _ _ _ h2 e
    · rw [if_neg hl] at e ⊢
      simp only [Option.some.injEq] at e
      subst e
      exact ⟨tree, rfl, h⟩

theorem minLeft_spec {S : Acts M A} (L : Laws S) {n : Nat} (hn : 2 * n < 2^64) {vs : List M} {t : Tree M A} (h : Inv S n true t vs)
    (f : M → Bool) {b e : Nat} (hbe : b ≤ e) (he : e ≤ n) (hf : f 1 = true) :
    ∃ t' l, minLeft S t b e f = some (t', l) ∧ Inv S n true t' vs ∧ b ≤ l ∧ l ≤ e ∧ f (segProd vs l e) = true ∧
      (l = b ∨ f (segProd vs (l-1) e) = false) := by
  obtain ⟨hsz, g0, hs⟩ := inv_sim h
  obtain ⟨t1, g, e1, h1⟩ := sim_lazyProp L hn hsz hs hbe he
  have hvl := h.len
  obtain ⟨r, er, hr⟩ := SegTree.minLeft_spec (sim_inv h1) f hbe (by rw [hvl]; exact he) hf
  suffices ∃ t', minLeft S t b e f = some (t', r) ∧ Inv S n true t' vs by
    obtain ⟨t', e', h'⟩ := this
    exact ⟨t', r, e', h', hr⟩
  unfold SegTree.minLeft at er
  unfold minLeft
  by_cases hbe' : e = b
  · rw [if_pos hbe'] at er ⊢
    simp only [Option.some.injEq] at er
    subst er
    exact ⟨t, rfl, h⟩
  · rw [if_neg hbe'] at er ⊢
    obtain ⟨w, hw, er⟩ := Option.bind_eq_some_iff.1 er
    obtain ⟨t2, e2, h2⟩ := mlLoop_sim L f _ _ _ _ _ _ _ h1 hw
    rw [e1, hsz, Option.bind_some, e2, Option.bind_some]
    obtain ⟨l, r', p, rps⟩ := w
    simp only at er ⊢
    by_cases hlr : r' ≤ l
    · rw [if_pos hlr] at er ⊢
      have hst := mlStack_sim f rps r' p _ rfl
      by_cases hem : (SegTree.mlStack f rps r' p).2.2.isEmpty = true
      · rw [if_pos hem] at er
        simp only [Option.some.injEq] at er
        subst er
        rw [hst.1 hem]
        exact ⟨_, rfl, h2.inv⟩
      · rw [if_neg hem] at er
        rw [hst.2 (by simpa using hem)]
        obtain ⟨q, hq, er⟩ := Option.bind_eq_some_iff.1 er
        simp only [Option.some.injEq] at er
        subst er
        obtain ⟨t3, e3, h3⟩ := mlDesc_sim L f _ _ _ _ _ h2 hq
        simp only
        rw [e3]
        exact ⟨_, rfl, h3.inv⟩
    · rw [if_neg hlr] at er ⊢
      obtain ⟨q, hq, er⟩ := Option.bind_eq_some_iff.1 er
      simp only [Option.some.injEq] at er
      subst er
      obtain ⟨t3, e3, h3⟩ := mlDesc_sim L f _ _ _ _ _ h2 hq
      rw [e3]
      exact ⟨_, rfl, h3.inv⟩

end Verif.LazySegTree
