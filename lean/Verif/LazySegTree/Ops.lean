import Verif.LazySegTree.Proofs
/-! What each call of the lazy segment tree does to the client's view. -/
namespace Verif.LazySegTree
open Verif.SegLoop
open Verif.DualSegTree (div_eq_iff_range anc_iff canon_leaf)

variable {M A : Type} [Monoid M]

/-- The client's view `vs` of a tree; `cl` says that no operator is pending anywhere. -/
structure Inv (S : Acts M A) (n : Nat) (cl : Bool) (t : Tree M A) (vs : List M) : Prop where
  sz : t.size = n
  inv : ∃ F, InvF S n (fun _ => False) t.tree F vs ∧ (cl = true → ∀ y, Clean S F y)

theorem Inv.len {S : Acts M A} {n : Nat} {cl : Bool} {t : Tree M A} {vs : List M} (h : Inv S n cl t vs) : vs.length = n := by
  obtain ⟨F, hF, _⟩ := h.inv; exact hF.len

/-! ### range_update -/

/-- One step of the update loop. -/
theorem compAt_canon {S : Acts M A} (L : Laws S) {n a b k c : Nat} (hn : 2 * n < 2^64) (hna : n ≤ a) (ha0 : 0 < a) (hb : b ≤ 2*n)
    (hc : Canon a b k c) {e : A} {tree : List (M × A)} {F : Nat → M × A} {vs : List M}
    (h : InvF S n (· ∈ setIds a b) tree F vs) (hclean : ∀ m, 0 < c / 2^(m+1) → Clean S F (c / 2^(m+1))) :
    ∃ t', compAt S tree c e = some t' ∧ InvF S n (· ∈ setIds a b) t' (upd F c ((F c).1, S.comp e (F c).2))
      (vs.mapIdx (fun i v => if c * 2^k ≤ n + i ∧ n + i < (c+1) * 2^k then S.act e v else v)) := by
  have hp := Nat.two_pow_pos k
  have hcl : c * 2^k + 2^k ≤ b := by have := hc.2.1; rw [Nat.add_mul] at this; omega
  have hc2 : c < 2*n := by
    have : c ≤ c * 2^k := Nat.le_mul_of_pos_right _ hp
    omega
  have hc0 : c ≠ 0 := by
    rintro rfl
    have := hc.1
    omega
  obtain ⟨t', e1, h1⟩ := compAt_rep (S := S) h.rep hc2 e
  refine ⟨t', e1, h1, ?_, ?_, by simp [h.len], ?_⟩
  · rw [upd_ne _ _ (Ne.symm hc0)]; exact h.zero
  · intro x hx hxn hB
    have hxc : x ≠ c / 2 := by
      rintro rfl
      exact hB (by simpa using anc_mem ha0 (by omega) hc (m := 0) (by simpa using hx))
    have hp := h.pulled x hx hxn hB
    unfold Pull V at *
    rw [upd_ne _ _ (by omega : 2*x ≠ c), upd_ne _ _ (by omega : 2*x+1 ≠ c), ← hp]
    by_cases hxc : x = c
    · subst hxc; rw [upd_same]
    · rw [upd_ne _ _ hxc]
  · intro i hi
    rw [List.getElem?_mapIdx, h.val i hi]
    simp only [Option.map_some]
    congr 1
    have hfst : (upd F c ((F c).1, S.comp e (F c).2) (n+i)).1 = (F (n+i)).1 := by
      by_cases hic : n + i = c
      · rw [hic, upd_same]
      · rw [upd_ne _ _ hic]
    unfold D
    rw [hfst]
    have hiff := anc_iff (j := n+i) hna hb hc (by omega) (by omega)
    by_cases hm : c * 2^k ≤ n + i ∧ n + i < (c+1) * 2^k
    · rw [if_pos hm]
      obtain ⟨m, hm'⟩ := hiff.2 hm
      refine (up_upd_anc L hc0 (fun v => up_clean _ v ?_) e _ m _ _ hm').symm
      intro m hm
      rw [div_succ_pow] at hm ⊢
      exact hclean m hm
    · rw [if_neg hm]
      refine (up_upd_other _ _ _ ?_).symm
      intro m hm'
      exact hm (hiff.1 ⟨m, hm'⟩)

/-- The client's view while the loop has dealt with `[a, x)` and `[y, b)`. -/
def mid (S : Acts M A) (n a b : Nat) (e : A) (vs : List M) (x y : Nat) : List M :=
  vs.mapIdx (fun i v => if (a ≤ n + i ∧ n + i < x) ∨ (y ≤ n + i ∧ n + i < b) then S.act e v else v)

theorem mid_step (S : Acts M A) {n a b : Nat} (e : A) (vs : List M) {x y x' y' u v : Nat}
    (hdisj : ∀ j, u ≤ j ∧ j < v → ¬ ((a ≤ j ∧ j < x) ∨ (y ≤ j ∧ j < b)))
    (hiff : ∀ j, ((a ≤ j ∧ j < x') ∨ (y' ≤ j ∧ j < b)) ↔ ((a ≤ j ∧ j < x) ∨ (y ≤ j ∧ j < b)) ∨ (u ≤ j ∧ j < v)) :
    (mid S n a b e vs x y).mapIdx (fun i w => if u ≤ n + i ∧ n + i < v then S.act e w else w) = mid S n a b e vs x' y' := by
  apply List.ext_getElem?
  intro i
  unfold mid
  simp only [List.getElem?_mapIdx, Option.map_map]
  congr 1
  funext w
  simp only [Function.comp]
  have h1 := hdisj (n+i)
  have h2 := hiff (n+i)
  by_cases hu : u ≤ n + i ∧ n + i < v
  · rw [if_pos hu, if_neg (h1 hu), if_pos (h2.2 (Or.inr hu))]
  · rw [if_neg hu]
    by_cases hq : (a ≤ n + i ∧ n + i < x) ∨ (y ≤ n + i ∧ n + i < b)
    · rw [if_pos hq, if_pos (h2.2 (Or.inl hq))]
    · rw [if_neg hq, if_neg]
      intro h
      rcases h2.1 h with h | h
      · exact hq h
      · exact hu h

/-- State of the update loop. -/
def Mid (S : Acts M A) (n a b : Nat) (e : A) (vs : List M) (x y : Nat) (tree : List (M × A)) : Prop :=
  ∃ F, InvF S n (· ∈ setIds a b) tree F (mid S n a b e vs x y) ∧
    ∀ w, w ∈ setIds a b → (∃ j m, x ≤ j ∧ j < y ∧ j / 2^m = w) → Clean S F w

theorem canon_step {S : Acts M A} (L : Laws S) {n a b k c : Nat} (hn : 2 * n < 2^64) (hna : n ≤ a) (ha0 : 0 < a) (hb : b ≤ 2*n)
    (hc : Canon a b k c) {e : A} {tree : List (M × A)} {vs : List M} {x y x' y' : Nat} (h : Mid S n a b e vs x y tree)
    (hcx : x ≤ c * 2^k) (hcy : (c+1) * 2^k ≤ y) (hax : a ≤ x) (hyb : y ≤ b)
    (hnew : (x = c * 2^k ∧ x' = (c+1) * 2^k ∧ y' = y) ∨ (x' = x ∧ y' = c * 2^k ∧ y = (c+1) * 2^k)) :
    ∃ t', compAt S tree c e = some t' ∧ Mid S n a b e vs x' y' t' := by
  obtain ⟨F, hF, hclean⟩ := h
  have hp := Nat.two_pow_pos k
  have hmul : (c+1) * 2^k = c * 2^k + 2^k := by ring
  obtain ⟨t', e1, h1⟩ := compAt_canon L hn hna ha0 hb hc (e := e) hF (by
    intro m hm
    refine hclean _ (anc_mem ha0 (by omega) hc hm) ⟨c * 2^k, k + (m+1), hcx, by omega, ?_⟩
    rw [Nat.pow_add, ← Nat.div_div_eq_div_mul, Nat.mul_div_cancel _ hp])
  refine ⟨t', e1, upd F c ((F c).1, S.comp e (F c).2), ?_, ?_⟩
  · rw [mid_step S (x' := x') (y' := y') e vs (by omega) (by intro j; omega)] at h1
    exact h1
  · intro w hw ⟨j, m, hj1, hj2, hjm⟩
    have hwc : w ≠ c := by
      rintro rfl
      have := (anc_iff hna hb hc (j := j) (by omega) (by omega)).1 ⟨m, hjm⟩
      omega
    intro v
    rw [upd_ne _ _ hwc]
    exact hclean w hw ⟨j, m, by omega, by omega, hjm⟩ v

/-- Every parent in the list comes after its child. -/
def Closed : List Nat → Prop
  | [] => True
  | x :: rest => (0 < x / 2 → x / 2 ∈ rest) ∧ Closed rest

theorem closed_of_sorted : ∀ ids : List Nat, ids.Pairwise (· ≥ ·) → (∀ x ∈ ids, 0 < x / 2 → x / 2 ∈ ids) → Closed ids := by
  intro ids
  induction ids with
  | nil => intros; trivial
  | cons x rest ih =>
    intro hs hp
    rw [List.pairwise_cons] at hs
    refine ⟨?_, ih hs.2 ?_⟩
    · intro h
      have := hp x (by simp) h
      rw [List.mem_cons] at this
      rcases this with h' | h'
      · omega
      · exact h'
    · intro y hy h
      have h1 := hs.1 y hy
      have := hp y (by simp [hy]) h
      rw [List.mem_cons] at this
      rcases this with h' | h'
      · have : y ≤ x := h1
        omega
      · exact h'

theorem pull_rep {tree : List (M × A)} {n : Nat} {F : Nat → M × A} (h : Rep tree (2*n) F) {i : Nat} (hi : i < n) :
    ∃ t', pull tree i = some t' ∧ Rep t' (2*n) (upd F i ((F (2*i)).1 * (F (2*i+1)).1, (F i).2)) := by
  obtain ⟨t', e1, h1⟩ := h.wr (i := i) (by omega) ((F (2*i)).1 * (F (2*i+1)).1, (F i).2)
  refine ⟨t', ?_, h1⟩
  unfold pull
  rw [show i * 2 = 2 * i by omega, h.val (2*i) (by omega), h.val (2*i+1) (by omega), h.val i (by omega)]
  exact e1

/-- Recomputing one node from clean children. -/
theorem pull_spec {S : Acts M A} {n : Nat} {B B' : Nat → Prop} {tree : List (M × A)} {F : Nat → M × A} {vs : List M}
    (h : InvF S n B tree F vs) {i : Nat} (hi : i < n) (hl : Clean S F (2*i)) (hr : Clean S F (2*i+1))
    (hB : ∀ x, 0 < x → ¬ B' x → x = i ∨ (¬ B x ∧ x ≠ i / 2)) :
    ∃ t', pull tree i = some t' ∧ InvF S n B' t' (upd F i ((F (2*i)).1 * (F (2*i+1)).1, (F i).2)) vs := by
  obtain ⟨t', e1, h1⟩ := pull_rep h.rep hi
  refine ⟨t', e1, h1, ?_, ?_, h.len, ?_⟩
  · by_cases h0 : 0 = i
    · rw [← h0, upd_same]; exact h.zero
    · rw [upd_ne _ _ h0]; exact h.zero
  · intro x hx hxn hx'
    unfold Pull V
    by_cases hxi : x = i
    · subst hxi
      rw [upd_same, upd_ne _ _ (by omega : 2*x ≠ x), upd_ne _ _ (by omega : 2*x+1 ≠ x), hl, hr]
    · obtain h2 | ⟨h2, h3⟩ := hB x hx hx'
      · exact absurd h2 hxi
      · have := h.pulled x hx hxn h2
        unfold Pull V at this
        rw [upd_ne _ _ hxi, upd_ne _ _ (by omega : 2*x ≠ i), upd_ne _ _ (by omega : 2*x+1 ≠ i), this]
  · intro j hj
    rw [h.val j hj]
    congr 1
    unfold D
    rw [up_upd_fst, upd_ne _ _ (by omega : n + j ≠ i)]

theorem fixNode_spec {S : Acts M A} (L : Laws S) {n : Nat} {id : Nat} {rest : List Nat} {tree : List (M × A)} {F : Nat → M × A}
    {vs : List M} (h : InvF S n (· ∈ id :: rest) tree F vs) (hi : id < n) (hcl : 0 < id / 2 → id / 2 ∈ rest) :
    ∃ t' F', fixNode S n id tree = some t' ∧ InvF S n (· ∈ rest) t' F' vs := by
  unfold fixNode
  obtain ⟨t1, e1, h1⟩ := propagate_spec L h (x := id*2) (by omega)
  rw [e1, Option.bind_some]
  obtain ⟨t2, e2, h2⟩ := propagate_spec L h1 (x := id*2+1) (by omega)
  rw [e2, Option.bind_some]
  rw [if_neg (by omega : id*2+1 ≠ 0)] at h2
  have hB : ∀ x, 0 < x → ¬ x ∈ rest → x = id ∨ (¬ x ∈ id :: rest ∧ x ≠ id / 2) := by
    intro x hx hr
    by_cases hxi : x = id
    · exact Or.inl hxi
    · refine Or.inr ⟨by simp [hxi, hr], ?_⟩
      rintro rfl
      exact hr (hcl hx)
  have hc2 : Clean S (pushed S (if id * 2 = 0 then pushed0 S F else pushed S F (id * 2)) (id*2+1)) (2*id+1) := by
    rw [show 2*id+1 = id*2+1 by omega]; exact clean_pushed_self L _
  have hc1 : Clean S (pushed S (if id * 2 = 0 then pushed0 S F else pushed S F (id * 2)) (id*2+1)) (2*id) := by
    apply clean_pushed L _ (by omega)
    by_cases h0 : id * 2 = 0
    · rw [if_pos h0]
      apply clean_pushed0 L
      intro m
      rw [show 2 * id = 0 by omega, h.zero, L.act_id]
    · rw [if_neg h0, show 2 * id = id * 2 by omega]
      exact clean_pushed_self L _
  obtain ⟨t3, e3, h3⟩ := pull_spec (B' := (· ∈ rest)) h2 hi hc1 hc2 hB
  exact ⟨t3, _, e3, h3⟩

theorem fix_spec {S : Acts M A} (L : Laws S) {n : Nat} {vs : List M} : ∀ (ids : List Nat) (tree : List (M × A)) (F : Nat → M × A),
    InvF S n (· ∈ ids) tree F vs → (∀ x ∈ ids, x < n) → Closed ids →
    ∃ t' F', each (fixNode S n) ids tree = some t' ∧ InvF S n (fun _ => False) t' F' vs := by
  intro ids
  induction ids with
  | nil =>
    intro tree F h _ _
    exact ⟨tree, F, rfl, h.rep, h.zero, fun x hx hxn _ => h.pulled x hx hxn (by simp), h.len, h.val⟩
  | cons x ids ih =>
    intro tree F h hlt hcl
    obtain ⟨t1, F1, e1, h1⟩ := fixNode_spec L h (hlt x (by simp)) hcl.1
    obtain ⟨t2, F2, e2, h2⟩ := ih t1 F1 h1 (fun y hy => hlt y (by simp [hy])) hcl.2
    exact ⟨t2, F2, by simp [each, e1, e2], h2⟩

theorem InvF.weaken {S : Acts M A} {n : Nat} {B B' : Nat → Prop} {tree : List (M × A)} {F : Nat → M × A} {vs : List M}
    (h : InvF S n B tree F vs) (hB : ∀ x, B x → B' x) : InvF S n B' tree F vs :=
  ⟨h.rep, h.zero, fun x hx hxn hb => h.pulled x hx hxn (fun hc => hb (hB x hc)), h.len, h.val⟩

theorem update_spec {S : Acts M A} (L : Laws S) {n : Nat} (hn : 2 * n < 2^64) {cl : Bool} {t : Tree M A} {vs : List M}
    (h : Inv S n cl t vs) {l r : Nat} (hlr : l ≤ r) (hr : r ≤ n) (e : A) :
    ∃ t', rangeUpdate S t l r e = some t' ∧ Inv S n false t' (vs.mapIdx (fun i v => if l ≤ i ∧ i < r then S.act e v else v)) := by
  unfold rangeUpdate
  rw [if_pos ⟨hlr, by rw [h.sz]; exact hr⟩]
  obtain ⟨F, hF, _⟩ := h.inv
  by_cases heq : l = r
  · subst heq
    rw [if_pos rfl]
    refine ⟨t, rfl, h.sz, F, ?_, by simp⟩
    have : (vs.mapIdx (fun i v => if l ≤ i ∧ i < l then S.act e v else v)) = vs := by
      apply List.ext_getElem?
      intro i
      rw [List.getElem?_mapIdx]
      cases vs[i]? with
      | none => rfl
      | some v => simp only [Option.map_some]; rw [if_neg (by omega)]
    rw [this]; exact hF
  · rw [if_neg heq]
    obtain ⟨t1, F1, e1, h1, hc1, _⟩ := lazyProp_spec L hn h.sz hF hlr hr
    rw [e1, h.sz, Option.bind_some]
    obtain ⟨t2, x, e2, h2⟩ := canonLoop_run (a := l+n) (b := r+n) (by omega) (s := t1)
      (fl := fun i tr => compAt S tr i e) (fr := fun i tr => compAt S tr i e)
      (fun x y tree => l+n ≤ x ∧ y ≤ r+n ∧ Mid S n (l+n) (r+n) e vs x y tree)
      (by
        intro k c y s hc hy hyb ⟨hx, hy', hM⟩
        have hp := Nat.two_pow_pos k
        have hmul : (c+1) * 2^k = c * 2^k + 2^k := by ring
        obtain ⟨t', e', h'⟩ := canon_step L hn (by omega) (by omega) (by omega) hc hM (Nat.le_refl _) hy hx hyb
          (Or.inl ⟨rfl, rfl, rfl⟩)
        exact ⟨t', e', by omega, hyb, h'⟩)
      (by
        intro k c x s hc hx hxa ⟨hx', hy', hM⟩
        have hp := Nat.two_pow_pos k
        have hmul : (c+1) * 2^k = c * 2^k + 2^k := by ring
        obtain ⟨t', e', h'⟩ := canon_step L hn (by omega) (by omega) (by omega) hc hM hx (Nat.le_refl _) hxa hy'
          (Or.inr ⟨rfl, rfl, rfl⟩)
        exact ⟨t', e', hxa, by omega, h'⟩)
      (by
        refine ⟨Nat.le_refl _, Nat.le_refl _, F1, ?_, fun w hw _ => hc1 (by omega) w hw⟩
        have : mid S n (l+n) (r+n) e vs (l+n) (r+n) = vs := by
          apply List.ext_getElem?
          intro i
          unfold mid
          rw [List.getElem?_mapIdx]
          cases vs[i]? with
          | none => rfl
          | some v => simp only [Option.map_some]; rw [if_neg (by omega)]
        rw [this]; exact h1.weaken (by simp))
    rw [e2, Option.bind_some]
    obtain ⟨hx1, hx2, F2, hM, -⟩ := h2
    obtain ⟨t3, F3, e3, h3⟩ := fix_spec L _ _ _ hM
      (by
        intro x hx
        have := lt_of_mem (by omega) (by omega) (by omega) hx
        omega)
      (closed_of_sorted _ (setIds_sorted (by omega) (by omega)) (fun x hx => parent_mem (by omega) hx))
    rw [e3]
    refine ⟨⟨n, t3⟩, rfl, rfl, F3, ?_, by simp⟩
    have : mid S n (l+n) (r+n) e vs x x = vs.mapIdx (fun i v => if l ≤ i ∧ i < r then S.act e v else v) := by
      apply List.ext_getElem?
      intro i
      unfold mid
      rw [List.getElem?_mapIdx, List.getElem?_mapIdx]
      cases vs[i]? with
      | none => rfl
      | some v =>
        simp only [Option.map_some]
        by_cases hi : l ≤ i ∧ i < r
        · rw [if_pos hi, if_pos (by omega)]
        · rw [if_neg hi, if_neg (by omega)]
    rw [← this]; exact h3

/-! ### query and get -/

/-- State of the query loop. -/
def QMid (S : Acts M A) (n a b : Nat) (cl : Bool) (vs : List M) (x y : Nat) (tree : List (M × A)) : Prop :=
  ∃ F, InvF S n (fun _ => False) tree F vs ∧ (cl = true → ∀ y, Clean S F y) ∧
    ∀ w, w ∈ setIds a b → (∃ j m, x ≤ j ∧ j < y ∧ j / 2^m = w) → Clean S F w

theorem take_step {S : Acts M A} (L : Laws S) {n a b k c : Nat} (hn : 2 * n < 2^64) (hna : n ≤ a) (ha0 : 0 < a) (hb : b ≤ 2*n)
    (hc : Canon a b k c) {cl : Bool} {tree : List (M × A)} {vs : List M} {x y x' y' : Nat} (h : QMid S n a b cl vs x y tree)
    (hcx : x ≤ c * 2^k) (hcy : (c+1) * 2^k ≤ y) (hax : a ≤ x) (hyb : y ≤ b)
    (hnew : (x = c * 2^k ∧ x' = (c+1) * 2^k ∧ y' = y) ∨ (x' = x ∧ y' = c * 2^k ∧ y = (c+1) * 2^k)) :
    ∃ t' p, propagate S n c tree = some t' ∧ t'[c]? = some p ∧ p.1 = segProd vs (c * 2^k - n) ((c+1) * 2^k - n) ∧
      QMid S n a b cl vs x' y' t' := by
  obtain ⟨F, hF, hall, hclean⟩ := h
  have hp := Nat.two_pow_pos k
  have hmul : (c+1) * 2^k = c * 2^k + 2^k := by ring
  have hcle : c ≤ c * 2^k := Nat.le_mul_of_pos_right _ hp
  have hc1 := hc.1
  have hc2 := hc.2.1
  have hc0 : c ≠ 0 := by
    rintro rfl
    omega
  obtain ⟨t', e1, h1⟩ := propagate_spec L hF (x := c) (by omega)
  rw [if_neg hc0] at h1
  refine ⟨t', _, e1, h1.rep.val c (by omega), ?_, _, h1, ?_, ?_⟩
  · rw [node_prod L hF k c (by omega) (by omega) (by omega), up_clean]
    · simp [pushed, V]
    · intro m hm
      rw [div_succ_pow] at hm ⊢
      refine hclean _ (anc_mem ha0 (by omega) hc hm) ⟨c * 2^k, k + (m+1), hcx, by omega, ?_⟩
      rw [Nat.pow_add, ← Nat.div_div_eq_div_mul, Nat.mul_div_cancel _ hp]
  · intro hcl
    exact clean_pushed_all L (hall hcl)
  · intro w hw ⟨j, m, hj1, hj2, hjm⟩
    apply clean_pushed L (hclean w hw ⟨j, m, by omega, by omega, hjm⟩)
    right
    intro hwc
    have := (anc_iff hna hb hc (j := j) (by omega) (by omega)).1
      ⟨m+1, by rw [Nat.pow_succ, ← Nat.div_div_eq_div_mul, hjm, hwc]⟩
    omega

theorem query_spec {S : Acts M A} (L : Laws S) {n : Nat} (hn : 2 * n < 2^64) (hn0 : 0 < n) {cl : Bool} {t : Tree M A} {vs : List M}
    (h : Inv S n cl t vs) {l r : Nat} (hlr : l ≤ r) (hr : r ≤ n) :
    ∃ t', query S t l r = some (t', segProd vs l r) ∧ Inv S n cl t' vs := by
  unfold query
  obtain ⟨F, hF, hall⟩ := h.inv
  obtain ⟨t1, F1, e1, h1, hc1, ha1⟩ := lazyProp_spec L hn h.sz hF hlr hr
  rw [e1, h.sz, Option.bind_some]
  obtain ⟨s, x, e2, h2⟩ := canonLoop_run (a := l+n) (b := r+n) (by omega) (s := (t1, (1 : M), (1 : M)))
    (fl := takeL S n) (fr := takeR S n)
    (fun x y s => l+n ≤ x ∧ y ≤ r+n ∧ x ≤ r + n ∧ l + n ≤ y ∧ QMid S n (l+n) (r+n) cl vs x y s.1 ∧ s.2.1 = segProd vs l (x-n) ∧
      s.2.2 = segProd vs (y-n) r)
    (by
      intro k c y s hc hy hyb ⟨hx, hy', _, hy2, hM, hl, hrr⟩
      have hp := Nat.two_pow_pos k
      have hmul : (c+1) * 2^k = c * 2^k + 2^k := by ring
      obtain ⟨t', p, e', ep, hv, h'⟩ := take_step L hn (by omega) (by omega) (by omega) hc hM (Nat.le_refl _) hy hx hyb
        (Or.inl ⟨rfl, rfl, rfl⟩)
      refine ⟨(t', s.2.1 * p.1, s.2.2), by simp [takeL, e', ep], by omega, hyb, by omega, hy2, h', ?_, hrr⟩
      show s.2.1 * p.1 = _
      rw [hl, hv, segProd_append vs (by omega) (by omega)])
    (by
      intro k c x s hc hx hxa ⟨hx', hy', hx2, _, hM, hl, hrr⟩
      have hp := Nat.two_pow_pos k
      have hmul : (c+1) * 2^k = c * 2^k + 2^k := by ring
      obtain ⟨t', p, e', ep, hv, h'⟩ := take_step L hn (by omega) (by omega) (by omega) hc hM hx (Nat.le_refl _) hxa hy'
        (Or.inr ⟨rfl, rfl, rfl⟩)
      refine ⟨(t', s.2.1, p.1 * s.2.2), by simp [takeR, e', ep], hxa, by omega, hx2, by omega, h', hl, ?_⟩
      show p.1 * s.2.2 = _
      rw [hrr, hv, segProd_append vs (by omega) (by omega)])
    (by
      refine ⟨Nat.le_refl _, Nat.le_refl _, by omega, by omega, ⟨F1, h1, fun hcl => ha1 (hall hcl), ?_⟩, ?_, ?_⟩
      · intro w hw ⟨j, _, hj1, hj2, _⟩
        exact hc1 (by omega) w hw
      · show (1 : M) = _
        rw [show l + n - n = l by omega, segProd_self]
      · show (1 : M) = _
        rw [show r + n - n = r by omega, segProd_self])
  obtain ⟨hx1, hx2, _, _, ⟨F2, hF2, ha2, -⟩, hl, hrr⟩ := h2
  rw [e2]
  refine ⟨⟨n, s.1⟩, ?_, rfl, F2, hF2, ha2⟩
  rw [Option.map_some, hl, hrr, segProd_append vs (by omega) (by omega)]

theorem leaf_prep {S : Acts M A} (L : Laws S) {n : Nat} (hn : 2 * n < 2^64) {cl : Bool} {t : Tree M A} {vs : List M}
    (h : Inv S n cl t vs) {i : Nat} (hi : i < n) :
    ∃ t1 F1, lazyProp S t i (i+1) = some t1 ∧ InvF S n (fun _ => False) t1 F1 vs ∧ (∀ v, up S F1 ((n+i)/2) v = v) ∧
      (cl = true → ∀ y, Clean S F1 y) := by
  obtain ⟨F, hF, hall⟩ := h.inv
  obtain ⟨t1, F1, e1, h1, hc1, ha1⟩ := lazyProp_spec L hn h.sz hF (l := i) (r := i+1) (by omega) (by omega)
  refine ⟨t1, F1, e1, h1, fun v => up_clean _ v ?_, fun hcl => ha1 (hall hcl)⟩
  intro m hm
  rw [div_succ_pow] at hm ⊢
  have := anc_mem (a := n+i) (b := n+i+1) (by omega) (by omega) (canon_leaf (n+i)) hm
  rw [show n + i = i + n by omega, show i + n + 1 = i + 1 + n by omega] at this
  rw [show n + i = i + n by omega]
  exact hc1 (by omega) _ this

theorem get_spec {S : Acts M A} (L : Laws S) {n : Nat} (hn : 2 * n < 2^64) {cl : Bool} {t : Tree M A} {vs : List M}
    (h : Inv S n cl t vs) {i : Nat} (hi : i < n) :
    ∃ t' v, get S t i = some (t', v) ∧ vs[i]? = some v ∧ Inv S n cl t' vs := by
  obtain ⟨t1, F1, e1, h1, hu, ha⟩ := leaf_prep L hn h hi
  unfold get
  rw [e1, Option.bind_some, h.sz]
  obtain ⟨t2, e2, h2⟩ := propagate_spec L h1 (x := i+n) (by omega)
  rw [if_neg (by omega)] at h2
  rw [e2, Option.bind_some, h2.rep.val (i+n) (by omega)]
  refine ⟨⟨n, t2⟩, _, rfl, ?_, rfl, _, h2, fun hcl => clean_pushed_all L (ha hcl)⟩
  rw [h1.val i hi, D_eq S F1 (by omega), hu]
  simp only [pushed, if_true, V]
  rw [show n + i = i + n by omega]

/-! ### set, when nothing is pending -/

theorem setLoop_spec {S : Acts M A} {n : Nat} {vs : List M} : ∀ k u (tree : List (M × A)) (F : Nat → M × A), u < k → u < n →
    InvF S n (fun x => ∃ m, x = u / 2^m) tree F vs → (∀ y, Clean S F y) →
    ∃ t' F', setLoop k u tree = some t' ∧ InvF S n (fun _ => False) t' F' vs ∧ (∀ y, Clean S F' y) := by
  intro k
  induction k with
  | zero => intro u tree F h; omega
  | succ k ih =>
    intro u tree F hk hun h hcl
    unfold setLoop
    by_cases h0 : u > 0
    · rw [if_pos h0]
      obtain ⟨t1, e1, h1⟩ := pull_spec (B' := fun x => ∃ m, x = u / 2 / 2^m) h hun (hcl _) (hcl _) (by
        intro x hx hB
        by_cases hxu : x = u
        · exact Or.inl hxu
        · refine Or.inr ⟨?_, ?_⟩
          · rintro ⟨m, hm⟩
            cases m with
            | zero => simp at hm; exact hxu hm
            | succ m => exact hB ⟨m, by rw [div_succ_pow]; exact hm⟩
          · rintro rfl
            exact hB ⟨0, by simp⟩)
      rw [e1, Option.bind_some]
      refine ih (u/2) t1 _ (by omega) (by omega) h1 ?_
      intro y m
      by_cases hy : y = u
      · subst hy; rw [upd_same]; exact hcl y m
      · rw [upd_ne _ _ hy]; exact hcl y m
    · rw [if_neg h0]
      refine ⟨tree, F, rfl, ?_, hcl⟩
      have : u = 0 := by omega
      subst this
      exact ⟨h.rep, h.zero, fun x hx hxn _ => h.pulled x hx hxn (by rintro ⟨m, hm⟩; simp at hm; omega), h.len, h.val⟩

theorem set_spec {S : Acts M A} (L : Laws S) {n : Nat} (hn : 2 * n < 2^64) {t : Tree M A} {vs : List M}
    (h : Inv S n true t vs) {i : Nat} (hi : i < n) (x : M) :
    ∃ t', set S t i x = some t' ∧ Inv S n true t' (vs.set i x) := by
  obtain ⟨t1, F1, e1, h1, hu, ha⟩ := leaf_prep L hn h hi
  have hcl := ha rfl
  unfold set
  rw [e1, Option.bind_some, h.sz, h1.rep.val (i+n) (by omega), Option.bind_some]
  obtain ⟨t2, e2, h2⟩ := h1.rep.wr (i := i+n) (by omega) (x, (F1 (i+n)).2)
  rw [e2, Option.bind_some]
  have hcl2 : ∀ y, Clean S (upd F1 (i+n) (x, (F1 (i+n)).2)) y := by
    intro y m
    by_cases hy : y = i + n
    · subst hy; rw [upd_same]; exact hcl _ m
    · rw [upd_ne _ _ hy]; exact hcl y m
  have hI : InvF S n (fun y => ∃ m, y = (i+n)/2 / 2^m) t2 (upd F1 (i+n) (x, (F1 (i+n)).2)) (vs.set i x) := by
    refine ⟨h2, by rw [upd_ne _ _ (by omega)]; exact h1.zero, ?_, by simp [h1.len], ?_⟩
    · intro y hy hyn hB
      have hyp : y ≠ (i+n)/2 := by rintro rfl; exact hB ⟨0, by simp⟩
      have := h1.pulled y hy hyn (fun h => h)
      unfold Pull V at *
      rw [upd_ne _ _ (by omega : 2*y ≠ i+n), upd_ne _ _ (by omega : 2*y+1 ≠ i+n), upd_ne _ _ (by omega : y ≠ i+n)]
      exact this
    · intro j hj
      unfold D
      rw [up_upd_fst]
      by_cases hji : j = i
      · subst hji
        rw [List.getElem?_set_self (by rw [h1.len]; exact hj), show n + j = j + n by omega, upd_same, up_clean]
        intro m _; exact hcl _
      · rw [List.getElem?_set_ne (Ne.symm hji), h1.val j hj, upd_ne _ _ (by omega)]
        rfl
  obtain ⟨t3, F3, e3, h3, hc3⟩ := setLoop_spec (i+n+1) ((i+n)/2) t2 _ (by omega) (by omega) hI hcl2
  rw [e3]
  exact ⟨⟨n, t3⟩, rfl, rfl, F3, h3, fun _ => hc3⟩

/-! ### construction -/

theorem le_pow2 (n : Nat) : n ≤ pow2 n := by
  unfold pow2
  split
  · omega
  · have := Nat.lt_log2_self (n := n-1)
    omega

theorem pow2_pos (n : Nat) : 0 < pow2 n := by
  unfold pow2
  split
  · omega
  · exact Nat.two_pow_pos _

theorem pow2_le {n : Nat} (h : n ≤ 2^62) : pow2 n ≤ 2^62 := by
  unfold pow2
  split
  · omega
  · apply Nat.pow_le_pow_right (by omega)
    have : (n-1).log2 < 62 := (Nat.log2_lt (by omega)).2 (by omega)
    omega

theorem ofSize_inv {S : Acts M A} (L : Laws S) {n : Nat} (h0 : 0 < n) :
    ∃ t, ofSize S n = some t ∧ Inv S (pow2 n) true t (List.replicate (pow2 n) 1) := by
  unfold ofSize
  rw [if_neg (by omega)]
  refine ⟨_, rfl, rfl, fun _ => (1, S.ida), ⟨?_, rfl, ?_, by simp, ?_⟩, fun _ y m => L.act_id m⟩
  · rw [Nat.mul_comm]; exact Rep.replicate _ _
  · intro x _ _ _
    unfold Pull V
    simp only [L.act_id, mul_one]
  · intro i hi
    rw [List.getElem?_replicate, if_pos hi]
    unfold D
    rw [up_clean _ _ (fun m _ v => L.act_id v)]

/-- What `ofRange` puts at the leaves. -/
def padded (xs : List M) : List M := xs ++ List.replicate (pow2 xs.length - xs.length) 1

theorem ofRange_inv {S : Acts M A} (L : Laws S) {xs : List M} (h0 : xs ≠ []) :
    ∃ t, ofRange S xs = some t ∧ Inv S (pow2 xs.length) true t (padded xs) := by
  have hlen : 0 < xs.length := List.length_pos_iff.2 h0
  have hle := le_pow2 xs.length
  unfold ofRange ofSize
  rw [if_neg (by omega), Option.bind_some]
  generalize hN : pow2 xs.length = N at *
  obtain ⟨t1, e1, F1, hF1, hid1, hv1⟩ := forRange_inv (a := 0) (b := xs.length) (s := List.replicate (N*2) ((1 : M), S.ida))
    (body := fun i tr => (xs[i]?).bind (fun x => (tr[N + i]?).bind (fun p => wr tr (N + i) (x, p.2))))
    (fun i tr => ∃ F : Nat → M × A, Rep tr (2*N) F ∧ (∀ x, (F x).2 = S.ida) ∧
      ∀ j, j < N → (F (N+j)).1 = if j < i then xs.getD j 1 else 1) (Nat.zero_le _)
    ⟨fun _ => (1, S.ida), by rw [Nat.mul_comm]; exact Rep.replicate _ _, fun _ => rfl, fun j _ => by simp⟩
    (by
      intro i tr _ hi ⟨F, hF, hid, hv⟩
      rw [List.getElem?_eq_getElem hi, Option.bind_some, hF.val (N+i) (by omega), Option.bind_some]
      obtain ⟨t', e', h'⟩ := hF.wr (i := N+i) (by omega) (xs[i], (F (N+i)).2)
      refine ⟨t', e', _, h', ?_, ?_⟩
      · intro x
        by_cases hx : x = N + i
        · subst hx; rw [upd_same]; exact hid _
        · rw [upd_ne _ _ hx]; exact hid x
      · intro j hj
        by_cases hji : j = i
        · subst hji
          rw [upd_same, if_pos (by omega), List.getD_eq_getElem?_getD, List.getElem?_eq_getElem hi]
          rfl
        · rw [upd_ne _ _ (by omega), hv j hj]
          by_cases h : j < i
          · rw [if_pos h, if_pos (by omega)]
          · rw [if_neg h, if_neg (by omega)])
  obtain ⟨t2, e2, F2, hF2, hid2, hv2, hp2⟩ := forRangeDown_inv (a := 1) (b := N) (s := t1) (body := fun i tr => pull tr i)
    (fun i tr => ∃ F : Nat → M × A, Rep tr (2*N) F ∧ (∀ x, (F x).2 = S.ida) ∧ (∀ j, j < N → (F (N+j)).1 = xs.getD j 1) ∧
      ∀ x, i ≤ x → x < N → Pull S F x) (by omega)
    ⟨F1, hF1, hid1, by
      intro j hj
      rw [hv1 j hj]
      by_cases h : j < xs.length
      · rw [if_pos h]
      · rw [if_neg h, List.getD_eq_getElem?_getD, List.getElem?_eq_none (by omega)]; rfl, fun x h1 h2 => by omega⟩
    (by
      intro i tr h1 hi ⟨F, hF, hid, hv, hp⟩
      obtain ⟨t', e', h'⟩ := pull_rep hF hi
      refine ⟨t', e', _, h', ?_, ?_, ?_⟩
      · intro x
        by_cases hx : x = i
        · subst hx; rw [upd_same]; exact hid _
        · rw [upd_ne _ _ hx]; exact hid x
      · intro j hj
        rw [upd_ne _ _ (by omega)]; exact hv j hj
      · intro x hx hxN
        unfold Pull V
        rw [upd_ne _ _ (by omega : 2*x ≠ i), upd_ne _ _ (by omega : 2*x+1 ≠ i)]
        by_cases hxi : x = i
        · subst hxi
          rw [upd_same, hid (2*x), hid (2*x+1), L.act_id, L.act_id]
        · rw [upd_ne _ _ hxi]
          exact hp x (by omega) hxN)
  simp only [e1, Option.bind_some, e2, Option.map_some]
  refine ⟨_, rfl, rfl, F2, ⟨hF2, hid2 0, fun x h1 h2 _ => hp2 x h1 h2, ?_, ?_⟩, fun _ y m => by rw [hid2, L.act_id]⟩
  · unfold padded; rw [hN]; simp; omega
  · intro i hi
    unfold D
    rw [up_clean _ _ (fun m _ v => by rw [hid2, L.act_id]), hv2 i hi]
    unfold padded
    rw [hN]
    by_cases h : i < xs.length
    · rw [List.getElem?_append_left h, List.getD_eq_getElem?_getD, List.getElem?_eq_getElem h]; rfl
    · rw [List.getElem?_append_right (by omega), List.getElem?_replicate, if_pos (by omega), List.getD_eq_getElem?_getD,
        List.getElem?_eq_none (by omega)]; rfl

end Verif.LazySegTree
