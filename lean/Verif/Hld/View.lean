import Verif.Hld.Build
import Mathlib.Order.Interval.Finset.Nat
/-!
The arrays after `build`, as functions, and the chains.
-/
namespace Verif.Hld

variable {n r : Nat} {P : Nat → Option Nat}

/-- The arrays as functions. -/
structure View (n r : Nat) (P : Nat → Option Nat) (o : Obj) (IN HD DP CL : Nat → Nat) : Prop where
  n_eq : o.n = n
  r_eq : o.r = r
  inn : ∀ w, w < n → rdI o.hs.inn w = some (IN w)
  out : ∀ w, w < n → rdI o.hs.out w = some (IN w + sz n P w)
  rev : ∀ w, w < n → rdI o.hs.rev (IN w) = some w
  head : ∀ w, w < n → rdI o.hs.head w = some (HD w)
  depth : ∀ w, w < n → rdI o.hs.depth w = some (DP w)
  clen : ∀ w, w < n → o.hs.clen[w]? = some (CL w)
  par : ∀ w, w < n → o.sz.par[w]? = some (P w)
  size : ∀ w, w < n → o.sz.size[w]? = some (sz n P w)
  edge : ∀ w, w < n → ∃ ev, o.sz.edge[w]? = some ev ∧ Adj n P w ev ∧ First P w ev
  hroot : HD r = r
  droot : DP r = 0
  heavy : ∀ q w, w < n → Heavy P o.sz.edge q w → HD w = HD q ∧ DP w = DP q ∧ IN w = IN q + 1 ∧ CL q = CL w + 1
  light : ∀ q w, w < n → P w = some q → ¬ Heavy P o.sz.edge q w → HD w = w ∧ DP w = DP q + 1
  leaf : ∀ q, q < n → (∀ w, w < n → ¬ Heavy P o.sz.edge q w) → CL q = 1
  nest1 : ∀ q w, w < n → P w = some q → IN q < IN w ∧ IN w + sz n P w ≤ IN q + sz n P q
  range : ∀ w, w < n → IN w + sz n P w ≤ n
  max : ∀ q w c, w < n → Heavy P o.sz.edge q w → c < n → P c = some q → sz n P c ≤ sz n P w

theorem rdI_some {l : List (Option Nat)} {i : Nat} {x : Nat} (h : rdI l i = some x) : l[i]? = some (some x) := by
  unfold rdI at h
  cases hl : l[i]? with
  | none => rw [hl] at h; cases h
  | some y =>
    rw [hl] at h
    cases y with
    | none => cases h
    | some y => cases h; rfl

theorem anc_ind (T : Tree n r P) {Q : Nat → Prop} (h0 : Q r) (hs : ∀ q w, w < n → P w = some q → Q q → Q w) {w : Nat} (hw : w < n) : Q w := by
  have key : ∀ {y : Nat}, Anc P r y → y < n → Q y := by
    intro y a
    induction a with
    | refl => exact fun _ => h0
    | step e _ ih => exact fun hy => hs _ _ hy e (ih (T.par_lt hy e))
  exact key (T.root_anc hw) hw

theorem Built.view {o : Obj} (T : Tree n r P) (b : Built n r P o) : ∃ IN HD DP CL, View n r P o IN HD DP CL := by
  classical
  have D := b.done
  have hn : ∀ w, w < n → ∃ i h d c, rdI o.hs.inn w = some i ∧ rdI o.hs.head w = some h ∧ rdI o.hs.depth w = some d ∧ o.hs.clen[w]? = some c := by
    intro w hw
    obtain ⟨i, h1, _⟩ := D.node w hw (T.root_anc hw)
    have hc : ∃ c, o.hs.clen[w]? = some c := ⟨_, List.getElem?_eq_getElem (by rw [b.clen]; exact hw)⟩
    obtain ⟨c, hc⟩ := hc
    have : ∃ h d, rdI o.hs.head w = some h ∧ rdI o.hs.depth w = some d := by
      refine anc_ind (Q := fun w => ∃ h d, rdI o.hs.head w = some h ∧ rdI o.hs.depth w = some d) T ⟨r, 0, b.head, b.depth⟩ ?_ hw
      rintro q w hw hp ⟨h, d, a1, a2⟩
      by_cases hh : Heavy P o.sz.edge q w
      · have l := D.heavy q w hw (T.root_anc (T.par_lt hw hp)) hh
        exact ⟨h, d, by rw [l.head, a1], by rw [l.depth, a2]⟩
      · have l := D.light q w hw (T.root_anc (T.par_lt hw hp)) hp hh
        obtain ⟨d', _, e⟩ := l.depth
        exact ⟨w, _, l.head, e⟩
    obtain ⟨h, d, a1, a2⟩ := this
    exact ⟨i, h, d, c, h1, a1, a2, hc⟩
  let f : Nat → Nat × Nat × Nat × Nat := fun w => ((rdI o.hs.inn w).getD 0, (rdI o.hs.head w).getD 0, (rdI o.hs.depth w).getD 0, (o.hs.clen[w]?).getD 0)
  have hf : ∀ w, w < n → rdI o.hs.inn w = some (f w).1 ∧ rdI o.hs.head w = some (f w).2.1 ∧ rdI o.hs.depth w = some (f w).2.2.1 ∧ o.hs.clen[w]? = some (f w).2.2.2 := by
    intro w hw
    obtain ⟨i, h, d, c, a1, a2, a3, a4⟩ := hn w hw
    simp only [f, a1, a2, a3, a4, Option.getD_some, true_and]
  have h0 : (f r).1 = 0 := by
    have := (hf r T.root_lt).1
    rw [D.inv] at this
    exact (Option.some.inj this).symm
  refine ⟨fun w => (f w).1, fun w => (f w).2.1, fun w => (f w).2.2.1, fun w => (f w).2.2.2, ?_⟩
  generalize f = f at hf h0
  have hsz : sz n P r ≤ n := sz_le
  constructor
  · exact b.n_eq
  · exact b.r_eq
  · exact fun w hw => (hf w hw).1
  · intro w hw
    obtain ⟨i, h1, _, _, h4, _⟩ := D.node w hw (T.root_anc hw)
    rw [(hf w hw).1] at h1
    cases h1
    exact h4
  · intro w hw
    obtain ⟨i, h1, _, _, _, h5⟩ := D.node w hw (T.root_anc hw)
    rw [(hf w hw).1] at h1
    cases h1
    exact h5
  · exact fun w hw => (hf w hw).2.1
  · exact fun w hw => (hf w hw).2.2.1
  · exact fun w hw => (hf w hw).2.2.2
  · exact fun w hw => (b.good w hw).par
  · exact fun w hw => (b.good w hw).size
  · intro w hw
    obtain ⟨ev, a, c, d, _⟩ := (b.good w hw).edge
    exact ⟨ev, a, c, d⟩
  · have := (hf r T.root_lt).2.1
    rw [b.head] at this
    exact (Option.some.inj this).symm
  · have := (hf r T.root_lt).2.2.1
    rw [b.depth] at this
    exact (Option.some.inj this).symm
  · intro q w hw hh
    have hq := T.par_lt hw hh.1
    have l := D.heavy q w hw (T.root_anc hq) hh
    obtain ⟨i, i1, i2⟩ := l.inn
    obtain ⟨c, c1, c2⟩ := l.clen
    have a1 := l.head
    have a2 := l.depth
    rw [(hf w hw).2.1, (hf q hq).2.1] at a1
    rw [(hf w hw).2.2.1, (hf q hq).2.2.1] at a2
    rw [(hf q hq).1] at i1
    rw [(hf w hw).1] at i2
    rw [(hf w hw).2.2.2] at c1
    rw [(hf q hq).2.2.2] at c2
    cases i1
    cases c1
    exact ⟨Option.some.inj a1, Option.some.inj a2, Option.some.inj i2, Option.some.inj c2⟩
  · intro q w hw hp hh
    have hq := T.par_lt hw hp
    have l := D.light q w hw (T.root_anc hq) hp hh
    obtain ⟨d, d1, d2⟩ := l.depth
    have a1 := l.head
    rw [(hf w hw).2.1] at a1
    rw [(hf w hw).2.2.1] at d2
    rw [(hf q hq).2.2.1] at d1
    cases d1
    exact ⟨Option.some.inj a1, Option.some.inj d2⟩
  · intro q hq hno
    have := D.leaf q hq (T.root_anc hq) hno
    rw [(hf q hq).2.2.2] at this
    exact Option.some.inj this
  · intro q w hw hp
    have hq := T.par_lt hw hp
    obtain ⟨iq, iw, h1, h2, h3, h4⟩ := D.nest q w hw (T.root_anc hq) hp
    rw [(hf q hq).1] at h1
    rw [(hf w hw).1] at h2
    cases h1
    cases h2
    exact ⟨h3, h4⟩
  · intro w hw
    obtain ⟨i, h1, _, h3, _⟩ := D.node w hw (T.root_anc hw)
    rw [(hf w hw).1] at h1
    cases h1
    omega
  · rintro q w c hw ⟨hp, tl, e⟩ hc hcq
    obtain ⟨ev, a, _, _, hmax⟩ := (b.good q (T.par_lt hw hp)).edge
    rw [a] at e
    cases e
    exact hmax w tl rfl hp c hc hcq

variable {o : Obj} {IN HD DP CL : Nat → Nat}

theorem View.nest (V : View n r P o IN HD DP CL) (T : Tree n r P) {q w : Nat} (hw : w < n) (a : Anc P q w) : IN q ≤ IN w ∧ IN w + sz n P w ≤ IN q + sz n P q := by
  induction a with
  | refl => exact ⟨le_refl _, le_refl _⟩
  | step e _ ih =>
    have h1 := V.nest1 _ _ hw e
    have h2 := ih (T.par_lt hw e)
    omega

theorem View.inj (V : View n r P o IN HD DP CL) {u w : Nat} (hu : u < n) (hw : w < n) (h : IN u = IN w) : u = w := by
  have := V.rev u hu
  rw [h, V.rev w hw] at this
  exact (Option.some.inj this).symm

theorem View.lt (V : View n r P o IN HD DP CL) {w : Nat} (hw : w < n) : IN w < n := by
  have := V.range w hw
  have := sz_pos (P := P) hw
  omega

/-- The interval of a subtree. -/
theorem View.iff (V : View n r P o IN HD DP CL) (T : Tree n r P) {w u : Nat} (hu : u < n) : Anc P w u ↔ IN w ≤ IN u ∧ IN u < IN w + sz n P w ∧ w < n := by
  classical
  constructor
  · intro a
    have := V.nest T hu a
    have := sz_pos (P := P) hu
    exact ⟨by omega, by omega, a.lt T hu⟩
  · rintro ⟨h1, h2, hw⟩
    have himg : (desc n P w).image IN = Finset.Ico (IN w) (IN w + sz n P w) := by
      refine Finset.eq_of_subset_of_card_le ?_ ?_
      · intro i hi
        obtain ⟨y, hy, rfl⟩ := Finset.mem_image.1 hi
        obtain ⟨y1, y2⟩ := mem_desc.1 hy
        have := V.nest T y1 y2
        have := sz_pos (P := P) y1
        rw [Finset.mem_Ico]
        omega
      · rw [Nat.card_Ico, Finset.card_image_of_injOn]
        · show _ ≤ sz n P w
          omega
        · intro a ha b hb e
          exact V.inj (mem_desc.1 ha).1 (mem_desc.1 hb).1 e
    have : IN u ∈ (desc n P w).image IN := by rw [himg, Finset.mem_Ico]; exact ⟨h1, h2⟩
    obtain ⟨y, hy, e⟩ := Finset.mem_image.1 this
    obtain ⟨y1, y2⟩ := mem_desc.1 hy
    rw [← V.inj y1 hu e]
    exact y2

/-- A vertex continues the chain of its parent, or starts one. -/
theorem View.edge_cases (V : View n r P o IN HD DP CL) {q w : Nat} (hw : w < n) (hp : P w = some q) :
    (HD w = HD q ∧ DP w = DP q ∧ IN w = IN q + 1 ∧ CL q = CL w + 1) ∨ (HD w = w ∧ DP w = DP q + 1) := by
  by_cases hh : Heavy P o.sz.edge q w
  · exact Or.inl (V.heavy q w hw hh)
  · exact Or.inr (V.light q w hw hp hh)

/-- The head of the chain. -/
theorem View.hd (V : View n r P o IN HD DP CL) (T : Tree n r P) {w : Nat} (hw : w < n) : Anc P (HD w) w ∧ HD (HD w) = HD w ∧ DP (HD w) = DP w := by
  refine anc_ind (Q := fun w => Anc P (HD w) w ∧ HD (HD w) = HD w ∧ DP (HD w) = DP w) T ?_ ?_ hw
  · rw [V.hroot]
    exact ⟨Anc.refl, V.hroot, rfl⟩
  · rintro q w hw hp ⟨i1, i2, i3⟩
    rcases V.edge_cases hw hp with ⟨h1, h2, _⟩ | ⟨h1, h2⟩
    · rw [h1, h2]
      exact ⟨Anc.step hp i1, i2, i3⟩
    · rw [h1]
      exact ⟨Anc.refl, h1, rfl⟩

theorem View.hd_lt (V : View n r P o IN HD DP CL) (T : Tree n r P) {w : Nat} (hw : w < n) : HD w < n := (V.hd T hw).1.lt T hw

/-- The vertex above the chain. -/
theorem View.up_cases (V : View n r P o IN HD DP CL) (T : Tree n r P) {w : Nat} (hw : w < n) :
    (HD w = r ∧ DP w = 0 ∧ P (HD w) = none) ∨ ∃ p, p < n ∧ P (HD w) = some p ∧ DP w = DP p + 1 := by
  obtain ⟨_, h2, h3⟩ := V.hd T hw
  by_cases hr : HD w = r
  · left
    refine ⟨hr, ?_, by rw [hr]; exact T.root⟩
    rw [← h3, hr, V.droot]
  · right
    obtain ⟨p, hp, e⟩ := T.par (HD w) (V.hd_lt T hw) hr
    refine ⟨p, hp, e, ?_⟩
    rcases V.edge_cases (V.hd_lt T hw) e with ⟨h, _⟩ | ⟨_, h⟩
    · exfalso
      have h' : HD p = HD w := by rw [← h, h2]
      have a := (V.hd T hp).1
      rw [h'] at a
      exact T.not_anc_par (V.hd_lt T hw) e a
    · rw [← h3, h]

/-- Ancestors have no larger depth; with the same depth they are on the same chain. -/
theorem View.depth_le (V : View n r P o IN HD DP CL) (T : Tree n r P) {x w : Nat} (hw : w < n) (a : Anc P x w) : DP x ≤ DP w ∧ (DP x = DP w → HD x = HD w) := by
  induction a with
  | refl => exact ⟨le_refl _, fun _ => rfl⟩
  | step e _ ih =>
    obtain ⟨i1, i2⟩ := ih (T.par_lt hw e)
    rcases V.edge_cases hw e with ⟨h1, h2, _⟩ | ⟨h1, h2⟩
    · rw [h1, h2]; exact ⟨i1, i2⟩
    · exact ⟨by omega, by omega⟩

/-- An ancestor on another chain is above the chain. -/
theorem View.above (V : View n r P o IN HD DP CL) (T : Tree n r P) {x w p : Nat} (hw : w < n) (a : Anc P x w) (hne : HD x ≠ HD w) (hp : P (HD w) = some p) : Anc P x p := by
  obtain ⟨h1, h2, h3⟩ := V.hd T hw
  have hx := a.lt T hw
  rcases Anc.total a h1 with b | b
  · cases b with
    | refl => exact absurd h2 hne
    | step e b => rw [hp] at e; cases e; exact b
  · exfalso
    have d1 := V.depth_le T hx b
    have d2 := V.depth_le T hw a
    exact hne (d2.2 (by omega))

/-- `l` is the path from `u` up to `c`, without `c`. -/
inductive Up (P : Nat → Option Nat) : Nat → Nat → List Nat → Prop where
  | nil (u : Nat) : Up P u u []
  | cons {u p c : Nat} {l : List Nat} (h : P u = some p) (t : Up P p c l) : Up P u c (u :: l)

theorem Up.append {u c d : Nat} {l m : List Nat} (a : Up P u c l) (b : Up P c d m) : Up P u d (l ++ m) := by
  induction a with
  | nil u => exact b
  | cons h _ ih => exact Up.cons h (ih b)

theorem Up.anc {u c : Nat} {l : List Nat} (a : Up P u c l) : Anc P c u := by
  induction a with
  | nil u => exact Anc.refl
  | cons h _ ih => exact Anc.step h ih

theorem Up.snoc {u c d : Nat} {l : List Nat} (a : Up P u c l) (h : P c = some d) : Up P u d (l ++ [c]) := a.append (Up.cons h (Up.nil d))

/-- The positions of a part of a chain. -/
theorem View.segment (V : View n r P o IN HD DP CL) (T : Tree n r P) {x w : Nat} (hw : w < n) (a : Anc P x w) (hh : HD x = HD w) :
    ∃ l, Up P w x l ∧ (l ++ [x]).map IN = (List.range' (IN x) (IN w + 1 - IN x)).reverse := by
  induction a with
  | refl =>
    refine ⟨[], Up.nil x, ?_⟩
    rw [Nat.add_sub_cancel_left]
    rfl
  | @step w q e a ih =>
    have hq := T.par_lt hw e
    have hx := a.lt T hq
    rcases V.edge_cases hw e with ⟨h1, h2, h3, _⟩ | ⟨h1, h2⟩
    · obtain ⟨l, l1, l2⟩ := ih hq (by rw [hh, h1])
      refine ⟨w :: l, Up.cons e l1, ?_⟩
      have hle := (V.nest T hq a).1
      rw [List.cons_append, List.map_cons, l2, h3, show IN q + 1 + 1 - IN x = (IN q + 1 - IN x) + 1 by omega, List.range'_concat, List.reverse_append]
      congr 1
      omega
    · exfalso
      have b := (V.hd T hx).1
      rw [hh, h1] at b
      exact T.not_anc_par hw e (b.trans a)

/-- Vertices of one chain are comparable. -/
theorem View.chain (V : View n r P o IN HD DP CL) (T : Tree n r P) {u w : Nat} (hu : u < n) (hw : w < n) (hh : HD u = HD w) (hle : IN u ≤ IN w) : Anc P u w := by
  obtain ⟨b1, b2, b3⟩ := V.hd T hw
  obtain ⟨c1, _, _⟩ := V.hd T hu
  obtain ⟨l, l1, l2⟩ := V.segment T hw b1 b2
  have hge := (V.nest T hu c1).1
  rw [hh] at hge
  have hmem : IN u ∈ (l ++ [HD w]).map IN := by
    rw [l2, List.mem_reverse, List.mem_range'_1]
    omega
  obtain ⟨y, hy, e⟩ := List.mem_map.1 hmem
  have hall : ∀ {a b : Nat} {l : List Nat}, Up P a b l → ∀ y ∈ l ++ [b], Anc P y a := by
    intro a b l h
    induction h with
    | nil u => intro y hy; rw [List.nil_append, List.mem_singleton] at hy; subst hy; exact Anc.refl
    | cons h t ih =>
      intro y hy
      rw [List.cons_append, List.mem_cons] at hy
      rcases hy with rfl | hy
      · exact Anc.refl
      · exact Anc.step h (ih y hy)
  have ha := hall l1 y hy
  rw [← V.inj (ha.lt T hw) hu e]
  exact ha

theorem View.dp_le (V : View n r P o IN HD DP CL) (T : Tree n r P) {w : Nat} (hw : w < n) : DP w ≤ IN w := by
  refine anc_ind (Q := fun w => DP w ≤ IN w) T ?_ ?_ hw
  · rw [V.droot]; exact Nat.zero_le _
  · intro q w hw hp ih
    have := V.nest1 q w hw hp
    rcases V.edge_cases hw hp with ⟨_, h, _⟩ | ⟨_, h⟩ <;> omega

/-- Every light edge halves the size. -/
theorem View.halve (V : View n r P o IN HD DP CL) (T : Tree n r P) {w : Nat} (hw : w < n) : 2 ^ DP w * sz n P w ≤ n := by
  refine anc_ind (Q := fun w => 2 ^ DP w * sz n P w ≤ n) T ?_ ?_ hw
  · rw [V.droot, pow_zero, one_mul]; exact sz_le
  · intro q w hw hp ih
    have hsz := T.sz_child hw hp
    by_cases hh : Heavy P o.sz.edge q w
    · obtain ⟨_, h, _⟩ := V.heavy q w hw hh
      rw [h]
      exact le_trans (Nat.mul_le_mul_left _ hsz.le) ih
    · obtain ⟨_, h⟩ := V.light q w hw hp hh
      have hq := T.par_lt hw hp
      -- the heavy child
      obtain ⟨ev, he, A, F⟩ := V.edge q hq
      have hwm : w ∈ ev := (A.mem w).2 (Or.inl ⟨hw, hp⟩)
      cases ev with
      | nil => cases hwm
      | cons c tl =>
        have hc : P c = some q ∧ c < n := by
          by_cases hcp : some c = P q
          · have := F c tl rfl hcp.symm
            subst this
            rw [List.mem_singleton] at hwm
            subst hwm
            exact absurd hcp.symm (T.not_both hw hp)
          · have := A.child (List.mem_cons_self ..) hcp
            exact ⟨this.2, this.1⟩
        have hhc : Heavy P o.sz.edge q c := ⟨hc.1, tl, he⟩
        have hmax := V.max q c w hc.2 hhc hw hp
        have hne : w ≠ c := by rintro rfl; exact hh hhc
        have hsum := T.sz_sum hq A
        rw [List.map_cons, List.sum_cons] at hsum
        have hwt : ∀ y, y < n → P y = some q → wt n P q y = sz n P y := fun y h1 h2 => by unfold wt; rw [if_neg]; intro e; exact T.not_both h1 h2 e.symm
        have hwtl : w ∈ tl := (List.mem_cons.1 hwm).resolve_left hne
        have h1 : wt n P q w ≤ (tl.map (wt n P q)).sum := List.le_sum_of_mem (List.mem_map.2 ⟨w, hwtl, rfl⟩)
        rw [hwt c hc.2 hc.1] at hsum
        rw [hwt w hw hp] at h1
        rw [h, pow_succ, mul_assoc]
        exact le_trans (Nat.mul_le_mul_left _ (by omega)) ih

end Verif.Hld
