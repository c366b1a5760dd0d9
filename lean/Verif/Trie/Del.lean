import Verif.Trie.Ins
/-! `_erase_from_leaf`.  Here `K` is the set without `x`, so the trie is for `insert x K` before the call. -/
namespace Verif.Trie
open Verif

variable {V : Type} {W x y z i j p q h d : Nat} {K : Finset Nat} {rt xf : Bool} {s : St V} {val : Nat → Option V} {v : V} {pr nx : Option Nat}

theorem next_del_x (h : IsNext (insert x K) (some x) nx) : IsNext K (some x) nx := by
  refine IsMin.congr h fun z => ?_
  simp only [Finset.mem_insert, Above]
  constructor
  · rintro ⟨a | a, b⟩
    · omega
    · exact ⟨a, b⟩
  · rintro ⟨a, b⟩; exact ⟨Or.inr a, b⟩

theorem prev_del_x (h : IsPrev (insert x K) (some x) nx) : IsPrev K (some x) nx := by
  refine IsMax.congr h fun z => ?_
  simp only [Finset.mem_insert, Below]
  constructor
  · rintro ⟨a | a, b⟩
    · omega
    · exact ⟨a, b⟩
  · rintro ⟨a, b⟩; exact ⟨Or.inr a, b⟩

theorem next_del_pr (hx : x ∉ K) (h : IsPrev K (some x) pr) (hn : IsNext K (some x) nx) : IsNext K pr nx :=
  IsMin.congr hn fun z => ⟨fun a => ⟨a.1, (above_of_prev hx h a.1).2 a.2⟩, fun a => ⟨a.1, (above_of_prev hx h a.1).1 a.2⟩⟩

theorem prev_del_nx (hx : x ∉ K) (h : IsNext K (some x) nx) (hn : IsPrev K (some x) pr) : IsPrev K nx pr :=
  IsMax.congr hn fun z => ⟨fun a => ⟨a.1, (below_of_next hx h a.1).2 a.2⟩, fun a => ⟨a.1, (below_of_next hx h a.1).1 a.2⟩⟩

theorem ptr_mono {a : Option Nat} (h : Ptr K a) : Ptr (insert x K) a := by
  cases a with
  | none => trivial
  | some y => exact Finset.mem_insert_of_mem h

theorem unlink_ok (hleaf : ∀ a, Ptr (insert x K) a → ∃ l, s.leaf a = some l ∧ LOk (insert x K) val a l) (hx : x ∉ K) :
    ∃ l s', s.leaf (some x) = some l ∧ IsPrev K (some x) l.prev ∧ IsNext K (some x) l.next ∧
      ((modLeaf s l.prev (fun a => { a with next := l.next })).bind (fun s => modLeaf s l.next (fun a => { a with prev := l.prev }))) = some s' ∧
      s'.node = s.node ∧ s'.size = s.size ∧ s'.tb = s.tb ∧
      ∀ a, Ptr K a → ∃ l, s'.leaf a = some l ∧ LOk K (upd val x none) a l := by
  obtain ⟨l, el, lp, ln, lv⟩ := hleaf (some x) (Finset.mem_insert_self _ _)
  have hp := prev_del_x lp
  have hn := next_del_x ln
  obtain ⟨pl, epl, pp, pn, pv⟩ := hleaf l.prev (ptr_mono hp.ptr)
  obtain ⟨nl, enl, np, nn, nv⟩ := hleaf l.next (ptr_mono hn.ptr)
  have hbind : ∀ a : Option Nat, Ptr K a → a.bind (upd val x none) = a.bind val := fun a ha => by
    cases a with
    | none => rfl
    | some y => exact upd_ne _ _ (fun e => hx (e ▸ ha))
  refine ⟨l, { s with leaf := fun a => if a = l.next then (if a = l.prev then some { pl with next := l.next, prev := l.prev } else some { nl with prev := l.prev })
        else if a = l.prev then some { pl with next := l.next } else s.leaf a }, el, hp, hn, ?_, rfl, rfl, rfl, ?_⟩
  · unfold modLeaf setLeaf
    rw [epl, Option.map_some, Option.bind_some]
    dsimp only
    by_cases hpn : l.next = l.prev
    · rw [if_pos hpn]
      dsimp only [Option.map_some]
      congr 2
      funext a
      by_cases h1 : a = l.next
      · rw [if_pos h1, if_pos h1, if_pos (h1.trans hpn)]
      · have h2 : a ≠ l.prev := fun h => h1 (h.trans hpn.symm)
        rw [if_neg h1, if_neg h1]
    · rw [if_neg hpn, enl]
      dsimp only [Option.map_some]
      congr 2
      funext a
      by_cases h1 : a = l.next
      · rw [if_pos h1, if_pos h1, if_neg (fun h => hpn (h1.symm.trans h))]
      · rw [if_neg h1, if_neg h1]
  · intro a ha
    dsimp only
    obtain ⟨w, ew, wp, wn, wv⟩ := hleaf a (ptr_mono ha)
    by_cases h1 : a = l.next
    · rw [if_pos h1]
      rw [h1, enl] at ew
      cases ew
      by_cases h2 : a = l.prev
      · rw [if_pos h2]
        refine ⟨_, rfl, ?_, ?_, ?_⟩
        · rw [h1]; exact prev_del_nx hx hn hp
        · rw [h2]; exact next_del_pr hx hp hn
        · rw [hbind _ ha, h2]; exact pv
      · rw [if_neg h2]
        refine ⟨_, rfl, ?_, (next_ins_iff hx hp ha h2).1 wn, by rw [hbind _ ha]; exact wv⟩
        rw [h1]; exact prev_del_nx hx hn hp
    · rw [if_neg h1]
      by_cases h2 : a = l.prev
      · rw [if_pos h2]
        rw [h2, epl] at ew
        cases ew
        refine ⟨_, rfl, (prev_ins_iff hx hn ha h1).1 wp, ?_, by rw [hbind _ ha]; exact wv⟩
        rw [h2]; exact next_del_pr hx hp hn
      · rw [if_neg h2]
        exact ⟨w, ew, (prev_ins_iff hx hn ha h1).1 wp, (next_ins_iff hx hp ha h2).1 wn, by rw [hbind _ ha]; exact wv⟩

/-! ### releasing the path -/

theorem climbDel_ok (xf : Bool) : ∀ i (s : St V), i < W → (∀ j ≤ i, ∃ u, s.node j (pre W x j) = some u ∧ Flags W (insert x K) j (pre W x j) u) →
    (∀ j, 1 ≤ j → j ≤ i + 1 → s.tb j (pre W x j) = true) → ¬ Has W K (i+1) (pre W x (i+1)) →
    ∃ d u nd tb, d ≤ i ∧ climbDel xf W x (i+1) s = some ({ s with node := nd, tb := tb }, d) ∧ s.node d (pre W x d) = some u ∧ Flags W (insert x K) d (pre W x d) u ∧
      (∀ j q, nd j q = if d < j ∧ j ≤ i + 1 ∧ q = pre W x j then none else if j = d ∧ q = pre W x d then some (setChild u (bit W x d) false) else s.node j q) ∧
      (∀ j q, tb j q = true ↔ s.tb j q = true ∧ ¬ (d < j ∧ j ≤ i + 1 ∧ q = pre W x j)) ∧
      (∀ j, d < j → j ≤ i + 1 → ¬ Has W K j (pre W x j)) ∧
      (Has W K (d+1) (2 * pre W x d + (1 - bit W x d)) ∨ d = 0) := by
  intro i
  induction i with
  | zero =>
    intro s hi hu ht hno
    obtain ⟨u, eu, fu⟩ := hu 0 (le_refl _)
    have hb := bit_lt W x 0
    refine ⟨0, u, upd2 (upd2 s.node 1 (pre W x 1) none) 0 (pre W x 0) (some (setChild u (bit W x 0) false)), upd2 s.tb 1 (pre W x 1) false, le_refl _, ?_, eu, fu, ?_, ?_, ?_, Or.inr rfl⟩
    · unfold climbDel modNode
      rw [if_neg (by simp [ht 1 (le_refl _) (le_refl _)])]
      dsimp only
      rw [upd2_ne _ _ (by omega), eu, Option.map_some, Option.bind_some]
      dsimp only
      rw [upd2_same, Option.bind_some]
      simp
    · intro j q
      by_cases c : 0 < j ∧ j ≤ 0 + 1 ∧ q = pre W x j
      · rw [if_pos c]
        have : j = 1 := by omega
        subst this
        rw [c.2.2, upd2_ne _ _ (by omega), upd2_same]
      · rw [if_neg c]
        by_cases c2 : j = 0 ∧ q = pre W x 0
        · rw [if_pos c2, c2.1, c2.2, upd2_same]
        · rw [if_neg c2, upd2_ne _ _ c2, upd2_ne _ _ (by
            rintro ⟨rfl, rfl⟩
            exact c ⟨by omega, by omega, rfl⟩)]
    · intro j q
      unfold upd2
      by_cases c : j = 1 ∧ q = pre W x 1
      · obtain ⟨rfl, rfl⟩ := c
        simp
      · rw [if_neg c]
        constructor
        · intro h; refine ⟨h, ?_⟩
          rintro ⟨a, b, e⟩
          have : j = 1 := by omega
          subst this
          exact c ⟨rfl, e⟩
        · exact fun h => h.1
    · intro j h1 h2
      have : j = 1 := by omega
      subst this
      exact hno
  | succ i ih =>
    intro s hi hu ht hno
    obtain ⟨u, eu, fu⟩ := hu (i+1) (le_refl _)
    have hb := bit_lt W x (i+1)
    have hps := pre_succ (x := x) hi
    have hch : child (setChild u (bit W x (i+1)) false) (1 - bit W x (i+1)) = true ↔ Has W K (i+2) (2 * pre W x (i+1) + (1 - bit W x (i+1))) := by
      rw [child_set _ hb (by omega), if_neg (by omega), fu _ (by omega), has_insert]
      exact ⟨fun a => a.elim id fun a => by omega, Or.inl⟩
    unfold climbDel modNode
    rw [if_neg (by simp [ht (i+2) (by omega) (by omega)])]
    dsimp only
    rw [upd2_ne _ _ (by omega), eu, Option.map_some, Option.bind_some]
    dsimp only
    rw [upd2_same, Option.bind_some]
    by_cases c : child (setChild u (bit W x (i+1)) false) (1 - bit W x (i+1)) = true
    · rw [if_pos c]
      refine ⟨i+1, u, _, _, le_refl _, rfl, eu, fu, ?_, ?_, ?_, Or.inl (hch.1 c)⟩
      · intro j q
        by_cases c1 : i + 1 < j ∧ j ≤ i + 1 + 1 ∧ q = pre W x j
        · rw [if_pos c1]
          have : j = i + 2 := by omega
          subst this
          rw [c1.2.2, upd2_ne _ _ (by omega), upd2_same]
        · rw [if_neg c1]
          by_cases c2 : j = i + 1 ∧ q = pre W x (i+1)
          · rw [if_pos c2, c2.1, c2.2, upd2_same]
          · rw [if_neg c2, upd2_ne _ _ c2, upd2_ne _ _ (by
              rintro ⟨rfl, rfl⟩
              exact c1 ⟨by omega, by omega, rfl⟩)]
      · intro j q
        unfold upd2
        by_cases c1 : j = i + 1 + 1 ∧ q = pre W x (i+1+1)
        · obtain ⟨rfl, rfl⟩ := c1
          simp
        · rw [if_neg c1]
          constructor
          · intro h; refine ⟨h, ?_⟩
            rintro ⟨a, b, e⟩
            have : j = i + 2 := by omega
            subst this
            exact c1 ⟨rfl, e⟩
          · exact fun h => h.1
      · intro j h1 h2
        have : j = i + 2 := by omega
        subst this
        exact hno
    · rw [if_neg c, if_neg (by omega)]
      have hno' : ¬ Has W K (i+1) (pre W x (i+1)) := by
        rintro ⟨z, hz, ez⟩
        have h1 := pre_succ (x := z) hi
        have h2 := bit_lt W z (i+1)
        by_cases e : bit W z (i+1) = bit W x (i+1)
        · exact hno ⟨z, hz, by rw [h1, hps, ez, e]⟩
        · exact c (hch.2 ⟨z, hz, by rw [h1, ez]; omega⟩)
      obtain ⟨d, u', nd, tb, hd, e, eu', fu', hnd, htb, hnh, hor⟩ := ih { s with
          tb := upd2 s.tb (i+1+1) (pre W x (i+1+1)) false
          node := upd2 (upd2 s.node (i+1+1) (pre W x (i+1+1)) none) (i+1) (pre W x (i+1)) (some (setChild u (bit W x (i+1)) false)) } (by omega)
        (fun j hj => by
          obtain ⟨w, ew, fw⟩ := hu j (by omega)
          exact ⟨w, by dsimp only; rw [upd2_ne _ _ (by omega), upd2_ne _ _ (by omega)]; exact ew, fw⟩)
        (fun j h1 h2 => by dsimp only; rw [upd2_ne _ _ (by omega)]; exact ht j h1 (by omega)) hno'
      dsimp only at eu' hnd htb
      rw [upd2_ne _ _ (by omega), upd2_ne _ _ (by omega)] at eu'
      refine ⟨d, u', nd, tb, by omega, e, eu', fu', ?_, ?_, ?_, hor⟩
      · intro j q
        rw [hnd]
        by_cases c1 : d < j ∧ j ≤ i + 1 ∧ q = pre W x j
        · rw [if_pos c1, if_pos ⟨c1.1, by omega, c1.2.2⟩]
        · rw [if_neg c1]
          by_cases c2 : j = d ∧ q = pre W x d
          · rw [if_pos c2, if_neg (by omega), if_pos c2]
          · rw [if_neg c2, if_neg c2]
            by_cases c3 : j = i + 1 ∧ q = pre W x (i+1)
            · exact absurd ⟨by omega, by omega, by rw [c3.2, c3.1]⟩ c1
            · rw [upd2_ne _ _ c3]
              by_cases c4 : j = i + 1 + 1 ∧ q = pre W x (i+1+1)
              · rw [c4.1, c4.2, upd2_same, if_pos ⟨by omega, by omega, rfl⟩]
              · rw [upd2_ne _ _ c4, if_neg]
                rintro ⟨a, b, e⟩
                by_cases hj : j = i + 2
                · subst hj; exact c4 ⟨rfl, e⟩
                · exact c1 ⟨a, by omega, e⟩
      · intro j q
        rw [htb]
        unfold upd2
        by_cases c4 : j = i + 1 + 1 ∧ q = pre W x (i+1+1)
        · obtain ⟨rfl, rfl⟩ := c4
          simp
          omega
        · rw [if_neg c4]
          constructor
          · rintro ⟨a, b⟩
            refine ⟨a, ?_⟩
            rintro ⟨a1, b1, e⟩
            by_cases hj : j = i + 2
            · subst hj; exact c4 ⟨rfl, e⟩
            · exact b ⟨a1, by omega, e⟩
          · rintro ⟨a, b⟩
            exact ⟨a, fun ⟨a1, b1, e⟩ => b ⟨a1, by omega, e⟩⟩
      · intro j h1 h2
        by_cases hj : j = i + 2
        · subst hj; exact hno
        · exact hnh j h1 (by omega)

/-! ### the `jump` pointers above -/

/-- `jump` stays right when `x` was not the outermost key on the side that matters. -/
theorem jok_del (hi : i < W) (hc : Has W K (i+1) (pre W x (i+1))) {w : Option (Option Nat)} (J : JOk W (insert x K) i p w)
    (hw : ∀ b < 2, ¬ Has W K (i+1) (2 * p + b) → ∃ z ∈ K, pre W z i = p ∧ (b = 1 → x < z) ∧ (b = 0 → z < x)) : JOk W K i p w := by
  refine ⟨fun b hb a c => ?_, fun a c => J.two ((has_on hi hc).2 a) ((has_on hi hc).2 c), fun e => ?_⟩
  · obtain ⟨y, ey, hy, hyp, hext⟩ := J.one b hb ((has_on hi hc).2 a) (fun h => c ((has_on hi hc).1 h))
    refine ⟨y, ey, ?_, hyp, fun z hz ez => hext z (Finset.mem_insert_of_mem hz) ez⟩
    rcases Finset.mem_insert.1 hy with rfl | hy
    · obtain ⟨t, ht, et, t1, t0⟩ := hw b hb c
      have := hext t (Finset.mem_insert_of_mem ht) et
      exfalso
      rcases (by omega : b = 0 ∨ b = 1) with h | h
      · have := this.2 h; have := t0 h; omega
      · have := this.1 h; have := t1 h; omega
    · exact hy
  · obtain ⟨z, hz, _⟩ := hc
    exact absurd e (Finset.ne_empty_of_mem hz)

/-- Nodes at depth below `d` on the path of `x` still have the old `jump`. -/
def Half' (W : Nat) (K : Finset Nat) (x d : Nat) (s : St V) : Prop :=
  ∀ i < W, ∀ p, Ex W K i p → ∃ u, s.node i p = some u ∧ Flags W K i p u ∧ (if i < d ∧ p = pre W x i then JOk W (insert x K) i p u.jump else JOk W K i p u.jump)

theorem climbJump_ok {fc : Nat} (hfc : fc < 2) (y : Nat) : ∀ d (s : St V), d < W → Has W K d (pre W x d) → Half' W K x d s →
    (d = 0 ∨ Ext W K fc d (pre W x d) y) → (∃ z ∈ K, pre W z d = pre W x d ∧ (fc = 1 → z < x) ∧ (fc = 0 → x < z)) →
    ∃ nd, climbJump W x fc (some y) d s = some { s with node := nd } ∧ Half' W K x 0 { s with node := nd } := by
  intro d
  induction d with
  | zero => intro s _ _ hh _ _; exact ⟨s.node, rfl, hh⟩
  | succ d ih =>
    rintro s hd hhas hh hext ⟨z, hz, hzp, hz1, hz0⟩
    have hext := hext.resolve_left (by omega)
    have hzp' : pre W z d = pre W x d := pre_eq_of_le (by omega) (by omega) hzp
    have hb := bit_lt W x d
    obtain ⟨v, ev, fv, jv⟩ := hh d (by omega) (pre W x d) (Or.inl (hhas.up (by omega) (by omega)))
    rw [if_pos ⟨by omega, rfl⟩] at jv
    have hcb : ∀ b, Has W (insert x K) (d+1) b ↔ Has W K (d+1) b := fun b => has_on (by omega) hhas
    have hps := pre_succ (x := x) (W := W) (i := d) (by omega)
    have hstep : (JOk W (insert x K) d (pre W x d) v.jump → JOk W K d (pre W x d) v.jump) → Half' W K x d s := by
      intro hj i hi p hp
      obtain ⟨u, eu, fu, ju⟩ := hh i hi p hp
      refine ⟨u, eu, fu, ?_⟩
      by_cases c : i < d ∧ p = pre W x i
      · rw [if_pos c]; rw [if_pos ⟨by omega, c.2⟩] at ju; exact ju
      · rw [if_neg c]
        by_cases c' : i < d + 1 ∧ p = pre W x i
        · have : i = d := by
            by_contra hne
            exact c ⟨by omega, c'.2⟩
          subst this
          obtain ⟨_, rfl⟩ := c'
          rw [ev] at eu
          cases eu
          exact hj jv
        · rw [if_neg c'] at ju; exact ju
    unfold climbJump
    rw [ev, Option.bind_some]
    by_cases c1 : bit W x d ≠ fc
    · rw [if_pos c1]
      by_cases c2 : v.jump = none
      · rw [if_pos c2]
        refine ⟨s.node, rfl, ?_⟩
        have hfch : Has W K (d+1) (2 * pre W x d + fc) := by
          by_contra hno
          obtain ⟨y, ey, _⟩ := jv.one fc hfc (by have : 1 - fc = bit W x d := by omega
                                                 rw [this, ← hps, hcb]; exact hhas) (by rw [hcb]; exact hno)
          rw [c2] at ey; cases ey
        obtain ⟨w, hw, ew⟩ := hfch
        have hwp : pre W w d = pre W x d := by rw [← pre_half (by omega), ew]; omega
        have hw1 : fc = 1 → x < w := fun h => lt_of_pre (W := W) (i := d+1) (by omega)
        have hw0 : fc = 0 → w < x := fun h => lt_of_pre (W := W) (i := d+1) (by omega)
        intro i hi p hp
        obtain ⟨u, eu, fu, ju⟩ := hh i hi p hp
        refine ⟨u, eu, fu, ?_⟩
        rw [if_neg (by omega)]
        by_cases c : i < d + 1 ∧ p = pre W x i
        · rw [if_pos c] at ju
          obtain ⟨c3, rfl⟩ := c
          refine jok_del hi (hhas.up (by omega) (by omega)) ju fun b hb _ => ?_
          by_cases hbf : b = fc
          · subst hbf; exact ⟨w, hw, pre_eq_of_le (by omega) (by omega) hwp, hw1, hw0⟩
          · exact ⟨z, hz, pre_eq_of_le (by omega) (by omega) hzp', fun h => hz0 (by omega), fun h => hz1 (by omega)⟩
        · rw [if_neg c] at ju
          exact ju
      · rw [if_neg c2]
        unfold modNode
        rw [ev, Option.map_some, Option.bind_some]
        -- the new `jump` is right
        have hjn : JOk W K d (pre W x d) (some (some y)) ∧ (d = 0 ∨ Ext W K fc d (pre W x d) y) := by
          by_cases hfch : Has W K (d+1) (2 * pre W x d + fc)
          · have hcc : Has W K (d+1) (2 * pre W x d + bit W x d) := by rw [← hps]; exact hhas
            have h0 : Has W K (d+1) (2 * pre W x d) := by
              rcases (by omega : fc = 0 ∨ bit W x d = 0) with h | h
              · rw [h] at hfch; exact hfch
              · rw [h] at hcc; exact hcc
            have h1 : Has W K (d+1) (2 * pre W x d + 1) := by
              rcases (by omega : fc = 1 ∨ bit W x d = 1) with h | h
              · rw [h] at hfch; exact hfch
              · rw [h] at hcc; exact hcc
            have hd0 : d = 0 := by
              by_contra hd0
              exact c2 (jv.two ((hcb _).2 h0) ((hcb _).2 h1) hd0)
            refine ⟨⟨fun b hb' _ a2 => ?_, fun _ _ e => absurd hd0 e, fun e => absurd e (Finset.ne_empty_of_mem hz)⟩, Or.inl hd0⟩
            exfalso
            rcases (by omega : b = 0 ∨ b = 1) with h | h
            · rw [h] at a2; exact a2 h0
            · rw [h] at a2; exact a2 h1
          · have hextd : Ext W K fc d (pre W x d) y := by
              refine ⟨hext.1, pre_eq_of_le (by omega) (by omega) hext.2.1, fun t ht et => hext.2.2 t ht ?_⟩
              have h1 := pre_succ (x := t) (W := W) (i := d) (by omega)
              have h2 := bit_lt W t d
              have h3 : bit W t d ≠ fc := fun h4 => hfch ⟨t, ht, by rw [h1, et, h4]⟩
              rw [h1, hps, et]; omega
            refine ⟨⟨fun b hb' _ a2 => ?_, fun a1 a2 _ => ?_, fun e => absurd e (Finset.ne_empty_of_mem hz)⟩, Or.inr hextd⟩
            · have hbf : b = fc := by
                by_contra hbf
                have : b = bit W x d := by omega
                rw [this, ← hps] at a2
                exact a2 hhas
              subst hbf
              exact ⟨y, rfl, hextd⟩
            · exfalso
              rcases (by omega : fc = 0 ∨ fc = 1) with h | h
              · rw [h] at hfch; exact hfch a1
              · rw [h] at hfch; exact hfch a2
        have hh' : Half' W K x d { s with node := upd2 s.node d (pre W x d) (some { v with jump := some (some y) }) } := by
          intro i hi p hp
          dsimp only
          by_cases c : i = d ∧ p = pre W x d
          · obtain ⟨rfl, rfl⟩ := c
            refine ⟨{ v with jump := some (some y) }, by rw [upd2_same], fv, ?_⟩
            rw [if_neg (by omega)]
            exact hjn.1
          · rw [upd2_ne _ _ c]
            obtain ⟨u, eu, fu, ju⟩ := hh i hi p hp
            refine ⟨u, eu, fu, ?_⟩
            by_cases c' : i < d ∧ p = pre W x i
            · rw [if_pos c']; rw [if_pos ⟨by omega, c'.2⟩] at ju; exact ju
            · rw [if_neg c']
              rw [if_neg (by
                rintro ⟨a, b⟩
                by_cases e : i = d
                · subst e; exact c ⟨rfl, b⟩
                · exact c' ⟨by omega, b⟩)] at ju
              exact ju
        obtain ⟨nd, e, hn⟩ := ih _ (by omega) (hhas.up (by omega) (by omega)) hh' hjn.2 ⟨z, hz, hzp', hz1, hz0⟩
        exact ⟨nd, e, hn⟩
    · rw [if_neg c1]
      have c1 : bit W x d = fc := by omega
      refine ih s (by omega) (hhas.up (by omega) (by omega)) (hstep fun J => jok_del (by omega) hhas J fun b hb' hno => ?_) (Or.inr ⟨hext.1, pre_eq_of_le (by omega) (by omega) hext.2.1, fun t ht et => ?_⟩) ⟨z, hz, hzp', hz1, hz0⟩
      · have hbf : b ≠ fc := by
          rintro rfl
          rw [← c1, ← hps] at hno
          exact hno hhas
        exact ⟨z, hz, hzp', fun h => hz0 (by omega), fun h => hz1 (by omega)⟩
      · by_cases e : pre W t (d+1) = pre W x (d+1)
        · exact hext.2.2 t ht e
        · have h1 := pre_succ (x := t) (W := W) (i := d) (by omega)
          have h2 := bit_lt W t d
          have h3 : bit W t d ≠ bit W x d := fun h4 => e (by rw [h1, hps, et, h4])
          have h5 := hext.2.1
          exact ⟨fun h => le_of_lt (lt_of_pre (W := W) (i := d+1) (by omega)), fun h => le_of_lt (lt_of_pre (W := W) (i := d+1) (by omega))⟩

/-! ### the whole call -/

theorem eraseLeaf_ok (hW : 0 < W) (I : Inv W rt s (insert x K) val) (hx : x ∉ K) (xf : Bool) : ∃ s' nx, eraseLeaf xf W s x = some (s', nx) ∧ Inv W rt s' K (upd val x none) ∧ IsNext K (some x) nx := by
  have hxlt : x < 2 ^ W := I.lt x (Finset.mem_insert_self _ _)
  obtain ⟨l, s1, el, hp, hn, e1, n1, z1, t1, l1⟩ := unlink_ok I.leaf hx
  have hpath : ∀ j, Has W (insert x K) j (pre W x j) := fun j => ⟨x, Finset.mem_insert_self _ _, rfl⟩
  obtain ⟨m, rfl⟩ : ∃ m, W = m + 1 := ⟨W - 1, by omega⟩
  obtain ⟨d, u, nd, tb, hd, e2, eu, fu, hnd, htb, hno, hor⟩ := climbDel_ok (x := x) (K := K) (W := m + 1) xf m s1 (by omega)
    (fun j hj => by
      obtain ⟨w, ew, fw, _⟩ := I.node j (by omega) _ (Or.inl (hpath j))
      exact ⟨w, by rw [n1]; exact ew, fw⟩)
    (fun j h1 h2 => by rw [t1, I.tb]; exact Or.inl ⟨h1, h2, hpath j⟩)
    (by rintro ⟨z, hz, ez⟩; rw [pre_W, pre_W] at ez; exact hx (ez ▸ hz))
  have hb := bit_lt (m+1) x d
  have hps := pre_succ (x := x) (W := m + 1) (i := d) (by omega)
  obtain ⟨nj, hnj⟩ : ∃ nj, nj = if bit (m+1) x d = 1 then l.prev else l.next := ⟨_, rfl⟩
  -- the new `jump` of the fork
  have hfork : (Has (m+1) K (d+1) (2 * pre (m+1) x d + (1 - bit (m+1) x d)) → ∃ y, nj = some y ∧ Ext (m+1) K (bit (m+1) x d) d (pre (m+1) x d) y) := by
    rintro ⟨z, hz, ez⟩
    have hzd : pre (m+1) z d = pre (m+1) x d := by rw [← pre_half (by omega), ez]; omega
    have hall : ∀ t ∈ K, pre (m+1) t d = pre (m+1) x d → bit (m+1) t d = 1 - bit (m+1) x d := fun t ht et => by
      have h1 := pre_succ (x := t) (W := m + 1) (i := d) (by omega)
      have h2 := bit_lt (m+1) t d
      have h3 : bit (m+1) t d ≠ bit (m+1) x d := fun h4 => hno (d+1) (by omega) (by omega) ⟨t, ht, by rw [h1, hps, et, h4]⟩
      omega
    by_cases c : bit (m+1) x d = 1
    · rw [if_pos c] at hnj
      have hzx : z < x := lt_of_pre (W := m+1) (i := d+1) (by omega)
      cases hlp : l.prev with
      | none => rw [hlp] at hp; exact absurd ⟨hz, hzx⟩ (hp z)
      | some y =>
        rw [hlp] at hp
        refine ⟨y, by rw [hnj, hlp], hp.1.1, ?_, fun t ht et => ⟨fun _ => hp.2 t ⟨ht, ?_⟩, fun h => by omega⟩⟩
        · have h1 := pre_mono (W := m+1) (i := d) (hp.2 z ⟨hz, hzx⟩)
          have h2 := pre_mono (W := m+1) (i := d) (le_of_lt hp.1.2)
          omega
        · have h1 := hall t ht et
          have h2 := pre_succ (x := t) (W := m + 1) (i := d) (by omega)
          exact lt_of_pre (W := m+1) (i := d+1) (by omega)
    · rw [if_neg c] at hnj
      have hzx : x < z := lt_of_pre (W := m+1) (i := d+1) (by omega)
      cases hln : l.next with
      | none => rw [hln] at hn; exact absurd ⟨hz, hzx⟩ (hn z)
      | some y =>
        rw [hln] at hn
        refine ⟨y, by rw [hnj, hln], hn.1.1, ?_, fun t ht et => ⟨fun h => by omega, fun _ => hn.2 t ⟨ht, ?_⟩⟩⟩
        · have h1 := pre_mono (W := m+1) (i := d) (hn.2 z ⟨hz, hzx⟩)
          have h2 := pre_mono (W := m+1) (i := d) (le_of_lt hn.1.2)
          omega
        · have h1 := hall t ht et
          have h2 := pre_succ (x := t) (W := m + 1) (i := d) (by omega)
          exact lt_of_pre (W := m+1) (i := d+1) (by omega)
  -- without another child the trie is empty
  have hempty : ¬ Has (m+1) K (d+1) (2 * pre (m+1) x d + (1 - bit (m+1) x d)) → d = 0 ∧ K = ∅ ∧ nj = none := by
    intro hne
    have hd0 : d = 0 := hor.resolve_left hne
    subst hd0
    have hK : K = ∅ := by
      by_contra hK
      obtain ⟨z, hz⟩ := Finset.nonempty_iff_ne_empty.2 hK
      have h0 : pre (m+1) z 0 = pre (m+1) x 0 := by rw [pre_zero hxlt, pre_zero (I.lt z (Finset.mem_insert_of_mem hz))]
      have h1 := pre_succ (x := z) (W := m + 1) (i := 0) (by omega)
      have h2 := bit_lt (m+1) z 0
      by_cases e : bit (m+1) z 0 = bit (m+1) x 0
      · exact hno 1 (by omega) (by omega) ⟨z, hz, by rw [h1, hps, h0, e]⟩
      · exact hne ⟨z, hz, by rw [h1, h0]; omega⟩
    refine ⟨rfl, hK, ?_⟩
    rw [hK] at hp hn
    have hp0 : l.prev = none := by
      cases hl : l.prev with
      | none => rfl
      | some y => rw [hl] at hp; exact absurd hp.1.1 (Finset.notMem_empty y)
    have hn0 : l.next = none := by
      cases hl : l.next with
      | none => rfl
      | some y => rw [hl] at hn; exact absurd hn.1.1 (Finset.notMem_empty y)
    rw [hnj, hp0, hn0, ite_self]
  have hKn0 : K ≠ ∅ → Has (m+1) K (d+1) (2 * pre (m+1) x d + (1 - bit (m+1) x d)) := fun hK => by
    by_contra hne
    exact hK (hempty hne).2.1
  have habove : ∀ i, i ≤ d → K ≠ ∅ → Has (m+1) K i (pre (m+1) x i) := fun i hi hK => by
    obtain ⟨z, hz, ez⟩ := hKn0 hK
    refine ⟨z, hz, pre_eq_of_le hi (by omega) ?_⟩
    rw [← pre_half (by omega), ez]; omega
  obtain ⟨nd2, hnd2⟩ : ∃ nd2, nd2 = upd2 nd d (pre (m+1) x d) (some { setChild u (bit (m+1) x d) false with jump := some nj }) := ⟨_, rfl⟩
  have hhalf : Half' (m+1) K x d { s1 with node := nd2, tb := tb } := by
    intro i hi p hp'
    dsimp only
    rw [hnd2]
    by_cases c : i = d ∧ p = pre (m+1) x d
    · obtain ⟨rfl, rfl⟩ := c
      rw [upd2_same]
      refine ⟨_, rfl, ?_, ?_⟩
      · intro b hb'
        show child (setChild u (bit (m+1) x i) false) b = true ↔ _
        rw [child_set _ hb hb']
        by_cases c : b = bit (m+1) x i
        · rw [if_pos c, c, ← hps]
          simp [hno (i+1) (by omega) (by omega)]
        · rw [if_neg c, fu b hb', has_insert]
          exact ⟨fun a => a.elim id fun a => by omega, Or.inl⟩
      · rw [if_neg (by omega)]
        refine ⟨?_, ?_, ?_⟩
        · intro b hb' a1 a2
          have hK : K ≠ ∅ := by obtain ⟨z, hz, _⟩ := a1; exact Finset.ne_empty_of_mem hz
          have hbe : b = bit (m+1) x i := by
            by_contra e
            have : b = 1 - bit (m+1) x i := by omega
            rw [this] at a2
            exact a2 (hKn0 hK)
          subst hbe
          obtain ⟨y, ey, hy⟩ := hfork (hKn0 hK)
          exact ⟨y, by rw [ey], hy⟩
        · intro a1 a2 _
          exfalso
          have h1 := hno (i+1) (by omega) (by omega)
          rw [hps] at h1
          rcases (by omega : bit (m+1) x i = 0 ∨ bit (m+1) x i = 1) with h | h
          · rw [h] at h1; exact h1 a1
          · rw [h] at h1; exact h1 a2
        · intro hK
          have : ¬ Has (m+1) K (i+1) (2 * pre (m+1) x i + (1 - bit (m+1) x i)) := by
            rintro ⟨z, hz, _⟩; rw [hK] at hz; exact absurd hz (Finset.notMem_empty z)
          rw [(hempty this).2.2]
    · rw [upd2_ne _ _ c, hnd, if_neg (by
        rintro ⟨a1, a2, rfl⟩
        rcases hp' with hp' | ⟨e, _⟩
        · exact hno i a1 a2 hp'
        · omega), if_neg c, n1]
      have hex : Ex (m+1) (insert x K) i p := by
        rcases hp' with hp' | hp'
        · exact Or.inl (has_insert.2 (Or.inl hp'))
        · exact Or.inr hp'
      obtain ⟨w, ew, fw, jw⟩ := I.node i hi p hex
      refine ⟨w, ew, ?_⟩
      by_cases hpth : pre (m+1) x i = p
      · subst hpth
        have hid : i < d := by
          by_contra hc
          have : d < i := by
            by_contra hc2
            have : i = d := by omega
            subst this
            exact c ⟨rfl, rfl⟩
          rcases hp' with hp' | ⟨e, _⟩
          · exact hno i this (by omega) hp'
          · omega
        have hK : K ≠ ∅ := fun hK => by
          have := (hempty (by rintro ⟨z, hz, _⟩; rw [hK] at hz; exact absurd hz (Finset.notMem_empty z))).1
          omega
        refine ⟨fun b hb' => ?_, ?_⟩
        · rw [fw b hb', has_on hi (habove (i+1) (by omega) hK)]
        · rw [if_pos ⟨hid, rfl⟩]; exact jw
      · have hK : Has (m+1) K i p := by
          rcases hp' with hp' | ⟨rfl, rfl⟩
          · exact hp'
          · exact absurd (pre_zero hxlt) hpth
        have hKne : K ≠ ∅ := by obtain ⟨z, hz, _⟩ := hK; exact Finset.ne_empty_of_mem hz
        refine ⟨(flags_off hi hpth).1 fw, ?_⟩
        rw [if_neg (fun a => hpth a.2.symm)]
        exact (jok_off hi hpth hKne).1 jw
  -- the climb
  obtain ⟨nd3, e3, hfin⟩ : ∃ nd3, climbJump (m+1) x (bit (m+1) x d) nj d { s1 with node := nd2, tb := tb } = some { s1 with node := nd3, tb := tb } ∧ Half' (m+1) K x 0 { s1 with node := nd3, tb := tb } := by
    by_cases hK : K = ∅
    · have hd0 := (hempty (by rintro ⟨z, hz, _⟩; rw [hK] at hz; exact absurd hz (Finset.notMem_empty z))).1
      subst hd0
      exact ⟨nd2, rfl, hhalf⟩
    · have ho := hKn0 hK
      obtain ⟨y, ey, hy⟩ := hfork ho
      rw [ey]
      obtain ⟨nd3, e3, h3⟩ := climbJump_ok hb y d _ (by omega) (habove d (le_refl _) hK) hhalf (Or.inr hy) (by
        obtain ⟨z, hz, ez⟩ := ho
        refine ⟨z, hz, ?_, fun _ => lt_of_pre (W := m+1) (i := d+1) (by omega), fun _ => lt_of_pre (W := m+1) (i := d+1) (by omega)⟩
        rw [← pre_half (by omega), ez]; omega)
      exact ⟨nd3, e3, h3⟩
  have e1' : ∀ F : St V → Option (St V × Option Nat), ((modLeaf s l.prev (fun a => { a with next := l.next })).bind (fun s => (modLeaf s l.next (fun a => { a with prev := l.prev })).bind F)) = F s1 := fun F => by
    have := congrArg (fun o : Option (St V) => o.bind F) e1
    simp only [Option.bind_assoc, Option.bind_some] at this
    exact this
  refine ⟨{ setLeaf { s1 with node := nd3, tb := tb } (some x) none with size := s1.size - 1 }, l.next, ?_, ?_, hn⟩
  · unfold eraseLeaf
    rw [el, Option.bind_some, e1', e2, Option.bind_some]
    dsimp only
    rw [← hnj]
    unfold modNode
    dsimp only
    have hndd : nd d (pre (m+1) x d) = some (setChild u (bit (m+1) x d) false) := by
      rw [hnd, if_neg (by omega), if_pos ⟨rfl, rfl⟩]
    rw [hndd, Option.map_some, Option.bind_some]
    rw [← hnd2, e3]
    rfl
  · refine ⟨?_, fun y hy => I.lt y (Finset.mem_insert_of_mem hy), ?_, ?_, ?_, ?_⟩
    · intro y
      by_cases c : y = x
      · subst c; simp [upd_same, hx]
      · rw [upd_ne _ _ c, ← I.mem]; simp [c]
    · intro i hi p hp'
      obtain ⟨w, ew, fw, jw⟩ := hfin i hi p hp'
      rw [if_neg (by omega)] at jw
      exact ⟨w, ew, fw, jw⟩
    · intro a ha
      obtain ⟨w, ew, hw⟩ := l1 a ha
      refine ⟨w, ?_, hw⟩
      unfold setLeaf
      dsimp only
      rw [if_neg (fun e => by rw [e] at ha; exact hx ha)]
      exact ew
    · dsimp only
      rw [z1, I.size, Finset.card_insert_of_notMem hx]
      rfl
    · intro i p
      show tb i p = true ↔ _
      rw [htb, t1, I.tb, has_insert]
      constructor
      · rintro ⟨⟨a1, a2, a3 | a3⟩ | a, b⟩
        · exact Or.inl ⟨a1, a2, a3⟩
        · refine Or.inl ⟨a1, a2, ?_⟩
          have hid : i ≤ d := by
            by_contra hc
            exact b ⟨by omega, a2, a3.symm⟩
          subst a3
          refine habove i hid fun hK => ?_
          have := (hempty (by rintro ⟨z, hz, _⟩; rw [hK] at hz; exact absurd hz (Finset.notMem_empty z))).1
          omega
        · exact Or.inr a
      · rintro (⟨a1, a2, a3⟩ | a)
        · exact ⟨Or.inl ⟨a1, a2, Or.inl a3⟩, fun ⟨b1, b2, b3⟩ => hno i b1 b2 (b3 ▸ a3)⟩
        · exact ⟨Or.inr a, fun ⟨b1, _, _⟩ => by omega⟩

end Verif.Trie
