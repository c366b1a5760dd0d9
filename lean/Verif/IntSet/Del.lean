import Verif.IntSet.Ins
/-! `erase`.  Here `K` is the set without `x`, so the trie is for `insert x K` before the call. -/
namespace Verif.IntSet
open Verif
open Verif.Trie (Lf bit pre bit_lt pre_succ pre_W pre_zero pre_mono lt_of_pre pre_half pre_eq_of_le Has Ext Ex IsMin IsMax IsNext IsPrev Above Below Ptr LOk Top ex_of no_of_succ
  has_insert has_off ext_off has_on insert_ne_empty next_ins_iff prev_ins_iff next_del_x prev_del_x next_del_pr prev_del_nx ptr_mono)

variable {V : Type} {W x y z i j p q h d : Nat} {K : Finset Nat} {s : St V} {val : Nat → Option V} {v : V} {pr nx : Option Nat}

theorem unlink_ok (hleaf : ∀ a, Ptr (insert x K) a → ∃ l, s.leaf a = some l ∧ LOk (insert x K) val a l) (hx : x ∉ K) :
    ∃ l lf, s.leaf (some x) = some l ∧ IsPrev K (some x) l.prev ∧ IsNext K (some x) l.next ∧
      ((modLeaf s l.prev (fun a => { a with next := l.next })).bind (fun s => modLeaf s l.next (fun a => { a with prev := l.prev }))) = some { s with leaf := lf } ∧
      ∀ a, Ptr K a → ∃ l, lf a = some l ∧ LOk K (upd val x none) a l := by
  obtain ⟨l, el, lp, ln, lv⟩ := hleaf (some x) (Finset.mem_insert_self _ _)
  have hp := prev_del_x lp
  have hn := next_del_x ln
  obtain ⟨pl, epl, pp, pn, pv⟩ := hleaf l.prev (ptr_mono hp.ptr)
  obtain ⟨nl, enl, np, nn, nv⟩ := hleaf l.next (ptr_mono hn.ptr)
  have hbind : ∀ a : Option Nat, Ptr K a → a.bind (upd val x none) = a.bind val := fun a ha => by
    cases a with
    | none => rfl
    | some y => exact upd_ne _ _ (fun e => hx (e ▸ ha))
  refine ⟨l, fun a => if a = l.next then (if a = l.prev then some { pl with next := l.next, prev := l.prev } else some { nl with prev := l.prev })
        else if a = l.prev then some { pl with next := l.next } else s.leaf a, el, hp, hn, ?_, ?_⟩
  · unfold modLeaf
    rw [epl, Option.map_some, Option.bind_some]
    dsimp only
    by_cases hpn : l.next = l.prev
    · rw [if_pos hpn]
      dsimp only [Option.map_some]
      congr 2
      funext a
      by_cases h1 : a = l.next
      · rw [if_pos h1, if_pos h1, if_pos (h1.trans hpn)]
      · have h2 : a ≠ l.prev := fun h => h1 (h.trans hpn.symm)
        rw [if_neg h1, if_neg h1]
    · rw [if_neg hpn, enl]
      dsimp only [Option.map_some]
      congr 2
      funext a
      by_cases h1 : a = l.next
      · rw [if_pos h1, if_pos h1, if_neg (fun h => hpn (h1.symm.trans h))]
      · rw [if_neg h1, if_neg h1]
  · intro a ha
    dsimp only
    obtain ⟨w, ew, wp, wn, wv⟩ := hleaf a (ptr_mono ha)
    by_cases h1 : a = l.next
    · rw [if_pos h1]
      rw [h1, enl] at ew
      cases ew
      by_cases h2 : a = l.prev
      · rw [if_pos h2]
        refine ⟨_, rfl, ?_, ?_, ?_⟩
        · rw [h1]; exact prev_del_nx hx hn hp
        · rw [h2]; exact next_del_pr hx hp hn
        · rw [hbind _ ha, h2]; exact pv
      · rw [if_neg h2]
        refine ⟨_, rfl, ?_, (next_ins_iff hx hp ha h2).1 wn, by rw [hbind _ ha]; exact wv⟩
        rw [h1]; exact prev_del_nx hx hn hp
    · rw [if_neg h1]
      by_cases h2 : a = l.prev
      · rw [if_pos h2]
        rw [h2, epl] at ew
        cases ew
        refine ⟨_, rfl, (prev_ins_iff hx hn ha h1).1 wp, ?_, by rw [hbind _ ha]; exact wv⟩
        rw [h2]; exact next_del_pr hx hp hn
      · rw [if_neg h2]
        exact ⟨w, ew, (prev_ins_iff hx hn ha h1).1 wp, (next_ins_iff hx hp ha h2).1 wn, by rw [hbind _ ha]; exact wv⟩

/-! ### releasing the path -/

/-- A node whose child towards `x` is cut off. -/
def cut (W x i : Nat) (u : Nd) : Nd := ⟨upd u.mask (bit W x i) (!(u.mask (bit W x i))), upd u.ch (bit W x i) .null⟩

theorem climbDel_ok : ∀ i (s : St V), i < W → (∀ j ≤ i, ∃ u, s.node j (pre W x j) = some u ∧ Fl W (insert x K) j (pre W x j) u) →
    (∀ j, 1 ≤ j → j ≤ i + 1 → s.tb j (pre W x j) = true) → ¬ Has W K (i+1) (pre W x (i+1)) → Has W K 0 (pre W x 0) →
    ∃ d u nd tb, d ≤ i ∧ climbDel W x (i+1) s = some ({ s with node := nd, tb := tb }, some d) ∧ s.node d (pre W x d) = some u ∧ Fl W (insert x K) d (pre W x d) u ∧
      (∀ j q, nd j q = if d < j ∧ j ≤ i + 1 ∧ q = pre W x j then none else if j = d ∧ q = pre W x d then some (cut W x d u) else s.node j q) ∧
      (∀ j q, tb j q = true ↔ s.tb j q = true ∧ ¬ (d < j ∧ j ≤ i + 1 ∧ q = pre W x j)) ∧
      (∀ j, d < j → j ≤ i + 1 → ¬ Has W K j (pre W x j)) ∧
      Has W K (d+1) (2 * pre W x d + (1 - bit W x d)) := by
  intro i
  induction i with
  | zero =>
    intro s hi hu ht hno hroot
    obtain ⟨u, eu, fu⟩ := hu 0 (le_refl _)
    have hb := bit_lt W x 0
    have hps := pre_succ (x := x) hi
    have hoth : Has W K 1 (2 * pre W x 0 + (1 - bit W x 0)) := by
      obtain ⟨z, hz, ez⟩ := hroot
      have h1 := pre_succ (x := z) hi
      have h2 := bit_lt W z 0
      by_cases e : bit W z 0 = bit W x 0
      · exact absurd ⟨z, hz, by rw [h1, hps, ez, e]⟩ hno
      · exact ⟨z, hz, by rw [h1, ez]; omega⟩
    have hmask : (cut W x 0 u).mask (1 - bit W x 0) = true := by
      unfold cut
      dsimp only
      rw [upd_ne _ _ (by omega), (fu _ (by omega)).1, has_insert]
      exact Or.inl hoth
    refine ⟨0, u, upd2 (upd2 s.node 1 (pre W x 1) none) 0 (pre W x 0) (some (cut W x 0 u)), upd2 s.tb 1 (pre W x 1) false, le_refl _, ?_, eu, fu, ?_, ?_, ?_, hoth⟩
    · unfold climbDel modNode
      rw [if_pos (ht 1 (le_refl _) (le_refl _))]
      dsimp only
      rw [upd2_ne _ _ (by omega), eu, Option.map_some, Option.bind_some]
      dsimp only
      rw [upd2_same, Option.bind_some]
      exact if_pos hmask
    · intro j q
      by_cases c : 0 < j ∧ j ≤ 0 + 1 ∧ q = pre W x j
      · rw [if_pos c]
        have : j = 1 := by omega
        subst this
        rw [c.2.2, upd2_ne _ _ (by omega), upd2_same]
      · rw [if_neg c]
        by_cases c2 : j = 0 ∧ q = pre W x 0
        · rw [if_pos c2, c2.1, c2.2, upd2_same]
        · rw [if_neg c2, upd2_ne _ _ c2, upd2_ne _ _ (by
            rintro ⟨rfl, rfl⟩
            exact c ⟨by omega, by omega, rfl⟩)]
    · intro j q
      unfold upd2
      by_cases c : j = 1 ∧ q = pre W x 1
      · obtain ⟨rfl, rfl⟩ := c
        simp
      · rw [if_neg c]
        constructor
        · intro h; refine ⟨h, ?_⟩
          rintro ⟨a, b, e⟩
          have : j = 1 := by omega
          subst this
          exact c ⟨rfl, e⟩
        · exact fun h => h.1
    · intro j h1 h2
      have : j = 1 := by omega
      subst this
      exact hno
  | succ i ih =>
    intro s hi hu ht hno hroot
    obtain ⟨u, eu, fu⟩ := hu (i+1) (le_refl _)
    have hb := bit_lt W x (i+1)
    have hps := pre_succ (x := x) hi
    have hch : (cut W x (i+1) u).mask (1 - bit W x (i+1)) = true ↔ Has W K (i+2) (2 * pre W x (i+1) + (1 - bit W x (i+1))) := by
      unfold cut
      dsimp only
      rw [upd_ne _ _ (by omega), (fu _ (by omega)).1, has_insert]
      exact ⟨fun a => a.elim id fun a => by omega, Or.inl⟩
    unfold climbDel modNode
    rw [if_pos (ht (i+2) (by omega) (by omega))]
    dsimp only
    rw [upd2_ne _ _ (by omega), eu, Option.map_some, Option.bind_some]
    dsimp only
    rw [upd2_same, Option.bind_some]
    by_cases c : (cut W x (i+1) u).mask (1 - bit W x (i+1)) = true
    · refine ⟨i+1, u, _, _, le_refl _, if_pos c, eu, fu, ?_, ?_, ?_, hch.1 c⟩
      · intro j q
        by_cases c1 : i + 1 < j ∧ j ≤ i + 1 + 1 ∧ q = pre W x j
        · rw [if_pos c1]
          have : j = i + 2 := by omega
          subst this
          rw [c1.2.2, upd2_ne _ _ (by omega), upd2_same]
        · rw [if_neg c1]
          by_cases c2 : j = i + 1 ∧ q = pre W x (i+1)
          · rw [if_pos c2, c2.1, c2.2, upd2_same]; rfl
          · rw [if_neg c2, upd2_ne _ _ c2, upd2_ne _ _ (by
              rintro ⟨rfl, rfl⟩
              exact c1 ⟨by omega, by omega, rfl⟩)]
      · intro j q
        unfold upd2
        by_cases c1 : j = i + 1 + 1 ∧ q = pre W x (i+1+1)
        · obtain ⟨rfl, rfl⟩ := c1
          simp
        · rw [if_neg c1]
          constructor
          · intro h; refine ⟨h, ?_⟩
            rintro ⟨a, b, e⟩
            have : j = i + 2 := by omega
            subst this
            exact c1 ⟨rfl, e⟩
          · exact fun h => h.1
      · intro j h1 h2
        have : j = i + 2 := by omega
        subst this
        exact hno
    · have hno' : ¬ Has W K (i+1) (pre W x (i+1)) := by
        rintro ⟨z, hz, ez⟩
        have h1 := pre_succ (x := z) hi
        have h2 := bit_lt W z (i+1)
        by_cases e : bit W z (i+1) = bit W x (i+1)
        · exact hno ⟨z, hz, by rw [h1, hps, ez, e]⟩
        · exact c (hch.2 ⟨z, hz, by rw [h1, ez]; omega⟩)
      obtain ⟨d, u', nd, tb, hd, e, eu', fu', hnd, htb, hnh, hor⟩ := ih { s with
          tb := upd2 s.tb (i+1+1) (pre W x (i+1+1)) false
          node := upd2 (upd2 s.node (i+1+1) (pre W x (i+1+1)) none) (i+1) (pre W x (i+1)) (some (cut W x (i+1) u)) } (by omega)
        (fun j hj => by
          obtain ⟨w, ew, fw⟩ := hu j (by omega)
          exact ⟨w, by dsimp only; rw [upd2_ne _ _ (by omega), upd2_ne _ _ (by omega)]; exact ew, fw⟩)
        (fun j h1 h2 => by dsimp only; rw [upd2_ne _ _ (by omega)]; exact ht j h1 (by omega)) hno' hroot
      dsimp only at eu' hnd htb
      rw [upd2_ne _ _ (by omega), upd2_ne _ _ (by omega)] at eu'
      refine ⟨d, u', nd, tb, by omega, (if_neg c).trans e, eu', fu', ?_, ?_, ?_, hor⟩
      · intro j q
        rw [hnd]
        by_cases c1 : d < j ∧ j ≤ i + 1 ∧ q = pre W x j
        · rw [if_pos c1, if_pos ⟨c1.1, by omega, c1.2.2⟩]
        · rw [if_neg c1]
          by_cases c2 : j = d ∧ q = pre W x d
          · rw [if_pos c2, if_neg (by omega), if_pos c2]
          · rw [if_neg c2, if_neg c2]
            by_cases c3 : j = i + 1 ∧ q = pre W x (i+1)
            · exact absurd ⟨by omega, by omega, by rw [c3.2, c3.1]⟩ c1
            · rw [upd2_ne _ _ c3]
              by_cases c4 : j = i + 1 + 1 ∧ q = pre W x (i+1+1)
              · rw [c4.1, c4.2, upd2_same, if_pos ⟨by omega, by omega, rfl⟩]
              · rw [upd2_ne _ _ c4, if_neg]
                rintro ⟨a, b, e⟩
                by_cases hj : j = i + 2
                · subst hj; exact c4 ⟨rfl, e⟩
                · exact c1 ⟨a, by omega, e⟩
      · intro j q
        rw [htb]
        unfold upd2
        by_cases c4 : j = i + 1 + 1 ∧ q = pre W x (i+1+1)
        · obtain ⟨rfl, rfl⟩ := c4
          simp
          omega
        · rw [if_neg c4]
          constructor
          · rintro ⟨a, b⟩
            refine ⟨a, ?_⟩
            rintro ⟨a1, b1, e⟩
            by_cases hj : j = i + 2
            · subst hj; exact c4 ⟨rfl, e⟩
            · exact b ⟨a1, by omega, e⟩
          · rintro ⟨a, b⟩
            exact ⟨a, fun ⟨a1, b1, e⟩ => b ⟨a1, by omega, e⟩⟩
      · intro j h1 h2
        by_cases hj : j = i + 2
        · subst hj; exact hno
        · exact hnh j h1 (by omega)

/-! ### threads to the neighbours -/

theorem ext_prev (hp : IsPrev K (some x) pr) (hz : z ∈ K) (ez : pre W z i = pre W x i) (hall : ∀ t ∈ K, pre W t i = pre W x i → t < x) :
    ∃ y, pr = some y ∧ Ext W K 1 i (pre W x i) y := by
  cases pr with
  | none => exact absurd ⟨hz, hall z hz ez⟩ (hp z)
  | some y =>
    have h1 : y < x := hp.1.2
    refine ⟨y, rfl, hp.1.1, pre_between (hp.2 z ⟨hz, hall z hz ez⟩) (le_of_lt h1) ez, fun t ht et => ⟨fun _ => hp.2 t ⟨ht, hall t ht et⟩, fun h => by cases h⟩⟩

theorem ext_next (hn : IsNext K (some x) nx) (hz : z ∈ K) (ez : pre W z i = pre W x i) (hall : ∀ t ∈ K, pre W t i = pre W x i → x < t) :
    ∃ y, nx = some y ∧ Ext W K 0 i (pre W x i) y := by
  cases nx with
  | none => exact absurd ⟨hz, hall z hz ez⟩ (hn z)
  | some y =>
    have h1 : x < y := hn.1.2
    have h2 := pre_between (W := W) (i := i) (le_of_lt h1) (hn.2 z ⟨hz, hall z hz ez⟩) ez.symm
    exact ⟨y, rfl, hn.1.1, by rw [h2, ez], fun t ht et => ⟨fun h => absurd h (by decide), fun _ => hn.2 t ⟨ht, hall t ht et⟩⟩⟩

/-- Path nodes above depth `d` still have the threads for all keys. -/
def Half' (W : Nat) (K : Finset Nat) (x d : Nat) (s : St V) : Prop :=
  ∀ i < W, ∀ p, Ex W K i p → ∃ u, s.node i p = some u ∧ Fl W K i p u ∧ (if i < d ∧ p = pre W x i then Th W (insert x K) i p u else Th W K i p u)

theorem rethread1 (hi : i < W) {l : Lf V} (hp : IsPrev K (some x) l.prev) (hn : IsNext K (some x) l.next) (hxK : x ∉ K) (hhas : Has W K (i+1) (pre W x (i+1))) {u : Nd}
    (hf : Fl W K i (pre W x i) u) (ht : Th W (insert x K) i (pre W x i) u) {w : Nd}
    (hw : w = if u.ch (1 - bit W x i) = .thr (some x) then ⟨u.mask, upd u.ch (1 - bit W x i) (.thr (if bit W x i = 0 then l.prev else l.next))⟩ else u) :
    Fl W K i (pre W x i) w ∧ Th W K i (pre W x i) w := by
  have hb := bit_lt W x i
  have hps := pre_succ (x := x) hi
  have hhas' : Has W K (i+1) (2 * pre W x i + bit W x i) := hps ▸ hhas
  have hon : ∀ b, Has W (insert x K) (i+1) b ↔ Has W K (i+1) b := fun b => has_on hi hhas
  have side : ∀ b < 2, ¬ Has W K (i+1) (2 * pre W x i + b) → b = 1 - bit W x i := fun b hb2 hno => by
    have : b ≠ bit W x i := fun e => hno (e ▸ hhas')
    omega
  by_cases c : u.ch (1 - bit W x i) = .thr (some x)
  · rw [if_pos c] at hw
    subst hw
    have hno : ¬ Has W K (i+1) (2 * pre W x i + (1 - bit W x i)) := fun hh => by
      rw [(hf _ (by omega)).2 hh] at c; cases c
    refine ⟨fun b hb2 => ⟨(hf b hb2).1, fun hh => ?_⟩, fun b hb2 hno' => ?_⟩
    · have hne : b ≠ 1 - bit W x i := fun e => hno (e ▸ hh)
      dsimp only
      rw [upd_ne _ _ hne]
      exact (hf b hb2).2 hh
    · have hbe := side b hb2 hno'
      have hext : Ext W (insert x K) (1 - bit W x i) i (pre W x i) x := by
        rcases ht _ (by omega) (fun a => hno ((hon _).1 a)) with ⟨e, _⟩ | ⟨y, ey, hy⟩
        · exact absurd e insert_ne_empty
        · rw [c] at ey; cases ey; exact hy
      obtain ⟨z, hz, ez⟩ := hhas.up (Nat.le_succ i) (by omega)
      have hne : ∀ t ∈ K, t ≠ x := fun t ht e => hxK (e ▸ ht)
      subst hbe
      dsimp only
      rw [upd_same]
      right
      by_cases c0 : bit W x i = 0
      · rw [if_pos c0]
        obtain ⟨y, ey, hy⟩ := ext_prev hp hz ez (fun t ht et => by
          have := (hext.2.2 t (Finset.mem_insert_of_mem ht) et).1 (by omega)
          have := hne t ht; omega)
        exact ⟨y, by rw [ey], by rw [c0]; exact hy⟩
      · have c1 : bit W x i = 1 := by omega
        rw [if_neg c0]
        obtain ⟨y, ey, hy⟩ := ext_next hn hz ez (fun t ht et => by
          have := (hext.2.2 t (Finset.mem_insert_of_mem ht) et).2 (by omega)
          have := hne t ht; omega)
        exact ⟨y, by rw [ey], by rw [c1]; exact hy⟩
  · rw [if_neg c] at hw
    subst hw
    refine ⟨hf, fun b hb2 hno => ?_⟩
    have hbe := side b hb2 hno
    rcases ht b hb2 (fun a => hno ((hon _).1 a)) with ⟨e, _⟩ | ⟨y, ey, hy⟩
    · exact absurd e insert_ne_empty
    · refine Or.inr ⟨y, ey, ?_, hy.2.1, fun z hz ez => hy.2.2 z (Finset.mem_insert_of_mem hz) ez⟩
      rcases Finset.mem_insert.1 hy.1 with e | hy1
      · exact absurd (by rw [← hbe, ey, e]) c
      · exact hy1

theorem rethread_ok {l : Lf V} (hp : IsPrev K (some x) l.prev) (hn : IsNext K (some x) l.next) (hxK : x ∉ K) : ∀ d (s : St V), d ≤ W → Has W K d (pre W x d) → Half' W K x d s →
    ∃ nd, rethread W x l d s = some { s with node := nd } ∧ Half' W K x 0 { s with node := nd } := by
  intro d
  induction d with
  | zero => intro s _ _ hh; exact ⟨s.node, rfl, hh⟩
  | succ d ih =>
    intro s hd hhas hh
    have hhd := hhas.up (Nat.le_succ d) (by omega)
    obtain ⟨u, eu, fu, mu⟩ := hh d (by omega) (pre W x d) (Or.inl hhd)
    rw [if_pos ⟨by omega, rfl⟩] at mu
    unfold rethread modNode
    rw [eu, Option.map_some, Option.bind_some]
    beta_reduce
    obtain ⟨f1, t1⟩ := rethread1 (by omega) hp hn hxK hhas fu mu rfl
    generalize (if u.ch (1 - bit W x d) = .thr (some x) then (⟨u.mask, upd u.ch (1 - bit W x d) (.thr (if bit W x d = 0 then l.prev else l.next))⟩ : Nd) else u) = w at f1 t1 ⊢
    obtain ⟨nd, e, hn'⟩ := ih { s with node := upd2 s.node d (pre W x d) (some w) } (by omega) hhd (by
      intro i hi p hp
      dsimp only
      by_cases c : i = d ∧ p = pre W x d
      · obtain ⟨rfl, rfl⟩ := c
        exact ⟨w, by rw [upd2_same], f1, by rw [if_neg (by omega)]; exact t1⟩
      · rw [upd2_ne _ _ c]
        obtain ⟨u', eu', fu', ju'⟩ := hh i hi p hp
        refine ⟨u', eu', fu', ?_⟩
        by_cases c' : i < d ∧ p = pre W x i
        · rw [if_pos c']; rw [if_pos ⟨by omega, c'.2⟩] at ju'; exact ju'
        · rw [if_neg c']
          rw [if_neg (by
            rintro ⟨a, b⟩
            by_cases e : i = d
            · subst e; exact c ⟨rfl, b⟩
            · exact c' ⟨by omega, b⟩)] at ju'
          exact ju')
    exact ⟨nd, e, hn'⟩

/-! ### erasing -/

theorem eraseLeaf_ok (hW : 0 < W) (I : Inv W s (insert x K) val) (hxK : x ∉ K) (hK : K ≠ ∅) :
    ∃ s' r, eraseLeaf W s x = some (s', r) ∧ Inv W s' K (upd val x none) ∧ IsPrev K (some x) r := by
  have hx : x < 2 ^ W := I.lt x (Finset.mem_insert_self _ _)
  obtain ⟨l, lf, el, hp, hn, eu, hlf⟩ := unlink_ok I.leaf hxK
  have hself : ∀ j, Has W (insert x K) j (pre W x j) := fun j => ⟨x, Finset.mem_insert_self _ _, rfl⟩
  obtain ⟨z0, hz0⟩ := Finset.nonempty_iff_ne_empty.2 hK
  obtain ⟨d, u, nd, tb, hd, ec, eud, fud, hnd, htb, hnh, hoth⟩ := climbDel_ok (x := x) (K := K) (W - 1) { s with leaf := lf } (by omega)
    (fun j hj => by
      obtain ⟨u, e, f, _⟩ := I.node j (by omega) (pre W x j) (Or.inl (hself j))
      exact ⟨u, e, f⟩)
    (fun j h1 h2 => (I.tb _ _).2 (Or.inl ⟨h1, by omega, hself j⟩))
    (by rintro ⟨t, ht, et⟩
        rw [show W - 1 + 1 = W by omega, pre_W, pre_W] at et
        exact hxK (et ▸ ht))
    ⟨z0, hz0, by rw [pre_zero hx, pre_zero (I.lt z0 (Finset.mem_insert_of_mem hz0))]⟩
  rw [show W - 1 + 1 = W by omega] at ec hnd htb hnh
  have hdW : d < W := by omega
  have hb := bit_lt W x d
  have hps := pre_succ (x := x) hdW
  have hnod : ¬ Has W K (d+1) (2 * pre W x d + bit W x d) := by rw [← hps]; exact hnh (d+1) (by omega) (by omega)
  have hhasd : Has W K d (pre W x d) := by
    obtain ⟨z, hz, ez⟩ := hoth
    exact ⟨z, hz, by rw [← pre_half hdW, ez]; omega⟩
  -- the node where the path is cut
  have hw : ∀ w : Nd, w = ⟨(cut W x d u).mask, upd (cut W x d u).ch (bit W x d) (.thr (if bit W x d = 0 then l.next else l.prev))⟩ → Fl W K d (pre W x d) w ∧ Th W K d (pre W x d) w := by
    rintro w rfl
    have hmx : u.mask (bit W x d) = true := (fud _ hb).1.2 (by rw [← hps]; exact hself (d+1))
    have heq : ∀ b, b ≠ bit W x d → (Has W (insert x K) (d+1) (2 * pre W x d + b) ↔ Has W K (d+1) (2 * pre W x d + b)) := fun b hne => by
      rw [has_insert]
      exact ⟨fun a => a.elim id fun a => by omega, Or.inl⟩
    refine ⟨fun b hb2 => ?_, fun b hb2 hno => ?_⟩
    · unfold cut
      dsimp only
      by_cases c : b = bit W x d
      · subst c
        rw [upd_same, hmx]
        exact ⟨⟨fun e => Bool.noConfusion e, fun e => absurd e hnod⟩, fun e => absurd e hnod⟩
      · rw [upd_ne _ _ c, upd_ne _ _ c, upd_ne _ _ c, ← heq b c]
        exact fud b hb2
    · have hbe : b = bit W x d := by
        by_contra hne
        have : b = 1 - bit W x d := by omega
        exact hno (this ▸ hoth)
      subst hbe
      unfold cut
      dsimp only
      rw [upd_same]
      right
      obtain ⟨z, hz, ez⟩ := hhasd
      have hside : ∀ t ∈ K, pre W t d = pre W x d → pre W t (d+1) = 2 * pre W x d + (1 - bit W x d) := fun t ht et => by
        have h1 := pre_succ (x := t) hdW
        have h2 := bit_lt W t d
        have h3 : bit W t d ≠ bit W x d := fun e => hnod ⟨t, ht, by rw [h1, et, e]⟩
        rw [h1, et]; omega
      by_cases c0 : bit W x d = 0
      · rw [if_pos c0]
        obtain ⟨y, ey, hy⟩ := ext_next hn hz ez (fun t ht et => lt_of_pre (W := W) (i := d+1) (by rw [hside t ht et]; omega))
        exact ⟨y, by rw [ey], by rw [c0]; exact hy⟩
      · have c1 : bit W x d = 1 := by omega
        rw [if_neg c0]
        obtain ⟨y, ey, hy⟩ := ext_prev hp hz ez (fun t ht et => lt_of_pre (W := W) (i := d+1) (by rw [hside t ht et]; omega))
        exact ⟨y, by rw [ey], by rw [c1]; exact hy⟩
  obtain ⟨fw, tw⟩ := hw _ rfl
  generalize hwd : (⟨(cut W x d u).mask, upd (cut W x d u).ch (bit W x d) (.thr (if bit W x d = 0 then l.next else l.prev))⟩ : Nd) = w at fw tw
  have hndd : nd d (pre W x d) = some (cut W x d u) := by rw [hnd, if_neg (by omega), if_pos ⟨rfl, rfl⟩]
  have hhalf : Half' W K x d ({ s with leaf := lf, node := upd2 nd d (pre W x d) (some w), tb := tb } : St V) := by
    intro i hi p hpx
    dsimp only
    by_cases c : i = d ∧ p = pre W x d
    · obtain ⟨rfl, rfl⟩ := c
      exact ⟨w, by rw [upd2_same], fw, by rw [if_neg (by omega)]; exact tw⟩
    · rw [upd2_ne _ _ c, hnd]
      dsimp only
      have c1 : ¬ (d < i ∧ i ≤ W ∧ p = pre W x i) := by
        rintro ⟨a1, a2, rfl⟩
        rcases hpx with h1 | ⟨h1, _⟩
        · exact hnh i a1 a2 h1
        · omega
      rw [if_neg c1, if_neg c]
      by_cases c2 : p = pre W x i
      · subst c2
        have hid : i < d := by
          by_contra hc
          by_cases e : i = d
          · subst e; exact c ⟨rfl, rfl⟩
          · exact c1 ⟨by omega, by omega, rfl⟩
        obtain ⟨w', ew, fw', tw'⟩ := I.node i hi (pre W x i) (Or.inl (hself i))
        have hon := hhasd.up (i := i+1) (by omega) (by omega)
        refine ⟨w', ew, fun b hb2 => ?_, by rw [if_pos ⟨hid, rfl⟩]; exact tw'⟩
        rw [← has_on hi hon]
        exact fw' b hb2
      · have hne : pre W x i ≠ p := fun e => c2 e.symm
        have hpo : Has W K i p := by
          rcases hpx with h1 | ⟨rfl, rfl⟩
          · exact h1
          · exact absurd (pre_zero hx) hne
        obtain ⟨w', ew, fw', tw'⟩ := I.node i hi p (Or.inl (by rw [has_insert]; exact Or.inl hpo))
        refine ⟨w', ew, fun b hb2 => by rw [← has_off hi hne hb2]; exact fw' b hb2, ?_⟩
        rw [if_neg (fun a => c2 a.2)]
        intro b hb2 hno
        rw [← has_off hi hne hb2] at hno
        rcases tw' b hb2 hno with ⟨e, _⟩ | ⟨y, e, hy⟩
        · exact absurd e insert_ne_empty
        · exact Or.inr ⟨y, e, (ext_off hne).1 hy⟩
  obtain ⟨nd', er, hfin⟩ := rethread_ok hp hn hxK d _ (by omega) hhasd hhalf
  refine ⟨{ s with node := nd', tb := tb, size := s.size - 1, leaf := fun b => if b = some x then some { l with v := none } else lf b }, l.prev, ?_, ?_, hp⟩
  · unfold eraseLeaf
    rw [el, Option.bind_some, ← Option.bind_assoc, eu, Option.bind_some, ec, Option.bind_some]
    dsimp only
    unfold modNode
    dsimp only
    rw [hndd, Option.map_some, Option.bind_some, hwd, er]
    rfl
  · refine ⟨fun y => ?_, fun y hy => I.lt y (Finset.mem_insert_of_mem hy), fun i hi p hpx => ?_, fun a ha => ?_, ?_, fun i p => ?_⟩
    · by_cases c : y = x
      · subst c; simp [upd_same, hxK]
      · rw [upd_ne _ _ c, ← I.mem, Finset.mem_insert]; simp [c]
    · obtain ⟨w', ew, fw', jw⟩ := hfin i hi p hpx
      rw [if_neg (by omega)] at jw
      exact ⟨w', ew, fw', jw⟩
    · dsimp only
      rw [if_neg (fun e => by rw [e] at ha; exact hxK ha)]
      exact hlf a ha
    · dsimp only
      rw [I.size, Finset.card_insert_of_notMem hxK]; rfl
    · dsimp only
      rw [htb]
      dsimp only
      rw [I.tb, has_insert]
      constructor
      · rintro ⟨⟨a1, a2, a3 | a3⟩ | a, b⟩
        · exact Or.inl ⟨a1, a2, a3⟩
        · by_cases e : i ≤ d
          · exact Or.inl ⟨a1, a2, a3 ▸ hhasd.up e (by omega)⟩
          · exact absurd ⟨by omega, a2, a3.symm⟩ b
        · exact Or.inr a
      · rintro (⟨a1, a2, a3⟩ | a)
        · exact ⟨Or.inl ⟨a1, a2, Or.inl a3⟩, fun ⟨b1, b2, b3⟩ => hnh i b1 b2 (b3 ▸ a3)⟩
        · exact ⟨Or.inr a, fun ⟨b1, _⟩ => by omega⟩

end Verif.IntSet
