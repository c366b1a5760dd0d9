import Verif.IntSet.Basic
import Verif.Trie.Range
/-! `_insert_subtree`, `_insert`, `_insert_hint`. -/
namespace Verif.IntSet
open Verif
open Verif.Trie (Lf bit pre bit_lt pre_succ pre_W pre_zero pre_mono lt_of_pre pre_half pre_eq_of_le Has Ext Ex IsMin IsMax IsNext IsPrev Above Below Ptr LOk Top ex_of no_of_succ
  has_insert has_off ext_off has_on insert_ne_empty next_ins_pr prev_ins_nx next_ins_x prev_ins_x next_ins_iff prev_ins_iff next_of_prev prev_of_next)

variable {V : Type} {W x y z i j p h d : Nat} {K : Finset Nat} {s : St V} {val : Nat → Option V} {v : V} {pr nx : Option Nat}

/-! ### the links -/

theorem link_ok (hleaf : ∀ a, Ptr K a → ∃ l, s.leaf a = some l ∧ LOk K val a l) (hx : x ∉ K) (hp : IsPrev K (some x) pr) :
    ∃ lf, link s x v pr = some { s with leaf := lf } ∧
      ∀ a, Ptr (insert x K) a → ∃ l, lf a = some l ∧ LOk (insert x K) (upd val x (some v)) a l := by
  obtain ⟨pl, epl, pp, pn, pv⟩ := hleaf pr hp.ptr
  have hn : IsNext K (some x) pl.next := next_of_prev hx hp pn
  obtain ⟨nl, enl, np, nn, nv⟩ := hleaf pl.next hn.ptr
  have hprx : pr ≠ some x := fun e => by have := hp.ptr; rw [e] at this; exact hx this
  have hnxx : pl.next ≠ some x := fun e => by have := hn.ptr; rw [e] at this; exact hx this
  have hbind : ∀ a : Option Nat, Ptr K a → a.bind (upd val x (some v)) = a.bind val := fun a ha => by
    cases a with
    | none => rfl
    | some y => exact upd_ne _ _ (fun e => hx (e ▸ ha))
  refine ⟨fun a => if a = pr then (if a = pl.next then some { pl with prev := some x, next := some x } else some { pl with next := some x })
        else if a = pl.next then some { nl with prev := some x } else if a = some x then some ⟨pr, pl.next, some v⟩ else s.leaf a, ?_, ?_⟩
  · unfold link modLeaf
    rw [epl, Option.bind_some]
    dsimp only
    rw [if_neg hnxx, enl, Option.map_some, Option.bind_some]
    dsimp only
    by_cases hpn : pr = pl.next
    · rw [if_pos hpn]
      dsimp only [Option.map_some]
      have hnp : nl = pl := by rw [← hpn, epl] at enl; injection enl with e; exact e.symm
      congr 2
      funext a
      by_cases h1 : a = pr
      · rw [if_pos h1, if_pos h1, if_pos (h1.trans hpn), hnp]
      · rw [if_neg h1, if_neg h1]
    · rw [if_neg hpn, if_neg hprx, epl]
      dsimp only [Option.map_some]
      congr 2
      funext a
      by_cases h1 : a = pr
      · rw [if_pos h1, if_pos h1, if_neg (fun h => hpn (h1.symm.trans h))]
      · rw [if_neg h1, if_neg h1]
  · intro a ha
    dsimp only
    rcases ha.insert with rfl | ha
    · rw [if_neg hprx.symm, if_neg hnxx.symm, if_pos rfl]
      exact ⟨_, rfl, prev_ins_x hp, next_ins_x hn, by simp [upd_same]⟩
    · have hax : a ≠ some x := fun e => by rw [e] at ha; exact hx ha
      obtain ⟨l, el, lp, ln, lv⟩ := hleaf a ha
      by_cases h1 : a = pr
      · rw [if_pos h1]
        subst h1
        rw [epl] at el
        cases el
        by_cases h2 : a = pl.next
        · rw [if_pos h2]
          refine ⟨_, rfl, ?_, next_ins_pr hx hp, by rw [hbind _ ha]; exact lv⟩
          have := prev_ins_nx hx hn
          rw [← h2] at this
          exact this
        · rw [if_neg h2]
          exact ⟨_, rfl, (prev_ins_iff hx hn ha h2).2 lp, next_ins_pr hx hp, by rw [hbind _ ha]; exact lv⟩
      · rw [if_neg h1]
        by_cases h2 : a = pl.next
        · rw [if_pos h2]
          subst h2
          rw [enl] at el
          cases el
          exact ⟨_, rfl, prev_ins_nx hx hn, (next_ins_iff hx hp ha h1).2 ln, by rw [hbind _ ha]; exact lv⟩
        · rw [if_neg h2, if_neg hax]
          exact ⟨l, el, (prev_ins_iff hx hn ha h2).2 lp, (next_ins_iff hx hp ha h1).2 ln, by rw [hbind _ ha]; exact lv⟩

/-! ### the new path -/

/-- A node with its child towards `x` in place. -/
def toward (W x i : Nat) (u : Nd) : Nd := ⟨upd u.mask (bit W x i) true, upd u.ch (bit W x i) .down⟩

theorem growPath_ok : ∀ k i (s : St V) (u : Nd), i + (k + 1) = W → s.node i (pre W x i) = some u → (∀ j, i < j → j ≤ W → s.tb j (pre W x j) = false) →
    ∃ nd tb, growPath W x (k+1) i (pre W x i) s = some { s with node := nd, tb := tb } ∧
      (∀ j q, nd j q = if i < j ∧ j < W ∧ q = pre W x j then some (toward W x j ⟨fun _ => false, fun _ => .null⟩) else if j = i ∧ q = pre W x i then some (toward W x i u) else s.node j q) ∧
      (∀ j q, tb j q = true ↔ s.tb j q = true ∨ (i < j ∧ j ≤ W ∧ q = pre W x j)) := by
  intro k
  induction k with
  | zero =>
    intro i s u hi hu ht
    refine ⟨upd2 s.node i (pre W x i) (some (toward W x i u)), upd2 s.tb (i+1) (pre W x (i+1)) true, ?_, ?_, ?_⟩
    · unfold growPath modNode
      rw [hu, Option.map_some, Option.bind_some, ← pre_succ (by omega)]
      dsimp only
      rw [if_neg (by simp [ht (i+1) (by omega) (by omega)])]
      rfl
    · intro j q
      rw [if_neg (by omega)]; rfl
    · intro j q
      unfold upd2
      by_cases c : j = i + 1 ∧ q = pre W x (i+1)
      · obtain ⟨rfl, rfl⟩ := c
        simp; omega
      · rw [if_neg c]
        constructor
        · exact Or.inl
        · rintro (h | ⟨a, b, e⟩)
          · exact h
          · have : j = i + 1 := by omega
            subst this
            exact absurd ⟨rfl, e⟩ c
  | succ k ih =>
    intro i s u hi hu ht
    unfold growPath modNode
    rw [hu, Option.map_some, Option.bind_some, ← pre_succ (by omega)]
    dsimp only
    rw [if_neg (by simp [ht (i+1) (by omega) (by omega)]), if_neg (by omega)]
    obtain ⟨nd, tb, e, h1, h2⟩ := ih (i+1) { s with
        node := upd2 (upd2 s.node i (pre W x i) (some (toward W x i u))) (i+1) (pre W x (i+1)) (some ⟨fun _ => false, fun _ => .null⟩)
        tb := upd2 s.tb (i+1) (pre W x (i+1)) true } ⟨fun _ => false, fun _ => .null⟩ (by omega) (by dsimp only; rw [upd2_same])
      (fun j h1 h2 => by dsimp only; rw [upd2_ne _ _ (by omega)]; exact ht j (by omega) h2)
    refine ⟨nd, tb, e, fun j q => ?_, fun j q => ?_⟩
    · rw [h1]
      dsimp only
      by_cases c1 : i + 1 < j ∧ j < W ∧ q = pre W x j
      · rw [if_pos c1, if_pos (by omega)]
      rw [if_neg c1]
      by_cases c2 : j = i + 1 ∧ q = pre W x (i+1)
      · rw [if_pos c2, if_pos (by obtain ⟨rfl, rfl⟩ := c2; omega), c2.1]
      rw [if_neg c2, if_neg (by
        rintro ⟨a, b, c⟩
        by_cases e : j = i + 1
        · exact c2 ⟨e, by rw [c, e]⟩
        · exact c1 ⟨by omega, b, c⟩)]
      unfold upd2
      rw [if_neg c2]
    · rw [h2]
      dsimp only
      unfold upd2
      by_cases c2 : j = i + 1 ∧ q = pre W x (i+1)
      · simp only [c2, and_self, if_true, true_or, true_iff]
        exact Or.inr ⟨by omega, by omega, trivial⟩
      · rw [if_neg c2]
        constructor
        · rintro (h | ⟨a, b, c⟩)
          · exact Or.inl h
          · exact Or.inr ⟨by omega, b, c⟩
        · rintro (h | ⟨a, b, c⟩)
          · exact Or.inl h
          · refine Or.inr ⟨?_, b, c⟩
            by_contra hh
            have : j = i + 1 := by omega
            exact c2 ⟨this, by rw [c, this]⟩

/-! ### the threads on the path -/

/-- A missing child of a path node before the climb: no thread yet, or the thread for the old keys. -/
def Mid (W : Nat) (K : Finset Nat) (x i : Nat) (u : Nd) : Prop :=
  ∀ b < 2, ¬ Has W (insert x K) (i+1) (2 * pre W x i + b) →
    ((u.ch b = .null ∨ u.ch b = .thr none) ∧ ∀ z ∈ K, pre W z i ≠ pre W x i) ∨ ∃ y, u.ch b = .thr (some y) ∧ Ext W K b i (pre W x i) y

/-- Path nodes above depth `d` are still to be done. -/
def Half (W : Nat) (K : Finset Nat) (x d : Nat) (s : St V) : Prop :=
  ∀ i < W, ∀ p, Ex W (insert x K) i p → ∃ u, s.node i p = some u ∧ Fl W (insert x K) i p u ∧ (if i < d ∧ p = pre W x i then Mid W K x i u else Th W (insert x K) i p u)

theorem ext_self (h : ∀ z ∈ K, pre W z i ≠ pre W x i) {b : Nat} : Ext W (insert x K) b i (pre W x i) x := by
  refine ⟨Finset.mem_insert_self _ _, rfl, fun z hz e => ?_⟩
  rcases Finset.mem_insert.1 hz with rfl | hz
  · exact ⟨fun _ => le_refl _, fun _ => le_refl _⟩
  · exact absurd e (h z hz)

theorem ext_new {b : Nat} (hb : b < 2) (h : Ext W K b i (pre W x i) y) (hlt : if b = 0 then x < y else y < x) : Ext W (insert x K) b i (pre W x i) x := by
  refine ⟨Finset.mem_insert_self _ _, rfl, fun z hz e => ?_⟩
  rcases Finset.mem_insert.1 hz with rfl | hz
  · exact ⟨fun _ => le_refl _, fun _ => le_refl _⟩
  · have := h.2.2 z hz e
    refine ⟨fun hb1 => ?_, fun hb0 => ?_⟩
    · rw [if_neg (by omega)] at hlt
      have := this.1 hb1; omega
    · rw [if_pos hb0] at hlt
      have := this.2 hb0; omega

theorem ext_keep {b : Nat} (hx : x ∉ K) (h : Ext W K b i (pre W x i) y) (hlt : ¬ (if b = 0 then x < y else y < x)) : Ext W (insert x K) b i (pre W x i) y := by
  refine ⟨Finset.mem_insert_of_mem h.1, h.2.1, fun z hz e => ?_⟩
  rcases Finset.mem_insert.1 hz with rfl | hz
  · refine ⟨fun hb1 => ?_, fun hb0 => ?_⟩
    · rw [if_neg (by omega)] at hlt; omega
    · rw [if_pos hb0] at hlt; omega
  · exact h.2.2 z hz e

/-- One node of the climb. -/
theorem climb1 (hi : i < W) (hxK : x ∉ K) {s : St V} {u : Nd} (hl : ∀ y ∈ K, keyOf s (some y) = some y) (hf : Fl W (insert x K) i (pre W x i) u) (hm : Mid W K x i u) :
    ∃ b, wants s x (1 - bit W x i) u = some b ∧
      ∀ w, w = (if b then ⟨u.mask, upd u.ch (1 - bit W x i) (.thr (some x))⟩ else u) →
        Fl W (insert x K) i (pre W x i) w ∧ Th W (insert x K) i (pre W x i) w ∧ w.ch 0 ≠ .null ∧ w.ch 1 ≠ .null := by
  have hb := bit_lt W x i
  have hps := pre_succ (x := x) hi
  generalize hc : bit W x i = c at hb hps ⊢
  have hic : 1 - c < 2 := by omega
  have hhas : Has W (insert x K) (i+1) (2 * pre W x i + c) := ⟨x, Finset.mem_insert_self _ _, hps⟩
  have hdown := (hf c hb).2 hhas
  have two : ∀ b, b < 2 → b = c ∨ b = 1 - c := fun b hb => by omega
  -- the resulting node is right once its thread on the other side is
  have fin : ∀ w : Nd, Fl W (insert x K) i (pre W x i) w → (¬ Has W (insert x K) (i+1) (2 * pre W x i + (1 - c)) → ∃ y, w.ch (1 - c) = .thr (some y) ∧ Ext W (insert x K) (1 - c) i (pre W x i) y) →
      Fl W (insert x K) i (pre W x i) w ∧ Th W (insert x K) i (pre W x i) w ∧ w.ch 0 ≠ .null ∧ w.ch 1 ≠ .null := by
    intro w hw ht
    have hn : ∀ b, b < 2 → w.ch b ≠ .null := fun b hb2 => by
      by_cases c1 : Has W (insert x K) (i+1) (2 * pre W x i + b)
      · rw [(hw b hb2).2 c1]; exact Ch.noConfusion
      · rcases two b hb2 with rfl | rfl
        · exact absurd hhas c1
        · obtain ⟨y, e, _⟩ := ht c1
          rw [e]; exact Ch.noConfusion
    refine ⟨hw, fun b hb2 hno => ?_, hn 0 (by omega), hn 1 (by omega)⟩
    rcases two b hb2 with rfl | rfl
    · exact absurd hhas hno
    · exact Or.inr (ht hno)
  have setFl : ¬ Has W (insert x K) (i+1) (2 * pre W x i + (1 - c)) → Fl W (insert x K) i (pre W x i) ⟨u.mask, upd u.ch (1 - c) (.thr (some x))⟩ := fun hno b hb2 => by
    refine ⟨(hf b hb2).1, fun hh => ?_⟩
    have hbc : b ≠ 1 - c := fun e => hno (e ▸ hh)
    dsimp only
    rw [upd_ne _ _ hbc]
    exact (hf b hb2).2 hh
  by_cases hm1 : u.mask (1 - c) = true
  · refine ⟨false, by unfold wants; rw [if_pos hm1], fun w hw => ?_⟩
    rw [if_neg (by simp)] at hw
    subst hw
    exact fin _ hf (fun hno => absurd ((hf _ hic).1.1 hm1) hno)
  · have hno : ¬ Has W (insert x K) (i+1) (2 * pre W x i + (1 - c)) := fun hh => hm1 ((hf _ hic).1.2 hh)
    unfold wants
    rw [if_neg hm1]
    have yes : (∃ b, b = true ∧ Ext W (insert x K) (1 - c) i (pre W x i) x) → ∀ w, w = (⟨u.mask, upd u.ch (1 - c) (.thr (some x))⟩ : Nd) → Fl W (insert x K) i (pre W x i) w ∧ Th W (insert x K) i (pre W x i) w ∧ w.ch 0 ≠ .null ∧ w.ch 1 ≠ .null := by
      rintro ⟨_, _, hext⟩ w rfl
      exact fin _ (setFl hno) (fun _ => ⟨x, by dsimp only; rw [upd_same], hext⟩)
    rcases hm _ hic hno with ⟨hc1 | hc1, hz⟩ | ⟨y, hc1, hext⟩
    · rw [hc1]
      exact ⟨true, rfl, fun w hw => yes ⟨true, rfl, ext_self hz⟩ w hw⟩
    · rw [hc1]
      exact ⟨true, rfl, fun w hw => yes ⟨true, rfl, ext_self hz⟩ w hw⟩
    · rw [hc1]
      refine ⟨_, by dsimp only; rw [hl y hext.1]; rfl, fun w hw => ?_⟩
      by_cases hlt : (if 1 - c = 0 then x < y else y < x)
      · have : (if 1 - c = 0 then decide (x < y) else decide (y < x)) = true := by split at hlt <;> simp_all
        rw [if_pos this] at hw
        exact yes ⟨true, rfl, ext_new hic hext hlt⟩ w hw
      · have : (if 1 - c = 0 then decide (x < y) else decide (y < x)) = false := by split at hlt <;> simp_all
        beta_reduce at hw
        rw [this, if_neg (by simp)] at hw
        subst hw
        exact fin _ hf (fun _ => ⟨y, hc1, ext_keep hxK hext hlt⟩)

theorem climbIns_ok (hxK : x ∉ K) : ∀ d (s : St V), d ≤ W → (∀ y ∈ K, keyOf s (some y) = some y) → Half W K x d s →
    ∃ nd, climbIns W x d s = some { s with node := nd } ∧ Half W K x 0 { s with node := nd } := by
  intro d
  induction d with
  | zero => intro s _ _ hh; exact ⟨s.node, rfl, hh⟩
  | succ d ih =>
    intro s hd hl hh
    obtain ⟨u, eu, fu, mu⟩ := hh d (by omega) (pre W x d) (Or.inl ⟨x, Finset.mem_insert_self _ _, rfl⟩)
    rw [if_pos ⟨by omega, rfl⟩] at mu
    obtain ⟨b, eb, hw⟩ := climb1 (by omega) hxK hl fu mu
    obtain ⟨f1, t1, n0, n1⟩ := hw _ rfl
    unfold climbIns
    rw [eu, Option.bind_some, eb, Option.bind_some]
    unfold modNode
    rw [eu, Option.map_some, Option.bind_some]
    dsimp only
    rw [upd2_same, Option.bind_some, if_neg (by simp only [not_or]; exact ⟨n0, n1⟩)]
    generalize (if b = true then (⟨u.mask, upd u.ch (1 - bit W x d) (.thr (some x))⟩ : Nd) else u) = w at f1 t1
    obtain ⟨nd, e, hn⟩ := ih { s with node := upd2 s.node d (pre W x d) (some w) } (by omega) hl (by
      intro i hi p hp
      dsimp only
      by_cases c : i = d ∧ p = pre W x d
      · obtain ⟨rfl, rfl⟩ := c
        exact ⟨w, by rw [upd2_same], f1, by rw [if_neg (by omega)]; exact t1⟩
      · rw [upd2_ne _ _ c]
        obtain ⟨u', eu', fu', ju'⟩ := hh i hi p hp
        refine ⟨u', eu', fu', ?_⟩
        by_cases c' : i < d ∧ p = pre W x i
        · rw [if_pos c']; rw [if_pos ⟨by omega, c'.2⟩] at ju'; exact ju'
        · rw [if_neg c']
          rw [if_neg (by
            rintro ⟨a, b⟩
            by_cases e : i = d
            · subst e; exact c ⟨rfl, b⟩
            · exact c' ⟨by omega, b⟩)] at ju'
          exact ju')
    exact ⟨nd, e, hn⟩

/-! ### insertion -/

theorem insertSubtree_ok (I : Inv W s K val) (hx : x < 2 ^ W) (t : Top W K x h) (hh : h < W) (v : V) :
    ∃ s', insertSubtree W s h (pre W x h) x v = some s' ∧ Inv W s' (insert x K) (upd val x (some v)) := by
  obtain ⟨u, j, eu, fu, tu, ej, h1, h0, _, hj⟩ := fork_ok I hx t hh
  have hxK : x ∉ K := fun hm => t.no W hh (le_refl _) ⟨x, hm, rfl⟩
  have hbit := bit_lt W x h
  obtain ⟨pr, epr, hpr⟩ : ∃ pr, (if bit W x h = 1 then thread (u.ch 1) else (thread (u.ch 0)).bind (fun j => (s.leaf j).map (fun l => l.prev))) = some pr ∧ IsPrev K (some x) pr := by
    by_cases c : bit W x h = 1
    · rw [if_pos c]; rw [c] at ej
      exact ⟨j, by rw [ej]; rfl, h1 c⟩
    · have c0 : bit W x h = 0 := by omega
      rw [if_neg c]; rw [c0] at ej
      obtain ⟨l, el, lp, _, _⟩ := I.leaf j hj
      exact ⟨l.prev, by rw [ej, thread, Option.bind_some, el]; rfl, prev_of_next hxK (h0 c0) lp⟩
  have htbno : ∀ j, h < j → j ≤ W → s.tb j (pre W x j) = false := fun j a b => by
    cases hc : s.tb j (pre W x j) with
    | false => rfl
    | true =>
      rcases (I.tb _ _).1 hc with ⟨_, _, hm⟩ | ⟨e, _⟩
      · exact absurd hm (t.no j a b)
      · omega
  obtain ⟨nd, tb, eg, hnd, htb⟩ := growPath_ok (x := x) (W - h - 1) h s u (by omega) eu htbno
  rw [show W - h - 1 + 1 = W - h by omega] at eg
  obtain ⟨lf, el, hlf⟩ := link_ok (s := { s with node := nd, tb := tb }) (v := v) I.leaf hxK hpr
  have hkeys : ∀ y ∈ K, keyOf ({ s with node := nd, tb := tb, leaf := lf } : St V) (some y) = some y := fun y hy => by
    obtain ⟨l, e, _, _, lv⟩ := hlf (some y) (Finset.mem_insert_of_mem hy)
    obtain ⟨w, ew⟩ := Option.isSome_iff_exists.1 ((I.mem y).1 hy)
    unfold keyOf
    dsimp only
    rw [Option.bind_some, e, Option.bind_some, lv, Option.bind_some, upd_ne _ _ (show y ≠ x from fun e => hxK (by rw [← e]; exact hy)), ew]; rfl
  have hhalf : Half W K x W ({ s with node := nd, tb := tb, leaf := lf } : St V) := by
    intro i hi p hp
    dsimp only
    rw [hnd]
    by_cases c : p = pre W x i
    · subst c
      simp only [hi, true_and, and_true, if_true]
      have hbi := bit_lt W x i
      have hps := pre_succ (x := x) hi
      have hmem : Has W (insert x K) (i+1) (2 * pre W x i + bit W x i) := ⟨x, Finset.mem_insert_self _ _, hps⟩
      by_cases c1 : h < i
      · rw [if_pos c1]
        have hz : ∀ z ∈ K, pre W z i ≠ pre W x i := fun z hz e => t.no i c1 (by omega) ⟨z, hz, e⟩
        have hnoth : ∀ b < 2, b ≠ bit W x i → ¬ Has W (insert x K) (i+1) (2 * pre W x i + b) := by
          rintro b hb2 hne ⟨z, hz2, e⟩
          have e1 : pre W z i = pre W x i := by rw [← pre_half hi, e]; omega
          rcases Finset.mem_insert.1 hz2 with rfl | hz2
          · omega
          · exact hz z hz2 e1
        refine ⟨_, rfl, fun b hb2 => ?_, fun b hb2 hno => Or.inl ⟨Or.inl ?_, hz⟩⟩
        · unfold toward
          dsimp only
          by_cases c2 : b = bit W x i
          · subst c2
            rw [upd_same, upd_same]
            exact ⟨⟨fun _ => hmem, fun _ => rfl⟩, fun _ => rfl⟩
          · rw [upd_ne _ _ c2, upd_ne _ _ c2]
            exact ⟨⟨fun e => Bool.noConfusion e, fun e => absurd e (hnoth b hb2 c2)⟩, fun e => absurd e (hnoth b hb2 c2)⟩
        · unfold toward
          dsimp only
          have hne : b ≠ bit W x i := fun e => hno (by rw [e]; exact hmem)
          rw [upd_ne _ _ hne]
      · rw [if_neg c1]
        by_cases c2 : i = h
        · subst c2
          rw [if_pos ⟨rfl, rfl⟩]
          have heq : ∀ b < 2, b ≠ bit W x i → (Has W (insert x K) (i+1) (2 * pre W x i + b) ↔ Has W K (i+1) (2 * pre W x i + b)) := fun b hb2 hne => by
            rw [has_insert]
            exact ⟨fun a => a.elim id fun a => by omega, Or.inl⟩
          refine ⟨_, rfl, fun b hb2 => ?_, fun b hb2 hno => ?_⟩
          · unfold toward
            dsimp only
            by_cases c2 : b = bit W x i
            · subst c2
              rw [upd_same, upd_same]
              exact ⟨⟨fun _ => hmem, fun _ => rfl⟩, fun _ => rfl⟩
            · rw [upd_ne _ _ c2, upd_ne _ _ c2, heq b hb2 c2]
              exact fu b hb2
          · have hne : b ≠ bit W x i := fun e => hno (e ▸ hmem)
            unfold toward
            dsimp only
            rw [upd_ne _ _ hne]
            rcases tu b hb2 (fun a => hno ((heq b hb2 hne).2 a)) with ⟨hK, e⟩ | hy
            · exact Or.inl ⟨Or.inr e, fun z hz => by rw [hK] at hz; exact absurd hz (Finset.notMem_empty z)⟩
            · exact Or.inr hy
        · rw [if_neg (fun a => c2 a.1)]
          have hhas : Has W K h (pre W x h) := t.has.resolve_left (by omega)
          have hhi : Has W K (i+1) (pre W x (i+1)) := hhas.up (by omega) (by omega)
          obtain ⟨w, ew, fw, tw⟩ := I.node i hi (pre W x i) (Or.inl (hhas.up (by omega) (by omega)))
          refine ⟨w, ew, fun b hb2 => by rw [has_on hi hhi]; exact fw b hb2, fun b hb2 hno => ?_⟩
          rw [has_on hi hhi] at hno
          rcases tw b hb2 hno with ⟨hK, e⟩ | hy
          · exact Or.inl ⟨Or.inr e, fun z hz => by rw [hK] at hz; exact absurd hz (Finset.notMem_empty z)⟩
          · exact Or.inr hy
    · rw [if_neg (fun a => c (by rw [a.2.2])), if_neg (fun a => c (by rw [a.2, a.1]))]
      have hpo : Has W K i p := by
        rcases hp with ⟨z, hz, e⟩ | ⟨rfl, rfl⟩
        · rcases Finset.mem_insert.1 hz with rfl | hz
          · exact absurd e.symm c
          · exact ⟨z, hz, e⟩
        · exact absurd (pre_zero hx).symm c
      obtain ⟨w, ew, fw, tw⟩ := I.node i hi p (Or.inl hpo)
      have hne : pre W x i ≠ p := fun e => c e.symm
      refine ⟨w, ew, fun b hb2 => by rw [has_off hi hne hb2]; exact fw b hb2, ?_⟩
      rw [if_neg (fun a => c a.2)]
      intro b hb2 hno
      rw [has_off hi hne hb2] at hno
      rcases tw b hb2 hno with ⟨hK, e⟩ | ⟨y, e, hy⟩
      · obtain ⟨z, hz, _⟩ := hpo
        rw [hK] at hz; exact absurd hz (Finset.notMem_empty z)
      · exact Or.inr ⟨y, e, (ext_off hne).2 hy⟩
  obtain ⟨nd', ec, hfin⟩ := climbIns_ok hxK W { s with node := nd, tb := tb, leaf := lf } (le_refl _) hkeys hhalf
  refine ⟨{ s with node := nd', tb := tb, leaf := lf, size := s.size + 1 }, ?_, ?_⟩
  · unfold insertSubtree
    rw [eu, Option.bind_some, epr, Option.bind_some, eg, Option.bind_some, el, Option.bind_some, ec]
    rfl
  · refine ⟨fun y => ?_, fun y hy => ?_, fun i hi p hp => ?_, hlf, ?_, fun i p => ?_⟩
    · rw [Finset.mem_insert]
      by_cases c : y = x
      · subst c; simp [upd_same]
      · rw [upd_ne _ _ c, ← I.mem]; simp [c]
    · rcases Finset.mem_insert.1 hy with rfl | hy
      · exact hx
      · exact I.lt y hy
    · obtain ⟨w, ew, fw, jw⟩ := hfin i hi p hp
      rw [if_neg (by omega)] at jw
      exact ⟨w, ew, fw, jw⟩
    · dsimp only
      rw [Finset.card_insert_of_notMem hxK, ← I.size]
    · dsimp only
      rw [htb, I.tb, has_insert]
      constructor
      · rintro ((⟨a1, a2, a3⟩ | a) | ⟨a1, a2, a3⟩)
        · exact Or.inl ⟨a1, a2, Or.inl a3⟩
        · exact Or.inr a
        · exact Or.inl ⟨by omega, a2, Or.inr a3.symm⟩
      · rintro (⟨a1, a2, a3 | a3⟩ | a)
        · exact Or.inl (Or.inl ⟨a1, a2, a3⟩)
        · by_cases e : i ≤ h
          · exact Or.inl (Or.inl ⟨a1, a2, a3 ▸ (t.has.resolve_left (by omega)).up e (by omega)⟩)
          · exact Or.inr ⟨by omega, a2, a3.symm⟩
        · exact Or.inl (Or.inr a)

theorem emplace_ok (I : Inv W s K val) (hW : 0 < W) (hx : x < 2 ^ W) (v : V) :
    ∃ s', emplace W s x v = some (s', some x) ∧ Inv W s' (insert x K) (if x ∈ K then val else upd val x (some v)) := by
  obtain ⟨i, e, t⟩ := descend_ok I hx W 0 (by omega) (Or.inl rfl)
  rw [pre_zero hx] at e
  unfold emplace
  rw [e, Option.bind_some]
  dsimp only
  by_cases c : i = W
  · have hm : x ∈ K := (t.mem hW).2 c
    rw [if_pos c, if_pos hm, Finset.insert_eq_of_mem hm, c, pre_W]
    exact ⟨s, rfl, I⟩
  · have hm : x ∉ K := fun h => c ((t.mem hW).1 h)
    obtain ⟨s', e', I'⟩ := insertSubtree_ok I hx t (by have := t.le; omega) v
    rw [if_neg c, if_neg hm, e']
    exact ⟨s', rfl, I'⟩

/-! ### hints -/

theorem lead_le : lead W i ≤ W := by unfold lead; split <;> omega

/-- `lead` is the length of the common prefix. -/
theorem lead_ok (hx : x < 2 ^ W) (hy : y < 2 ^ W) : pre W x (lead W (x ^^^ y)) = pre W y (lead W (x ^^^ y)) ∧ ∀ j ≤ W, pre W x j = pre W y j → j ≤ lead W (x ^^^ y) := by
  unfold lead
  by_cases c : x ^^^ y = 0
  · rw [if_pos c, Trie.eq_of_xor c]
    exact ⟨rfl, fun j hj _ => hj⟩
  · rw [if_neg c]
    obtain ⟨h1, h2⟩ := Trie.lca_ok hx hy c
    refine ⟨h2, fun j hj e => ?_⟩
    by_contra hc
    exact Trie.lca_part hx hy c (pre_eq_of_le (by omega) hj e)

theorem pre_between (h1 : x ≤ y) (h2 : y ≤ z) (h : pre W x i = pre W z i) : pre W y i = pre W z i := by
  have := pre_mono (W := W) (i := i) h1
  have := pre_mono (W := W) (i := i) h2
  omega

theorem emplaceHint_ok (I : Inv W s K val) (hW : 0 < W) (hx : x < 2 ^ W) {hint : Option Nat} (hh : Ptr K hint) (h64 : W < 64 ∨ Has W K 1 (pre W x 1)) (v : V) :
    ∃ s', emplaceHint W s hint x v = some (s', some x) ∧ Inv W s' (insert x K) (if x ∈ K then val else upd val x (some v)) := by
  obtain ⟨b, eb, hb⟩ := begin_ok I
  obtain ⟨lh, elh, lp, ln, _⟩ := I.leaf hint hh
  unfold emplaceHint
  rw [eb, Option.bind_some]
  -- the key before the hint
  obtain ⟨lx, elx, hlx1, hlx0⟩ : ∃ lx, (if hint ≠ b then (s.leaf hint).bind (fun l => (keyOf s l.prev).map some) else some none) = some lx ∧
      (∀ y, lx = some y → y ∈ K ∧ IsPrev K hint (some y)) ∧ (lx = none → ∀ z ∈ K, ¬ Below hint z) := by
    by_cases c : hint = b
    · rw [if_neg (by simpa using c)]
      refine ⟨none, rfl, (fun y e => by cases e), fun _ z hz hbz => ?_⟩
      subst c
      cases hint with
      | none => exact hb z ⟨hz, trivial⟩
      | some q => have h1 := hb.2 z ⟨hz, trivial⟩
                  have h2 : z < q := hbz
                  omega
    · rw [if_pos c, elh, Option.bind_some]
      cases hl : lh.prev with
      | none =>
        exfalso
        apply c
        rw [hl] at lp
        cases hint with
        | none =>
          cases b with
          | none => rfl
          | some q => exact absurd ⟨hb.1.1, trivial⟩ (lp q)
        | some w =>
          cases b with
          | none => exact absurd ⟨hh, trivial⟩ (hb w)
          | some q =>
            have h1 := hb.2 w ⟨hh, trivial⟩
            have h2 := lp q
            simp only [hb.1.1, true_and, Below] at h2
            congr 1; omega
      | some y =>
        rw [hl] at lp
        rw [keyOf_ok I lp.1.1]
        exact ⟨some y, rfl, fun z e => by cases e; exact ⟨lp.1.1, lp⟩, fun e => by cases e⟩
  rw [elx, Option.bind_some]
  by_cases c1 : lx.any (fun y => decide (x < y)) = true
  · rw [if_pos c1]; exact emplace_ok I hW hx v
  rw [if_neg c1]
  obtain ⟨rx, erx, hrx⟩ : ∃ rx, (if hint ≠ none then (keyOf s hint).map some else some none) = some rx ∧ rx = hint := by
    cases hint with
    | none => exact ⟨none, rfl, rfl⟩
    | some w => rw [if_pos (by simp), keyOf_ok I hh]; exact ⟨some w, rfl, rfl⟩
  rw [erx, Option.bind_some]
  subst hrx
  by_cases c2 : rx.any (fun y => decide (y < x)) = true
  · rw [if_pos c2]; exact emplace_ok I hW hx v
  rw [if_neg c2]
  have hlx : ∀ y, lx = some y → y ∈ K ∧ y ≤ x := fun y e => ⟨(hlx1 y e).1, by subst e; simp at c1; exact c1⟩
  have hrx' : ∀ y, rx = some y → y ∈ K ∧ x ≤ y := fun y e => ⟨by subst e; exact hh, by subst e; simp at c2; exact c2⟩
  have hall : ∀ z ∈ K, (∃ y, lx = some y ∧ z ≤ y) ∨ (∃ y, rx = some y ∧ y ≤ z) := fun z hz => by
    by_cases hbz : Below rx z
    · cases hl : lx with
      | none => exact absurd hbz (hlx0 hl z hz)
      | some y => exact Or.inl ⟨y, rfl, (hlx1 y hl).2.2 z ⟨hz, hbz⟩⟩
    · cases hr : rx with
      | none => rw [hr] at hbz; exact absurd trivial hbz
      | some y => rw [hr] at hbz; exact Or.inr ⟨y, rfl, Nat.le_of_not_lt hbz⟩
  -- `d` is the depth of the deepest node on the path of `x`
  have hdef : ∃ d, d = max (lx.elim 0 (fun y => lead W (x ^^^ y))) (rx.elim 0 (fun y => lead W (x ^^^ y))) := ⟨_, rfl⟩
  obtain ⟨d, hd⟩ := hdef
  dsimp only
  rw [← hd]
  have hge : ∀ z ∈ K, ∀ j ≤ W, pre W z j = pre W x j → j ≤ d := fun z hz j hj e => by
    rcases hall z hz with ⟨y, ey, hzy⟩ | ⟨y, ey, hzy⟩
    · have h1 := pre_between (W := W) (i := j) hzy (hlx y ey).2 e
      have h2 := (lead_ok hx (I.lt y (hlx y ey).1)).2 j hj h1.symm
      rw [ey] at hd
      have := le_max_left (lead W (x ^^^ y)) (rx.elim 0 (fun y => lead W (x ^^^ y)))
      simp only [Option.elim_some] at hd
      omega
    · have h1 := pre_between (W := W) (i := j) (hrx' y ey).2 hzy e.symm
      have h2 := (lead_ok hx (I.lt y (hrx' y ey).1)).2 j hj (by rw [h1, e])
      rw [ey] at hd
      have := le_max_right (lx.elim 0 (fun y => lead W (x ^^^ y))) (lead W (x ^^^ y))
      simp only [Option.elim_some] at hd
      omega
  have hhas : d ≤ W ∧ (d = 0 ∨ Has W K d (pre W x d)) := by
    rcases le_total (lx.elim 0 (fun y => lead W (x ^^^ y))) (rx.elim 0 (fun y => lead W (x ^^^ y))) with hle | hle
    · rw [max_eq_right hle] at hd
      cases hr : rx with
      | none => rw [hr] at hd; exact ⟨by rw [hd]; exact Nat.zero_le _, Or.inl hd⟩
      | some y =>
        rw [hr] at hd
        simp only [Option.elim_some] at hd
        rw [hd]
        exact ⟨lead_le, Or.inr ⟨y, (hrx' y hr).1, (lead_ok hx (I.lt y (hrx' y hr).1)).1.symm⟩⟩
    · rw [max_eq_left hle] at hd
      cases hr : lx with
      | none => rw [hr] at hd; exact ⟨by rw [hd]; exact Nat.zero_le _, Or.inl hd⟩
      | some y =>
        rw [hr] at hd
        simp only [Option.elim_some] at hd
        rw [hd]
        exact ⟨lead_le, Or.inr ⟨y, (hlx y hr).1, (lead_ok hx (I.lt y (hlx y hr).1)).1.symm⟩⟩
  have t : Top W K x d := ⟨hhas.1, hhas.2, fun j h1 h2 ⟨z, hz, e⟩ => by have := hge z hz j h2 e; omega⟩
  by_cases c3 : d = W
  · rw [if_pos c3]
    have hm : x ∈ K := (t.mem hW).2 c3
    have : s.tb W x = true := (I.tb W x).2 (Or.inl ⟨hW, le_refl _, x, hm, pre_W⟩)
    rw [if_pos this, if_pos hm, Finset.insert_eq_of_mem hm]
    exact ⟨s, rfl, I⟩
  · rw [if_neg c3]
    have hm : x ∉ K := fun h => c3 ((t.mem hW).1 h)
    have hdW : d < W := by have := t.le; omega
    have c4 : ¬ (d = 0 ∧ 64 ≤ W) := by
      rintro ⟨e1, e2⟩
      rcases h64 with h | ⟨z, hz, e⟩
      · omega
      · have := hge z hz 1 hW e; omega
    rw [if_neg c4]
    have htb : s.tb d (pre W x d) = true := by
      rw [I.tb]
      by_cases e : d = 0
      · subst e; exact Or.inr ⟨rfl, pre_zero hx⟩
      · exact Or.inl ⟨by omega, by omega, t.has.resolve_left e⟩
    obtain ⟨s', e', I'⟩ := insertSubtree_ok I hx t hdW v
    rw [if_pos htb, if_neg hm, e']
    exact ⟨s', rfl, I'⟩

end Verif.IntSet
