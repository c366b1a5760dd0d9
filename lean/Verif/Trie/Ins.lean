import Verif.Trie.Find
/-! `_emplace_impl`: insertion below a fork. -/
namespace Verif.Trie
open Verif

variable {V : Type} {W x y z i j p q d : Nat} {K : Finset Nat} {rt xf : Bool} {s : St V} {val : Nat → Option V}

theorem has_insert : Has W (insert x K) i p ↔ Has W K i p ∨ pre W x i = p := by
  constructor
  · rintro ⟨z, hz, e⟩
    rcases Finset.mem_insert.1 hz with rfl | hz
    · exact Or.inr e
    · exact Or.inl ⟨z, hz, e⟩
  · rintro (⟨z, hz, e⟩ | e)
    · exact ⟨z, Finset.mem_insert_of_mem hz, e⟩
    · exact ⟨x, Finset.mem_insert_self _ _, e⟩

theorem insert_ne_empty : insert x K ≠ ∅ := Finset.insert_ne_empty x K

theorem pre_ne_child (hi : i < W) (h : pre W x i ≠ p) {b : Nat} (hb : b < 2) : pre W x (i+1) ≠ 2 * p + b := by
  intro e
  have := pre_half (x := x) hi
  omega

/-- Away from the path of `x` nothing changes. -/
theorem has_off (hi : i < W) (h : pre W x i ≠ p) {b : Nat} (hb : b < 2) : Has W (insert x K) (i+1) (2 * p + b) ↔ Has W K (i+1) (2 * p + b) := by
  rw [has_insert]
  exact ⟨fun a => a.elim id fun a => absurd a (pre_ne_child hi h hb), Or.inl⟩

theorem flags_off (hi : i < W) (h : pre W x i ≠ p) {u : Nd} : Flags W (insert x K) i p u ↔ Flags W K i p u := by
  unfold Flags
  constructor
  · intro f b hb; rw [f b hb, has_off hi h hb]
  · intro f b hb; rw [f b hb, has_off hi h hb]

theorem ext_off (h : pre W x i ≠ p) {b : Nat} : Ext W (insert x K) b i p y ↔ Ext W K b i p y := by
  constructor
  · rintro ⟨a, e, c⟩
    refine ⟨?_, e, fun z hz => c z (Finset.mem_insert_of_mem hz)⟩
    rcases Finset.mem_insert.1 a with rfl | a
    · exact absurd e h
    · exact a
  · rintro ⟨a, e, c⟩
    refine ⟨Finset.mem_insert_of_mem a, e, fun z hz ez => ?_⟩
    rcases Finset.mem_insert.1 hz with rfl | hz
    · exact absurd ez h
    · exact c z hz ez

theorem has_zero (hb : p < 2) : 2 * p + 0 = 2 * p := rfl

theorem jok_off (hi : i < W) (h : pre W x i ≠ p) (hne : K ≠ ∅) {w : Option (Option Nat)} : JOk W (insert x K) i p w ↔ JOk W K i p w := by
  have h0 := has_off (K := K) hi h (b := 0) (by decide)
  have h1 := has_off (K := K) hi h (b := 1) (by decide)
  constructor
  · intro J
    refine ⟨fun b hb a c => ?_, fun a c => J.two (h0.2 a) (h1.2 c), fun e => absurd e hne⟩
    obtain ⟨y, ey, hy⟩ := J.one b hb ((has_off hi h (by omega)).2 a) (fun hc => c ((has_off hi h hb).1 hc))
    exact ⟨y, ey, (ext_off h).1 hy⟩
  · intro J
    refine ⟨fun b hb a c => ?_, fun a c => J.two (h0.1 a) (h1.1 c), fun e => absurd e insert_ne_empty⟩
    obtain ⟨y, ey, hy⟩ := J.one b hb ((has_off hi h (by omega)).1 a) (fun hc => c ((has_off hi h hb).2 hc))
    exact ⟨y, ey, (ext_off h).2 hy⟩

/-- On the path above the fork the child pointers stay. -/
theorem has_on (hi : i < W) (hc : Has W K (i+1) (pre W x (i+1))) {b : Nat} : Has W (insert x K) (i+1) b ↔ Has W K (i+1) b := by
  rw [has_insert]
  exact ⟨fun a => a.elim id fun a => a ▸ hc, Or.inl⟩

/-- `jump` stays right when `x` is not the outermost key on the side that matters. -/
theorem jok_on (hi : i < W) (hc : Has W K (i+1) (pre W x (i+1))) {w : Option (Option Nat)} (J : JOk W K i p w)
    (hw : ∀ b < 2, ¬ Has W K (i+1) (2 * p + b) → ∃ z ∈ K, pre W z i = p ∧ (b = 1 → x ≤ z) ∧ (b = 0 → z ≤ x)) : JOk W (insert x K) i p w := by
  refine ⟨fun b hb a c => ?_, fun a c => J.two ((has_on hi hc).1 a) ((has_on hi hc).1 c), fun e => absurd e insert_ne_empty⟩
  rw [has_on hi hc] at a c
  obtain ⟨y, ey, hy, hyp, hext⟩ := J.one b hb a c
  refine ⟨y, ey, Finset.mem_insert_of_mem hy, hyp, fun z hz ez => ?_⟩
  rcases Finset.mem_insert.1 hz with rfl | hz
  · obtain ⟨t, ht, et, t1, t0⟩ := hw b hb c
    have := hext t ht et
    exact ⟨fun hb => le_trans (t1 hb) (this.1 hb), fun hb => le_trans (this.2 hb) (t0 hb)⟩
  · exact hext z hz ez

/-! ### the links -/

variable {pr nx : Option Nat} {v : V}

theorem Ptr.insert {a : Option Nat} (h : Ptr (insert x K) a) : a = some x ∨ Ptr K a := by
  cases a with
  | none => exact Or.inr trivial
  | some y =>
    rcases Finset.mem_insert.1 h with rfl | h
    · exact Or.inl rfl
    · exact Or.inr h

/-- Creating the leaf of `x` between its neighbours. -/
theorem links_ok (hleaf : ∀ a, Ptr K a → ∃ l, s.leaf a = some l ∧ LOk K val a l) (htb : s.tb W x = false) (hx : x ∉ K) (hp : IsPrev K (some x) pr) :
    ∃ pl s', s.leaf pr = some pl ∧ ((createLeaf W s x ⟨pr, pl.next, some v⟩).bind (fun s =>
        (modLeaf s pr (fun l => { l with next := some x })).bind (fun s => modLeaf s pl.next (fun l => { l with prev := some x })))) = some s' ∧
      s'.node = s.node ∧ s'.size = s.size ∧ s'.tb = upd2 s.tb W x true ∧
      ∀ a, Ptr (insert x K) a → ∃ l, s'.leaf a = some l ∧ LOk (insert x K) (upd val x (some v)) a l := by
  obtain ⟨pl, epl, pp, pn, pv⟩ := hleaf pr hp.ptr
  have hn : IsNext K (some x) pl.next := next_of_prev hx hp pn
  obtain ⟨nl, enl, np, nn, nv⟩ := hleaf pl.next hn.ptr
  have hprx : pr ≠ some x := fun e => by have := hp.ptr; rw [e] at this; exact hx this
  have hnxx : pl.next ≠ some x := fun e => by have := hn.ptr; rw [e] at this; exact hx this
  have hbind : ∀ a : Option Nat, Ptr K a → a.bind (upd val x (some v)) = a.bind val := fun a ha => by
    cases a with
    | none => rfl
    | some y => exact upd_ne _ _ (fun e => hx (e ▸ ha))
  refine ⟨pl, { s with
      leaf := fun a => if a = pl.next then (if a = pr then some { pl with next := some x, prev := some x } else some { nl with prev := some x })
        else if a = pr then some { pl with next := some x } else if a = some x then some ⟨pr, pl.next, some v⟩ else s.leaf a
      tb := upd2 s.tb W x true }, epl, ?_, rfl, rfl, rfl, ?_⟩
  · unfold createLeaf
    rw [if_neg (by simp [htb]), Option.bind_some]
    unfold modLeaf setLeaf
    dsimp only
    rw [if_neg hprx, epl, Option.map_some, Option.bind_some]
    dsimp only
    by_cases hpn : pl.next = pr
    · rw [if_pos hpn]
      dsimp only [Option.map_some]
      congr 2
      funext a
      by_cases h1 : a = pl.next
      · rw [if_pos h1, if_pos h1, if_pos (h1.trans hpn)]
      · have h2 : a ≠ pr := fun h => h1 (h.trans hpn.symm)
        rw [if_neg h1, if_neg h1, if_neg h2]
    · rw [if_neg hpn, if_neg hnxx, enl]
      dsimp only [Option.map_some]
      congr 2
      funext a
      by_cases h1 : a = pl.next
      · rw [if_pos h1, if_pos h1, if_neg (fun h => hpn (h1.symm.trans h))]
      · rw [if_neg h1, if_neg h1]
  · intro a ha
    dsimp only
    rcases ha.insert with rfl | ha
    · rw [if_neg hnxx.symm, if_neg hprx.symm, if_pos rfl]
      exact ⟨_, rfl, prev_ins_x hp, next_ins_x hn, by simp [upd_same]⟩
    · have hax : a ≠ some x := fun e => by rw [e] at ha; exact hx ha
      obtain ⟨l, el, lp, ln, lv⟩ := hleaf a ha
      by_cases h1 : a = pl.next
      · rw [if_pos h1]
        subst h1
        rw [enl] at el
        cases el
        by_cases h2 : pl.next = pr
        · rw [if_pos h2]
          refine ⟨_, rfl, prev_ins_nx hx hn, ?_, ?_⟩
          · rw [h2]; exact next_ins_pr hx hp
          · rw [hbind _ ha, h2]; exact pv
        · rw [if_neg h2]
          exact ⟨_, rfl, prev_ins_nx hx hn, (next_ins_iff hx hp ha h2).2 ln, by rw [hbind _ ha]; exact lv⟩
      · rw [if_neg h1]
        by_cases h2 : a = pr
        · rw [if_pos h2]
          subst h2
          rw [epl] at el
          cases el
          exact ⟨_, rfl, (prev_ins_iff hx hn ha h1).2 lp, next_ins_pr hx hp, by rw [hbind _ ha]; exact lv⟩
        · rw [if_neg h2, if_neg hax]
          exact ⟨l, el, (prev_ins_iff hx hn ha h1).2 lp, (next_ins_iff hx hp ha h2).2 ln, by rw [hbind _ ha]; exact lv⟩

/-! ### the new path -/

theorem child_set (u : Nd) {c b : Nat} (hc : c < 2) (hb : b < 2) (t : Bool) : child (setChild u c t) b = if b = c then t else child u b := by
  unfold child setChild
  rcases (by omega : c = 0 ∨ c = 1) with rfl | rfl <;> rcases (by omega : b = 0 ∨ b = 1) with rfl | rfl <;> simp

theorem jump_set (u : Nd) (c : Nat) (t : Bool) : (setChild u c t).jump = u.jump := by unfold setChild; split <;> rfl

/-- The node made at depth `j` of the path. -/
def newNd (W x j : Nat) : Nd := setChild ⟨false, false, some (some x)⟩ (bit W x j) true

theorem growPath_ok : ∀ k i (s : St V) (u : Nd), i + k + 1 = W → s.node i (pre W x i) = some u → child u (bit W x i) = false → (∀ j, i < j → j < W → s.tb j (pre W x j) = false) →
    ∃ nd tb, growPath W x k i (pre W x i) s = some { s with node := nd, tb := tb } ∧
      (∀ j q, nd j q = if i < j ∧ j < W ∧ q = pre W x j then some (newNd W x j) else if j = i ∧ q = pre W x i then some (setChild u (bit W x i) true) else s.node j q) ∧
      (∀ j q, tb j q = true ↔ s.tb j q = true ∨ (i < j ∧ j < W ∧ q = pre W x j)) := by
  intro k
  induction k with
  | zero =>
    intro i s u hi hu hc ht
    refine ⟨upd2 s.node i (pre W x i) (some (setChild u (bit W x i) true)), s.tb, ?_, ?_, ?_⟩
    · unfold growPath modNode
      rw [hu]; rfl
    · intro j q
      rw [if_neg (by omega)]; rfl
    · intro j q
      constructor
      · exact Or.inl
      · rintro (h | h)
        · exact h
        · omega
  | succ k ih =>
    intro i s u hi hu hc ht
    unfold growPath createNode modNode
    rw [hu, Option.bind_some, if_neg (by simp [hc]), ← pre_succ (by omega), if_neg (by simp [ht (i+1) (by omega) (by omega)]), Option.bind_some]
    dsimp only
    rw [upd2_ne _ _ (by omega), hu, Option.map_some, Option.bind_some]
    obtain ⟨nd, tb, e, h1, h2⟩ := ih (i+1) { s with
        node := upd2 (upd2 s.node (i+1) (pre W x (i+1)) (some ⟨false, false, some (some x)⟩)) i (pre W x i) (some (setChild u (bit W x i) true))
        tb := upd2 s.tb (i+1) (pre W x (i+1)) true } ⟨false, false, some (some x)⟩ (by omega) (by dsimp only; rw [upd2_ne _ _ (by omega), upd2_same]) (by unfold child; split <;> rfl)
      (fun j h1 h2 => by dsimp only; rw [upd2_ne _ _ (by omega)]; exact ht j (by omega) h2)
    refine ⟨nd, tb, e, fun j q => ?_, fun j q => ?_⟩
    · rw [h1]
      dsimp only
      by_cases c1 : i + 1 < j ∧ j < W ∧ q = pre W x j
      · rw [if_pos c1, if_pos (by omega)]
      rw [if_neg c1]
      by_cases c2 : j = i + 1 ∧ q = pre W x (i+1)
      · rw [if_pos c2, if_pos (by obtain ⟨rfl, rfl⟩ := c2; omega), c2.1]; rfl
      rw [if_neg c2, if_neg (by
        rintro ⟨a, b, c⟩
        by_cases e : j = i + 1
        · exact c2 ⟨e, by rw [c, e]⟩
        · exact c1 ⟨by omega, b, c⟩)]
      unfold upd2
      by_cases c3 : j = i ∧ q = pre W x i
      · rw [if_pos c3, if_pos c3]
      · rw [if_neg c3, if_neg c3, if_neg c2]
    · rw [h2]
      dsimp only
      unfold upd2
      by_cases c2 : j = i + 1 ∧ q = pre W x (i+1)
      · simp only [c2, and_self, if_true, true_or, true_iff]
        exact Or.inr ⟨by omega, by omega, trivial⟩
      · rw [if_neg c2]
        constructor
        · rintro (h | ⟨a, b, c⟩)
          · exact Or.inl h
          · exact Or.inr ⟨by omega, b, c⟩
        · rintro (h | ⟨a, b, c⟩)
          · exact Or.inl h
          · refine Or.inr ⟨?_, b, c⟩
            by_contra hh
            have : j = i + 1 := by omega
            exact c2 ⟨this, by rw [c, this]⟩

/-! ### the `jump` pointers above the fork -/

/-- Nodes at depth below `d` on the path of `x` still have the old `jump`. -/
def Half (W : Nat) (K : Finset Nat) (x d : Nat) (s : St V) : Prop :=
  ∀ i < W, ∀ p, Ex W (insert x K) i p → ∃ u, s.node i p = some u ∧ Flags W (insert x K) i p u ∧ (if i < d ∧ p = pre W x i then JOk W K i p u.jump else JOk W (insert x K) i p u.jump)

theorem climbIns_ok (hx : x < 2 ^ W) {fc : Nat} (hfc : fc < 2) : ∀ d (s : St V), d < W → Has W K d (pre W x d) → Half W K x d s →
    (d = 0 ∨ Ext W (insert x K) fc d (pre W x d) x) → (∃ z ∈ K, pre W z d = pre W x d ∧ (fc = 1 → z ≤ x) ∧ (fc = 0 → x ≤ z)) →
    ∃ nd, climbIns W x fc d (pre W x d / 2) s = some { s with node := nd } ∧ Half W K x 0 { s with node := nd } := by
  intro d
  induction d with
  | zero => intro s _ _ hh _ _; exact ⟨s.node, rfl, hh⟩
  | succ d ih =>
    rintro s hd hhas hh hext ⟨z, hz, hzp, hz1, hz0⟩
    have hext := hext.resolve_left (by omega)
    rw [pre_half (by omega)]
    have hzp' : pre W z d = pre W x d := pre_eq_of_le (by omega) (by omega) hzp
    have hb := bit_lt W x d
    obtain ⟨v, ev, fv, jv⟩ := hh d (by omega) (pre W x d) (Or.inl ⟨x, Finset.mem_insert_self _ _, rfl⟩)
    rw [if_pos ⟨by omega, rfl⟩] at jv
    have hcb : ∀ b, Has W (insert x K) (d+1) b ↔ Has W K (d+1) b := fun b => has_on (by omega) hhas
    have hps := pre_succ (x := x) (W := W) (i := d) (by omega)
    -- lower nodes keep a correct `jump` if a key lies on each side of `x`
    have hlow : ∀ e ≤ d, (∃ w ∈ K, pre W w d = pre W x d ∧ (fc = 1 → x ≤ w) ∧ (fc = 0 → w ≤ x)) → Half W K x e s → Half W K x 0 s := by
      rintro e he ⟨w, hw, hwp, hw1, hw0⟩ H i hi p hp
      obtain ⟨u, eu, fu, ju⟩ := H i hi p hp
      refine ⟨u, eu, fu, ?_⟩
      rw [if_neg (by omega)]
      by_cases c : i < e ∧ p = pre W x i
      · rw [if_pos c] at ju
        obtain ⟨c1, rfl⟩ := c
        refine jok_on hi (hhas.up (by omega) (by omega)) ju fun b hb _ => ?_
        by_cases hbf : b = fc
        · subst hbf; exact ⟨w, hw, pre_eq_of_le (by omega) (by omega) hwp, hw1, hw0⟩
        · exact ⟨z, hz, pre_eq_of_le (by omega) (by omega) hzp, fun h => hz0 (by omega), fun h => hz1 (by omega)⟩
      · rw [if_neg c] at ju
        exact ju
    -- a key in the child on side `fc` of a node left to the other side
    have hsib : bit W x d ≠ fc → Has W K (d+1) (2 * pre W x d + fc) → ∃ w ∈ K, pre W w d = pre W x d ∧ (fc = 1 → x ≤ w) ∧ (fc = 0 → w ≤ x) := by
      rintro hne ⟨w, hw, ew⟩
      refine ⟨w, hw, ?_, fun h => le_of_lt (lt_of_pre (W := W) (i := d+1) (by omega)), fun h => le_of_lt (lt_of_pre (W := W) (i := d+1) (by omega))⟩
      rw [← pre_half (by omega), ew]; omega
    unfold climbIns
    rw [ev, Option.bind_some]
    by_cases c1 : bit W x d ≠ fc ∧ v.jump = none
    · rw [if_pos c1]
      refine ⟨s.node, rfl, ?_⟩
      have hfch : Has W K (d+1) (2 * pre W x d + fc) := by
        by_contra hno
        obtain ⟨y, ey, _⟩ := jv.one fc hfc (by have : 1 - fc = bit W x d := by omega
                                               rw [this, ← hps]; exact hhas) hno
        rw [c1.2] at ey; cases ey
      refine hlow d (le_refl d) (hsib c1.1 hfch) fun i hi p hp => ?_
      obtain ⟨u, eu, fu, ju⟩ := hh i hi p hp
      refine ⟨u, eu, fu, ?_⟩
      by_cases c : i < d ∧ p = pre W x i
      · rw [if_pos c]; rw [if_pos ⟨by omega, c.2⟩] at ju; exact ju
      · rw [if_neg c]
        by_cases c' : i < d + 1 ∧ p = pre W x i
        · rw [if_pos c'] at ju
          have : i = d := by
            by_contra hne
            exact c ⟨by omega, c'.2⟩
          subst this
          obtain ⟨_, rfl⟩ := c'
          refine jok_on (by omega) hhas ju fun b hb' hno => ?_
          exfalso
          by_cases hbf : b = fc
          · subst hbf; exact hno hfch
          · have : b = bit W x i := by omega
            rw [this, ← hps] at hno; exact hno hhas
        · rw [if_neg c'] at ju; exact ju
    · rw [if_neg c1]
      by_cases c2 : child v fc = true
      · rw [if_pos c2, Option.bind_some]
        have hfch : Has W K (d+1) (2 * pre W x d + fc) := (hcb _).1 ((fv fc hfc).1 c2)
        have hd' : Half W K x d s := fun i hi p hp => by
          obtain ⟨u, eu, fu, ju⟩ := hh i hi p hp
          refine ⟨u, eu, fu, ?_⟩
          by_cases c : i < d ∧ p = pre W x i
          · rw [if_pos c]; rw [if_pos ⟨by omega, c.2⟩] at ju; exact ju
          · rw [if_neg c]
            by_cases c' : i < d + 1 ∧ p = pre W x i
            · rw [if_pos c'] at ju
              have : i = d := by
                by_contra hne
                exact c ⟨by omega, c'.2⟩
              subst this
              obtain ⟨_, rfl⟩ := c'
              refine jok_on (by omega) hhas ju fun b hb' hno => ?_
              have hbf : b ≠ fc := by rintro rfl; exact hno hfch
              exact ⟨z, hz, hzp', fun h => hz0 (by omega), fun h => hz1 (by omega)⟩
            · rw [if_neg c'] at ju; exact ju
        by_cases c3 : bit W x d = fc
        · refine ih s (by omega) (hhas.up (by omega) (by omega)) hd' (Or.inr ⟨hext.1, rfl, fun t ht et => ?_⟩) ⟨z, hz, hzp', hz1, hz0⟩
          by_cases e : pre W t (d+1) = pre W x (d+1)
          · exact hext.2.2 t ht e
          · have h1 := pre_succ (x := t) (W := W) (i := d) (by omega)
            have h2 := bit_lt W t d
            have h3 : bit W t d ≠ bit W x d := fun h4 => e (by rw [h1, hps, et, h4])
            exact ⟨fun h => le_of_lt (lt_of_pre (W := W) (i := d+1) (by omega)), fun h => le_of_lt (lt_of_pre (W := W) (i := d+1) (by omega))⟩
        · -- two children: only at the root
          have hd0 : d = 0 := by
            by_contra hd0
            refine c1 ⟨c3, jv.two ?_ ?_ hd0⟩
            · rcases (by omega : fc = 0 ∨ bit W x d = 0) with h | h
              · rw [h] at hfch; exact hfch
              · rw [hps, h] at hhas; exact hhas
            · rcases (by omega : fc = 1 ∨ bit W x d = 1) with h | h
              · rw [h] at hfch; exact hfch
              · rw [hps, h] at hhas; exact hhas
          subst hd0
          exact ⟨s.node, rfl, hd'⟩
      · rw [if_neg c2]
        unfold modNode
        rw [ev, Option.map_some, Option.bind_some]
        have hnf : ¬ Has W (insert x K) (d+1) (2 * pre W x d + fc) := fun h => c2 ((fv fc hfc).2 h)
        have hne : bit W x d ≠ fc := by
          rintro rfl
          rw [← hps] at hnf
          exact hnf ((hcb _).2 hhas)
        have hextd : Ext W (insert x K) fc d (pre W x d) x := by
          refine ⟨hext.1, rfl, fun t ht et => hext.2.2 t ht ?_⟩
          have h1 := pre_succ (x := t) (W := W) (i := d) (by omega)
          have h2 := bit_lt W t d
          have h3 : bit W t d ≠ fc := fun h4 => hnf ⟨t, ht, by rw [h1, et, h4]⟩
          rw [h1, hps, et]; omega
        have hh' : Half W K x d { s with node := upd2 s.node d (pre W x d) (some { v with jump := some (some x) }) } := by
          intro i hi p hp
          dsimp only
          by_cases c : i = d ∧ p = pre W x d
          · obtain ⟨rfl, rfl⟩ := c
            refine ⟨{ v with jump := some (some x) }, by rw [upd2_same], fv, ?_⟩
            rw [if_neg (by omega)]
            refine ⟨fun b hb' h1 h2 => ?_, fun h0 h1 => ?_, fun e => absurd e insert_ne_empty⟩
            · have hbf : b = fc := by
                by_contra hbf
                have : b = bit W x i := by omega
                rw [this, ← hps] at h2
                exact h2 ((hcb _).2 hhas)
              subst hbf
              exact ⟨x, rfl, hextd⟩
            · exfalso
              rcases (by omega : fc = 0 ∨ fc = 1) with h | h
              · rw [h] at hnf; exact hnf h0
              · rw [h] at hnf; exact hnf h1
          · rw [upd2_ne _ _ c]
            obtain ⟨u, eu, fu, ju⟩ := hh i hi p hp
            refine ⟨u, eu, fu, ?_⟩
            by_cases c' : i < d ∧ p = pre W x i
            · rw [if_pos c']; rw [if_pos ⟨by omega, c'.2⟩] at ju; exact ju
            · rw [if_neg c']
              rw [if_neg (by
                rintro ⟨a, b⟩
                by_cases e : i = d
                · subst e; exact c ⟨rfl, b⟩
                · exact c' ⟨by omega, b⟩)] at ju
              exact ju
        obtain ⟨nd, e, hn⟩ := ih { s with node := upd2 s.node d (pre W x d) (some { v with jump := some (some x) }) } (by omega) (hhas.up (by omega) (by omega)) hh' (Or.inr hextd) ⟨z, hz, hzp', hz1, hz0⟩
        exact ⟨nd, e, hn⟩

end Verif.Trie
