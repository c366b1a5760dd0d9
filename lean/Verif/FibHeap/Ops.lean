import Verif.FibHeap.Abs
/-!
The elementary steps of the heap on the functions of the keys.
-/
namespace Verif.FibHeap

variable {α : Type}

/-- The nodes of the heap hold the forest `g` on the keys `S`; the other entries are `o`. -/
structure Rep (N K : Nat) (o : Nat → Option (Option (Nd α))) (S : Nat → Prop) (H : Hp α) (g : G α) : Prop where
  len : H.nd.length = N
  tlen : H.tab.length = K
  node : ∀ x, S x → H.nd[x]? = some (some ⟨g.ch x, g.par x, (g.ch x).length, g.mrk x, true, g.val x⟩)
  other : ∀ x, ¬ S x → H.nd[x]? = o x
  tab : ∀ d, d < K → H.tab[d]? = some (g.rt d)

def Same (H H' : Hp α) : Prop := H'.root = H.root ∧ H'.sz = H.sz

theorem Same.refl (H : Hp α) : Same H H := ⟨rfl, rfl⟩
theorem Same.trans {H H' H'' : Hp α} (a : Same H H') (b : Same H' H'') : Same H H'' := ⟨b.1.trans a.1, b.2.trans a.2⟩

theorem upd_self {β : Type} (f : Nat → β) (x : Nat) : upd f x (f x) = f := by
  funext y
  by_cases h : y = x
  · subst h; rw [upd_same]
  · rw [upd_ne _ _ h]

theorem upd_self' {β : Type} (f : Nat → β) {x p : Nat} (v : β) (h : x ≠ p) : upd (upd f p v) x (f x) = upd f p v := by
  funext y
  by_cases hy : y = x
  · subst hy; rw [upd_same, upd_ne _ _ h]
  · rw [upd_ne _ _ hy]

variable {N K : Nat} {o : Nat → Option (Option (Nd α))} {S O : Nat → Prop} {H : Hp α} {g : G α}

theorem Rep.lt (R : Rep N K o S H g) {x : Nat} (hx : S x) : x < N := by
  have := R.node x hx
  rw [← R.len]
  by_contra h
  rw [List.getElem?_eq_none (by omega)] at this
  cases this

theorem Rep.getN (R : Rep N K o S H g) {x : Nat} (hx : S x) : getN H x = some ⟨g.ch x, g.par x, (g.ch x).length, g.mrk x, true, g.val x⟩ := by
  unfold FibHeap.getN
  rw [R.node x hx]
  rfl

theorem Rep.setN (R : Rep N K o S H g) {x : Nat} (hx : S x) (n : Nd α) (hn : n.deg = n.child.length) (he : n.en = true) :
    ∃ H', setN H x n = some H' ∧ Same H H' ∧ Rep N K o S H' { g with ch := upd g.ch x n.child, par := upd g.par x n.par, mrk := upd g.mrk x n.marked, val := upd g.val x n.val } := by
  have hlt : x < H.nd.length := by rw [R.len]; exact R.lt hx
  refine ⟨{ H with nd := H.nd.set x (some n) }, ?_, ⟨rfl, rfl⟩, ?_⟩
  · unfold FibHeap.setN wr
    rw [if_pos hlt]
    rfl
  · refine ⟨by simpa using R.len, R.tlen, ?_, ?_, R.tab⟩
    · intro y hy
      dsimp only
      by_cases h : y = x
      · subst h
        simp only [upd_same]
        rw [List.getElem?_set_self hlt]
        cases n
        simp only at hn he
        subst hn he
        rfl
      · rw [upd_ne _ _ h, upd_ne _ _ h, upd_ne _ _ h, upd_ne _ _ h, List.getElem?_set_ne (Ne.symm h)]
        exact R.node y hy
    · intro y hy
      dsimp only
      rw [List.getElem?_set_ne (by rintro rfl; exact hy hx)]
      exact R.other y hy

/-- A node which is not in the forest yet. -/
theorem Rep.addN (R : Rep N K o S H g) {x : Nat} (hx : x < N) (v : α) :
    ∃ H', FibHeap.setN H x ⟨[], none, 0, false, true, v⟩ = some H' ∧ Same H H' ∧ Rep N K o (fun y => S y ∨ y = x) H' { g with ch := upd g.ch x [], par := upd g.par x none, mrk := upd g.mrk x false, val := upd g.val x v } := by
  have hlt : x < H.nd.length := by rw [R.len]; exact hx
  refine ⟨{ H with nd := H.nd.set x (some ⟨[], none, 0, false, true, v⟩) }, ?_, ⟨rfl, rfl⟩, ?_⟩
  · unfold FibHeap.setN wr
    rw [if_pos hlt]
    rfl
  · refine ⟨by simpa using R.len, R.tlen, ?_, ?_, R.tab⟩
    · intro y hy
      dsimp only
      by_cases h : y = x
      · subst h
        simp only [upd_same]
        rw [List.getElem?_set_self hlt]
        rfl
      · rw [upd_ne _ _ h, upd_ne _ _ h, upd_ne _ _ h, upd_ne _ _ h, List.getElem?_set_ne (Ne.symm h)]
        exact R.node y (hy.resolve_right h)
    · intro y hy
      dsimp only
      rw [List.getElem?_set_ne (by rintro rfl; exact hy (Or.inr rfl))]
      exact R.other y (fun h => hy (Or.inl h))

theorem Rep.tabPush (R : Rep N K o S H g) {d : Nat} (hd : d < K) (x : Nat) :
    ∃ H', FibHeap.tabPush H d x = some H' ∧ Same H H' ∧ Rep N K o S H' { g with rt := upd g.rt d (g.rt d ++ [x]) } := by
  have hlt : d < H.tab.length := by rw [R.tlen]; exact hd
  refine ⟨{ H with tab := H.tab.set d (g.rt d ++ [x]) }, ?_, ⟨rfl, rfl⟩, ?_⟩
  · unfold FibHeap.tabPush wr
    rw [R.tab d hd, Option.bind_some, if_pos hlt]
    rfl
  · refine ⟨R.len, by simpa using R.tlen, R.node, R.other, ?_⟩
    intro e he
    dsimp only
    by_cases h : e = d
    · subst h; rw [upd_same, List.getElem?_set_self hlt]
    · rw [upd_ne _ _ h, List.getElem?_set_ne (Ne.symm h)]; exact R.tab e he

theorem Rep.tabPop (R : Rep N K o S H g) {d x : Nat} (hd : d < K) (hx : x ∈ g.rt d) :
    ∃ H', FibHeap.tabPop H d x = some H' ∧ Same H H' ∧ Rep N K o S H' { g with rt := upd g.rt d ((g.rt d).erase x) } := by
  have hlt : d < H.tab.length := by rw [R.tlen]; exact hd
  refine ⟨{ H with tab := H.tab.set d ((g.rt d).erase x) }, ?_, ⟨rfl, rfl⟩, ?_⟩
  · unfold FibHeap.tabPop popLink wr
    rw [R.tab d hd, Option.bind_some, if_pos hx, Option.bind_some, if_pos hlt]
    rfl
  · refine ⟨R.len, by simpa using R.tlen, R.node, R.other, ?_⟩
    intro e he
    dsimp only
    by_cases h : e = d
    · subst h; rw [upd_same, List.getElem?_set_self hlt]
    · rw [upd_ne _ _ h, List.getElem?_set_ne (Ne.symm h)]; exact R.tab e he

theorem Rep.cutLink (R : Rep N K o S H g) {x p : Nat} (hx : S x) (hp : S p) (hne : x ≠ p) (hm : x ∈ g.ch p) (hd : (g.ch x).length < K) :
    ∃ H', FibHeap.cutLink H x p = some H' ∧ Same H H' ∧ Rep N K o S H' { g with
      ch := upd g.ch p ((g.ch p).erase x), par := upd g.par x none, mrk := upd g.mrk x false, rt := upd g.rt (g.ch x).length (g.rt (g.ch x).length ++ [x]) } := by
  have hpos : (g.ch p).length ≠ 0 := by have := List.length_pos_of_mem hm; omega
  have hlen : ((g.ch p).erase x).length = (g.ch p).length - 1 := List.length_erase_of_mem hm
  unfold FibHeap.cutLink popLink
  rw [R.getN hp, Option.bind_some]
  dsimp only
  rw [if_pos hm, Option.bind_some, if_neg hpos]
  obtain ⟨H1, e1, s1, R1⟩ := R.setN hp ⟨(g.ch p).erase x, g.par p, (g.ch p).length - 1, g.mrk p, true, g.val p⟩ hlen.symm rfl
  rw [e1, Option.bind_some, R1.getN hx, Option.bind_some]
  dsimp only at R1 ⊢
  rw [upd_self, upd_self, upd_self] at R1
  rw [upd_ne _ _ hne, upd_self]
  obtain ⟨H2, e2, s2, R2⟩ := R1.setN hx ⟨g.ch x, none, (g.ch x).length, false, true, g.val x⟩ rfl rfl
  rw [e2, Option.bind_some]
  dsimp only at R2
  rw [upd_self' _ _ hne, upd_self] at R2
  obtain ⟨H3, e3, s3, R3⟩ := R2.tabPush hd x
  exact ⟨H3, e3, (s1.trans s2).trans s3, R3⟩

theorem Rep.link (R : Rep N K o S H g) {l r : Nat} (hl : S l) (hr : S r) (hne : l ≠ r) :
    ∃ H', FibHeap.link H l r = some H' ∧ Same H H' ∧ Rep N K o S H' { g with ch := upd g.ch l (g.ch l ++ [r]), par := upd g.par r (some l) } := by
  unfold FibHeap.link
  rw [R.getN hl, Option.bind_some]
  dsimp only
  obtain ⟨H1, e1, s1, R1⟩ := R.setN hl ⟨g.ch l ++ [r], g.par l, (g.ch l).length + 1, g.mrk l, true, g.val l⟩ (by simp) rfl
  rw [e1, Option.bind_some, R1.getN hr, Option.bind_some]
  dsimp only at R1 ⊢
  rw [upd_self, upd_self, upd_self] at R1
  rw [upd_ne _ _ (Ne.symm hne), upd_self, upd_self]
  obtain ⟨H2, e2, s2, R2⟩ := R1.setN hr ⟨g.ch r, some l, (g.ch r).length, g.mrk r, true, g.val r⟩ rfl rfl
  refine ⟨H2, e2, s1.trans s2, ?_⟩
  dsimp only at R2
  rw [upd_self' _ _ (Ne.symm hne), upd_self, upd_self] at R2
  exact R2

/-! `_Consolidate` -/

/-- Lines 264-275 for a node whose parent is not marked. -/
theorem cut_spec (R : Rep N K o S H g) (I : Inv S (fun _ => False) g) (hN : N ≤ Nat.fib K) (hK : 2 ≤ K) {x p : Nat} (hx : S x) (hp : g.par x = some p) (hm : g.mrk p = false) :
    ∃ H' g', (cutPrep H p).bind (fun H => cutLink H x p) = some H' ∧ Same H H' ∧ Rep N K o S H' g' ∧ Inv S (fun _ => False) g' ∧ g'.val = g.val ∧ g'.par = upd g.par x none := by
  have hpS := I.parS x p hx hp
  have hne := I.par_ne hx hp
  have hmem : x ∈ g.ch p := (I.child p hpS x).2 ⟨hx, hp⟩
  have hpos : (g.ch p).length ≠ 0 := by have := List.length_pos_of_mem hmem; omega
  have hlt : ∀ y, S y → y < N := fun y hy => R.lt hy
  have hdx := I.deg_lt hlt hN hK hx
  have hdp := I.deg_lt hlt hN hK hpS
  have hlen : ((g.ch p).erase x).length = (g.ch p).length - 1 := List.length_erase_of_mem hmem
  unfold cutPrep
  rw [R.getN hpS, Option.bind_some]
  dsimp only
  rw [hm, if_neg (by simp)]
  cases hpp : g.par p with
  | some q =>
    dsimp only
    obtain ⟨H1, e1, s1, R1⟩ := R.setN hpS ⟨g.ch p, g.par p, (g.ch p).length, true, true, g.val p⟩ rfl rfl
    rw [hpp] at e1
    rw [e1, Option.bind_some]
    dsimp only at R1
    rw [upd_self, upd_self, upd_self] at R1
    obtain ⟨H2, e2, s2, R2⟩ := R1.cutLink hx hpS hne.symm hmem (by show (g.ch x).length < K; omega)
    refine ⟨H2, _, e2, s1.trans s2, R2, ?_, rfl, rfl⟩
    have I1 := I.detach (m := true) hx hp (fun h => by rw [hpp] at h; cases h) (fun _ => ⟨hm, rfl⟩)
    have I2 := I1.put (d := (g.ch x).length) hx (Or.inr rfl) (upd_same _ _ _) (by dsimp only; rw [upd_ne _ _ hne.symm])
    exact I2.congrO (fun y _ => by simp)
  | none =>
    dsimp only
    have hrt : p ∈ g.rt (g.ch p).length := (I.rt_iff _ p).2 ⟨hpS, id, hpp, rfl⟩
    obtain ⟨H1, e1, s1, R1⟩ := R.tabPop (by omega) hrt
    rw [e1, Option.bind_some, if_neg hpos]
    obtain ⟨H2, e2, s2, R2⟩ := R1.tabPush (d := (g.ch p).length - 1) (by omega) p
    rw [e2, Option.bind_some]
    obtain ⟨H3, e3, s3, R3⟩ := R2.cutLink hx hpS hne.symm hmem (by show (g.ch x).length < K; omega)
    refine ⟨H3, _, e3, (s1.trans s2).trans s3, R3, ?_, rfl, rfl⟩
    have I1 := I.take hrt
    have I2 := I1.detach (m := false) hx hp (fun _ => ⟨rfl, Or.inr rfl⟩) (fun h => absurd hpp h)
    have I3 := I2.put (x := p) (d := (g.ch p).length - 1) hpS (Or.inl (Or.inr rfl)) (by dsimp only; rw [upd_ne _ _ hne]; exact hpp)
      (by dsimp only; rw [upd_same]; exact hlen)
    have I4 := I3.put (x := x) (d := (g.ch x).length) hx ⟨Or.inr rfl, hne.symm⟩ (upd_same _ _ _) (by dsimp only; rw [upd_ne _ _ hne.symm])
    have I5 := I4.congrO (O' := fun _ => False) (fun y _ => by
      constructor
      · rintro ⟨⟨(h | h) | h, h1⟩, h2⟩
        · exact h
        · exact h1 h
        · exact h2 h
      · exact False.elim)
    have hmk : upd g.mrk p false = g.mrk := by rw [← hm]; exact upd_self _ _
    dsimp only at I5
    rw [hmk] at I5
    exact I5

theorem consolidate_spec (hN : N ≤ Nat.fib K) (hK : 2 ≤ K) : ∀ (f : Nat) (H : Hp α) (g : G α) (x p : Nat), Rep N K o S H g → Inv S (fun _ => False) g → S x → DL g f x → g.par x = some p →
    ∃ H' g', consolidate f H x = some H' ∧ Same H H' ∧ Rep N K o S H' g' ∧ Inv S (fun _ => False) g' ∧ g'.val = g.val ∧ g'.par x = none ∧
      ∀ y, g'.par y = g.par y ∨ (g'.par y = none ∧ Anc g y x) := by
  intro f
  induction f with
  | zero => intro H g x p R I hx hd hp; rw [show g.par x = none from hd] at hp; cases hp
  | succ f ih =>
    intro H g x p R I hx hd hp
    have hpS := I.parS x p hx hp
    rw [consolidate, R.getN hx, Option.bind_some]
    dsimp only
    rw [hp, Option.bind_some, R.getN hpS, Option.bind_some]
    dsimp only
    have fin : ∀ (H1 : Hp α) (g1 : G α), Same H H1 → Rep N K o S H1 g1 → Inv S (fun _ => False) g1 → g1.val = g.val → g1.par x = some p → g1.mrk p = false →
        (∀ y, g1.par y = g.par y ∨ (g1.par y = none ∧ Anc g y p)) →
        ∃ H' g', (cutPrep H1 p).bind (fun H => cutLink H x p) = some H' ∧ Same H H' ∧ Rep N K o S H' g' ∧ Inv S (fun _ => False) g' ∧ g'.val = g.val ∧ g'.par x = none ∧
          ∀ y, g'.par y = g.par y ∨ (g'.par y = none ∧ Anc g y x) := by
      intro H1 g1 s1 R1 I1 hv hpx hm hpar
      obtain ⟨H2, g2, e2, s2, R2, I2, hv2, hp2⟩ := cut_spec R1 I1 hN hK hx hpx hm
      refine ⟨H2, g2, e2, s1.trans s2, R2, I2, hv2.trans hv, by rw [hp2, upd_same], fun y => ?_⟩
      rw [hp2]
      by_cases hy : y = x
      · subst hy; rw [upd_same]; exact Or.inr ⟨rfl, Anc.refl⟩
      · rw [upd_ne _ _ hy]
        exact (hpar y).imp id (fun h => ⟨h.1, Anc.step hp h.2⟩)
    cases hm : g.mrk p with
    | false =>
      rw [if_neg (by simp), Option.bind_some]
      exact fin H g (Same.refl H) R I rfl hp hm (fun y => Or.inl rfl)
    | true =>
      rw [if_pos rfl]
      cases hpp : g.par p with
      | none =>
        rw [I.root_mk p hpS hpp] at hm
        cases hm
      | some q =>
        rw [Option.bind_some]
        obtain ⟨H1, g1, e1, s1, R1, I1, hv1, hp1, hpar1⟩ := ih H g p q R I hpS (hd p hp) hpp
        rw [e1, Option.bind_some]
        refine fin H1 g1 s1 R1 I1 hv1 ?_ (I1.root_mk p hpS hp1) hpar1
        rcases hpar1 x with h | ⟨_, h⟩
        · rw [h, hp]
        · obtain ⟨h', hh⟩ := I.height
          have a := h.height I hh hpS
          have b := hh x p hx hp
          omega

/-! `_ExpandChildren` -/

theorem expand_spec (hN : N ≤ Nat.fib K) (hK : 2 ≤ K) {r : Nat} (hr : S r) : ∀ (f : Nat) (H : Hp α) (g : G α), Rep N K o S H g → Inv S (fun y => y = r) g → g.par r = none → (g.ch r).length < f →
    ∃ H' g', expand f H r = some H' ∧ Same H H' ∧ Rep N K o S H' g' ∧ Inv S (fun y => y = r) g' ∧ g'.val = g.val ∧ g'.ch r = [] ∧ g'.par r = none ∧
      ∀ y, g'.par y = g.par y ∨ g'.par y = none := by
  intro f
  induction f with
  | zero => intro H g R I hp hf; omega
  | succ f ih =>
    intro H g R I hp hf
    rw [expand, R.getN hr, Option.bind_some]
    dsimp only
    cases hc : g.ch r with
    | nil =>
      exact ⟨H, g, rfl, Same.refl H, R, I, rfl, hc, hp, fun y => Or.inl rfl⟩
    | cons c cs =>
      dsimp only
      obtain ⟨hcS, hcp⟩ := (I.child r hr c).1 (by rw [hc]; exact List.mem_cons_self ..)
      have hne := I.par_ne hcS hcp
      have hdc := I.deg_lt (fun y hy => R.lt hy) hN hK hcS
      have he : (g.ch r).erase c = cs := by rw [hc]; simp
      have hmr := I.root_mk r hr hp
      rw [if_neg (by simp)]
      obtain ⟨H1, e1, s1, R1⟩ := R.setN hr ⟨cs, g.par r, (c :: cs).length - 1, g.mrk r, true, g.val r⟩ (by simp) rfl
      rw [e1, Option.bind_some, R1.getN hcS, Option.bind_some]
      dsimp only at R1 ⊢
      rw [upd_self, upd_self, upd_self] at R1
      rw [upd_ne _ _ hne.symm, upd_self]
      obtain ⟨H2, e2, s2, R2⟩ := R1.setN hcS ⟨g.ch c, none, (g.ch c).length, false, true, g.val c⟩ rfl rfl
      rw [e2, Option.bind_some]
      dsimp only at R2
      rw [upd_self' _ _ hne.symm, upd_self] at R2
      obtain ⟨H3, e3, s3, R3⟩ := R2.tabPush (d := (g.ch c).length) (by omega) c
      rw [e3, Option.bind_some]
      have I1 := I.detach (m := false) hcS hcp (fun _ => ⟨rfl, rfl⟩) (fun h => absurd hp h)
      have I2 := I1.put (x := c) (d := (g.ch c).length) hcS (Or.inr rfl) (upd_same _ _ _) (by dsimp only; rw [upd_ne _ _ hne.symm])
      have I3 := I2.congrO (O' := fun y => y = r) (fun y _ => by
        constructor
        · rintro ⟨h | h, h1⟩
          · exact h
          · exact absurd h h1
        · rintro rfl; exact ⟨Or.inl rfl, hne⟩)
      have hmk : upd g.mrk r false = g.mrk := by rw [← hmr]; exact upd_self _ _
      dsimp only at I3 R3
      rw [hmk, he] at I3
      obtain ⟨H4, g4, e4, s4, R4, I4, hv4, hc4, hp4, hpar4⟩ := ih H3 _ R3 I3 (by dsimp only; rw [upd_ne _ _ hne]; exact hp) (by
        dsimp only
        rw [upd_same]
        rw [hc] at hf
        simp at hf
        omega)
      refine ⟨H4, g4, e4, ((s1.trans s2).trans s3).trans s4, R4, I4, hv4, hc4, hp4, fun y => ?_⟩
      rcases hpar4 y with h | h
      · dsimp only at h
        by_cases hy : y = c
        · subst hy; rw [upd_same] at h; exact Or.inr h
        · rw [upd_ne _ _ hy] at h; exact Or.inl h
      · exact Or.inr h

end Verif.FibHeap
