import Verif.FibHeap.Cost
import Mathlib.Tactic.Ring
/-!
The potential of a `FibonacciHeap` and how the operations change it, for C132.
-/
namespace Verif.FibHeap

variable {α : Type} {lt : α → α → Bool}

/-- The number of trees. -/
def trees (H : Hp α) : Nat := (H.tab.map List.length).sum

/-- Whether an entry of `map_` is a marked node. -/
def isMarked (o : Option (Nd α)) : Bool := o.any (fun n => n.marked)

/-- The number of marked nodes. -/
def marks (H : Hp α) : Nat := H.nd.countP isMarked

theorem countP_set {A : Type} (p : A → Bool) : ∀ (l : List A) (i : Nat) (a b : A), l[i]? = some a → (l.set i b).countP p + (p a).toNat = l.countP p + (p b).toNat := by
  intro l
  induction l with
  | nil => intro i a b h; simp at h
  | cons c l ih =>
    intro i a b h
    cases i with
    | zero =>
      rw [List.getElem?_cons_zero] at h
      cases h
      rw [List.set_cons_zero, List.countP_cons, List.countP_cons]
      cases p c <;> cases p b <;> simp <;> omega
    | succ i =>
      rw [List.getElem?_cons_succ] at h
      rw [List.set_cons_succ, List.countP_cons, List.countP_cons]
      have := ih i a b h
      omega

theorem sum_set : ∀ (l : List (List Nat)) (i : Nat) (a b : List Nat), l[i]? = some a → ((l.set i b).map List.length).sum + a.length = (l.map List.length).sum + b.length := by
  intro l
  induction l with
  | nil => intro i a b h; simp at h
  | cons c l ih =>
    intro i a b h
    cases i with
    | zero =>
      rw [List.getElem?_cons_zero] at h
      cases h
      rw [List.set_cons_zero, List.map_cons, List.map_cons, List.sum_cons, List.sum_cons]
      omega
    | succ i =>
      rw [List.getElem?_cons_succ] at h
      rw [List.set_cons_succ, List.map_cons, List.map_cons, List.sum_cons, List.sum_cons]
      have := ih i a b h
      omega

theorem wr_some {A : Type} {l l' : List A} {i : Nat} {a : A} (h : wr l i a = some l') : i < l.length ∧ l' = l.set i a := by
  unfold wr at h
  split_ifs at h with hi
  exact ⟨hi, (Option.some.inj h).symm⟩

/-- What a write to a node does. -/
theorem setN_some {H H' : Hp α} {x : Nat} {n : Nd α} (h : setN H x n = some H') :
    H'.tab = H.tab ∧ H'.root = H.root ∧ H'.nd.length = H.nd.length ∧ (∀ y, getN H' y = if y = x then some n else getN H y) ∧
    (∀ m, getN H x = some m → marks H' + m.marked.toNat = marks H + n.marked.toNat) ∧ marks H' ≤ marks H + n.marked.toNat := by
  unfold setN at h
  obtain ⟨nd, e, rfl⟩ := Option.map_eq_some_iff.mp h
  obtain ⟨hi, rfl⟩ := wr_some e
  refine ⟨rfl, rfl, by simp, fun y => ?_, fun m hm => ?_, ?_⟩
  · unfold getN
    dsimp only
    rw [List.getElem?_set]
    by_cases hy : y = x
    · subst hy; rw [if_pos rfl, if_pos hi, if_pos rfl]; rfl
    · rw [if_neg (fun h => hy h.symm), if_neg hy]
  · unfold getN at hm
    rw [List.getElem?_eq_getElem hi, Option.bind_some] at hm
    have := countP_set isMarked H.nd x (some m) (some n) (by rw [List.getElem?_eq_getElem hi]; exact congrArg some hm)
    exact this
  · have := countP_set isMarked H.nd x _ (some n) (List.getElem?_eq_getElem hi)
    have e : isMarked (some n) = n.marked := rfl
    rw [e] at this
    unfold marks
    dsimp only
    omega

theorem tabPush_some {H H' : Hp α} {d x : Nat} (h : tabPush H d x = some H') :
    trees H' = trees H + 1 ∧ H'.nd = H.nd ∧ H'.root = H.root ∧ H'.tab.length = H.tab.length := by
  unfold tabPush at h
  obtain ⟨ring, hr, h⟩ := Option.bind_eq_some_iff.mp h
  obtain ⟨tab, e, rfl⟩ := Option.map_eq_some_iff.mp h
  obtain ⟨hi, rfl⟩ := wr_some e
  have := sum_set H.tab d ring (ring ++ [x]) hr
  rw [List.length_append, List.length_singleton] at this
  refine ⟨?_, rfl, rfl, by simp⟩
  unfold trees
  dsimp only
  omega

theorem tabPop_some {H H' : Hp α} {d x : Nat} (h : tabPop H d x = some H') :
    trees H' + 1 = trees H ∧ H'.nd = H.nd ∧ H'.root = H.root ∧ H'.tab.length = H.tab.length ∧ ∃ ring, H.tab[d]? = some ring ∧ H'.tab[d]? = some (ring.erase x) := by
  unfold tabPop at h
  obtain ⟨ring, hr, h⟩ := Option.bind_eq_some_iff.mp h
  obtain ⟨ring', hp, h⟩ := Option.bind_eq_some_iff.mp h
  obtain ⟨tab, e, rfl⟩ := Option.map_eq_some_iff.mp h
  obtain ⟨hi, rfl⟩ := wr_some e
  unfold popLink at hp
  split_ifs at hp with hm
  cases hp
  have := sum_set H.tab d ring (ring.erase x) hr
  have h2 := List.length_erase_of_mem hm
  have h3 := List.length_pos_of_mem hm
  refine ⟨?_, rfl, rfl, by simp, ring, hr, by simp [hi]⟩
  unfold trees
  dsimp only
  omega

theorem marks_congr {H H' : Hp α} (h : H'.nd = H.nd) : marks H' = marks H := by unfold marks; rw [h]
theorem getN_congr {H H' : Hp α} (h : H'.nd = H.nd) (y : Nat) : getN H' y = getN H y := by unfold getN; rw [h]
theorem trees_congr {H H' : Hp α} (h : H'.tab = H.tab) : trees H' = trees H := by unfold trees; rw [h]

/-- A mark is lost only by a node that becomes a root, and roots stay roots. -/
def Fr (H H' : Hp α) : Prop := ∀ y n, getN H y = some n → (n.marked = true ∨ n.par = none) → ∃ n', getN H' y = some n' ∧ (n'.marked = true ∨ n'.par = none)

theorem Fr.refl (H : Hp α) : Fr H H := fun _ n h c => ⟨n, h, c⟩
theorem Fr.trans {H H' H'' : Hp α} (a : Fr H H') (b : Fr H' H'') : Fr H H'' := fun y n h c => by
  obtain ⟨n', h', c'⟩ := a y n h c
  exact b y n' h' c'
theorem Fr.congr {H H' : Hp α} (h : H'.nd = H.nd) : Fr H H' := fun y n e c => ⟨n, by rw [getN_congr h]; exact e, c⟩

theorem Fr.set {H H' : Hp α} {x : Nat} {n m : Nd α} (h : setN H x n = some H') (hm : getN H x = some m) (hn : m.marked = true ∨ m.par = none → n.marked = true ∨ n.par = none) : Fr H H' := by
  obtain ⟨_, _, _, hg, _⟩ := setN_some h
  intro y k hk c
  rw [hg y]
  by_cases hy : y = x
  · subst hy
    rw [hm] at hk
    cases hk
    rw [if_pos rfl]
    exact ⟨n, rfl, hn c⟩
  · rw [if_neg hy]
    exact ⟨k, hk, c⟩

theorem cutPrep_some {H H' : Hp α} {p : Nat} (h : cutPrep H p = some H') : trees H' = trees H ∧ marks H' ≤ marks H + 1 ∧
    (∀ pn, getN H p = some pn → pn.par = none → marks H' = marks H) ∧ H'.tab.length = H.tab.length ∧ Fr H H' ∧
    ∀ y n, getN H y = some n → ∃ n', getN H' y = some n' ∧ (n.marked = true → n'.marked = true) := by
  unfold cutPrep at h
  obtain ⟨pn, e, h⟩ := Option.bind_eq_some_iff.mp h
  by_cases hm : pn.marked = true
  · rw [if_pos hm] at h; cases h
  rw [if_neg hm] at h
  cases hp : pn.par with
  | some q =>
    rw [hp] at h
    dsimp only at h
    obtain ⟨s1, s2, s3, s4, s5, s6⟩ := setN_some h
    refine ⟨trees_congr s1, s6, fun pn' e' h' => ?_, by rw [s1], Fr.set h e (fun _ => Or.inl rfl), fun y n hy => ?_⟩
    · rw [e] at e'
      cases e'
      rw [hp] at h'
      cases h'
    · rw [s4 y]
      by_cases hyp : y = p
      · rw [if_pos hyp]; exact ⟨_, rfl, fun _ => rfl⟩
      · rw [if_neg hyp]; exact ⟨n, hy, id⟩
  | none =>
    rw [hp] at h
    dsimp only at h
    obtain ⟨H1, e1, h⟩ := Option.bind_eq_some_iff.mp h
    split_ifs at h with hd
    obtain ⟨a1, a2, a3, a4, _⟩ := tabPop_some e1
    obtain ⟨b1, b2, b3, b4⟩ := tabPush_some h
    have hnd := b2.trans a2
    refine ⟨by omega, by rw [marks_congr hnd]; omega, fun _ _ _ => marks_congr hnd, b4.trans a4, Fr.congr hnd, fun y n hy => ⟨n, by rw [getN_congr hnd]; exact hy, id⟩⟩

theorem cutLink_some {H H' : Hp α} {x p : Nat} {n : Nd α} (h : cutLink H x p = some H') (hn : getN H x = some n) :
    trees H' = trees H + 1 ∧ marks H' + n.marked.toNat = marks H ∧ H'.tab.length = H.tab.length ∧ Fr H H' := by
  unfold cutLink at h
  obtain ⟨pn, e, h⟩ := Option.bind_eq_some_iff.mp h
  obtain ⟨ch, e1, h⟩ := Option.bind_eq_some_iff.mp h
  split_ifs at h with hd
  obtain ⟨H1, e2, h⟩ := Option.bind_eq_some_iff.mp h
  obtain ⟨m, e3, h⟩ := Option.bind_eq_some_iff.mp h
  obtain ⟨H2, e4, h⟩ := Option.bind_eq_some_iff.mp h
  obtain ⟨a1, a2, a3, a4, a5, _⟩ := setN_some e2
  obtain ⟨b1, b2, b3, b4, b5, _⟩ := setN_some e4
  obtain ⟨c1, c2, c3, c4⟩ := tabPush_some h
  have hmm : m.marked = n.marked := by
    rw [a4 x] at e3
    by_cases hx : x = p
    · subst hx
      rw [if_pos rfl] at e3
      rw [e] at hn
      cases hn
      cases e3
      rfl
    · rw [if_neg hx, hn] at e3
      cases e3
      rfl
  have q1 := a5 pn e
  have q2 := b5 m e3
  have q3 := marks_congr c2
  dsimp only at q1 q2
  rw [hmm] at q2
  have z : false.toNat = 0 := rfl
  rw [z] at q2
  refine ⟨by rw [c1, trees_congr (b1.trans a1)], by omega, by rw [c4, b1, a1], ?_⟩
  exact (Fr.set e2 e (fun h => h)).trans ((Fr.set e4 e3 (fun _ => Or.inr rfl)).trans (Fr.congr c2))

/-- **The cascading cuts**: each of them makes a tree, and all but the last one remove a mark. -/
theorem consolidateC_some {N K : Nat} {o : Nat → Option (Option (Nd α))} {S : Nat → Prop} (hN : N ≤ Nat.fib K) (hK : 2 ≤ K) :
    ∀ (f : Nat) (H : Hp α) (g : G α) (x p : Nat) (H' : Hp α) (c : Nat), Rep N K o S H g → Inv S (fun _ => False) g → S x → DL g f x → g.par x = some p → consolidateC f H x = some (H', c) →
      trees H' = trees H + c ∧ marks H' + c + (g.mrk x).toNat ≤ marks H + 2 ∧ 1 ≤ c ∧ Fr H H' := by
  intro f
  induction f with
  | zero => intro H g x p H' c R I hx hd hp; rw [show g.par x = none from hd] at hp; cases hp
  | succ f ih =>
    intro H g x p H' c R I hx hd hp h
    have hpS := I.parS x p hx hp
    rw [consolidateC, R.getN hx, Option.bind_some] at h
    dsimp only at h
    rw [hp, Option.bind_some, R.getN hpS, Option.bind_some] at h
    dsimp only at h
    obtain ⟨⟨H1, c1⟩, e1, h⟩ := Option.bind_eq_some_iff.mp h
    obtain ⟨H2, e2, h⟩ := Option.map_eq_some_iff.mp h
    cases h
    dsimp only at e2
    obtain ⟨H3, e3, e4⟩ := Option.bind_eq_some_iff.mp e2
    -- the state before the cut of `x`
    have key : trees H1 = trees H + c1 ∧ (marks H1 + c1 ≤ marks H ∨ marks H1 + c1 ≤ marks H + 1 ∧ ∃ pn, getN H1 p = some pn ∧ pn.par = none) ∧ Fr H H1 ∧ ∃ n1, getN H1 x = some n1 ∧ n1.par = some p ∧ (g.mrk x = true → n1.marked = true) := by
      cases hm : g.mrk p with
      | false =>
        rw [hm, if_neg (by simp)] at e1
        cases e1
        exact ⟨rfl, Or.inl (by omega), Fr.refl H, _, R.getN hx, hp, fun h => h⟩
      | true =>
        rw [hm, if_pos rfl] at e1
        cases hpp : g.par p with
        | none => rw [I.root_mk p hpS hpp] at hm; cases hm
        | some q =>
          rw [hpp, Option.bind_some] at e1
          obtain ⟨k1, k2, k3, k4⟩ := ih H g p q H1 c1 R I hpS (hd p hp) hpp e1
          obtain ⟨H1', g1, w1, w2, R1, I1, w3, w4, w5⟩ := consolidate_spec hN hK f H g p q R I hpS (hd p hp) hpp
          have : H1' = H1 := by
            have := consolidateC_fst f H p
            rw [e1, w1] at this
            exact (Option.some.inj this).symm
          subst this
          have hpx : g1.par x = some p := by
            rcases w5 x with h | ⟨_, h⟩
            · rw [h, hp]
            · obtain ⟨h', hh⟩ := I.height
              have a := h.height I hh hpS
              have b := hh x p hx hp
              omega
          refine ⟨k1, ?_, k4, _, R1.getN hx, hpx, fun hmx => ?_⟩
          · rw [hm] at k2
            have z : true.toNat = 1 := rfl
            exact Or.inr ⟨by omega, _, R1.getN hpS, w4⟩
          · obtain ⟨n', hn', hc⟩ := k4 x _ (R.getN hx) (Or.inl hmx)
            rw [R1.getN hx] at hn'
            cases hn'
            rcases hc with hc | hc
            · exact hc
            · dsimp only at hc
              rw [hpx] at hc
              cases hc
    obtain ⟨k1, k2, k3, n1, k4, k5, k6⟩ := key
    obtain ⟨p1, p2, p2', p3, p4, p5⟩ := cutPrep_some e3
    obtain ⟨n3, hn3, hm3'⟩ := p5 x n1 k4
    have hm3 : g.mrk x = true → n3.marked = true := fun h => hm3' (k6 h)
    have k7 : marks H3 + c1 ≤ marks H + 1 := by
      rcases k2 with k2 | ⟨k2, pn, hpn, hpp⟩
      · omega
      · have := p2' pn hpn hpp
        omega
    obtain ⟨q1, q2, q3, q4⟩ := cutLink_some e4 hn3
    refine ⟨by omega, ?_, by omega, k3.trans (p4.trans q4)⟩
    have : (g.mrk x).toNat ≤ n3.marked.toNat := by
      cases hmx : g.mrk x with
      | false => exact Nat.zero_le _
      | true => rw [hm3 hmx]
    omega

theorem expandC_some : ∀ (f : Nat) (H : Hp α) (x : Nat) (n : Nd α) (H' : Hp α) (c : Nat), getN H x = some n → expandC f H x = some (H', c) →
    c = n.deg ∧ trees H' = trees H + c ∧ marks H' ≤ marks H ∧ H'.tab.length = H.tab.length := by
  intro f
  induction f with
  | zero => intro H x n H' c _ h; cases h
  | succ f ih =>
    intro H x n H' c hn h
    rw [expandC, hn, Option.bind_some] at h
    cases hc : n.child with
    | nil =>
      rw [hc] at h
      dsimp only at h
      split_ifs at h with hd
      cases h
      exact ⟨hd.symm, rfl, le_refl _, rfl⟩
    | cons y ys =>
      rw [hc] at h
      dsimp only at h
      by_cases hd : n.deg = 0
      · rw [if_pos hd] at h; cases h
      rw [if_neg hd] at h
      obtain ⟨H1, e1, h⟩ := Option.bind_eq_some_iff.mp h
      obtain ⟨m, em, h⟩ := Option.bind_eq_some_iff.mp h
      obtain ⟨H2, e2, h⟩ := Option.bind_eq_some_iff.mp h
      obtain ⟨H3, e3, h⟩ := Option.bind_eq_some_iff.mp h
      obtain ⟨⟨H4, c4⟩, e4, h⟩ := Option.map_eq_some_iff.mp h
      cases h
      obtain ⟨a1, _, _, a4, a5, _⟩ := setN_some e1
      obtain ⟨b1, _, _, b4, b5, _⟩ := setN_some e2
      obtain ⟨d1, d2, _, d4⟩ := tabPush_some e3
      have q1 := a5 n hn
      have q2 := b5 m em
      dsimp only at q1 q2
      have z : false.toNat = 0 := rfl
      rw [z] at q2
      have hx : ∃ n', getN H3 x = some n' ∧ n'.deg = n.deg - 1 := by
        rw [getN_congr d2, b4 x]
        by_cases hxy : x = y
        · rw [if_pos hxy]
          refine ⟨_, rfl, ?_⟩
          rw [a4 y, if_pos hxy.symm] at em
          cases em
          rfl
        · rw [if_neg hxy, a4 x, if_pos rfl]
          exact ⟨_, rfl, rfl⟩
      obtain ⟨n', hn', hd'⟩ := hx
      obtain ⟨r1, r2, r3, r4⟩ := ih H3 x n' H4 c4 hn' e4
      have t := trees_congr (b1.trans a1)
      have mm := marks_congr d2
      refine ⟨?_, ?_, ?_, ?_⟩
      · dsimp only; omega
      · dsimp only; omega
      · dsimp only; omega
      · dsimp only; rw [r4, d4, b1, a1]

theorem link_some {H H' : Hp α} {l r : Nat} (h : link H l r = some H') : trees H' = trees H ∧ marks H' = marks H ∧ H'.tab = H.tab := by
  unfold link at h
  obtain ⟨ln, e, h⟩ := Option.bind_eq_some_iff.mp h
  obtain ⟨H1, e1, h⟩ := Option.bind_eq_some_iff.mp h
  obtain ⟨rn, e2, h⟩ := Option.bind_eq_some_iff.mp h
  obtain ⟨a1, _, _, _, a5, _⟩ := setN_some e1
  obtain ⟨b1, _, _, _, b5, _⟩ := setN_some h
  have q1 := a5 ln e
  have q2 := b5 rn e2
  dsimp only at q1 q2
  exact ⟨trees_congr (b1.trans a1), by omega, b1.trans a1⟩

theorem meld_some {H : Hp α} {l r : Nat} {z : Nat × Hp α} (h : meld lt H l r = some z) : trees z.2 = trees H ∧ marks z.2 = marks H ∧ z.2.tab = H.tab := by
  unfold meld at h
  obtain ⟨ln, e, h⟩ := Option.bind_eq_some_iff.mp h
  obtain ⟨rn, e1, h⟩ := Option.bind_eq_some_iff.mp h
  split_ifs at h with h1 h2
  · obtain ⟨H1, e2, rfl⟩ := Option.map_eq_some_iff.mp h
    exact link_some e2
  · obtain ⟨H1, e2, rfl⟩ := Option.map_eq_some_iff.mp h
    exact link_some e2

theorem meldLoopC_some : ∀ (f : Nat) (H : Hp α) (x : Nat) (z : Nat × Hp α) (c : Nat), meldLoopC lt f H x = some (z, c) →
    trees z.2 + c = trees H ∧ marks z.2 = marks H ∧ z.2.tab.length = H.tab.length ∧ (∀ n ring, getN H x = some n → H.tab[n.deg]? = some ring → ring ≠ [] → 1 ≤ c) := by
  intro f
  induction f with
  | zero => intro H x z c h; cases h
  | succ f ih =>
    intro H x z c h
    rw [meldLoopC] at h
    obtain ⟨n, e, h⟩ := Option.bind_eq_some_iff.mp h
    obtain ⟨ring, er, h⟩ := Option.bind_eq_some_iff.mp h
    cases ring with
    | nil =>
      dsimp only at h
      cases h
      refine ⟨rfl, rfl, rfl, fun n' ring' e' er' hne => ?_⟩
      rw [e] at e'
      cases e'
      rw [er] at er'
      cases er'
      exact absurd rfl hne
    | cons u us =>
      dsimp only at h
      obtain ⟨H1, e1, h⟩ := Option.bind_eq_some_iff.mp h
      obtain ⟨w, e2, h⟩ := Option.bind_eq_some_iff.mp h
      obtain ⟨m, e3, h⟩ := Option.bind_eq_some_iff.mp h
      split_ifs at h with hd
      obtain ⟨⟨z', c'⟩, e4, h⟩ := Option.map_eq_some_iff.mp h
      cases h
      obtain ⟨a1, a2, _, a4, _⟩ := tabPop_some e1
      obtain ⟨b1, b2, b3⟩ := meld_some e2
      obtain ⟨r1, r2, r3, _⟩ := ih _ _ _ _ e4
      refine ⟨?_, ?_, ?_, fun _ _ _ _ _ => ?_⟩
      · dsimp only; omega
      · dsimp only; rw [r2, b2, marks_congr a2]
      · dsimp only; rw [r3, b3, a4]
      · dsimp only; omega

theorem meldAtC_some {H H' : Hp α} {k x y c : Nat} {l : List Nat} (hr : H.tab[k]? = some (x :: y :: l)) (h : meldAtC lt H k x = some (H', c)) :
    trees H' + c = trees H ∧ marks H' = marks H ∧ H'.tab.length = H.tab.length ∧ 1 ≤ c := by
  unfold meldAtC at h
  obtain ⟨H1, e1, h⟩ := Option.bind_eq_some_iff.mp h
  obtain ⟨n, e2, h⟩ := Option.bind_eq_some_iff.mp h
  by_cases hk : n.deg ≠ k
  · rw [if_pos hk] at h; cases h
  rw [if_neg hk] at h
  have hk' : n.deg = k := by omega
  obtain ⟨⟨z, c'⟩, e3, h⟩ := Option.bind_eq_some_iff.mp h
  obtain ⟨m, e4, h⟩ := Option.bind_eq_some_iff.mp h
  obtain ⟨H2, e5, h⟩ := Option.map_eq_some_iff.mp h
  cases h
  obtain ⟨a1, a2, _, a4, ring, a5, a6⟩ := tabPop_some e1
  obtain ⟨r1, r2, r3, r4⟩ := meldLoopC_some _ _ _ _ _ e3
  obtain ⟨d1, d2, _, d4⟩ := tabPush_some e5
  rw [hr] at a5
  cases a5
  rw [List.erase_cons_head] at a6
  have := r4 n (y :: l) e2 (by rw [hk']; exact a6) (by simp)
  dsimp only at d1 d2 d4
  refine ⟨by dsimp only; omega, by rw [marks_congr d2, r2, marks_congr a2], by rw [d4, r3, a4], this⟩

theorem extractC_some : ∀ (f : Nat) (H : Hp α) (k : Nat) (H' : Hp α) (c : Nat), extractC lt f H k = some (H', c) →
    c + 2 * trees H' ≤ 2 * trees H + (H.tab.length - k) ∧ marks H' = marks H ∧ H'.tab.length = H.tab.length := by
  intro f
  induction f with
  | zero => intro H k H' c h; cases h
  | succ f ih =>
    intro H k H' c h
    rw [extractC] at h
    by_cases hk : H.tab.length ≤ k
    · rw [if_pos hk] at h
      cases h
      exact ⟨by omega, rfl, rfl⟩
    rw [if_neg hk] at h
    obtain ⟨ring, er, h⟩ := Option.bind_eq_some_iff.mp h
    match ring, er, h with
    | [], er, h =>
      obtain ⟨⟨H1, c1⟩, e1, h⟩ := Option.map_eq_some_iff.mp h
      cases h
      obtain ⟨r1, r2, r3⟩ := ih _ _ _ _ e1
      exact ⟨by dsimp only; omega, r2, r3⟩
    | [x], er, h =>
      dsimp only at h
      obtain ⟨n, en, h⟩ := Option.bind_eq_some_iff.mp h
      obtain ⟨b, eb, h⟩ := Option.bind_eq_some_iff.mp h
      obtain ⟨⟨H1, c1⟩, e1, h⟩ := Option.map_eq_some_iff.mp h
      cases h
      obtain ⟨r1, r2, r3⟩ := ih _ _ _ _ e1
      have t : trees { H with root := if b = true then some x else H.root } = trees H := rfl
      have t' : ({ H with root := if b = true then some x else H.root } : Hp α).tab.length = H.tab.length := rfl
      rw [t, t'] at r1
      exact ⟨by dsimp only; omega, r2, r3⟩
    | x :: y :: l, er, h =>
      dsimp only at h
      obtain ⟨⟨H1, c1⟩, e1, h⟩ := Option.bind_eq_some_iff.mp h
      obtain ⟨⟨H2, c2⟩, e2, h⟩ := Option.map_eq_some_iff.mp h
      cases h
      obtain ⟨a1, a2, a3, a4⟩ := meldAtC_some er e1
      obtain ⟨r1, r2, r3⟩ := ih _ _ _ _ e2
      dsimp only at r1 r2 r3
      rw [a3] at r1 r3
      exact ⟨by dsimp only; omega, r2.trans a2, r3⟩

theorem free_some {H H' : Hp α} {x : Nat} (h : free H x = some H') : trees H' = trees H ∧ marks H' = marks H ∧ H'.tab.length = H.tab.length := by
  unfold free at h
  obtain ⟨n, e, h⟩ := Option.bind_eq_some_iff.mp h
  obtain ⟨H1, e1, rfl⟩ := Option.map_eq_some_iff.mp h
  obtain ⟨a1, _, _, _, a5, _⟩ := setN_some e1
  have q := a5 n e
  dsimp only at q
  refine ⟨trees_congr (H := H) (H' := { H1 with sz := H1.sz - 1 }) a1, ?_, congrArg List.length a1⟩
  have : marks { H1 with sz := H1.sz - 1 } = marks H1 := rfl
  omega

/-! ### The operations -/

/-- The potential. -/
def pot (H : Hp α) : Nat := 2 * trees H + 4 * marks H

theorem pushNew_pot {H H' : Hp α} {k : Nat} {v : α} (h : pushNew lt H k v = some H') : pot H' ≤ pot H + 2 ∧ H'.tab.length = H.tab.length := by
  unfold pushNew at h
  obtain ⟨H1, e1, h⟩ := Option.bind_eq_some_iff.mp h
  obtain ⟨H2, e2, h⟩ := Option.bind_eq_some_iff.mp h
  obtain ⟨b, _, rfl⟩ := Option.map_eq_some_iff.mp h
  obtain ⟨a1, _, _, _, _, a6⟩ := setN_some e1
  obtain ⟨b1, b2, _, b4⟩ := tabPush_some e2
  have t := trees_congr a1
  have m := marks_congr b2
  have z : false.toNat = 0 := rfl
  dsimp only at a6
  refine ⟨?_, by dsimp only; rw [b4, a1]⟩
  unfold pot
  have t' : trees { H2 with root := if b = true then some k else H2.root, sz := H2.sz + 1 } = trees H2 := rfl
  have m' : marks { H2 with root := if b = true then some k else H2.root, sz := H2.sz + 1 } = marks H2 := rfl
  omega

theorem tab_consolidateC : ∀ (f : Nat) (H : Hp α) (x : Nat) (H' : Hp α) (c : Nat), consolidateC f H x = some (H', c) → H'.tab.length = H.tab.length := by
  intro f
  induction f with
  | zero => intro H x H' c h; cases h
  | succ f ih =>
    intro H x H' c h
    rw [consolidateC] at h
    obtain ⟨n, en, h⟩ := Option.bind_eq_some_iff.mp h
    obtain ⟨p, ep, h⟩ := Option.bind_eq_some_iff.mp h
    obtain ⟨pn, epn, h⟩ := Option.bind_eq_some_iff.mp h
    obtain ⟨⟨H1, c1⟩, e1, h⟩ := Option.bind_eq_some_iff.mp h
    obtain ⟨H2, e2, h⟩ := Option.map_eq_some_iff.mp h
    cases h
    dsimp only at e2
    obtain ⟨H3, e3, e4⟩ := Option.bind_eq_some_iff.mp e2
    obtain ⟨_, _, _, p3, _, p5⟩ := cutPrep_some e3
    have h1 : H1.tab.length = H.tab.length := by
      split_ifs at e1
      · obtain ⟨_, _, e1⟩ := Option.bind_eq_some_iff.mp e1
        exact ih _ _ _ _ e1
      · cases e1; rfl
    have h4 : H'.tab.length = H3.tab.length := by
      have e5 := e4
      unfold cutLink at e5
      obtain ⟨_, _, e5⟩ := Option.bind_eq_some_iff.mp e5
      obtain ⟨_, _, e5⟩ := Option.bind_eq_some_iff.mp e5
      split_ifs at e5
      obtain ⟨H5, s1, e5⟩ := Option.bind_eq_some_iff.mp e5
      obtain ⟨_, _, e5⟩ := Option.bind_eq_some_iff.mp e5
      obtain ⟨H6, s2, e5⟩ := Option.bind_eq_some_iff.mp e5
      rw [(tabPush_some e5).2.2.2, (setN_some s2).1, (setN_some s1).1]
    rw [h4, p3, h1]

theorem updateOldC_pot {N : Nat} {M : Nat → Option α} {H H' : Hp α} (W : Wf lt N M H) {k c : Nat} {n : Nd α} {v : α} (hk : Sup M k) (hn : getN H k = some n)
    (h : updateOldC lt H k n v = some (H', c)) : c + pot H' ≤ pot H + 8 ∧ H'.tab.length = H.tab.length := by
  obtain ⟨K, o, g, W⟩ := W
  unfold updateOldC at h
  by_cases hv : lt n.val v = false
  · rw [if_pos hv] at h
    cases h
    exact ⟨by omega, rfl⟩
  rw [if_neg hv] at h
  obtain ⟨H1, e1, h⟩ := Option.bind_eq_some_iff.mp h
  obtain ⟨b, eb, h⟩ := Option.bind_eq_some_iff.mp h
  obtain ⟨⟨H2, c2⟩, e2, h⟩ := Option.bind_eq_some_iff.mp h
  obtain ⟨r', _, h⟩ := Option.bind_eq_some_iff.mp h
  obtain ⟨rn, _, h⟩ := Option.map_eq_some_iff.mp h
  cases h
  have hnode := W.rep.getN hk
  rw [hn] at hnode
  cases hnode
  obtain ⟨a1, _, a3, _, a5, _⟩ := setN_some e1
  have q := a5 _ hn
  dsimp only at q e2
  have t := trees_congr a1
  -- the heap after the value has been written
  obtain ⟨H1', w1, _, R1⟩ := W.rep.setN hk ⟨g.ch k, g.par k, (g.ch k).length, g.mrk k, true, v⟩ rfl rfl
  rw [e1] at w1
  cases w1
  dsimp only at R1
  rw [upd_self, upd_self, upd_self] at R1
  have I1 : Inv (Sup M) (fun _ => False) { g with val := upd g.val k v } :=
    ⟨W.inv.child, W.inv.nodup, W.inv.parS, W.inv.rt_iff, W.inv.rt_nodup, W.inv.root_mk, W.inv.height, W.inv.fib⟩
  have fin : c2 + 2 * trees H2 + 4 * marks H2 + 1 ≤ 2 * trees H + 4 * marks H + 8 ∧ H2.tab.length = H.tab.length := by
    cases b with
    | false =>
      rw [if_neg (by simp)] at e2
      cases e2
      exact ⟨by omega, by rw [a1]⟩
    | true =>
      rw [if_pos rfl] at e2
      cases hp : g.par k with
      | none =>
        unfold needsCut at eb
        dsimp only at eb
        rw [hp] at eb
        cases eb
      | some p =>
        have hd : DL { g with val := upd g.val k v } H1.nd.length k := by
          rw [R1.len]
          exact I1.dl (fun y hy => R1.lt hy) hk
        obtain ⟨r1, r2, r3, _⟩ := consolidateC_some W.hN W.hK _ H1 _ k p H2 c2 R1 I1 hk hd hp e2
        dsimp only at r2
        have := tab_consolidateC _ _ _ _ _ e2
        exact ⟨by omega, by rw [this, a1]⟩
  refine ⟨?_, ?_⟩
  · have t' : pot (if lt rn.val v = true then { H2 with root := some k } else H2) = pot H2 := by split_ifs <;> rfl
    dsimp only
    rw [t']
    unfold pot
    omega
  · have t' : (if lt rn.val v = true then { H2 with root := some k } else H2).tab = H2.tab := by split_ifs <;> rfl
    dsimp only
    rw [t']
    exact fin.2

theorem pushC_pot [Inhabited α] {N : Nat} {M : Nat → Option α} {H H' : Hp α} (W : Wf lt N M H) {k c : Nat} {v : α}
    (h : pushC lt H k v = some (H', c)) : c + pot H' ≤ pot H + 8 ∧ H'.tab.length = H.tab.length := by
  unfold pushC at h
  obtain ⟨on, e, h⟩ := Option.bind_eq_some_iff.mp h
  have new : ∀ H'', pushNew lt H k v = some H'' → (H'', 1) = (H', c) → c + pot H' ≤ pot H + 8 ∧ H'.tab.length = H.tab.length := by
    intro H'' e' h
    cases h
    obtain ⟨a, b⟩ := pushNew_pot e'
    exact ⟨by omega, b⟩
  cases on with
  | none =>
    obtain ⟨H'', e', h⟩ := Option.map_eq_some_iff.mp h
    exact new H'' e' h
  | some n =>
    dsimp only at h
    have hn : getN H k = some n := by unfold getN; rw [e]; rfl
    by_cases hen : n.en = true
    · rw [if_pos hen] at h
      refine updateOldC_pot W ?_ hn h
      have := W.get k
      unfold FibHeap.get at this
      rw [hn, Option.bind_some, if_pos hen] at this
      unfold Sup
      cases hM : M k with
      | none => rw [hM] at this; cases this
      | some _ => rfl
    · rw [if_neg hen] at h
      obtain ⟨H'', e', h⟩ := Option.map_eq_some_iff.mp h
      exact new H'' e' h

theorem popC_pot {N : Nat} {M : Nat → Option α} {H H' : Hp α} (W : Wf lt N M H) {c : Nat} (h : popC lt H = some (H', c)) :
    c + pot H' ≤ pot H + 4 * H.tab.length ∧ H'.tab.length = H.tab.length := by
  obtain ⟨K, o, g, W⟩ := W
  unfold popC at h
  obtain ⟨r, er, h⟩ := Option.bind_eq_some_iff.mp h
  obtain ⟨n, en, h⟩ := Option.bind_eq_some_iff.mp h
  obtain ⟨H1, e1, h⟩ := Option.bind_eq_some_iff.mp h
  obtain ⟨⟨H2, c2⟩, e2, h⟩ := Option.bind_eq_some_iff.mp h
  obtain ⟨⟨H3, c3⟩, e3, h⟩ := Option.bind_eq_some_iff.mp h
  obtain ⟨H4, e4, h⟩ := Option.map_eq_some_iff.mp h
  cases h
  obtain ⟨hr, _, _⟩ := W.top.ok r er
  have hnode := W.rep.getN hr
  rw [en] at hnode
  have hdeg : n.deg + 1 < K := by
    cases hnode
    exact W.inv.deg_lt (fun y hy => W.rep.lt hy) W.hN W.hK hr
  obtain ⟨a1, a2, _, a4, _⟩ := tabPop_some e1
  have z1 : trees { H with root := none } = trees H := rfl
  have z2 : ({ H with root := none } : Hp α).tab.length = H.tab.length := rfl
  have hn1 : getN H1 r = some n := by rw [getN_congr a2]; exact en
  have m1 : marks H1 = marks H := marks_congr (H := { H with root := none }) a2
  obtain ⟨b1, b2, b3, b4⟩ := expandC_some _ _ _ _ _ _ hn1 e2
  obtain ⟨d1, d2, d3⟩ := extractC_some _ _ _ _ _ e3
  obtain ⟨f1, f2, f3⟩ := free_some e4
  have hK := W.rep.tlen
  dsimp only at d1 d2 d3 f1 f2 f3
  unfold pot
  refine ⟨?_, by rw [f3, d3, b4, a4]⟩
  dsimp only
  have : H2.tab.length = K := by rw [b4, a4]; exact hK
  omega

theorem eraseC_pot {N : Nat} {M : Nat → Option α} {H H' : Hp α} (W : Wf lt N M H) {k c : Nat} (hk : Sup M k) (hr : H.root ≠ some k) (h : eraseC lt H k = some (H', c)) :
    c + pot H' ≤ pot H + 4 * H.tab.length ∧ H'.tab.length = H.tab.length := by
  obtain ⟨K, o, g, W⟩ := W
  unfold eraseC at h
  rw [W.rep.getN hk, Option.bind_some] at h
  dsimp only at h
  rw [if_neg (by simp)] at h
  obtain ⟨⟨H1, c1⟩, e1, h⟩ := Option.bind_eq_some_iff.mp h
  obtain ⟨n, en, h⟩ := Option.bind_eq_some_iff.mp h
  dsimp only at en h
  by_cases hp : n.par.isSome = true
  · rw [if_pos hp] at h; cases h
  rw [if_neg hp] at h
  obtain ⟨H2, e2, h⟩ := Option.bind_eq_some_iff.mp h
  obtain ⟨⟨H3, c3⟩, e3, h⟩ := Option.bind_eq_some_iff.mp h
  rw [if_neg hr, Option.bind_some] at h
  obtain ⟨H4, e4, h⟩ := Option.map_eq_some_iff.mp h
  cases h
  have key : (c1 + 2 * trees H1 + 4 * marks H1 ≤ 2 * trees H + 4 * marks H + 7) ∧ H1.tab.length = H.tab.length ∧ n.deg + 1 < K := by
    cases hpar : g.par k with
    | none =>
      rw [hpar] at e1
      cases e1
      refine ⟨by omega, rfl, ?_⟩
      rw [W.rep.getN hk] at en
      cases en
      exact W.inv.deg_lt (fun y hy => W.rep.lt hy) W.hN W.hK hk
    | some p =>
      rw [hpar, if_pos (show (some p).isSome = true from rfl)] at e1
      have hd : DL g H.nd.length k := by
        rw [W.rep.len]
        exact W.inv.dl (fun y hy => W.rep.lt hy) hk
      obtain ⟨r1, r2, r3, _⟩ := consolidateC_some W.hN W.hK _ H _ k p H1 c1 W.rep W.inv hk hd hpar e1
      obtain ⟨H1', g1, w1, _, R1, I1, _⟩ := consolidate_spec W.hN W.hK _ H g k p W.rep W.inv hk hd hpar
      have : H1' = H1 := by
        have := consolidateC_fst H.nd.length H k
        rw [e1, w1] at this
        exact (Option.some.inj this).symm
      subst this
      refine ⟨by omega, tab_consolidateC _ _ _ _ _ e1, ?_⟩
      rw [R1.getN hk] at en
      cases en
      exact I1.deg_lt (fun y hy => R1.lt hy) W.hN W.hK hk
  obtain ⟨k1, k2, k3⟩ := key
  obtain ⟨a1, a2, _, a4, _⟩ := tabPop_some e2
  have hn2 : getN H2 k = some n := by rw [getN_congr a2]; exact en
  have m2 := marks_congr a2
  obtain ⟨b1, b2, b3, b4⟩ := expandC_some _ _ _ _ _ _ hn2 e3
  obtain ⟨f1, f2, f3⟩ := free_some e4
  have hK := W.rep.tlen
  dsimp only at f1 f2 f3
  unfold pot
  refine ⟨?_, by rw [f3, b4, a4, k2]⟩
  dsimp only
  omega

end Verif.FibHeap
