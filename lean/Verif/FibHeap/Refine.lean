import Verif.FibHeap.Extract
/-!
The public operations keep the heap equivalent to a map from keys to values.
-/
namespace Verif.FibHeap

variable {α : Type}

/-- The keys of a map. -/
def Sup (M : Nat → Option α) (x : Nat) : Prop := (M x).isSome = true

/-- The number of keys below `N`. -/
def count (N : Nat) (M : Nat → Option α) : Nat := ((Finset.range N).filter (fun k => (M k).isSome = true)).card

variable {lt : α → α → Bool}

structure TopOk (lt : α → α → Bool) (S : Nat → Prop) (root : Option Nat) (g : G α) : Prop where
  empty : root = none → ∀ x, ¬ S x
  ok : ∀ r, root = some r → S r ∧ g.par r = none ∧ ∀ y, S y → lt (g.val r) (g.val y) = false

/-- Other entries of `map_` are null or disabled. -/
def Dead (N : Nat) (S : Nat → Prop) (o : Nat → Option (Option (Nd α))) : Prop := ∀ x, x < N → ¬ S x → o x = some none ∨ ∃ n, o x = some (some n) ∧ n.en = false

/-- The heap represents the map. -/
structure WfG (lt : α → α → Bool) (N K : Nat) (M : Nat → Option α) (H : Hp α) (o : Nat → Option (Option (Nd α))) (g : G α) : Prop where
  hN : N ≤ Nat.fib K
  hK : 2 ≤ K
  rep : Rep N K o (Sup M) H g
  inv : Inv (Sup M) (fun _ => False) g
  ord : Ord lt (Sup M) g
  val : ∀ x v, M x = some v → g.val x = v
  dead : Dead N (Sup M) o
  top : TopOk lt (Sup M) H.root g
  sz : H.sz = count N M

def Wf (lt : α → α → Bool) (N : Nat) (M : Nat → Option α) (H : Hp α) : Prop := ∃ K o g, WfG lt N K M H o g

theorem Ord.anc (hlt : SWO lt) {S O : Nat → Prop} {g : G α} (I : Inv S O g) (D : Ord lt S g) {x y : Nat} (a : Anc g x y) : S y → lt (g.val x) (g.val y) = false := by
  induction a with
  | refl => exact fun _ => hlt.irrefl _
  | step h _ ih => exact fun hy => hlt.ntrans _ _ _ (ih (I.parS _ _ hy h)) (D _ _ hy h)

theorem EI.top (hlt : SWO lt) {N K : Nat} {S : Nat → Prop} {root : Option Nat} {g : G α} (I : Inv S (fun _ => False) g) (D : Ord lt S g) (hS : ∀ x, S x → x < N) (hN : N ≤ Nat.fib K) (hK : 2 ≤ K)
    (E : EI lt S K root g) : TopOk lt S root g := by
  have key : ∀ y, S y → ∃ r, root = some r ∧ lt (g.val r) (g.val y) = false := by
    intro y hy
    obtain ⟨r, hr, pr, a⟩ := I.root hS hy
    obtain ⟨r', h1, h2⟩ := E.max r hr pr (by have := I.deg_lt hS hN hK hr; omega)
    exact ⟨r', h1, hlt.ntrans _ _ _ h2 (D.anc hlt I a hy)⟩
  refine ⟨fun h x hx => ?_, fun r h => ?_⟩
  · obtain ⟨r, h1, _⟩ := key x hx
    rw [h] at h1
    cases h1
  · obtain ⟨h1, h2, _⟩ := E.ok r h
    refine ⟨h1, h2, fun y hy => ?_⟩
    obtain ⟨r', h3, h4⟩ := key y hy
    rw [h] at h3
    cases h3
    exact h4

/-! Construction -/

theorem tabLoop_spec (size : Nat) : ∀ (f k : Nat), 2 ≤ k → size + 2 ≤ f + Nat.fib k → 1 ≤ f → ∃ K, tabLoop size f (Nat.fib (k-1)) (Nat.fib k) k = some K ∧ size ≤ Nat.fib K ∧ 2 ≤ K := by
  intro f
  induction f with
  | zero => intro k _ _ h; omega
  | succ f ih =>
    intro k hk hf _
    rw [tabLoop]
    by_cases h : Nat.fib k < size
    · rw [if_pos h]
      have h1 : Nat.fib (k+1) = Nat.fib (k-1) + Nat.fib k := by
        obtain ⟨j, rfl⟩ : ∃ j, k = j + 1 := ⟨k-1, by omega⟩
        exact Nat.fib_add_two
      have h2 : 0 < Nat.fib (k-1) := Nat.fib_pos.2 (by omega)
      have := ih (k+1) (by omega) (by omega) (by omega)
      rw [Nat.add_sub_cancel, h1] at this
      exact this
    · rw [if_neg h]
      exact ⟨k, rfl, by omega, hk⟩

theorem mk_wf [Inhabited α] (lt : α → α → Bool) (N : Nat) : ∃ H, (mk N : Option (Hp α)) = some H ∧ Wf lt N (fun _ => none) H := by
  obtain ⟨K, e, hN, hK⟩ := tabLoop_spec N (N+2) 2 (le_refl _) (by simp) (by omega)
  have e' : tabLoop N (N+2) 1 1 2 = some K := e
  have hno : ∀ x, ¬ Sup (fun _ : Nat => (none : Option α)) x := fun x h => by cases h
  refine ⟨_, by unfold mk; rw [e']; rfl, K, fun x => (List.replicate N (none : Option (Nd α)))[x]?, ⟨fun _ => [], fun _ => none, fun _ => false, fun _ => default, fun _ => []⟩, ?_⟩
  refine ⟨hN, hK, ⟨by simp, by simp, fun x h => (hno x h).elim, fun _ _ => rfl, fun d hd => by simp [hd]⟩, ?_, fun x _ h => (hno x h).elim, (fun x v h => by cases h), ?_, ⟨fun _ => hno, fun r h => by cases h⟩, ?_⟩
  · refine ⟨fun x h => (hno x h).elim, fun x h => (hno x h).elim, fun x _ h => (hno x h).elim, fun d x => ?_, fun d => List.nodup_nil, fun x h => (hno x h).elim, ⟨fun _ => 0, fun x _ h => (hno x h).elim⟩, fun x h => (hno x h).elim⟩
    constructor
    · intro h; cases h
    · rintro ⟨h, _⟩; exact (hno x h).elim
  · intro x hx _
    left
    simp [hx]
  · simp [count]

/-! Changes of the map -/

theorem sup_none (M : Nat → Option α) (k : Nat) : Sup (upd M k none) = fun y => Sup M y ∧ y ≠ k := by
  funext y
  apply propext
  unfold Sup
  by_cases h : y = k
  · subst h; rw [upd_same]; simp
  · rw [upd_ne _ _ h]; simp [h]

theorem sup_some (M : Nat → Option α) (k : Nat) (v : α) : Sup (upd M k (some v)) = fun y => Sup M y ∨ y = k := by
  funext y
  apply propext
  unfold Sup
  by_cases h : y = k
  · subst h; rw [upd_same]; simp
  · rw [upd_ne _ _ h]; simp [h]

theorem sup_same (M : Nat → Option α) {k : Nat} (v : α) (hk : Sup M k) : Sup (upd M k (some v)) = Sup M := by
  rw [sup_some]
  funext y
  apply propext
  exact ⟨fun h => h.elim id (fun h => h ▸ hk), Or.inl⟩

theorem count_none {N : Nat} {M : Nat → Option α} {k : Nat} (hk : Sup M k) (hN : k < N) : count N (upd M k none) = count N M - 1 := by
  unfold count
  have : (Finset.range N).filter (fun j => (upd M k none j).isSome = true) = ((Finset.range N).filter (fun j => (M j).isSome = true)).erase k := by
    ext j
    rw [Finset.mem_erase, Finset.mem_filter, Finset.mem_filter]
    have := congrFun (sup_none M k) j
    unfold Sup at this
    rw [this]
    tauto
  rw [this, Finset.card_erase_of_mem (by rw [Finset.mem_filter, Finset.mem_range]; exact ⟨hN, hk⟩)]

theorem count_some {N : Nat} {M : Nat → Option α} {k : Nat} (v : α) (hk : ¬ Sup M k) (hN : k < N) : count N (upd M k (some v)) = count N M + 1 := by
  unfold count
  have : (Finset.range N).filter (fun j => (upd M k (some v) j).isSome = true) = insert k ((Finset.range N).filter (fun j => (M j).isSome = true)) := by
    ext j
    rw [Finset.mem_insert, Finset.mem_filter, Finset.mem_filter]
    have := congrFun (sup_some M k v) j
    unfold Sup at this
    rw [this, Finset.mem_range]
    constructor
    · rintro ⟨h1, h2 | h2⟩
      · exact Or.inr ⟨h1, h2⟩
      · exact Or.inl h2
    · rintro (h | h)
      · subst h; exact ⟨hN, Or.inr rfl⟩
      · exact ⟨h.1, Or.inl h.2⟩
  rw [this, Finset.card_insert_of_notMem (by rw [Finset.mem_filter]; exact fun h => hk h.2)]

theorem count_same {N : Nat} {M : Nat → Option α} {k : Nat} (v : α) (hk : Sup M k) : count N (upd M k (some v)) = count N M := by
  unfold count
  congr 1
  ext j
  rw [Finset.mem_filter, Finset.mem_filter]
  have := congrFun (sup_same M v hk) j
  unfold Sup at this
  rw [this]

/-! Reading -/

theorem Wf.get {N : Nat} {M : Nat → Option α} {H : Hp α} (W : Wf lt N M H) (k : Nat) : get H k = (M k).map (fun v => (k, v)) := by
  obtain ⟨K, o, g, W⟩ := W
  unfold FibHeap.get
  cases h : M k with
  | some v =>
    have hk : Sup M k := by unfold Sup; rw [h]; rfl
    rw [W.rep.getN hk, W.val k v h]
    rfl
  | none =>
    have hk : ¬ Sup M k := by unfold Sup; rw [h]; simp
    unfold FibHeap.getN
    by_cases hN : k < N
    · rw [W.rep.other k hk]
      rcases W.dead k hN hk with e | ⟨n, e, he⟩
      · rw [e]; rfl
      · rw [e]
        simp [he]
    · rw [List.getElem?_eq_none (by rw [W.rep.len]; omega)]
      rfl

theorem Wf.top {N : Nat} {M : Nat → Option α} {H : Hp α} (W : Wf lt N M H) :
    (top H = none ∧ ∀ k, M k = none) ∨ (∃ k v, top H = some (k, v) ∧ H.root = some k ∧ M k = some v ∧ ∀ j w, M j = some w → lt v w = false) := by
  obtain ⟨K, o, g, W⟩ := W
  unfold FibHeap.top
  cases h : H.root with
  | none =>
    left
    refine ⟨rfl, fun k => ?_⟩
    have := W.top.empty h k
    unfold Sup at this
    simpa using this
  | some r =>
    right
    obtain ⟨hr, _, hmax⟩ := W.top.ok r h
    obtain ⟨v, hv⟩ := Option.isSome_iff_exists.1 hr
    refine ⟨r, v, ?_, rfl, hv, fun j w hw => ?_⟩
    · rw [Option.bind_some, W.rep.getN hr, W.val r v hv]
      rfl
    · have := hmax j (by unfold Sup; rw [hw]; rfl)
      rwa [W.val r v hv, W.val j w hw] at this

theorem Wf.lt_N {N : Nat} {M : Nat → Option α} {H : Hp α} (W : Wf lt N M H) {k : Nat} (hk : Sup M k) : k < N := by
  obtain ⟨K, o, g, W⟩ := W
  exact W.rep.lt hk

/-! `push` and `update` -/

theorem pushNew_spec (hlt : SWO lt) {N : Nat} {M : Nat → Option α} {H : Hp α} (W : Wf lt N M H) {k : Nat} (hk : k < N) (hM : ¬ Sup M k) (v : α) :
    ∃ H', pushNew lt H k v = some H' ∧ Wf lt N (upd M k (some v)) H' := by
  obtain ⟨K, o, g, W⟩ := W
  unfold pushNew
  obtain ⟨H1, e1, s1, R1⟩ := W.rep.addN hk v
  obtain ⟨H2, e2, s2, R2⟩ := R1.tabPush (d := 0) (by have := W.hK; omega) k
  rw [e1, Option.bind_some, e2, Option.bind_some]
  have I1 := W.inv.add hM v
  have I2 := I1.put (x := k) (d := 0) (Or.inr rfl) (Or.inr rfl) (upd_same _ _ _) (by dsimp only; rw [upd_same]; rfl)
  have I3 := I2.congrO (O' := fun _ => False) (fun y _ => by simp)
  have hne : ∀ y, Sup M y → y ≠ k := by rintro y hy rfl; exact hM hy
  rw [← sup_some M k v] at R2 I3
  have D : ∀ x p, Sup (upd M k (some v)) x → upd g.par k none x = some p → lt (upd g.val k v p) (upd g.val k v x) = false := by
    intro x p hx h
    by_cases hxk : x = k
    · subst hxk; rw [upd_same] at h; cases h
    · rw [upd_ne _ _ hxk] at h
      rw [sup_some] at hx
      have hx' := hx.resolve_right hxk
      rw [upd_ne _ _ (hne p (W.inv.parS x p hx' h)), upd_ne _ _ hxk]
      exact W.ord x p hx' h
  have hval : ∀ x w, upd M k (some v) x = some w → upd g.val k v x = w := by
    intro x w h
    by_cases hxk : x = k
    · subst hxk; rw [upd_same] at h ⊢; exact Option.some.inj h
    · rw [upd_ne _ _ hxk] at h ⊢; exact W.val x w h
  have hdead : Dead N (Sup (upd M k (some v))) o := by
    intro x hx h
    rw [sup_some] at h
    exact W.dead x hx (fun h' => h (Or.inl h'))
  have hr2 : H2.root = H.root := s2.1.trans s1.1
  have hz2 : H2.sz = H.sz := s2.2.trans s1.2
  have fin : ∀ b, beats lt H2 v = some b → TopOk lt (Sup (upd M k (some v))) (if b then some k else H2.root) { g with val := upd g.val k v, par := upd g.par k none } →
      ∃ H', (beats lt H2 v).map (fun b => { H2 with root := if b then some k else H2.root, sz := H2.sz + 1 }) = some H' ∧ Wf lt N (upd M k (some v)) H' := by
    intro b hb hT
    rw [hb]
    refine ⟨_, rfl, K, o, _, W.hN, W.hK, ⟨R2.len, R2.tlen, R2.node, R2.other, R2.tab⟩, I3, D, hval, hdead, ⟨hT.empty, hT.ok⟩, ?_⟩
    show H2.sz + 1 = _
    rw [hz2, count_some v hM hk, W.sz]
  obtain hroot | ⟨r, hroot⟩ : H.root = none ∨ ∃ r, H.root = some r := by cases H.root <;> simp
  · refine fin true (by unfold beats; rw [hr2, hroot]) ?_
    rw [if_pos rfl]
    refine ⟨(fun h => by cases h), fun r h => ?_⟩
    have := Option.some.inj h
    subst this
    refine ⟨by rw [sup_some]; exact Or.inr rfl, upd_same _ _ _, fun y hy => ?_⟩
    rw [sup_some] at hy
    rcases hy with hy | rfl
    · exact absurd hy (W.top.empty hroot y)
    · exact hlt.irrefl _
  · obtain ⟨hrS, pr, hmax⟩ := W.top.ok r hroot
    have hrk := hne r hrS
    have hb : beats lt H2 v = some (lt (g.val r) v) := by
      unfold beats
      rw [hr2, hroot]
      dsimp only
      rw [R2.getN (by rw [sup_some]; exact Or.inl hrS)]
      dsimp only [Option.map_some]
      rw [upd_ne _ _ hrk]
    refine fin _ hb ?_
    cases hc : lt (g.val r) v with
    | true =>
      rw [if_pos rfl]
      refine ⟨(fun h => by cases h), fun r' h => ?_⟩
      have := Option.some.inj h
      subst this
      refine ⟨by rw [sup_some]; exact Or.inr rfl, upd_same _ _ _, fun y hy => ?_⟩
      rw [sup_some] at hy
      dsimp only
      rw [upd_same]
      rcases hy with hy | rfl
      · rw [upd_ne _ _ (hne y hy)]
        exact hlt.ntrans _ _ _ (hlt.asymm _ _ hc) (hmax y hy)
      · rw [upd_same]; exact hlt.irrefl _
    | false =>
      rw [if_neg (by simp), hr2, hroot]
      refine ⟨(fun h => by cases h), fun r' h => ?_⟩
      have := Option.some.inj h
      subst this
      refine ⟨by rw [sup_some]; exact Or.inl hrS, by dsimp only; rw [upd_ne _ _ hrk]; exact pr, fun y hy => ?_⟩
      rw [sup_some] at hy
      dsimp only
      rw [upd_ne _ _ hrk]
      rcases hy with hy | rfl
      · rw [upd_ne _ _ (hne y hy)]; exact hmax y hy
      · rw [upd_same]; exact hc

theorem needsCut_spec {N K : Nat} {o : Nat → Option (Option (Nd α))} {S : Nat → Prop} {H : Hp α} {g : G α} (R : Rep N K o S H g) (I : Inv S (fun _ => False) g) {k : Nat} (hk : S k) (c : List Nat) (d : Nat) (m e : Bool) (v w : α) :
    (g.par k = none ∧ needsCut lt H ⟨c, g.par k, d, m, e, w⟩ v = some false) ∨ ∃ p, g.par k = some p ∧ S p ∧ needsCut lt H ⟨c, g.par k, d, m, e, w⟩ v = some (lt (g.val p) v) := by
  unfold needsCut
  cases hp : g.par k with
  | none => exact Or.inl ⟨rfl, rfl⟩
  | some p =>
    have hpS := I.parS k p hk hp
    refine Or.inr ⟨p, rfl, hpS, ?_⟩
    dsimp only
    rw [R.getN hpS]
    rfl

theorem updateOld_spec (hlt : SWO lt) {N : Nat} {M : Nat → Option α} {H : Hp α} (W : Wf lt N M H) {k : Nat} {u : α} (hM : M k = some u) (v : α) :
    ∃ n, H.nd[k]? = some (some n) ∧ n.en = true ∧ ∃ H', updateOld lt H k n v = some H' ∧ Wf lt N (if lt u v then upd M k (some v) else M) H' := by
  obtain ⟨K, o, g, W⟩ := W
  have hk : Sup M k := by unfold Sup; rw [hM]; rfl
  have hu := W.val k u hM
  refine ⟨_, W.rep.node k hk, rfl, ?_⟩
  unfold updateOld
  dsimp only
  rw [hu]
  cases hc : lt u v with
  | false =>
    rw [if_pos rfl, if_neg (by simp)]
    exact ⟨H, rfl, K, o, g, W⟩
  | true =>
    rw [if_neg (by simp), if_pos rfl]
    obtain ⟨H1, e1, s1, R1⟩ := W.rep.setN hk ⟨g.ch k, g.par k, (g.ch k).length, g.mrk k, true, v⟩ rfl rfl
    rw [e1, Option.bind_some]
    dsimp only at R1
    rw [upd_self, upd_self, upd_self] at R1
    have I1 : Inv (Sup M) (fun _ => False) { g with val := upd g.val k v } :=
      ⟨W.inv.child, W.inv.nodup, W.inv.parS, W.inv.rt_iff, W.inv.rt_nodup, W.inv.root_mk, W.inv.height, W.inv.fib⟩
    have hvu := hlt.asymm _ _ hc
    have hval : ∀ x w, upd M k (some v) x = some w → upd g.val k v x = w := by
      intro x w h
      by_cases hxk : x = k
      · subst hxk; rw [upd_same] at h ⊢; exact Option.some.inj h
      · rw [upd_ne _ _ hxk] at h ⊢; exact W.val x w h
    -- the order with the new value, except between `k` and its parent
    have D1 : ∀ x p, Sup M x → g.par x = some p → x ≠ k → lt (upd g.val k v p) (upd g.val k v x) = false := by
      intro x p hx h hxk
      rw [upd_ne _ _ hxk]
      by_cases hpk : p = k
      · subst hpk
        rw [upd_same]
        refine hlt.ntrans _ _ _ hvu ?_
        rw [← hu]
        exact W.ord x p hx h
      · rw [upd_ne _ _ hpk]; exact W.ord x p hx h
    obtain ⟨r, hroot⟩ : ∃ r, H.root = some r := by
      cases h : H.root with
      | none => exact absurd hk (W.top.empty h k)
      | some r => exact ⟨r, rfl⟩
    obtain ⟨hrS, pr, hmax⟩ := W.top.ok r hroot
    have fin : ∀ (H2 : Hp α) (g2 : G α), Same H1 H2 → Rep N K o (Sup M) H2 g2 → Inv (Sup M) (fun _ => False) g2 → g2.val = upd g.val k v →
        (∀ y, g2.par y = g.par y ∨ g2.par y = none) → (∀ p, g2.par k = some p → lt (upd g.val k v p) v = false) →
        ∃ H', H2.root.bind (fun r => (getN H2 r).map (fun rn => if lt rn.val v then { H2 with root := some k } else H2)) = some H' ∧ Wf lt N (upd M k (some v)) H' := by
      intro H2 g2 s2 R2 I2 v2 p2 hk2
      have hr2 : H2.root = some r := (s2.1.trans s1.1).trans hroot
      have hz2 : H2.sz = H.sz := s2.2.trans s1.2
      have D2 : Ord lt (Sup M) g2 := by
        intro x p hx h
        rw [v2]
        by_cases hxk : x = k
        · subst hxk; rw [upd_same]; exact hk2 p h
        · refine D1 x p hx ?_ hxk
          rcases p2 x with e | e
          · rw [← e]; exact h
          · rw [e] at h; cases h
      have pr2 : g2.par r = none := by
        rcases p2 r with e | e
        · rw [e]; exact pr
        · exact e
      rw [hr2, Option.bind_some, R2.getN hrS]
      refine ⟨_, rfl, ?_⟩
      dsimp only
      have mk : ∀ H3 : Hp α, H3.nd = H2.nd → H3.tab = H2.tab → H3.sz = H2.sz → TopOk lt (Sup M) H3.root g2 → Wf lt N (upd M k (some v)) H3 := by
        intro H3 en et ez hT
        have hs := sup_same M v hk
        refine ⟨K, o, g2, W.hN, W.hK, ?_, by rw [hs]; exact I2, by rw [hs]; exact D2, by rw [v2]; exact hval, by rw [hs]; exact W.dead, by rw [hs]; exact hT, ?_⟩
        · rw [hs]
          exact ⟨by rw [en]; exact R2.len, by rw [et]; exact R2.tlen, by rw [en]; exact R2.node, by rw [en]; exact R2.other, by rw [et]; exact R2.tab⟩
        · rw [ez, hz2, count_same v hk, W.sz]
      rw [v2]
      by_cases hrk : r = k
      · subst hrk
        rw [upd_same, hlt.irrefl, if_neg (by simp)]
        refine mk H2 rfl rfl rfl ⟨(fun h => by rw [hr2] at h; cases h), fun r' h => ?_⟩
        rw [hr2] at h
        have := Option.some.inj h
        subst this
        refine ⟨hrS, pr2, fun y hy => ?_⟩
        rw [v2, upd_same]
        by_cases hy' : y = r
        · subst hy'; rw [upd_same]; exact hlt.irrefl _
        · rw [upd_ne _ _ hy']
          have := hmax y hy
          rw [hu] at this
          exact hlt.ntrans _ _ _ hvu this
      · rw [upd_ne _ _ hrk]
        cases hc2 : lt (g.val r) v with
        | true =>
          rw [if_pos rfl]
          refine mk _ rfl rfl rfl ⟨(fun h => by cases h), fun r' h => ?_⟩
          have := Option.some.inj h
          subst this
          refine ⟨hk, ?_, fun y hy => ?_⟩
          · cases hpk : g2.par k with
            | none => rfl
            | some p =>
              exfalso
              have h1 := hk2 p hpk
              have hp : g.par k = some p := by
                rcases p2 k with e | e
                · rw [← e]; exact hpk
                · rw [e] at hpk; cases hpk
              rw [upd_ne _ _ (W.inv.par_ne hk hp)] at h1
              have h2 := hlt.ntrans _ _ _ (hmax p (W.inv.parS k p hk hp)) h1
              rw [hc2] at h2
              cases h2
          · rw [v2, upd_same]
            by_cases hy' : y = k
            · subst hy'; rw [upd_same]; exact hlt.irrefl _
            · rw [upd_ne _ _ hy']
              exact hlt.ntrans _ _ _ (hlt.asymm _ _ hc2) (hmax y hy)
        | false =>
          rw [if_neg (by simp)]
          refine mk H2 rfl rfl rfl ⟨(fun h => by rw [hr2] at h; cases h), fun r' h => ?_⟩
          rw [hr2] at h
          have := Option.some.inj h
          subst this
          refine ⟨hrS, pr2, fun y hy => ?_⟩
          rw [v2, upd_ne _ _ hrk]
          by_cases hy' : y = k
          · subst hy'; rw [upd_same]; exact hc2
          · rw [upd_ne _ _ hy']; exact hmax y hy
    rcases needsCut_spec (lt := lt) R1 I1 hk (g.ch k) (g.ch k).length (g.mrk k) true v u with ⟨hp, e⟩ | ⟨p, hp, hpS, e⟩
    · dsimp only at hp e
      rw [e, Option.bind_some, if_neg (by simp), Option.bind_some]
      exact fin H1 _ (Same.refl _) R1 I1 rfl (fun y => Or.inl rfl) (fun p h => by dsimp only at h; rw [hp] at h; cases h)
    · dsimp only at hp e
      rw [e, Option.bind_some]
      cases hcut : lt (upd g.val k v p) v with
      | false =>
        rw [if_neg (by simp), Option.bind_some]
        refine fin H1 _ (Same.refl _) R1 I1 rfl (fun y => Or.inl rfl) (fun q h => ?_)
        dsimp only at h
        rw [hp] at h
        cases h
        exact hcut
      | true =>
        rw [if_pos rfl]
        obtain ⟨H2, g2, e2, s2, R2, I2, v2, pk2, p2⟩ := consolidate_spec W.hN W.hK H1.nd.length H1 _ k p R1 I1 hk (by rw [R1.len]; exact I1.dl (fun y hy => R1.lt hy) hk) hp
        rw [e2, Option.bind_some]
        exact fin H2 g2 s2 R2 I2 v2 (fun y => (p2 y).imp id And.left) (fun q h => by rw [pk2] at h; cases h)

/-- `push` inserts a new key and raises the value of an old one. -/
def insertRaise (lt : α → α → Bool) (M : Nat → Option α) (k : Nat) (v : α) : Nat → Option α :=
  match M k with
  | none => upd M k (some v)
  | some u => if lt u v then upd M k (some v) else M

theorem push_spec (hlt : SWO lt) {N : Nat} {M : Nat → Option α} {H : Hp α} (W : Wf lt N M H) {k : Nat} (hk : k < N) (v : α) :
    ∃ H', push lt H k v = some H' ∧ Wf lt N (insertRaise lt M k v) H' := by
  unfold push insertRaise
  cases hM : M k with
  | some u =>
    obtain ⟨n, e, he, H', e', W'⟩ := updateOld_spec hlt W hM v
    rw [e, Option.bind_some]
    dsimp only
    rw [if_pos he]
    exact ⟨H', e', W'⟩
  | none =>
    have hS : ¬ Sup M k := by unfold Sup; rw [hM]; simp
    obtain ⟨H', e', W'⟩ := pushNew_spec hlt W hk hS v
    obtain ⟨K, o, g, W⟩ := W
    rw [W.rep.other k hS]
    rcases W.dead k hk hS with e | ⟨n, e, he⟩
    · rw [e]; exact ⟨H', e', W'⟩
    · rw [e, Option.bind_some]
      dsimp only
      rw [if_neg (by simp [he])]
      exact ⟨H', e', W'⟩

/-! `pop` and `erase` -/

theorem Rep.remove {N K : Nat} {o : Nat → Option (Option (Nd α))} {S : Nat → Prop} {H : Hp α} {g : G α} (R : Rep N K o S H g) {k : Nat} (hk : S k) :
    Rep N K (upd o k (some (some ⟨g.ch k, g.par k, (g.ch k).length, g.mrk k, true, g.val k⟩))) (fun y => S y ∧ y ≠ k) H g := by
  refine ⟨R.len, R.tlen, fun x hx => R.node x hx.1, fun x hx => ?_, R.tab⟩
  by_cases h : x = k
  · subst h; rw [upd_same]; exact R.node x hk
  · rw [upd_ne _ _ h]; exact R.other x (fun h' => hx ⟨h', h⟩)

theorem free_spec {N K : Nat} {o : Nat → Option (Option (Nd α))} {S : Nat → Prop} {H : Hp α} {g : G α} (R : Rep N K o S H g) {k : Nat} (hk : ¬ S k) (hN : k < N) {n : Nd α} (hn : o k = some (some n)) :
    ∃ H', free H k = some H' ∧ H'.root = H.root ∧ H'.sz = H.sz - 1 ∧ Rep N K (upd o k (some (some { n with en := false }))) S H' g := by
  have hlt : k < H.nd.length := by rw [R.len]; exact hN
  refine ⟨{ H with nd := H.nd.set k (some { n with en := false }), sz := H.sz - 1 }, ?_, rfl, rfl, ?_⟩
  · unfold free getN setN wr
    rw [R.other k hk, hn]
    simp [hlt]
  · refine ⟨by simpa using R.len, R.tlen, fun x hx => ?_, fun x hx => ?_, R.tab⟩
    · dsimp only
      rw [List.getElem?_set_ne (by rintro rfl; exact hk hx)]
      exact R.node x hx
    · dsimp only
      by_cases h : x = k
      · subst h; rw [upd_same, List.getElem?_set_self hlt]
      · rw [upd_ne _ _ h, List.getElem?_set_ne (Ne.symm h)]; exact R.other x hx

/-- The end of `pop` and `erase`. -/
theorem free_wf {N K : Nat} {M : Nat → Option α} {o : Nat → Option (Option (Nd α))} {H : Hp α} {g : G α} {n : Nd α} {k : Nat} (hk : Sup M k) (hkN : k < N) (hN : N ≤ Nat.fib K) (hK : 2 ≤ K)
    (R : Rep N K (upd o k (some (some n))) (fun y => Sup M y ∧ y ≠ k) H g) (I : Inv (fun y => Sup M y ∧ y ≠ k) (fun _ => False) g) (D : Ord lt (fun y => Sup M y ∧ y ≠ k) g)
    (hv : ∀ x v, M x = some v → g.val x = v) (hd : Dead N (Sup M) o) (T : TopOk lt (fun y => Sup M y ∧ y ≠ k) H.root g) (hz : H.sz = count N M) :
    ∃ H', free H k = some H' ∧ Wf lt N (upd M k none) H' := by
  obtain ⟨H', e, hr, hs, R'⟩ := free_spec R (fun h => h.2 rfl) hkN (upd_same _ _ _)
  refine ⟨H', e, K, _, g, hN, hK, by rw [sup_none]; exact R', by rw [sup_none]; exact I, by rw [sup_none]; exact D, ?_, ?_, by rw [sup_none, hr]; exact T, ?_⟩
  · intro x v h
    by_cases hx : x = k
    · subst hx; rw [upd_same] at h; cases h
    · rw [upd_ne _ _ hx] at h; exact hv x v h
  · intro x hx h
    rw [sup_none] at h
    by_cases hxk : x = k
    · subst hxk; rw [upd_same]; exact Or.inr ⟨_, rfl, rfl⟩
    · rw [upd_ne _ _ hxk, upd_ne _ _ hxk]
      exact hd x hx (fun h' => h ⟨h', hxk⟩)
  · rw [hs, hz, count_none hk hkN]

/-- Taking a root with its children out of the forest. -/
theorem expand_out {N K : Nat} {o : Nat → Option (Option (Nd α))} {S : Nat → Prop} {H : Hp α} {g : G α} (hN : N ≤ Nat.fib K) (hK : 2 ≤ K) (R : Rep N K o S H g) (I : Inv S (fun _ => False) g) (D : Ord lt S g)
    {k : Nat} (hk : S k) (pk : g.par k = none) :
    ∃ H1 H2 g2 n, tabPop H (g.ch k).length k = some H1 ∧ expand ((g.ch k).length + 1) H1 k = some H2 ∧ Same H H2 ∧ Rep N K (upd o k (some (some n))) (fun y => S y ∧ y ≠ k) H2 g2 ∧
      Inv (fun y => S y ∧ y ≠ k) (fun _ => False) g2 ∧ Ord lt (fun y => S y ∧ y ≠ k) g2 ∧ g2.val = g.val ∧ ∀ y, g2.par y = g.par y ∨ g2.par y = none := by
  have hd := I.deg_lt (fun y hy => R.lt hy) hN hK hk
  have hm : k ∈ g.rt (g.ch k).length := (I.rt_iff _ k).2 ⟨hk, id, pk, rfl⟩
  obtain ⟨H1, e1, s1, R1⟩ := R.tabPop (by omega) hm
  have I1 : Inv S (fun y => y = k) _ := (I.take hm).congrO (fun y _ => by simp)
  obtain ⟨H2, g2, e2, s2, R2, I2, v2, c2, pk2, p2⟩ := expand_spec hN hK hk ((g.ch k).length + 1) H1 _ R1 I1 pk (Nat.lt_succ_self _)
  refine ⟨H1, H2, g2, _, e1, e2, s1.trans s2, R2.remove hk, (I2.remove hk rfl pk2 c2).congrO (fun y hy => by simp [hy.2]), fun x p hx h => ?_, v2, p2⟩
  rw [v2]
  rcases p2 x with e | e
  · exact D x p hx.1 (by rw [← h, e])
  · rw [e] at h; cases h

theorem pop_spec (hlt : SWO lt) {N : Nat} {M : Nat → Option α} {H : Hp α} (W : Wf lt N M H) {k : Nat} (hr : H.root = some k) :
    ∃ H', pop lt H = some H' ∧ Wf lt N (upd M k none) H' := by
  obtain ⟨K, o, g, W⟩ := W
  obtain ⟨hk, pk, _⟩ := W.top.ok k hr
  obtain ⟨H1, H2, g2, n, e1, e2, s2, R2, I2, D2, v2, p2⟩ := expand_out (lt := lt) W.hN W.hK (W.rep.root none) W.inv W.ord hk pk
  have hS2 : ∀ y, (fun y => Sup M y ∧ y ≠ k) y → y < N := fun y hy => R2.lt hy
  obtain ⟨H3, g3, e3, z3, R3, I3, D3, v3, E3⟩ := extract_spec hlt W.hN W.hK (N + K + 1) H2 g2 0 R2 I2 D2
    ⟨(fun r h => by rw [s2.1] at h; cases h), fun y _ _ h => absurd h (Nat.not_lt_zero _)⟩ (Nat.zero_le _) (by have := @rc_le _ N (fun y => Sup M y ∧ y ≠ k) g2; omega)
  have T3 := E3.top hlt I3 D3 hS2 W.hN W.hK
  obtain ⟨H4, e4, W4⟩ := free_wf hk (W.rep.lt hk) W.hN W.hK R3 I3 D3 (by rw [v3, v2]; exact W.val) W.dead T3 (by rw [z3, s2.2]; exact W.sz)
  refine ⟨H4, ?_, W4⟩
  unfold pop
  rw [hr, Option.bind_some, W.rep.getN hk, Option.bind_some]
  dsimp only
  rw [e1, Option.bind_some, e2, Option.bind_some, R2.len, R2.tlen, e3, Option.bind_some]
  exact e4

theorem erase_spec {N : Nat} {M : Nat → Option α} {H : Hp α} (W : Wf lt N M H) {k : Nat} (hk : Sup M k) (hr : H.root ≠ some k) :
    ∃ H', erase lt H k = some H' ∧ Wf lt N (upd M k none) H' := by
  obtain ⟨K, o, g, W⟩ := W
  -- after cutting
  have hcut : ∃ H1 g1, (if (g.par k).isSome then consolidate H.nd.length H k else some H) = some H1 ∧ Same H H1 ∧ Rep N K o (Sup M) H1 g1 ∧ Inv (Sup M) (fun _ => False) g1 ∧ g1.val = g.val ∧ g1.par k = none ∧
      ∀ y, g1.par y = g.par y ∨ g1.par y = none := by
    cases hp : g.par k with
    | none => exact ⟨H, g, rfl, Same.refl H, W.rep, W.inv, rfl, hp, fun y => Or.inl rfl⟩
    | some p =>
      rw [if_pos (by rfl)]
      obtain ⟨H1, g1, e1, s1, R1, I1, v1, pk1, p1⟩ := consolidate_spec W.hN W.hK H.nd.length H g k p W.rep W.inv hk (by rw [W.rep.len]; exact W.inv.dl (fun y hy => W.rep.lt hy) hk) hp
      exact ⟨H1, g1, e1, s1, R1, I1, v1, pk1, fun y => (p1 y).imp id And.left⟩
  obtain ⟨H1, g1, e1, s1, R1, I1, v1, pk1, p1⟩ := hcut
  have D1 : Ord lt (Sup M) g1 := by
    intro x p hx h
    rw [v1]
    rcases p1 x with e | e
    · exact W.ord x p hx (by rw [← h, e])
    · rw [e] at h; cases h
  obtain ⟨H2, H3, g3, n, e2, e3, s3, R3, I3, D3, v3, p3⟩ := expand_out (lt := lt) W.hN W.hK R1 I1 D1 hk pk1
  have T3 : TopOk lt (fun y => Sup M y ∧ y ≠ k) H3.root g3 := by
    rw [s3.1, s1.1]
    refine ⟨fun h => absurd hk (W.top.empty h k), fun r h => ?_⟩
    obtain ⟨hrS, pr, hmax⟩ := W.top.ok r h
    refine ⟨⟨hrS, by rintro rfl; exact hr h⟩, ?_, fun y hy => by rw [v3, v1]; exact hmax y hy.1⟩
    rcases p3 r with e | e
    · rcases p1 r with e' | e'
      · rw [e, e']; exact pr
      · rw [e, e']
    · exact e
  obtain ⟨H4, e4, W4⟩ := free_wf hk (W.rep.lt hk) W.hN W.hK R3 I3 D3 (by rw [v3, v1]; exact W.val) W.dead T3 (by rw [s3.2, s1.2]; exact W.sz)
  refine ⟨H4, ?_, W4⟩
  unfold erase
  rw [W.rep.getN hk, Option.bind_some]
  dsimp only
  rw [if_neg (by simp), e1, Option.bind_some, R1.getN hk, Option.bind_some]
  dsimp only
  rw [pk1, if_neg (by simp), e2, Option.bind_some, e3, Option.bind_some, if_neg hr, Option.bind_some]
  exact e4

end Verif.FibHeap
