import Verif.FibHeap.Ops
/-!
Melding trees of equal degree and finding the new top.
-/
namespace Verif.FibHeap

variable {α : Type}

/-- A strict weak order. -/
structure SWO (lt : α → α → Bool) : Prop where
  irrefl : ∀ a, lt a a = false
  asymm : ∀ a b, lt a b = true → lt b a = false
  ntrans : ∀ a b c, lt a b = false → lt b c = false → lt a c = false

/-- No value is greater than the one of the parent. -/
def Ord (lt : α → α → Bool) (S : Nat → Prop) (g : G α) : Prop := ∀ x p, S x → g.par x = some p → lt (g.val p) (g.val x) = false

/-- Trees only grow, and those of degree less than `k` are unchanged. -/
structure Mono (k : Nat) (g g' : G α) : Prop where
  val : g'.val = g.val
  keep : ∀ y, (g.ch y).length < k → g'.ch y = g.ch y ∧ g'.par y = g.par y
  par : ∀ y, g'.par y = none → g.par y = none
  len : ∀ y, (g.ch y).length ≤ (g'.ch y).length

theorem Mono.refl (k : Nat) (g : G α) : Mono k g g := ⟨rfl, fun _ _ => ⟨rfl, rfl⟩, fun _ => id, fun _ => le_refl _⟩

theorem Mono.trans {k k' : Nat} {g g' g'' : G α} (a : Mono k g g') (b : Mono k' g' g'') (h : k ≤ k') : Mono k g g'' := by
  refine ⟨b.val.trans a.val, fun y hy => ?_, fun y hy => a.par y (b.par y hy), fun y => le_trans (a.len y) (b.len y)⟩
  obtain ⟨h1, h2⟩ := a.keep y hy
  obtain ⟨h3, h4⟩ := b.keep y (by rw [h1]; omega)
  exact ⟨h3.trans h1, h4.trans h2⟩

variable {N K : Nat} {o : Nat → Option (Option (Nd α))} {S : Nat → Prop} {lt : α → α → Bool}

/-- `link` of two roots. -/
theorem link_spec {H : Hp α} {g : G α} {l r : Nat} (R : Rep N K o S H g) (I : Inv S (fun y => y = l ∨ y = r) g) (D : Ord lt S g) (hl : S l) (hr : S r) (hne : l ≠ r)
    (pl : g.par l = none) (pr : g.par r = none) (hd : (g.ch l).length = (g.ch r).length) (hlt : lt (g.val l) (g.val r) = false) :
    ∃ H' g', link H l r = some H' ∧ Same H H' ∧ Rep N K o S H' g' ∧ Inv S (fun y => y = l) g' ∧ Ord lt S g' ∧ g'.par l = none ∧
      (g'.ch l).length = (g.ch l).length + 1 ∧ Mono (g.ch l).length g g' ∧ g'.par r ≠ none := by
  obtain ⟨H1, e1, s1, R1⟩ := R.link hl hr hne
  refine ⟨H1, _, e1, s1, R1, ?_, ?_, ?_, ?_, ⟨rfl, ?_, ?_, ?_⟩, ?_⟩
  · have := I.attach hl hr hne (Or.inl rfl) (Or.inr rfl) pl pr hd
    refine this.congrO (fun y _ => ?_)
    constructor
    · rintro ⟨h | h, h1⟩
      · exact h
      · exact absurd h h1
    · rintro rfl; exact ⟨Or.inl rfl, hne⟩
  · intro x p hx h
    dsimp only at h ⊢
    by_cases hxr : x = r
    · subst hxr
      rw [upd_same] at h
      rw [← Option.some.inj h]
      exact hlt
    · rw [upd_ne _ _ hxr] at h
      exact D x p hx h
  · dsimp only; rw [upd_ne _ _ hne]; exact pl
  · dsimp only; rw [upd_same]; simp
  · intro y hy
    dsimp only
    rw [upd_ne _ _ (by rintro rfl; omega), upd_ne _ _ (by rintro rfl; omega)]
    exact ⟨rfl, rfl⟩
  · intro y hy
    dsimp only at hy
    by_cases h : y = r
    · subst h; exact pr
    · rw [upd_ne _ _ h] at hy; exact hy
  · intro y
    dsimp only
    by_cases h : y = l
    · subst h; rw [upd_same]; simp
    · rw [upd_ne _ _ h]
  · dsimp only; rw [upd_same]; simp

theorem meld_spec (hlt : SWO lt) {H : Hp α} {g : G α} {x u : Nat} (R : Rep N K o S H g) (I : Inv S (fun y => y = x ∨ y = u) g) (D : Ord lt S g) (hx : S x) (hu : S u) (hne : x ≠ u)
    (px : g.par x = none) (pu : g.par u = none) (hd : (g.ch x).length = (g.ch u).length) :
    ∃ z H' g', meld lt H x u = some (z, H') ∧ S z ∧ Same H H' ∧ Rep N K o S H' g' ∧ Inv S (fun y => y = z) g' ∧ Ord lt S g' ∧ g'.par z = none ∧
      (g'.ch z).length = (g.ch x).length + 1 ∧ Mono (g.ch x).length g g' ∧ ∃ w, S w ∧ g.par w = none ∧ g'.par w ≠ none := by
  unfold meld
  rw [R.getN hx, Option.bind_some, R.getN hu, Option.bind_some]
  dsimp only
  rw [if_neg (by simpa using hd)]
  cases hc : lt (g.val x) (g.val u) with
  | true =>
    rw [if_pos rfl]
    obtain ⟨H1, g1, e1, s1, R1, I1, D1, p1, l1, m1, w1⟩ := link_spec (l := u) (r := x) R (I.congrO (fun y _ => or_comm)) D hu hx (Ne.symm hne) pu px hd.symm (hlt.asymm _ _ hc)
    rw [e1]
    exact ⟨u, H1, g1, rfl, hu, s1, R1, I1, D1, p1, by rw [l1, hd], by rw [hd]; exact m1, x, hx, px, w1⟩
  | false =>
    rw [if_neg (by simp)]
    obtain ⟨H1, g1, e1, s1, R1, I1, D1, p1, l1, m1, w1⟩ := link_spec (l := x) (r := u) R I D hx hu hne px pu hd hc
    rw [e1]
    exact ⟨x, H1, g1, rfl, hx, s1, R1, I1, D1, p1, l1, m1, u, hu, pu, w1⟩

theorem meldLoop_spec (hlt : SWO lt) (hN : N ≤ Nat.fib K) (hK : 2 ≤ K) : ∀ (f : Nat) (H : Hp α) (g : G α) (x : Nat), Rep N K o S H g → Inv S (fun y => y = x) g → Ord lt S g → S x → g.par x = none →
    K ≤ (g.ch x).length + f →
    ∃ z H' g', meldLoop lt f H x = some (z, H') ∧ S z ∧ Same H H' ∧ Rep N K o S H' g' ∧ Inv S (fun y => y = z) g' ∧ Ord lt S g' ∧ g'.par z = none ∧
      (g.ch x).length ≤ (g'.ch z).length ∧ Mono (g.ch x).length g g' ∧ (g.rt (g.ch x).length ≠ [] → ∃ w, S w ∧ g.par w = none ∧ g'.par w ≠ none) := by
  intro f
  induction f with
  | zero =>
    intro H g x R I D hx px hf
    have := I.deg_lt (fun y hy => R.lt hy) hN hK hx
    omega
  | succ f ih =>
    intro H g x R I D hx px hf
    have hdx := I.deg_lt (fun y hy => R.lt hy) hN hK hx
    rw [meldLoop, R.getN hx, Option.bind_some]
    dsimp only
    rw [R.tab _ (by omega), Option.bind_some]
    cases hr : g.rt (g.ch x).length with
    | nil => exact ⟨x, H, g, rfl, hx, Same.refl H, R, I, D, px, le_refl _, Mono.refl _ _, fun h => absurd rfl h⟩
    | cons u us =>
      dsimp only
      have hu : u ∈ g.rt (g.ch x).length := by rw [hr]; exact List.mem_cons_self ..
      obtain ⟨huS, hux, hup, hud⟩ := (I.rt_iff _ u).1 hu
      obtain ⟨H1, e1, s1, R1⟩ := R.tabPop (by omega) hu
      rw [e1, Option.bind_some]
      have I1 := I.take hu
      obtain ⟨z, H2, g2, e2, hz, s2, R2, I2, D2, pz, lz, m2, w, hw, pw, pw'⟩ := meld_spec hlt R1 I1 D hx huS (Ne.symm hux) px hup hud.symm
      rw [e2, Option.bind_some]
      dsimp only
      rw [R2.getN hz, Option.bind_some]
      dsimp only at lz ⊢
      rw [if_neg (by rw [lz]; simp)]
      obtain ⟨z3, H3, g3, e3, hz3, s3, R3, I3, D3, pz3, lz3, m3, _⟩ := ih H2 g2 z R2 I2 D2 hz pz (by rw [lz]; omega)
      have m23 : Mono (g.ch x).length g g3 := by
        have h := m2.trans m3 (by dsimp only; omega)
        exact ⟨h.val, h.keep, h.par, h.len⟩
      exact ⟨z3, H3, g3, e3, hz3, (s1.trans s2).trans s3, R3, I3, D3, pz3, by omega, m23, fun _ => ⟨w, hw, pw, fun h => pw' (m3.par w h)⟩⟩

theorem meldAt_spec (hlt : SWO lt) (hN : N ≤ Nat.fib K) (hK : 2 ≤ K) {H : Hp α} {g : G α} {k x u : Nat} {us : List Nat} (R : Rep N K o S H g) (I : Inv S (fun _ => False) g) (D : Ord lt S g)
    (hk : k < K) (hr : g.rt k = x :: u :: us) :
    ∃ H' g', meldAt lt H k x = some H' ∧ Same H H' ∧ Rep N K o S H' g' ∧ Inv S (fun _ => False) g' ∧ Ord lt S g' ∧ Mono k g g' ∧ ∃ w, S w ∧ g.par w = none ∧ g'.par w ≠ none := by
  have hxm : x ∈ g.rt k := by rw [hr]; exact List.mem_cons_self ..
  obtain ⟨hx, _, px, dx⟩ := (I.rt_iff k x).1 hxm
  unfold meldAt
  obtain ⟨H1, e1, s1, R1⟩ := R.tabPop hk hxm
  rw [e1, Option.bind_some, R1.getN hx, Option.bind_some]
  dsimp only
  rw [if_neg (by simpa using dx)]
  have I1 : Inv S (fun y => y = x) _ := (I.take hxm).congrO (fun y _ => by simp)
  obtain ⟨z, H2, g2, e2, hz, s2, R2, I2, D2, pz, lz, m2, hw⟩ := meldLoop_spec hlt hN hK (H1.tab.length + 1) H1 _ x R1 I1 D hx px (by rw [R1.tlen]; omega)
  rw [e2, Option.bind_some]
  dsimp only at lz m2 hw ⊢
  rw [R2.getN hz, Option.bind_some]
  dsimp only
  have hdz := I2.deg_lt (fun y hy => R2.lt hy) hN hK hz
  obtain ⟨H3, e3, s3, R3⟩ := R2.tabPush (d := (g2.ch z).length) (by omega) z
  rw [e3]
  obtain ⟨w, h1, h2, h3⟩ := hw (by rw [dx, upd_same, hr]; simp)
  refine ⟨H3, _, rfl, (s1.trans s2).trans s3, R3, (I2.put hz rfl pz rfl).congrO (fun y _ => by simp), D2, ?_, w, h1, h2, h3⟩
  rw [dx] at m2
  exact ⟨m2.val, m2.keep, m2.par, m2.len⟩

open Classical in
/-- The number of roots. -/
noncomputable def rc (N : Nat) (S : Nat → Prop) (g : G α) : Nat := ((Finset.range N).filter (fun y => S y ∧ g.par y = none)).card

theorem rc_lt {g g' : G α} {k w : Nat} (m : Mono k g g') (hN : ∀ x, S x → x < N) (hw : S w) (h1 : g.par w = none) (h2 : g'.par w ≠ none) : rc N S g' < rc N S g := by
  classical
  unfold rc
  refine Finset.card_lt_card ?_
  rw [Finset.ssubset_iff_of_subset]
  · refine ⟨w, ?_, ?_⟩
    · rw [Finset.mem_filter, Finset.mem_range]; exact ⟨hN w hw, hw, h1⟩
    · rw [Finset.mem_filter]; exact fun h => h2 h.2.2
  · intro y hy
    rw [Finset.mem_filter] at hy ⊢
    exact ⟨hy.1, hy.2.1, m.par y hy.2.2⟩

theorem rc_le {g : G α} : rc N S g ≤ N := by
  classical
  unfold rc
  refine le_trans (Finset.card_le_card (Finset.filter_subset _ _)) ?_
  rw [Finset.card_range]

/-- The root is a greatest one among the roots of degree less than `k`. -/
structure EI (lt : α → α → Bool) (S : Nat → Prop) (k : Nat) (root : Option Nat) (g : G α) : Prop where
  ok : ∀ r, root = some r → S r ∧ g.par r = none ∧ (g.ch r).length < k
  max : ∀ y, S y → g.par y = none → (g.ch y).length < k → ∃ r, root = some r ∧ lt (g.val r) (g.val y) = false

theorem EI.mono {k : Nat} {root : Option Nat} {g g' : G α} (E : EI lt S k root g) (m : Mono k g g') : EI lt S k root g' := by
  refine ⟨?_, ?_⟩
  · intro r h
    obtain ⟨h1, h2, h3⟩ := E.ok r h
    obtain ⟨h4, h5⟩ := m.keep r h3
    exact ⟨h1, by rw [h5]; exact h2, by rw [h4]; exact h3⟩
  · intro y hy h1 h2
    rw [m.val]
    exact E.max y hy (m.par y h1) (lt_of_le_of_lt (m.len y) h2)

theorem Rep.root {H : Hp α} {g : G α} (R : Rep N K o S H g) (r : Option Nat) : Rep N K o S { H with root := r } g := ⟨R.len, R.tlen, R.node, R.other, R.tab⟩

theorem extract_spec (hlt : SWO lt) (hN : N ≤ Nat.fib K) (hK : 2 ≤ K) : ∀ (f : Nat) (H : Hp α) (g : G α) (k : Nat), Rep N K o S H g → Inv S (fun _ => False) g → Ord lt S g → EI lt S k H.root g → k ≤ K →
    rc N S g + (K - k) < f →
    ∃ H' g', extract lt f H k = some H' ∧ H'.sz = H.sz ∧ Rep N K o S H' g' ∧ Inv S (fun _ => False) g' ∧ Ord lt S g' ∧ g'.val = g.val ∧ EI lt S K H'.root g' := by
  intro f
  induction f with
  | zero => intro H g k _ _ _ _ _ h; omega
  | succ f ih =>
    intro H g k R I D E hk hf
    rw [extract, R.tlen]
    by_cases hkK : K ≤ k
    · rw [if_pos hkK]
      have : k = K := by omega
      subst this
      exact ⟨H, g, rfl, rfl, R, I, D, rfl, E⟩
    · rw [if_neg hkK, R.tab k (by omega), Option.bind_some]
      cases hr : g.rt k with
      | nil =>
        dsimp only
        refine ih H g (k+1) R I D ⟨fun r h => ?_, fun y hy py ly => ?_⟩ (by omega) (by omega)
        · obtain ⟨h1, h2, h3⟩ := E.ok r h
          exact ⟨h1, h2, by omega⟩
        · by_cases hl : (g.ch y).length = k
          · have : y ∈ g.rt k := (I.rt_iff k y).2 ⟨hy, id, py, hl⟩
            rw [hr] at this
            cases this
          · exact E.max y hy py (by omega)
      | cons x xs =>
        have hxm : x ∈ g.rt k := by rw [hr]; exact List.mem_cons_self ..
        obtain ⟨hx, _, px, dx⟩ := (I.rt_iff k x).1 hxm
        cases xs with
        | nil =>
          dsimp only
          rw [R.getN hx, Option.bind_some]
          dsimp only
          have hcase : ∀ y, S y → g.par y = none → (g.ch y).length < k+1 → y = x ∨ (g.ch y).length < k := by
            intro y hy py ly
            by_cases hl : (g.ch y).length = k
            · have : y ∈ g.rt k := (I.rt_iff k y).2 ⟨hy, id, py, hl⟩
              rw [hr, List.mem_singleton] at this
              exact Or.inl this
            · exact Or.inr (by omega)
          have fin : ∀ b, beats lt H (g.val x) = some b → EI lt S (k+1) (if b then some x else H.root) g →
              ∃ H' g', (beats lt H (g.val x)).bind (fun b => extract lt f { H with root := if b then some x else H.root } (k+1)) = some H' ∧ H'.sz = H.sz ∧ Rep N K o S H' g' ∧
                Inv S (fun _ => False) g' ∧ Ord lt S g' ∧ g'.val = g.val ∧ EI lt S K H'.root g' := by
            intro b hb hE
            rw [hb, Option.bind_some]
            exact ih _ g (k+1) (R.root _) I D hE (by omega) (by omega)
          obtain hroot | ⟨r, hroot⟩ : H.root = none ∨ ∃ r, H.root = some r := by cases H.root <;> simp
          · skip
            refine fin true (by unfold beats; rw [hroot]) ?_
            rw [if_pos rfl]
            refine ⟨fun r h => ?_, fun y hy py ly => ?_⟩
            · cases h; exact ⟨hx, px, by omega⟩
            · rcases hcase y hy py ly with h | h
              · subst h; exact ⟨y, rfl, hlt.irrefl _⟩
              · obtain ⟨r, h1, _⟩ := E.max y hy py h
                rw [hroot] at h1
                cases h1
          · skip
            obtain ⟨hrS, pr, lr⟩ := E.ok r hroot
            have hb : beats lt H (g.val x) = some (lt (g.val r) (g.val x)) := by
              unfold beats
              rw [hroot]
              dsimp only
              rw [R.getN hrS]
              rfl
            refine fin _ hb ?_
            cases hc : lt (g.val r) (g.val x) with
            | true =>
              rw [if_pos rfl]
              refine ⟨fun r h => ?_, fun y hy py ly => ?_⟩
              · cases h; exact ⟨hx, px, by omega⟩
              · rcases hcase y hy py ly with h | h
                · subst h; exact ⟨y, rfl, hlt.irrefl _⟩
                · obtain ⟨r', h1, h2⟩ := E.max y hy py h
                  rw [hroot] at h1
                  cases h1
                  exact ⟨x, rfl, hlt.ntrans _ _ _ (hlt.asymm _ _ hc) h2⟩
            | false =>
              rw [if_neg (by simp), hroot]
              refine ⟨fun r' h => ?_, fun y hy py ly => ?_⟩
              · cases h; exact ⟨hrS, pr, by omega⟩
              · rcases hcase y hy py ly with h | h
                · subst h; exact ⟨r, rfl, hc⟩
                · obtain ⟨r', h1, h2⟩ := E.max y hy py h
                  rw [hroot] at h1
                  cases h1
                  exact ⟨r, rfl, h2⟩
        | cons u us =>
          dsimp only
          obtain ⟨H1, g1, e1, s1, R1, I1, D1, m1, w, hw, pw, pw'⟩ := meldAt_spec hlt hN hK R I D (by omega) hr
          rw [e1, Option.bind_some]
          have hrc := rc_lt m1 (fun y hy => R.lt hy) hw pw pw'
          obtain ⟨H2, g2, e2, z2, R2, I2, D2, v2, E2⟩ := ih H1 g1 k R1 I1 D1 (by rw [s1.1]; exact E.mono m1) hk (by omega)
          exact ⟨H2, g2, e2, z2.trans s1.2, R2, I2, D2, v2.trans m1.val, E2⟩

end Verif.FibHeap
