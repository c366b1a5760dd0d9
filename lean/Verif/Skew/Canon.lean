import Verif.Skew.Cost
/-!
The digits of a skew-binary list are canonical: they increase strictly, but for the first two, which may be equal.
-/
namespace Verif.Skew

variable {T : Type}

/-- The digit of a tree. -/
def dg : Tree T → Nat
  | .nil => 0
  | .node _ d _ _ => d

/-- Canonical sequences of digits. -/
def Canon : List Nat → Prop
  | [] => True
  | a :: r => 1 ≤ a ∧ r.Pairwise (· < ·) ∧ ∀ x ∈ r, a ≤ x

/-- Well-formed trees with canonical digits. -/
structure Cn (ds : List (Tree T)) : Prop where
  wf : ∀ t ∈ ds, WF (dg t) t
  can : Canon (ds.map dg)

theorem WF.dg {d : Nat} {t : Tree T} (h : WF d t) : dg t = d := by
  cases t with
  | nil => exact absurd h (by simp [WF])
  | node v e l r => exact h.1

theorem Canon.tail {a : Nat} {r : List Nat} (h : Canon (a :: r)) : Canon r := by
  cases r with
  | nil => trivial
  | cons b r =>
    obtain ⟨h1, h2, h3⟩ := h
    have := List.pairwise_cons.1 h2
    exact ⟨by have := h3 b (List.mem_cons_self ..); omega, this.2, fun x hx => Nat.le_of_lt (this.1 x hx)⟩

theorem Cn.tail {t : Tree T} {ds : List (Tree T)} (h : Cn (t :: ds)) : Cn ds := ⟨fun x hx => h.wf x (List.mem_cons_of_mem _ hx), h.can.tail⟩

theorem Cn.head {t : Tree T} {ds : List (Tree T)} (h : Cn (t :: ds)) : WF (Skew.dg t) t := h.wf t (List.mem_cons_self ..)

/-- The digit at place `p` is at least `p`. -/
theorem Canon.ge : ∀ {D : List Nat} {p d : Nat}, Canon D → D[p]? = some d → p ≤ d := by
  have key : ∀ (D : List Nat) (b p d : Nat), D.Pairwise (· < ·) → (∀ x ∈ D, b ≤ x) → D[p]? = some d → p + b ≤ d := by
    intro D
    induction D with
    | nil => intro b p d _ _ h; simp at h
    | cons a D ih =>
      intro b p d h1 h2 h
      have hp := List.pairwise_cons.1 h1
      cases p with
      | zero =>
        rw [List.getElem?_cons_zero] at h
        cases h
        have := h2 a (List.mem_cons_self ..)
        omega
      | succ p =>
        rw [List.getElem?_cons_succ] at h
        have := ih (b+1) p d hp.2 (fun x hx => by have := hp.1 x hx; have := h2 a (List.mem_cons_self ..); omega) h
        omega
  intro D p d hc h
  cases D with
  | nil => simp at h
  | cons a r =>
    cases p with
    | zero => omega
    | succ p =>
      rw [List.getElem?_cons_succ] at h
      have := key r 1 p d hc.2.1 (fun x hx => by have := hc.2.2 x hx; have := hc.1; omega) h
      omega

theorem Cn.push {t : Tree T} {ds : List (Tree T)} {d : Nat} (h : Cn ds) (hw : WF d t) (hp : (ds.map Skew.dg).Pairwise (· < ·)) (hl : ∀ x ∈ ds.map Skew.dg, d ≤ x) : Cn (t :: ds) := by
  refine ⟨fun x hx => ?_, ?_⟩
  · rcases List.mem_cons.1 hx with rfl | hx
    · rw [hw.dg]; exact hw
    · exact h.wf x hx
  · rw [List.map_cons, hw.dg]
    exact ⟨hw.size.2.2.2, hp, hl⟩

/-- Without equal leading digits the digits increase. -/
theorem Cn.strict {a b : Tree T} {rest : List (Tree T)} (h : Cn (a :: b :: rest)) (hne : Skew.dg a ≠ Skew.dg b) : ((a :: b :: rest).map Skew.dg).Pairwise (· < ·) := by
  obtain ⟨h1, h2, h3⟩ := h.can
  change (Skew.dg a :: Skew.dg b :: rest.map Skew.dg).Pairwise (· < ·)
  have h2' : (Skew.dg b :: rest.map Skew.dg).Pairwise (· < ·) := h2
  have hab : Skew.dg a ≤ Skew.dg b := h3 _ (List.mem_cons_self ..)
  refine List.pairwise_cons.2 ⟨fun x hx => ?_, h2'⟩
  rcases List.mem_cons.1 hx with rfl | hx
  · omega
  · have := (List.pairwise_cons.1 h2').1 x hx
    omega

theorem Cn.merge {a b : Tree T} {rest : List (Tree T)} (h : Cn (a :: b :: rest)) (he : Skew.dg a = Skew.dg b) (v : T) : Cn (.node v (Skew.dg a + 1) a b :: rest) := by
  obtain ⟨h1, h2, h3⟩ := h.can
  have h2' := List.pairwise_cons.1 (show (Skew.dg b :: rest.map Skew.dg).Pairwise (· < ·) from h2)
  have ha := h.head
  have hb := h.tail.head
  rw [← he] at hb
  exact h.tail.tail.push (wf_node v ha hb) h2'.2 (fun x hx => by have := h2'.1 x hx; omega)

theorem Cn.pushDs {ds ds' : List (Tree T)} (h : Cn ds) (v : T) (e : pushDs v ds = some ds') : Cn ds' := by
  match ds, h with
  | [], h =>
    cases e
    exact h.push (fresh_wf v (Nat.le_refl 1)) (by simp) (by simp)
  | [a], h =>
    cases e
    exact h.push (fresh_wf v (Nat.le_refl 1)) (by simp) (fun x hx => by rw [List.map_singleton, List.mem_singleton] at hx; subst hx; exact h.can.1)
  | a :: b :: rest, h =>
    have ha := h.head
    have hb := h.tail.head
    rw [Skew.pushDs, ha.size.2.1, Option.bind_some, hb.size.2.1, Option.bind_some] at e
    by_cases he : Skew.dg a = Skew.dg b
    · rw [if_pos he] at e
      cases e
      exact h.merge he v
    · rw [if_neg he] at e
      cases e
      refine h.push (fresh_wf v (Nat.le_refl 1)) (h.strict he) (fun x hx => ?_)
      obtain ⟨t, ht, rfl⟩ := List.mem_map.1 hx
      exact (h.wf t ht).size.2.2.2

theorem Cn.popDs {ds ds' : List (Tree T)} (h : Cn ds) (e : popDs ds = some ds') : Cn ds' := by
  match ds, h with
  | [], h => cases e
  | .nil :: rest, h => cases e
  | .node v d l r :: rest, h =>
    have hw : WF d (.node v d l r) := h.head
    have hge := two_pow_ge hw.size.2.2.2
    obtain ⟨h1, h2, h3⟩ := h.can
    change ∀ x ∈ rest.map Skew.dg, d ≤ x at h3
    have two : ∀ a b : Tree T, 1 < d → WF (d-1) a → WF (d-1) b → Cn (a :: b :: rest) := by
      intro a b hd ha hb
      have : Cn (b :: rest) := h.tail.push hb h2 (fun x hx => by have := h3 x hx; omega)
      refine this.push ha ?_ (fun x hx => ?_)
      · rw [List.map_cons, hb.dg]
        exact List.pairwise_cons.2 ⟨fun x hx => by have := h3 x hx; omega, h2⟩
      · rw [List.map_cons, hb.dg] at hx
        rcases List.mem_cons.1 hx with rfl | hx
        · exact Nat.le_refl _
        · have := h3 x hx; omega
    rw [Skew.popDs] at e
    by_cases hd : 1 < d
    · have hd2 : 2 ^ 2 ≤ 2 ^ d := Nat.pow_le_pow_right (by decide) hd
      rw [if_pos (by omega)] at e
      by_cases hl : (decide (d > 1) && l.isNil) = true
      · rw [if_pos hl] at e
        cases e
        exact two _ _ hd (fresh_wf v (by omega)) (fresh_wf v (by omega))
      · rw [if_neg hl] at e
        cases e
        obtain ⟨_, hl, hr⟩ := elems_inner hw hl hd
        exact two _ _ hd hl hr
    · have : d = 1 := by have := hw.size.2.2.2; omega
      subst this
      rw [if_neg (by decide)] at e
      cases e
      exact h.tail

theorem lumpUpd_wf (v x : T) : ∀ (D s j : Nat) (t : Tree T), lumpUpd v x D s j = some t → WF D t := by
  intro D
  induction D with
  | zero => intro s j t h; cases h
  | succ D ih =>
    intro s j t h
    rw [lumpUpd] at h
    by_cases hD : D = 0
    · subst hD
      split_ifs at h
      · cases h; exact ⟨rfl, by omega, Or.inl rfl⟩
      · cases h
      · cases h
    · split_ifs at h
      · cases h; exact wf_node x (fresh_wf v (by omega)) (fresh_wf v (by omega))
      · obtain ⟨t', e, rfl⟩ := Option.map_eq_some_iff.mp h
        exact wf_node v (ih _ _ _ e) (fresh_wf v (by omega))
      · obtain ⟨t', e, rfl⟩ := Option.map_eq_some_iff.mp h
        exact wf_node v (fresh_wf v (by omega)) (ih _ _ _ e)

theorem updTree_wf (x : T) : ∀ (t : Tree T) (d j : Nat) (t' : Tree T), WF d t → updTree x t j = some t' → WF d t'
  | .nil, d, j, t', h, _ => absurd h (by simp [WF])
  | .node v e l r, d, j, t', h, h' => by
    have hw := h
    obtain ⟨rfl, h1, h2⟩ := h
    rw [updTree] at h'
    by_cases hl : (decide (e > 1) && l.isNil) = true
    · rw [if_pos hl] at h'
      exact lumpUpd_wf _ _ _ _ _ _ h'
    · rw [if_neg hl] at h'
      by_cases hj : j = 0
      · rw [if_pos hj] at h'
        cases h'
        exact ⟨rfl, h1, h2⟩
      · rw [if_neg hj] at h'
        obtain ⟨sl, es, h'⟩ := Option.bind_eq_some_iff.mp h'
        by_cases hd : 1 < e
        · obtain ⟨_, wl, wr⟩ := elems_inner hw hl hd
          have e1 : e - 1 + 1 = e := by omega
          by_cases hs : j - 1 < sl
          · rw [if_pos hs] at h'
            obtain ⟨u, eu, rfl⟩ := Option.map_eq_some_iff.mp h'
            have := wf_node v (updTree_wf x l _ _ _ wl eu) wr
            rw [e1] at this; exact this
          · rw [if_neg hs] at h'
            obtain ⟨u, eu, rfl⟩ := Option.map_eq_some_iff.mp h'
            have := wf_node v wl (updTree_wf x r _ _ _ wr eu)
            rw [e1] at this; exact this
        · have : e = 1 := by omega
          subst this
          by_cases hs : j - 1 < sl
          · rw [if_pos hs] at h'
            obtain ⟨u, eu, rfl⟩ := Option.map_eq_some_iff.mp h'
            exact ⟨rfl, Nat.le_refl _, Or.inl rfl⟩
          · rw [if_neg hs] at h'
            obtain ⟨u, eu, rfl⟩ := Option.map_eq_some_iff.mp h'
            exact ⟨rfl, Nat.le_refl _, Or.inl rfl⟩

theorem updDs_keep (x : T) : ∀ (ds : List (Tree T)) (j : Nat) (ds' : List (Tree T)), (∀ t ∈ ds, WF (dg t) t) → updDs x ds j = some ds' → (∀ t ∈ ds', WF (dg t) t) ∧ ds'.map dg = ds.map dg := by
  intro ds
  induction ds with
  | nil => intro j ds' _ h; cases h
  | cons c rest ih =>
    intro j ds' hw h
    rw [updDs] at h
    obtain ⟨s, es, h⟩ := Option.bind_eq_some_iff.mp h
    have hr : ∀ t ∈ rest, WF (dg t) t := fun t ht => hw t (List.mem_cons_of_mem _ ht)
    have hc := hw c (List.mem_cons_self ..)
    by_cases hs : s ≤ j
    · rw [if_pos hs] at h
      obtain ⟨u, eu, rfl⟩ := Option.map_eq_some_iff.mp h
      obtain ⟨a, b⟩ := ih _ u hr eu
      refine ⟨fun t ht => ?_, by rw [List.map_cons, List.map_cons, b]⟩
      rcases List.mem_cons.1 ht with rfl | ht
      · exact hc
      · exact a t ht
    · rw [if_neg hs] at h
      obtain ⟨u, eu, rfl⟩ := Option.map_eq_some_iff.mp h
      have hu := updTree_wf x c _ _ u hc eu
      refine ⟨fun t ht => ?_, by rw [List.map_cons, List.map_cons, hu.dg]⟩
      rcases List.mem_cons.1 ht with rfl | ht
      · rw [hu.dg]; exact hu
      · exact hr t ht

theorem Cn.updDs {ds ds' : List (Tree T)} (h : Cn ds) {x : T} {j : Nat} (e : updDs x ds j = some ds') : Cn ds' := by
  obtain ⟨a, b⟩ := updDs_keep x ds j ds' h.wf e
  exact ⟨a, b ▸ h.can⟩

theorem dropTree_cn : ∀ (t : Tree T) (d j : Nat) (dst ds' : List (Tree T)), WF d t → j < 2^d - 1 → Cn dst → (dst.map dg).Pairwise (· < ·) → (∀ x ∈ dst.map dg, d ≤ x) → dropTree t j dst = some ds' → Cn ds'
  | .nil, d, j, dst, ds', h, _, _, _, _, _ => absurd h (by simp [WF])
  | .node v e l r, d, j, dst, ds', h, hj, hc, hp, hle, h' => by
    have hw := h
    obtain ⟨rfl, h1, h2⟩ := h
    rw [dropTree] at h'
    by_cases hj0 : j = 0
    · rw [if_pos hj0] at h'
      cases h'
      exact hc.push hw hp hle
    · rw [if_neg hj0] at h'
      obtain ⟨sl, es, h'⟩ := Option.bind_eq_some_iff.mp h'
      have hd : 1 < e := by
        by_contra hd
        have : e = 1 := by omega
        subst this
        omega
      have hl : ¬ (decide (e > 1) && l.isNil) = true := by
        intro h
        simp only [Bool.and_eq_true] at h
        cases l with
        | nil => cases es
        | node => cases h.2
      obtain ⟨_, wl, wr⟩ := elems_inner hw hl hd
      have hsl := wl.size.1
      rw [es] at hsl
      cases hsl
      have hpow := two_pow_split hd
      by_cases hs : j - 1 < 2 ^ (e-1) - 1
      · rw [if_pos hs] at h'
        obtain ⟨_, _, h'⟩ := Option.bind_eq_some_iff.mp h'
        refine dropTree_cn l (e-1) _ (r :: dst) ds' wl hs (hc.push wr hp (fun x hx => by have := hle x hx; omega)) ?_ ?_ h'
        · rw [List.map_cons, wr.dg]
          exact List.pairwise_cons.2 ⟨fun x hx => by have := hle x hx; omega, hp⟩
        · intro x hx
          rw [List.map_cons, wr.dg] at hx
          rcases List.mem_cons.1 hx with rfl | hx
          · exact Nat.le_refl _
          · have := hle x hx; omega
      · rw [if_neg hs] at h'
        exact dropTree_cn r (e-1) _ dst ds' wr (by omega) hc hp (fun x hx => by have := hle x hx; omega) h'

theorem Cn.dropDs : ∀ {ds ds' : List (Tree T)} {j : Nat}, Cn ds → dropDs ds j = some ds' → Cn ds' := by
  intro ds
  induction ds with
  | nil => intro ds' j h e; cases e; exact h
  | cons c rest ih =>
    intro ds' j h e
    rw [Skew.dropDs] at e
    obtain ⟨s, es, e⟩ := Option.bind_eq_some_iff.mp e
    by_cases hs : s ≤ j
    · rw [if_pos hs] at e
      exact ih h.tail e
    · rw [if_neg hs] at e
      have := h.head.size.1
      rw [es] at this
      cases this
      exact dropTree_cn c _ j rest ds' h.head (by omega) h.tail h.can.2.1 h.can.2.2 e

/-- The state between the two loops of `extended`. -/
structure Mid (ds : List (Tree T)) (m : Nat) : Prop where
  cn : Cn ds
  mid : m = 0 ∨ ((ds.map dg).Pairwise (· < ·) ∧ ∀ x ∈ ds.map dg, m + 1 ≤ 2 ^ x)

/-- The leading digit, and whether it occurs twice. -/
def lead (ds : List (Tree T)) : Nat :=
  match ds with
  | [] => 0
  | [a] => 2 * dg a
  | a :: b :: _ => 2 * dg a + (if dg a = dg b then 1 else 0)

theorem lead_le {a : Tree T} {rest : List (Tree T)} : 2 * dg a ≤ lead (a :: rest) ∧ lead (a :: rest) ≤ 2 * dg a + 1 := by
  cases rest with
  | nil => exact ⟨Nat.le_refl _, by show 2 * dg a ≤ _; omega⟩
  | cons b r =>
    show 2 * dg a ≤ 2 * dg a + (if dg a = dg b then 1 else 0) ∧ 2 * dg a + (if dg a = dg b then 1 else 0) ≤ 2 * dg a + 1
    split_ifs <;> omega

theorem extRound_cn (v : T) {ds : List (Tree T)} {sz m : Nat} (hm : m ≠ 0) (h : Cn ds) {r : Option (List (Tree T) × Nat × Nat)} (e : extRound v ds sz m = some r) :
    match r with
    | none => Mid ds m
    | some (ds', _, _) => Cn ds' ∧ lead ds + 1 ≤ lead ds' := by
  have brk : ∀ (a : Tree T) (rest : List (Tree T)), Cn (a :: rest) → ((a :: rest).map dg).Pairwise (· < ·) → ¬ 2 ^ dg a - 1 ≤ m → Mid (a :: rest) m := by
    intro a rest hc hp hm
    refine ⟨hc, Or.inr ⟨hp, fun x hx => ?_⟩⟩
    rcases List.mem_cons.1 hx with rfl | hx
    · omega
    · have h2 : 2 ^ dg a ≤ 2 ^ x := Nat.pow_le_pow_right (by decide) (hc.can.2.2 x hx)
      omega
  match ds, h with
  | [], h => cases e
  | [c], h =>
    have hc := h.head
    rw [extRound, hc.size.1, Option.bind_some, hc.size.2.1, Option.bind_some] at e
    by_cases hs : 2 ^ dg c - 1 ≤ m
    · rw [if_pos hs] at e
      cases e
      refine ⟨h.push (fresh_wf v hc.size.2.2.2) (by simp) (fun x hx => ?_), ?_⟩
      · rw [List.map_singleton, List.mem_singleton] at hx; omega
      · show 2 * dg c + 1 ≤ 2 * dg c + (if dg c = dg c then 1 else 0)
        rw [if_pos rfl]; omega
    · rw [if_neg hs] at e
      cases e
      exact brk c [] h (by simp) hs
  | a :: b :: rest, h =>
    have ha := h.head
    have hb := h.tail.head
    rw [extRound, ha.size.1, Option.bind_some, hb.size.1, Option.bind_some, ha.size.2.1, Option.bind_some] at e
    have hga := two_pow_ge ha.size.2.2.2
    have hgb := two_pow_ge hb.size.2.2.2
    by_cases he : 2 ^ dg a - 1 = 2 ^ dg b - 1
    · rw [if_pos he] at e
      cases e
      have he' : dg a = dg b := Nat.pow_right_inj (by omega : 1 < 2) |>.1 (show 2 ^ dg a = 2 ^ dg b by omega)
      refine ⟨h.merge he' v, ?_⟩
      have h1 := (lead_le (a := a) (rest := b :: rest)).2
      have h2 := (lead_le (a := Tree.node v (dg a + 1) a b) (rest := rest)).1
      have : dg (Tree.node v (dg a + 1) a b) = dg a + 1 := rfl
      omega
    · rw [if_neg he] at e
      have he' : dg a ≠ dg b := fun h => he (by rw [h])
      by_cases hs : 2 ^ dg a - 1 ≤ m
      · rw [if_pos hs] at e
        cases e
        refine ⟨h.push (fresh_wf v ha.size.2.2.2) (h.strict he') (fun x hx => ?_), ?_⟩
        · rcases List.mem_cons.1 hx with rfl | hx
          · exact Nat.le_refl _
          · exact h.can.2.2 x hx
        · show 2 * dg a + (if dg a = dg b then 1 else 0) + 1 ≤ 2 * dg a + (if dg a = dg a then 1 else 0)
          rw [if_neg he', if_pos rfl]; omega
      · rw [if_neg hs] at e
        cases e
        exact brk a (b :: rest) h (h.strict he') hs

theorem ext1C_cn (v : T) : ∀ (f : Nat) (ds : List (Tree T)) (sz m : Nat) (r : (List (Tree T) × Nat × Nat) × Nat), Cn ds → ext1C v f ds sz m = some r → Mid r.1.1 r.1.2.2 ∧ r.2 + lead ds ≤ lead r.1.1 + 1 ∧ (m = 0 → r.2 = 0) := by
  intro f
  induction f with
  | zero =>
    intro ds sz m r hc h
    rw [ext1C] at h
    split_ifs at h with h0
    cases h
    exact ⟨⟨hc, Or.inl h0⟩, by dsimp only; omega, fun _ => rfl⟩
  | succ f ih =>
    intro ds sz m r hc h
    rw [ext1C] at h
    by_cases h0 : m = 0
    · rw [if_pos h0] at h
      cases h
      exact ⟨⟨hc, Or.inl h0⟩, by dsimp only; omega, fun _ => rfl⟩
    · rw [if_neg h0] at h
      obtain ⟨q, eqq, h⟩ := Option.bind_eq_some_iff.mp h
      match q, eqq, h with
      | none, eqq, h =>
        have key : Mid ds m := extRound_cn v h0 hc eqq
        cases h
        exact ⟨key, by dsimp only; omega, fun h => absurd h h0⟩
      | some (ds', sz', m'), eqq, h =>
        have key : Cn ds' ∧ lead ds + 1 ≤ lead ds' := extRound_cn v h0 hc eqq
        dsimp only at h
        obtain ⟨r', e, rfl⟩ := Option.map_eq_some_iff.mp h
        obtain ⟨a, b, _⟩ := ih _ _ _ r' key.1 e
        exact ⟨a, by dsimp only; omega, fun h => absurd h h0⟩

theorem ext2C_cn (v : T) : ∀ (f : Nat) (ds : List (Tree T)) (sz m : Nat) (r : (List (Tree T) × Nat) × Nat), Mid ds m → ext2C v f ds sz m = some r →
    Cn r.1.1 ∧ (m = 0 → r.2 = 0) ∧ r.2 ≤ (m+1).log2 + 1 ∧ (m + 1 = 2 ^ (m+1).log2 → r.2 ≤ 1) := by
  intro f
  induction f with
  | zero =>
    intro ds sz m r hc h
    rw [ext2C] at h
    split_ifs at h with h0
    cases h
    exact ⟨hc.cn, fun _ => rfl, Nat.zero_le _, fun _ => Nat.zero_le _⟩
  | succ f ih =>
    intro ds sz m r hc h
    rw [ext2C] at h
    by_cases h0 : m = 0
    · rw [if_pos h0] at h
      cases h
      exact ⟨hc.cn, fun _ => rfl, Nat.zero_le _, fun _ => Nat.zero_le _⟩
    · rw [if_neg h0] at h
      obtain ⟨b1, b2⟩ := pow_le_of_log2 (m := m) (by omega)
      rw [if_pos b1] at h
      have u1 := Nat.log2_self_le (n := m+1) (by omega)
      have u2 := Nat.lt_log2_self (n := m+1)
      generalize (m+1).log2 = k at *
      obtain ⟨r', e, rfl⟩ := Option.map_eq_some_iff.mp h
      rw [Nat.pow_succ] at u2
      obtain ⟨hp, hl⟩ := hc.mid.resolve_left h0
      have hk : ∀ x ∈ ds.map dg, k ≤ x := by
        intro x hx
        have := hl x hx
        exact (Nat.pow_le_pow_iff_right (a := 2) (by decide)).1 (by omega)
      have wk := fresh_wf v b2
      have M' : Mid (fresh v k :: ds) (m - (2 ^ k - 1)) := by
        refine ⟨hc.cn.push wk hp hk, ?_⟩
        by_cases hz : m + 1 = 2 ^ k
        · left; omega
        · right
          rw [List.map_cons, wk.dg]
          refine ⟨List.pairwise_cons.2 ⟨fun x hx => ?_, hp⟩, fun x hx => ?_⟩
          · have h1 := hl x hx
            exact (Nat.pow_lt_pow_iff_right (a := 2) (by decide)).1 (by omega)
          · rcases List.mem_cons.1 hx with rfl | hx
            · omega
            · have := hl x hx; omega
      obtain ⟨c1, c2, c3, c4⟩ := ih _ _ _ r' M' e
      refine ⟨c1, fun h => absurd h h0, ?_, fun hz => ?_⟩
      · dsimp only
        by_cases hz : m - (2 ^ k - 1) = 0
        · have := c2 hz; omega
        · by_cases hq : m - (2 ^ k - 1) + 1 = 2 ^ k
          · have : (m - (2 ^ k - 1) + 1).log2 = k := by rw [hq, Nat.log2_two_pow]
            rw [this] at c4
            have := c4 hq
            omega
          · have : (m - (2 ^ k - 1) + 1).log2 < k := (Nat.log2_lt (by omega)).2 (by omega)
            omega
      · dsimp only
        have := c2 (by omega)
        omega

end Verif.Skew
