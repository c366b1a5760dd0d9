import Verif.Sais.Ctx
/-! The induced sort: closed form of the state after every round. -/
namespace Verif.Sais

variable {n N : Nat} {S : Nat → Nat} {ty : Nat → Bool} {κ : Type} [LinearOrder κ]

theorem placeFront_ok {Sl : List Nat} {A : Slots} {B : Buckets} {a : Nat → Option Nat} {g : Nat → Nat × Nat}
    (hS : Rep Sl n S) (hA : Rep A n a) (hB : Rep B N g) {x : Nat} (hx : x < n) (hc : S x < N) (hb : (g (S x)).1 < n) :
    ∃ A' B', placeFront Sl x (A, B) = some (A', B') ∧ Rep A' n (upd a (g (S x)).1 (some x)) ∧
      Rep B' N (upd g (S x) ((g (S x)).1 + 1, (g (S x)).2)) := by
  obtain ⟨A', eA, rA⟩ := hA.wr hb (some x)
  obtain ⟨B', eB, rB⟩ := hB.wr hc ((g (S x)).1 + 1, (g (S x)).2)
  refine ⟨A', B', ?_, rA, rB⟩
  simp [placeFront, hS.val x hx, hB.val _ hc, eA, eB]

theorem placeBack_ok {Sl : List Nat} {A : Slots} {B : Buckets} {a : Nat → Option Nat} {g : Nat → Nat × Nat}
    (hS : Rep Sl n S) (hA : Rep A n a) (hB : Rep B N g) {x : Nat} (hx : x < n) (hc : S x < N) (hb0 : 0 < (g (S x)).2) (hb : (g (S x)).2 ≤ n) :
    ∃ A' B', placeBack Sl x (A, B) = some (A', B') ∧ Rep A' n (upd a ((g (S x)).2 - 1) (some x)) ∧
      Rep B' N (upd g (S x) ((g (S x)).1, (g (S x)).2 - 1)) := by
  obtain ⟨A', eA, rA⟩ := hA.wr (i := (g (S x)).2 - 1) (by omega) (some x)
  obtain ⟨B', eB, rB⟩ := hB.wr hc ((g (S x)).1, (g (S x)).2 - 1)
  refine ⟨A', B', ?_, rA, rB⟩
  have h : (g (S x)).2 ≠ 0 := by omega
  simp [placeBack, hS.val x hx, hB.val _ hc, eA, eB, h]

theorem isLms_ok {t : List Bool} (ht : Rep t n ty) {x : Nat} (hx : x < n) : isLms t x = some (lms ty x) := by
  unfold isLms lms
  by_cases h0 : x = 0
  · simp [h0]
  · rw [if_neg h0, ht.val x hx]
    cases h : ty x with
    | false => simp [h]
    | true => simp [h0, h, ht.val (x-1) (by omega)]

/-- The positions placed before the first loop. -/
abbrev TL (ty : Nat → Bool) : Nat → Prop := fun x => lms ty x = true
/-- The S-type positions. -/
abbrev TS (ty : Nat → Bool) : Nat → Prop := fun x => ty x = true

theorem Ctx.dom_succ (C : Ctx n S ty) {x : Nat} (hx : x < n) (h : ty x = false) : Dom n ty (TL ty) (x+1) :=
  ⟨C.L_lt hx h, fun h1 => by show lms ty (x+1) = true; rw [lms_succ h]; exact h1⟩

theorem dom_L {T : Nat → Prop} {x : Nat} (hx : x < n) (h : ty x = false) : Dom n ty T x := ⟨hx, fun h1 => by rw [h] at h1; cases h1⟩
theorem dom_T {T : Nat → Prop} {x : Nat} (hx : x < n) (h : T x) : Dom n ty T x := ⟨hx, fun _ => h⟩
theorem dom_all {x : Nat} (hx : x < n) : Dom n ty (TS ty) x := ⟨hx, fun h => h⟩

/-- Keys of the first loop: L-type positions with the same character are ordered as their successors. -/
structure KeyL (n : Nat) (S : Nat → Nat) (ty : Nat → Bool) (k : Nat → κ) : Prop extends Key n S ty (TL ty) k where
  ind : ∀ x y, x < n → y < n → ty x = false → ty y = false → S x = S y → (k x < k y ↔ k (x+1) < k (y+1))

/-- Keys of the second loop. -/
structure KeyS (n : Nat) (S : Nat → Nat) (ty : Nat → Bool) (k : Nat → κ) : Prop extends Key n S ty (TS ty) k where
  ind : ∀ x y, x + 1 < n → y + 1 < n → ty x = true → ty y = true → S x = S y → (k x < k y ↔ k (x+1) < k (y+1))

theorem KeyL.next {k : Nat → κ} (C : Ctx n S ty) (K : KeyL n S ty k) : ∀ (d x : Nat), n - x ≤ d → x < n → ty x = false → k (x+1) < k x := by
  intro d
  induction d with
  | zero => intro x h1 h2; omega
  | succ d ih =>
    intro x h1 hx h
    have h2 := C.L_lt hx h
    rcases C.L_step hx h with e | ⟨e, e2⟩
    · exact K.chr _ _ (C.dom_succ hx h) (dom_L hx h) e
    · exact (K.ind (x+1) x h2 hx e2 h e).2 (ih (x+1) (by omega) h2 e2)

theorem KeyS.next {k : Nat → κ} (C : Ctx n S ty) (K : KeyS n S ty k) : ∀ (d x : Nat), n - x ≤ d → x + 1 < n → ty x = true → k x < k (x+1) := by
  intro d
  induction d with
  | zero => intro x h1 h2; omega
  | succ d ih =>
    intro x h1 hx h
    obtain ⟨h2, h3⟩ := C.S_step hx h
    rcases h3 with e | ⟨e, e2⟩
    · exact K.chr _ _ (dom_all (by omega)) (dom_all hx) e
    · exact (K.ind x (x+1) hx h2 h e2 e).2 (ih (x+1) (by omega) h2 e2)

/-- State of the first loop, when the L-type positions induced by slots below `i` have been placed and the slots below `j` cleared. -/
structure LSt (n N : Nat) (S : Nat → Nat) (ty : Nat → Bool) (k : Nat → κ) (i j : Nat) (s : Slots × Buckets) (a : Nat → Option Nat)
    (g : Nat → Nat × Nat) : Prop where
  ra : Rep s.1 n a
  rb : Rep s.2 N g
  av : ∀ p, p < n → ∀ x, a p = some x ↔ x < n ∧ slot n S ty (TL ty) k x = p ∧
    ((ty x = false ∧ slot n S ty (TL ty) k (x+1) < i) ∨ (lms ty x = true ∧ j ≤ p))
  b1 : ∀ c, c < n → (g c).1 = st n S c + num n (fun x => ty x = false ∧ S x = c ∧ slot n S ty (TL ty) k (x+1) < i)
  b2 : ∀ c, c < n → (g c).2 = st n S (c+1) - num n (fun x => lms ty x = true ∧ S x = c ∧ j ≤ slot n S ty (TL ty) k x)

theorem bool_ne {b : Bool} (h : ¬ b = true) : b = false := by cases b <;> simp_all

/-- The first part of a round: the position before `q` is placed if it is L-type. -/
theorem LSt.front {k : Nat → κ} (C : Ctx n S ty) (K : KeyL n S ty k) (hN : n ≤ N) {Sl : List Nat} (hS : Rep Sl n S) {t : List Bool} (ht : Rep t n ty)
    {i : Nat} {s : Slots × Buckets} {a : Nat → Option Nat} {g : Nat → Nat × Nat} (h : LSt n N S ty k i i s a g) (hi : i < n) {q : Nat}
    (hq : a i = some q) :
    ∃ b, t[prevOf n q]? = some b ∧ ∃ s' a' g', (if b then some s else placeFront Sl (prevOf n q) s) = some s' ∧ LSt n N S ty k (i+1) i s' a' g' ∧
      a' i = some q := by
  obtain ⟨q1, q2, q3⟩ := (h.av i hi q).1 hq
  have hp : prevOf n q < n := by unfold prevOf; split <;> omega
  refine ⟨ty (prevOf n q), ht.val _ hp, ?_⟩
  have dq : Dom n ty (TL ty) q := by
    rcases q3 with q3 | q3
    · exact dom_L q1 q3.1
    · exact dom_T q1 q3.1
  cases hty : ty (prevOf n q) with
  | true =>
    refine ⟨s, a, g, rfl, ?_, hq⟩
    have key : ∀ x, x < n → ty x = false → (slot n S ty (TL ty) k (x+1) < i + 1 ↔ slot n S ty (TL ty) k (x+1) < i) := by
      intro x hx hL
      have : slot n S ty (TL ty) k (x+1) ≠ i := by
        intro e
        have e2 := slot_inj K.toKey (C.dom_succ hx hL) dq (by rw [e, q2])
        rw [← e2, prevOf, if_neg (by omega)] at hty
        rw [show x + 1 - 1 = x by omega, hL] at hty
        cases hty
      omega
    refine ⟨h.ra, h.rb, ?_, ?_, h.b2⟩
    · intro p hp x
      rw [h.av p hp x]
      refine and_congr_right fun hx => and_congr_right fun _ => or_congr (and_congr_right fun hL => (key x hx hL).symm) Iff.rfl
    · intro c hc
      rw [h.b1 c hc]
      congr 1
      exact num_congr (fun x hx => and_congr_right fun hL => and_congr_right fun _ => (key x hx hL).symm)
  | false =>
    have q0 : q ≠ 0 := by
      intro e
      rw [prevOf, if_pos e, C.tlast] at hty
      cases hty
    rw [prevOf, if_neg q0] at hty hp ⊢
    obtain ⟨p, rfl⟩ : ∃ p, q = p + 1 := ⟨q - 1, by omega⟩
    rw [show p + 1 - 1 = p by omega] at hty hp ⊢
    have hc := C.lt p hp
    have hslot : (g (S p)).1 = slot n S ty (TL ty) k p := by
      rw [h.b1 _ hc]
      unfold slot
      rw [if_neg (by rw [hty]; decide)]
      congr 1
      refine num_congr (fun x hx => and_congr_right fun hL => and_congr_right fun hs => ?_)
      rw [K.ind x p hx hp hL hty hs, ← slot_lt_iff K.toKey (C.dom_succ hx hL) (C.dom_succ hp hty)]
      rw [← q2]
      rfl
    have dp : Dom n ty (TL ty) p := dom_L hp hty
    have hlt : slot n S ty (TL ty) k (p+1) < slot n S ty (TL ty) k p := slot_mono K.toKey dq dp (K.next C n p (by omega) hp hty)
    have hpn := slot_lt_n K.toKey dp
    obtain ⟨A', B', e, rA, rB⟩ := placeFront_ok hS h.ra h.rb hp (lt_of_lt_of_le hc hN) (by rw [hslot]; exact hpn)
    have key : ∀ x, x < n → ty x = false → (slot n S ty (TL ty) k (x+1) < i + 1 ↔ slot n S ty (TL ty) k (x+1) < i ∨ x = p) := by
      intro x hx hL
      constructor
      · intro h1
        rcases Nat.lt_or_ge (slot n S ty (TL ty) k (x+1)) i with h2 | h2
        · exact Or.inl h2
        · right
          have := slot_inj K.toKey (C.dom_succ hx hL) dq (by omega)
          omega
      · rintro (h1 | rfl) <;> omega
    refine ⟨(A', B'), _, _, e, ⟨rA, rB, ?_, ?_, ?_⟩, ?_⟩
    · intro r hr x
      rw [hslot]
      by_cases hrp : r = slot n S ty (TL ty) k p
      · rw [hrp, upd_same]
        constructor
        · intro hx; cases hx
          exact ⟨hp, rfl, Or.inl ⟨hty, by omega⟩⟩
        · rintro ⟨h1, h2, h3⟩
          have : x = p := slot_inj K.toKey (by rcases h3 with h3 | h3; exacts [dom_L h1 h3.1, dom_T h1 h3.1]) dp h2
          rw [this]
      · rw [upd_ne _ _ hrp, h.av r hr x]
        refine and_congr_right fun hx => and_congr_right fun hsl => or_congr (and_congr_right fun hL => ?_) Iff.rfl
        rw [key x hx hL]
        constructor
        · exact Or.inl
        · rintro (h1 | rfl)
          · exact h1
          · exact absurd hsl.symm hrp
    · intro c hc'
      by_cases hcp : c = S p
      · subst hcp
        rw [upd_same, h.b1 _ hc, Nat.add_assoc]
        refine congrArg (st n S (S p) + ·) ?_
        refine (num_succ hp (fun h1 => ?_) (fun x hx => ?_)).symm
        · have := h1.2.2; omega
        · constructor
          · rintro ⟨h1, h2, h3⟩
            rcases (key x hx h1).1 h3 with h4 | h4
            · exact Or.inl ⟨h1, h2, h4⟩
            · exact Or.inr h4
          · rintro (⟨h1, h2, h3⟩ | rfl)
            · exact ⟨h1, h2, by omega⟩
            · exact ⟨hty, rfl, by omega⟩
      · rw [upd_ne _ _ hcp, h.b1 c hc']
        congr 1
        refine num_congr (fun x hx => and_congr_right fun hL => and_congr_right fun hs => ?_)
        rw [key x hx hL]
        constructor
        · exact Or.inl
        · rintro (h1 | rfl)
          · exact h1
          · exact absurd hs.symm hcp
    · intro c hc'
      by_cases hcp : c = S p
      · subst hcp; rw [upd_same]; exact h.b2 _ hc
      · rw [upd_ne _ _ hcp]; exact h.b2 c hc'
    · rw [hslot, upd_ne _ _ (by omega)]; exact hq

/-- The second part of a round: an LMS position is removed. -/
theorem LSt.clear {k : Nat → κ} (C : Ctx n S ty) (K : KeyL n S ty k) (hN : n ≤ N) {Sl : List Nat} (hS : Rep Sl n S) {t : List Bool} (ht : Rep t n ty)
    {i : Nat} {s : Slots × Buckets} {a : Nat → Option Nat} {g : Nat → Nat × Nat} (h : LSt n N S ty k (i+1) i s a g) (hi : i < n) {q : Nat}
    (hq : a i = some q) :
    ∃ s' a' g', clearLms Sl t i s = some s' ∧ LSt n N S ty k (i+1) (i+1) s' a' g' := by
  obtain ⟨q1, q2, q3⟩ := (h.av i hi q).1 hq
  cases hl : lms ty q with
  | false =>
    have hL : ty q = false := by
      rcases q3 with q3 | q3
      · exact q3.1
      · rw [hl] at q3; cases q3.1
    refine ⟨s, a, g, by simp [clearLms, h.ra.val i hi, hq, isLms_ok ht q1, hl], h.ra, h.rb, ?_, h.b1, ?_⟩
    · intro p hp x
      rw [h.av p hp x]
      refine and_congr_right fun hx => and_congr_right fun hsl => or_congr Iff.rfl (and_congr_right fun hM => ?_)
      have : p ≠ i := by
        intro e
        have := slot_inj K.toKey (dom_T hx hM) (dom_L q1 hL) (by rw [hsl, q2, e])
        rw [this, hl] at hM; cases hM
      omega
    · intro c hc
      rw [h.b2 c hc]
      congr 1
      refine num_congr (fun x hx => and_congr_right fun hM => and_congr_right fun _ => ?_)
      have : slot n S ty (TL ty) k x ≠ i := by
        intro e
        have := slot_inj K.toKey (dom_T hx hM) (dom_L q1 hL) (by rw [q2, e])
        rw [this, hl] at hM; cases hM
      omega
  | true =>
    have hc := C.lt q q1
    have dq : Dom n ty (TL ty) q := dom_T q1 hl
    have h2 := slot_S K.toKey dq (lms_ty hl)
    have hnum : num n (fun x => lms ty x = true ∧ S x = S q ∧ i ≤ slot n S ty (TL ty) k x) = num n (fun y => TL ty y ∧ S y = S q ∧ k q ≤ k y) := by
      refine num_congr (fun x hx => and_congr_right fun hM => and_congr_right fun _ => ?_)
      rw [← q2]
      exact slot_le_iff K.toKey dq (dom_T hx hM)
    have hslot : (g (S q)).2 = i := by
      rw [h.b2 _ hc, hnum, ← q2]
      omega
    obtain ⟨A', eA, rA⟩ := h.ra.wr hi none
    obtain ⟨B', eB, rB⟩ := h.rb.wr (lt_of_lt_of_le hc hN) ((g (S q)).1, i + 1)
    refine ⟨(A', B'), _, _, ?_, rA, rB, ?_, ?_, ?_⟩
    · simp [clearLms, h.ra.val i hi, hq, isLms_ok ht q1, hl, hS.val q q1, h.rb.val _ (lt_of_lt_of_le hc hN), hslot, eA, eB]
    · intro p hp x
      by_cases hpi : p = i
      · rw [hpi, upd_same]
        constructor
        · intro h1; cases h1
        · rintro ⟨h1, h3, h4⟩
          exfalso
          have : x = q := slot_inj K.toKey (by rcases h4 with h4 | h4; exacts [dom_L h1 h4.1, dom_T h1 h4.1]) dq (by rw [h3, q2])
          rcases h4 with h4 | h4
          · rw [this, lms_ty hl] at h4; cases h4.1
          · omega
      · rw [upd_ne _ _ hpi, h.av p hp x]
        refine and_congr_right fun hx => and_congr_right fun hsl => or_congr Iff.rfl (and_congr_right fun hM => ?_)
        omega
    · intro c hc'
      by_cases hcp : c = S q
      · subst hcp; rw [upd_same]; exact h.b1 _ hc
      · rw [upd_ne _ _ hcp]; exact h.b1 c hc'
    · intro c hc'
      by_cases hcp : c = S q
      · subst hcp
        rw [upd_same]
        have h3 : num n (fun x => lms ty x = true ∧ S x = S q ∧ i ≤ slot n S ty (TL ty) k x) =
            num n (fun x => lms ty x = true ∧ S x = S q ∧ i + 1 ≤ slot n S ty (TL ty) k x) + 1 := by
          refine num_succ q1 (fun h1 => by have := h1.2.2; omega) (fun x hx => ?_)
          constructor
          · rintro ⟨h1, h4, h5⟩
            rcases Nat.lt_or_ge i (slot n S ty (TL ty) k x) with h6 | h6
            · exact Or.inl ⟨h1, h4, h6⟩
            · right
              exact slot_inj K.toKey (dom_T hx h1) dq (by omega)
          · rintro (⟨h1, h4, h5⟩ | rfl)
            · exact ⟨h1, h4, by omega⟩
            · exact ⟨hl, rfl, by omega⟩
        rw [hnum] at h3
        show i + 1 = _
        omega
      · rw [upd_ne _ _ hcp, h.b2 c hc']
        congr 1
        refine num_congr (fun x hx => and_congr_right fun hM => and_congr_right fun hs => ?_)
        have : slot n S ty (TL ty) k x ≠ i := by
          intro e
          have := slot_inj K.toKey (dom_T hx hM) dq (by rw [q2, e])
          rw [this] at hs
          exact hcp hs.symm
        omega

/-- One round of the first loop. -/
theorem stepL_ok {k : Nat → κ} (C : Ctx n S ty) (K : KeyL n S ty k) (hN : n ≤ N) {Sl : List Nat} (hS : Rep Sl n S) {t : List Bool} (ht : Rep t n ty)
    {i : Nat} {s : Slots × Buckets} (h : ∃ a g, LSt n N S ty k i i s a g) (hi : i < n) :
    ∃ s', stepL Sl t i s = some s' ∧ ∃ a g, LSt n N S ty k (i+1) (i+1) s' a g := by
  obtain ⟨a, g, h⟩ := h
  cases hq : a i with
  | none =>
    refine ⟨s, by simp [stepL, h.ra.val i hi, hq], a, g, h.ra, h.rb, ?_, ?_, ?_⟩
    all_goals
      have kL : ∀ x, x < n → ty x = false → (slot n S ty (TL ty) k (x+1) < i ↔ slot n S ty (TL ty) k (x+1) < i + 1) := by
        intro x hx hL
        have : slot n S ty (TL ty) k (x+1) ≠ i := by
          intro e
          have d1 := C.dom_succ hx hL
          have : a i = some (x+1) := by
            rw [h.av i hi]
            refine ⟨d1.1, e, ?_⟩
            cases h1 : ty (x+1) with
            | false =>
              left
              have := slot_mono K.toKey (C.dom_succ d1.1 h1) d1 (K.next C n (x+1) (by omega) d1.1 h1)
              exact ⟨rfl, by omega⟩
            | true => exact Or.inr ⟨d1.2 h1, le_refl _⟩
          rw [hq] at this; cases this
        omega
      have kM : ∀ x, x < n → lms ty x = true → (i ≤ slot n S ty (TL ty) k x ↔ i + 1 ≤ slot n S ty (TL ty) k x) := by
        intro x hx hM
        have : slot n S ty (TL ty) k x ≠ i := by
          intro e
          have : a i = some x := by
            rw [h.av i hi]
            exact ⟨hx, e, Or.inr ⟨hM, le_refl _⟩⟩
          rw [hq] at this; cases this
        omega
    · intro p hp x
      rw [h.av p hp x]
      refine and_congr_right fun hx => and_congr_right fun hsl => or_congr (and_congr_right fun hL => kL x hx hL) (and_congr_right fun hM => ?_)
      have := kM x hx hM
      rwa [hsl] at this
    · intro c hc
      rw [h.b1 c hc]
      congr 1
      exact num_congr (fun x hx => and_congr_right fun hL => and_congr_right fun _ => kL x hx hL)
    · intro c hc
      rw [h.b2 c hc]
      congr 1
      exact num_congr (fun x hx => and_congr_right fun hL => and_congr_right fun _ => kM x hx hL)
  | some q =>
    obtain ⟨b, e1, s1, a1, g1, e2, h1, hq1⟩ := h.front C K hN hS ht hi hq
    obtain ⟨s2, a2, g2, e3, h2⟩ := h1.clear C K hN hS ht hi hq1
    refine ⟨s2, ?_, a2, g2, h2⟩
    simp only [stepL, h.ra.val i hi, hq, hS.len, e1, Option.bind_some, e2, e3]

/-- The position that induces `x`. -/
def nxt (n x : Nat) : Nat := if x = n - 1 then 0 else x + 1

/-- State of the second loop, when the S-type positions induced by slots from `j` on have been placed. -/
structure SSt (n N : Nat) (S : Nat → Nat) (ty : Nat → Bool) (k : Nat → κ) (j : Nat) (s : Slots × Buckets) (a : Nat → Option Nat)
    (g : Nat → Nat × Nat) : Prop where
  ra : Rep s.1 n a
  rb : Rep s.2 N g
  av : ∀ p, p < n → ∀ x, a p = some x ↔ x < n ∧ slot n S ty (TS ty) k x = p ∧ (ty x = true → j ≤ slot n S ty (TS ty) k (nxt n x))
  b2 : ∀ c, c < n → (g c).2 = st n S (c+1) - num n (fun x => ty x = true ∧ S x = c ∧ j ≤ slot n S ty (TS ty) k (nxt n x))

theorem nxt_lt (hn : 2 ≤ n) {x : Nat} (hx : x < n) : nxt n x < n := by unfold nxt; split <;> omega
theorem nxt_inj {x y : Nat} (hx : x < n) (hy : y < n) (h : nxt n x = nxt n y) : x = y := by
  unfold nxt at h; split at h <;> split at h <;> omega
theorem nxt_prev (hn : 2 ≤ n) {q : Nat} (hq : q < n) : nxt n (prevOf n q) = q := by
  unfold nxt prevOf; split <;> split <;> omega

theorem slot_surj (k : Nat → κ) (K : KeyS n S ty k) {p : Nat} (hp : p < n) : ∃ x, x < n ∧ slot n S ty (TS ty) k x = p := by
  have h := Finset.surj_on_of_inj_on_of_card_le (s := Finset.range n) (t := Finset.range n)
    (fun x _ => slot n S ty (TS ty) k x) (fun x hx => Finset.mem_range.2 (slot_lt_n K.toKey (dom_all (Finset.mem_range.1 hx))))
    (fun x y hx hy e => slot_inj K.toKey (dom_all (Finset.mem_range.1 hx)) (dom_all (Finset.mem_range.1 hy)) e)
    (le_refl _) p (Finset.mem_range.2 hp)
  obtain ⟨x, hx, e⟩ := h
  exact ⟨x, Finset.mem_range.1 hx, e.symm⟩

theorem KeyS.nxt_lt_slot {k : Nat → κ} (C : Ctx n S ty) (K : KeyS n S ty k) {x : Nat} (hx : x < n) (h : ty x = true) :
    slot n S ty (TS ty) k x < slot n S ty (TS ty) k (nxt n x) := by
  have hn := C.two
  apply slot_mono K.toKey (dom_all hx) (dom_all (nxt_lt hn hx))
  unfold nxt
  split
  · rename_i e
    subst e
    exact K.chr _ _ (dom_all hx) (dom_all (by omega)) (by rw [C.last]; exact C.pos 0 (by omega))
  · exact K.next C n x (by omega) (by omega) h

/-- One round of the second loop. -/
theorem stepS_ok {k : Nat → κ} (C : Ctx n S ty) (K : KeyS n S ty k) (hN : n ≤ N) {Sl : List Nat} (hS : Rep Sl n S) {t : List Bool} (ht : Rep t n ty)
    {j : Nat} {s : Slots × Buckets} (h : ∃ a g, SSt n N S ty k (j+1) s a g) (hj : j < n) :
    ∃ s', stepS Sl t j s = some s' ∧ ∃ a g, SSt n N S ty k j s' a g := by
  obtain ⟨a, g, h⟩ := h
  have hn := C.two
  obtain ⟨q, q1, q2⟩ := slot_surj k K hj
  have hq : a j = some q := by
    rw [h.av j hj]
    refine ⟨q1, q2, fun hty => ?_⟩
    have := K.nxt_lt_slot C q1 hty
    omega
  obtain ⟨p, hpd⟩ : ∃ p, prevOf n q = p := ⟨_, rfl⟩
  have hp : p < n := by rw [← hpd]; unfold prevOf; split <;> omega
  have hnp : nxt n p = q := by rw [← hpd]; exact nxt_prev hn q1
  have key : ∀ x, x < n → (j ≤ slot n S ty (TS ty) k (nxt n x) ↔ j + 1 ≤ slot n S ty (TS ty) k (nxt n x) ∨ x = p) := by
    intro x hx
    constructor
    · intro h1
      rcases Nat.lt_or_ge j (slot n S ty (TS ty) k (nxt n x)) with h2 | h2
      · exact Or.inl h2
      · right
        have := slot_inj K.toKey (dom_all (nxt_lt hn hx)) (dom_all q1) (by omega)
        exact nxt_inj hx hp (by rw [this, hnp])
    · rintro (h1 | rfl)
      · omega
      · rw [hnp]; omega
  cases hty : ty p with
  | false =>
    have key2 : ∀ x, x < n → ty x = true → (j + 1 ≤ slot n S ty (TS ty) k (nxt n x) ↔ j ≤ slot n S ty (TS ty) k (nxt n x)) := by
      intro x hx h1
      rw [key x hx]
      constructor
      · exact Or.inl
      · rintro (h2 | rfl)
        · exact h2
        · rw [hty] at h1; cases h1
    refine ⟨s, by simp [stepS, h.ra.val j hj, hq, hS.len, hpd, ht.val p hp, hty], a, g, h.ra, h.rb, ?_, ?_⟩
    · intro r hr x
      rw [h.av r hr x]
      exact and_congr_right fun hx => and_congr_right fun _ => forall_congr' fun h1 => key2 x hx h1
    · intro c hc
      rw [h.b2 c hc]
      congr 1
      exact num_congr (fun x hx => and_congr_right fun h1 => and_congr_right fun _ => key2 x hx h1)
  | true =>
    have hc := C.lt p hp
    have hS2 := slot_S K.toKey (dom_all hp) hty
    have hnum : num n (fun y => TS ty y ∧ S y = S p ∧ k p ≤ k y) =
        num n (fun x => ty x = true ∧ S x = S p ∧ j + 1 ≤ slot n S ty (TS ty) k (nxt n x)) + 1 := by
      refine num_succ hp (fun h1 => ?_) (fun x hx => ?_)
      · have := h1.2.2; rw [hnp] at this; omega
      · have hcmp : ty x = true → S x = S p → x ≠ p → (k p < k x ↔ j + 1 ≤ slot n S ty (TS ty) k (nxt n x)) := by
          intro h1 h2 h3
          have hp1 : p ≠ n - 1 := by
            intro e
            have h4 := C.last
            rw [← e, ← h2] at h4
            exact h3 (by rw [C.zero hx h4, e])
          have hx1 : x ≠ n - 1 := by
            intro e
            have h4 := C.last
            rw [← e, h2] at h4
            exact hp1 (C.zero hp h4)
          have e1 : nxt n p = p + 1 := by rw [nxt, if_neg hp1]
          have e2 : nxt n x = x + 1 := by rw [nxt, if_neg hx1]
          rw [K.ind p x (by omega) (by omega) hty h1 h2.symm, ← slot_lt_iff K.toKey (dom_all (by omega)) (dom_all (by omega)), ← e1, ← e2, hnp, q2]
          omega
        constructor
        · rintro ⟨h1, h2, h3⟩
          by_cases hxp : x = p
          · exact Or.inr hxp
          · left
            refine ⟨h1, h2, (hcmp h1 h2 hxp).1 (lt_of_le_of_ne h3 (fun e => hxp (K.inj _ _ (dom_all hx) (dom_all hp) e.symm)))⟩
        · rintro (⟨h1, h2, h3⟩ | rfl)
          · refine ⟨h1, h2, ?_⟩
            by_cases hxp : x = p
            · rw [hxp]
            · exact le_of_lt ((hcmp h1 h2 hxp).2 h3)
          · exact ⟨hty, rfl, le_refl _⟩
    have hg : (g (S p)).2 = slot n S ty (TS ty) k p + 1 := by
      rw [h.b2 _ hc]; omega
    have hpn := slot_lt_n K.toKey (dom_all hp)
    obtain ⟨A', B', e, rA, rB⟩ := placeBack_ok hS h.ra h.rb hp (lt_of_lt_of_le hc hN) (by omega) (by rw [hg]; omega)
    refine ⟨(A', B'), ?_, _, _, rA, rB, ?_, ?_⟩
    · simp [stepS, h.ra.val j hj, hq, hS.len, hpd, ht.val p hp, hty, e]
    · intro r hr x
      rw [hg, Nat.add_sub_cancel]
      by_cases hrp : r = slot n S ty (TS ty) k p
      · rw [hrp, upd_same]
        constructor
        · intro h1; cases h1
          exact ⟨hp, rfl, fun _ => by rw [hnp]; omega⟩
        · rintro ⟨h1, h2, _⟩
          rw [slot_inj K.toKey (dom_all h1) (dom_all hp) h2]
      · rw [upd_ne _ _ hrp, h.av r hr x]
        refine and_congr_right fun hx => and_congr_right fun hsl => forall_congr' fun h1 => ?_
        rw [key x hx]
        constructor
        · exact Or.inl
        · rintro (h1 | rfl)
          · exact h1
          · exact absurd hsl.symm hrp
    · intro c hc'
      by_cases hcp : c = S p
      · subst hcp
        rw [upd_same]
        have : num n (fun x => ty x = true ∧ S x = S p ∧ j ≤ slot n S ty (TS ty) k (nxt n x)) =
            num n (fun x => ty x = true ∧ S x = S p ∧ j + 1 ≤ slot n S ty (TS ty) k (nxt n x)) + 1 := by
          refine num_succ hp (fun h1 => ?_) (fun x hx => ?_)
          · have := h1.2.2; rw [hnp] at this; omega
          · rw [key x hx]
            constructor
            · rintro ⟨h1, h2, h3 | h3⟩
              · exact Or.inl ⟨h1, h2, h3⟩
              · exact Or.inr h3
            · rintro (⟨h1, h2, h3⟩ | rfl)
              · exact ⟨h1, h2, Or.inl h3⟩
              · exact ⟨hty, rfl, Or.inr rfl⟩
        show (g (S p)).2 - 1 = _
        rw [h.b2 _ hc, this]
        omega
      · rw [upd_ne _ _ hcp, h.b2 c hc']
        congr 1
        refine num_congr (fun x hx => and_congr_right fun _ => and_congr_right fun hs => ?_)
        rw [key x hx]
        constructor
        · exact Or.inl
        · rintro (h1 | rfl)
          · exact h1
          · exact absurd hs.symm hcp

/-- The state in which the LMS positions of `D` are placed. -/
structure PSt (n N : Nat) (S : Nat → Nat) (ty : Nat → Bool) (k : Nat → κ) (D : Nat → Prop) (s : Slots × Buckets) (a : Nat → Option Nat)
    (g : Nat → Nat × Nat) : Prop where
  ra : Rep s.1 n a
  rb : Rep s.2 N g
  av : ∀ p, p < n → ∀ x, a p = some x ↔ x < n ∧ slot n S ty (TL ty) k x = p ∧ D x
  b1 : ∀ c, c < n → (g c).1 = st n S c
  b2 : ∀ c, c < n → (g c).2 = st n S (c+1) - num n (fun x => D x ∧ S x = c)

/-- Placing one LMS position: those of the same character already placed are the greater ones. -/
theorem PSt.place {k : Nat → κ} (C : Ctx n S ty) (K : KeyL n S ty k) (hN : n ≤ N) {Sl : List Nat} (hS : Rep Sl n S)
    {D : Nat → Prop} {s : Slots × Buckets} (h : ∃ a g, PSt n N S ty k D s a g) {p : Nat} (hp : p < n) (hl : lms ty p = true)
    (hD : ∀ x, x < n → D x → lms ty x = true) (hg : ∀ y, y < n → lms ty y = true → S y = S p → (D y ↔ k p < k y)) :
    ∃ s', placeBack Sl p s = some s' ∧ ∃ a g, PSt n N S ty k (fun x => D x ∨ x = p) s' a g := by
  obtain ⟨a, g, h⟩ := h
  have hc := C.lt p hp
  have dp : Dom n ty (TL ty) p := dom_T hp hl
  have h2 := slot_S K.toKey dp (lms_ty hl)
  have hpD : ¬ D p := fun h1 => absurd ((hg p hp hl rfl).1 h1) (lt_irrefl _)
  have hnum : num n (fun y => TL ty y ∧ S y = S p ∧ k p ≤ k y) = num n (fun x => D x ∧ S x = S p) + 1 := by
    refine num_succ hp (fun h1 => hpD h1.1) (fun x hx => ?_)
    constructor
    · rintro ⟨h1, h3, h4⟩
      rcases lt_or_eq_of_le h4 with h5 | h5
      · exact Or.inl ⟨(hg x hx h1 h3).2 h5, h3⟩
      · exact Or.inr (K.inj _ _ (dom_T hx h1) dp h5.symm)
    · rintro (⟨h1, h3⟩ | rfl)
      · exact ⟨hD x hx h1, h3, le_of_lt ((hg x hx (hD x hx h1) h3).1 h1)⟩
      · exact ⟨hl, rfl, le_refl _⟩
  have hgp : (g (S p)).2 = slot n S ty (TL ty) k p + 1 := by rw [h.b2 _ hc]; omega
  have hpn := slot_lt_n K.toKey dp
  obtain ⟨A', B', e, rA, rB⟩ := placeBack_ok hS h.ra h.rb hp (lt_of_lt_of_le hc hN) (by omega) (by rw [hgp]; omega)
  refine ⟨(A', B'), e, _, _, rA, rB, ?_, ?_, ?_⟩
  · intro r hr x
    rw [hgp, Nat.add_sub_cancel]
    by_cases hrp : r = slot n S ty (TL ty) k p
    · rw [hrp, upd_same]
      constructor
      · intro h1; cases h1
        exact ⟨hp, rfl, Or.inr rfl⟩
      · rintro ⟨h1, h3, h4⟩
        rcases h4 with h4 | h4
        · rw [slot_inj K.toKey (dom_T h1 (hD x h1 h4)) dp h3]
        · rw [h4]
    · rw [upd_ne _ _ hrp, h.av r hr x]
      refine and_congr_right fun hx => and_congr_right fun hsl => ⟨Or.inl, ?_⟩
      rintro (h1 | rfl)
      · exact h1
      · exact absurd hsl.symm hrp
  · intro c hc'
    by_cases hcp : c = S p
    · subst hcp; rw [upd_same]; exact h.b1 _ hc
    · rw [upd_ne _ _ hcp]; exact h.b1 c hc'
  · intro c hc'
    by_cases hcp : c = S p
    · subst hcp
      rw [upd_same]
      have : num n (fun x => (D x ∨ x = p) ∧ S x = S p) = num n (fun x => D x ∧ S x = S p) + 1 := by
        refine num_succ hp (fun h1 => hpD h1.1) (fun x hx => ?_)
        constructor
        · rintro ⟨h1 | h1, h3⟩
          · exact Or.inl ⟨h1, h3⟩
          · exact Or.inr h1
        · rintro (⟨h1, h3⟩ | rfl)
          · exact ⟨Or.inl h1, h3⟩
          · exact ⟨Or.inr rfl, rfl⟩
      show (g (S p)).2 - 1 = _
      rw [h.b2 _ hc, this]
      omega
    · rw [upd_ne _ _ hcp, h.b2 c hc']
      congr 1
      refine num_congr (fun x hx => ?_)
      constructor
      · rintro ⟨h1, h3⟩; exact ⟨Or.inl h1, h3⟩
      · rintro ⟨h1 | h1, h3⟩
        · exact ⟨h1, h3⟩
        · rw [h1] at h3; exact absurd h3.symm hcp

theorem PSt.congr {k : Nat → κ} {D E : Nat → Prop} {s : Slots × Buckets} (h : ∃ a g, PSt n N S ty k D s a g) (he : ∀ x, x < n → (D x ↔ E x)) :
    ∃ a g, PSt n N S ty k E s a g := by
  obtain ⟨a, g, h⟩ := h
  refine ⟨a, g, h.ra, h.rb, ?_, h.b1, ?_⟩
  · intro p hp x
    rw [h.av p hp x]
    exact and_congr_right fun hx => and_congr_right fun _ => he x hx
  · intro c hc
    rw [h.b2 c hc]
    congr 1
    exact num_congr (fun x hx => and_congr_left fun _ => he x hx)

/-- `induced_sort` from the placed LMS positions sorts all positions. -/
theorem inducedSort_ok {k1 k2 : Nat → κ} (C : Ctx n S ty) (K1 : KeyL n S ty k1) (K2 : KeyS n S ty k2)
    (hk : ∀ x y, x < n → y < n → ty x = false → ty y = false → (k1 x < k1 y ↔ k2 x < k2 y))
    (hN : n ≤ N) {Sl : List Nat} (hS : Rep Sl n S) {t : List Bool} (ht : Rep t n ty) {s : Slots × Buckets}
    (h : ∃ a g, PSt n N S ty k1 (fun x => lms ty x = true) s a g) :
    ∃ (o : List Nat) (B : Buckets), inducedSort Sl t s = some (o.map some, B) ∧ B.length = N ∧ o.Perm (List.range n) ∧ o.Pairwise (fun x y => k2 x < k2 y) := by
  have hL : ∃ a g, LSt n N S ty k1 0 0 s a g := by
    obtain ⟨a, g, h⟩ := h
    refine ⟨a, g, h.ra, h.rb, ?_, ?_, ?_⟩
    · intro p hp x
      rw [h.av p hp x]
      simp
    · intro c hc
      rw [h.b1 c hc, num_none (fun x _ h1 => by have := h1.2.2; omega), Nat.add_zero]
    · intro c hc
      rw [h.b2 c hc]
      congr 1
      exact num_congr (fun x _ => by simp)
  obtain ⟨s1, e1, a1, g1, h1⟩ := forRange_inv (fun i s => ∃ a g, LSt n N S ty k1 i i s a g) (b := n) (Nat.zero_le n) hL
    (fun i s _ hi h => stepL_ok C K1 hN hS ht h hi)
  have hslot : ∀ x, x < n → ty x = false → slot n S ty (TL ty) k1 x = slot n S ty (TS ty) k2 x := by
    intro x hx h
    unfold slot
    rw [if_neg (by rw [h]; decide), if_neg (by rw [h]; decide)]
    congr 1
    exact num_congr (fun y hy => and_congr_right fun h2 => and_congr_right fun _ => hk y x hy hx h2 h)
  have hS0 : ∃ a g, SSt n N S ty k2 n s1 a g := by
    refine ⟨a1, g1, h1.ra, h1.rb, ?_, ?_⟩
    · intro p hp x
      rw [h1.av p hp x]
      refine and_congr_right fun hx => ?_
      constructor
      · rintro ⟨h2, h3 | h3⟩
        · exact ⟨by rw [← hslot x hx h3.1]; exact h2, fun h4 => by rw [h3.1] at h4; cases h4⟩
        · omega
      · rintro ⟨h2, h3⟩
        cases h4 : ty x with
        | false => exact ⟨by rw [hslot x hx h4]; exact h2, Or.inl ⟨rfl, slot_lt_n K1.toKey (C.dom_succ hx h4)⟩⟩
        | true =>
          have := h3 h4
          have := slot_lt_n K2.toKey (dom_all (ty := ty) (nxt_lt C.two hx))
          omega
    · intro c hc
      rw [h1.b2 c hc]
      congr 1
      rw [num_none, num_none]
      · rintro x hx ⟨h2, _, h3⟩
        have := slot_lt_n K2.toKey (dom_all (ty := ty) (nxt_lt C.two hx))
        omega
      · rintro x hx ⟨h2, _, h3⟩
        have := slot_lt_n K1.toKey (dom_T hx h2)
        omega
  obtain ⟨s2, e2, a2, g2, h2⟩ := forRangeDown_inv (fun i s => ∃ a g, SSt n N S ty k2 i s a g) (Nat.zero_le n) hS0
    (fun i s _ hi h => stepS_ok C K2 hN hS ht h hi)
  have hav : ∀ p, p < n → ∀ x, a2 p = some x ↔ x < n ∧ slot n S ty (TS ty) k2 x = p := by
    intro p hp x
    rw [h2.av p hp x]
    simp
  have hex : ∀ p, p < n → ∃ x, a2 p = some x := by
    intro p hp
    obtain ⟨x, h3, h4⟩ := slot_surj k2 K2 hp
    exact ⟨x, (hav p hp x).2 ⟨h3, h4⟩⟩
  refine ⟨(List.range n).map (fun p => (a2 p).getD 0), s2.2, ?_, h2.rb.len, ?_, ?_⟩
  · have : s2.1 = ((List.range n).map (fun p => (a2 p).getD 0)).map some := by
      refine h2.ra.ext ?_
      rw [List.map_map]
      refine (Rep.map_range n _).congr (fun p hp => ?_)
      obtain ⟨x, hx⟩ := hex p hp
      simp [hx]
    rw [← this]
    unfold inducedSort
    rw [hS.len, e1, Option.bind_some, e2]
  · rw [List.perm_ext_iff_of_nodup]
    · intro x
      rw [List.mem_map, List.mem_range]
      constructor
      · rintro ⟨p, hp, e⟩
        rw [List.mem_range] at hp
        obtain ⟨y, hy⟩ := hex p hp
        rw [hy] at e
        have e : y = x := e
        rw [← e]
        exact ((hav p hp y).1 hy).1
      · intro hx
        have hp := slot_lt_n K2.toKey (dom_all hx)
        refine ⟨_, List.mem_range.2 hp, ?_⟩
        rw [(hav _ hp x).2 ⟨hx, rfl⟩]; rfl
    · refine List.Nodup.map_on ?_ List.nodup_range
      intro p hp q hq e
      rw [List.mem_range] at hp hq
      obtain ⟨x, hx⟩ := hex p hp
      obtain ⟨y, hy⟩ := hex q hq
      rw [hx, hy] at e
      have e : x = y := e
      subst e
      rw [← ((hav p hp x).1 hx).2, ((hav q hq x).1 hy).2]
    · exact List.nodup_range
  · rw [List.pairwise_map]
    refine List.Pairwise.imp_of_mem ?_ List.pairwise_lt_range
    intro p q hp hq hpq
    rw [List.mem_range] at hp hq
    obtain ⟨x, hx⟩ := hex p hp
    obtain ⟨y, hy⟩ := hex q hq
    rw [hx, hy]
    show k2 x < k2 y
    obtain ⟨x1, x2⟩ := (hav p hp x).1 hx
    obtain ⟨y1, y2⟩ := (hav q hq y).1 hy
    rw [← slot_lt_iff K2.toKey (dom_all x1) (dom_all y1), x2, y2]
    exact hpq

end Verif.Sais
