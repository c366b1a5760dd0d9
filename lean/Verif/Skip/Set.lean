import Verif.Skip.Ops
/-! `SkiplistSet`: searches by value. -/
namespace Verif.Skip
open Verif

variable {T : Type} [LinearOrder T]

theorem vwalk_ok {s : St T} {a1 a2 : List Nat} {r : Nat} (hl : Lvl s (a1 ++ a2) r) {less : T → Bool} (h2 : ∀ x ∈ a2, ∃ v, s.val x = some v ∧ less v = false) :
    ∀ (f : Nat) (pre mid : List Nat) (u : Nat), a1 = pre ++ u :: mid → (∀ x ∈ mid, ∃ v, s.val x = some v ∧ less v = true) → r ≤ s.ht u → mid.length < f → ∀ (c : Int),
    ∃ pre' u' mid', vwalk s less r f u (pre.length + c) = some (u', pre'.length + c) ∧ a1 = pre' ++ u' :: mid' ∧ r ≤ s.ht u' ∧ (∀ x ∈ mid', s.ht x < r) ∧ (∀ x ∈ mid', x ∈ mid) := by
  intro f
  induction f with
  | zero => intro pre mid u _ _ _ h; omega
  | succ f ih =>
    intro pre mid u e hm1 hu hf c
    have hfl := hl pre u (mid ++ a2) (by rw [e]; simp) hu
    rw [vwalk, rdNext_eq hu, Option.bind_some, rdLen_eq hu, hfl]
    rcases first_high s.ht r mid with h | ⟨m, y, m2, e2, h1, h4⟩
    · refine ⟨pre, u, mid, ?_, e, hu, h, fun x hx => hx⟩
      rw [nx_skip h]
      rcases nx_cases s.ht r a2 with ⟨h3, _⟩ | ⟨m, y, post, e2, _, _, h3⟩
      · rw [h3]; rfl
      · rw [h3]
        obtain ⟨v, hv, hlv⟩ := h2 y (by rw [e2]; simp)
        simp only [Option.isSome_some, if_true, hv, Option.bind_some, hlv]
        simp
    · subst e2
      rw [List.append_assoc, List.cons_append, nx_hit h1 h4]
      obtain ⟨v, hv, hlv⟩ := hm1 y (by simp)
      simp only [hv, Option.bind_some, hlv, if_true]
      rw [List.length_append, List.length_cons] at hf
      obtain ⟨pre', u', mid', e3, e4, e5, e6, e7⟩ := ih (pre ++ u :: m) m2 y (by rw [e]; simp) (fun x hx => hm1 x (by simp [hx])) h4 (by omega) c
      refine ⟨pre', u', mid', ?_, e4, e5, e6, fun x hx => by have := e7 x hx; simp [this]⟩
      rw [← e3]; congr 1
      rw [List.length_append, List.length_cons]
      omega

theorem hit_none {s : St T} {a1 a2 pre mid : List Nat} {u r : Nat} (hl : Lvl s (a1 ++ a2) r) (e : a1 = pre ++ u :: mid) (hu : r ≤ s.ht u) (hm : ∀ x ∈ mid, s.ht x < r)
    {v : T} (h2 : ∀ x ∈ a2, ∃ y, s.val x = some y ∧ (r ≤ s.ht x → y ≠ v)) : hit s v u r = some none := by
  have hfl := hl pre u (mid ++ a2) (by rw [e]; simp) hu
  unfold hit
  rw [rdNext_eq hu, Option.bind_some, hfl, nx_skip hm]
  rcases nx_cases s.ht r a2 with ⟨h3, _⟩ | ⟨m, y, post, e2, _, h4, h3⟩
  · rw [h3]; rfl
  · rw [h3]
    obtain ⟨z, hz, hzv⟩ := h2 y (by rw [e2]; simp)
    simp [hz, hzv h4]

theorem hit_some {s : St T} {a1 a2 pre mid : List Nat} {u r w : Nat} (hl : Lvl s (a1 ++ w :: a2) r) (e : a1 = pre ++ u :: mid) (hu : r ≤ s.ht u) (hm : ∀ x ∈ mid, s.ht x < r)
    {v : T} (hw : s.val w = some v) (hrw : r ≤ s.ht w) : hit s v u r = some (some w) := by
  have hfl := hl pre u (mid ++ w :: a2) (by rw [e]; simp) hu
  unfold hit
  rw [rdNext_eq hu, Option.bind_some, hfl, nx_hit hm hrw]
  simp [hw]

/-- The nodes before `v` (`a1`, with the sentinel) and the rest. -/
structure Cut (s : St T) (a1 a2 : List Nat) (less : T → Bool) : Prop where
  lvl : ∀ r, Lvl s (a1 ++ a2) r
  lo : ∃ b1, a1 = 0 :: b1 ∧ ∀ x ∈ b1, ∃ y, s.val x = some y ∧ less y = true
  hi : ∀ x ∈ a2, ∃ y, s.val x = some y ∧ less y = false
  size : a1.length ≤ s.size + 1

theorem mid_lo {s : St T} {a1 a2 : List Nat} {less : T → Bool} (h : Cut s a1 a2 less) {pre mid : List Nat} {u : Nat} (e : a1 = pre ++ u :: mid) :
    ∀ x ∈ mid, ∃ y, s.val x = some y ∧ less y = true := by
  obtain ⟨b1, e1, h1⟩ := h.lo
  intro x hx
  apply h1
  rw [e1] at e
  cases pre with
  | nil => injection e with _ e2; rw [e2]; exact hx
  | cons a pre => injection e with _ e2; rw [e2]; simp [hx]

theorem mid_len {s : St T} {a1 a2 : List Nat} {less : T → Bool} (h : Cut s a1 a2 less) {pre mid : List Nat} {u : Nat} (e : a1 = pre ++ u :: mid) : mid.length < s.size + 1 := by
  have := h.size
  rw [e] at this; simp at this; omega

theorem low_nil {ht : Nat → Nat} {mid : List Nat} (h : ∀ x ∈ mid, ht x < 0) : mid = [] := by
  cases mid with
  | nil => rfl
  | cons x xs => exact absurd (h x (by simp)) (by omega)

theorem passLoop_ok {s : St T} {a1 a2 : List Nat} {less : T → Bool} (h : Cut s a1 a2 less) : ∀ (k : Nat) (pre mid : List Nat) (u : Nat), a1 = pre ++ u :: mid → (∀ r, r < k → r ≤ s.ht u) →
    (k = 0 → mid = []) → ∃ pre' u', passLoop s less k u = some u' ∧ a1 = pre' ++ [u'] := by
  intro k
  induction k with
  | zero => intro pre mid u e _ h0; exact ⟨pre, u, rfl, by rw [e, h0 rfl]⟩
  | succ r ih =>
    intro pre mid u e hu _
    obtain ⟨pre', u', mid', e1, e2, hu', hm', _⟩ := vwalk_ok (h.lvl r) h.hi (s.size + 1) pre mid u e (mid_lo h e) (hu r (Nat.lt_succ_self r)) (mid_len h e) (-pre.length)
    rw [passLoop, show (0 : Int) = pre.length + -pre.length by omega, e1, Option.bind_some]
    exact ih pre' mid' u' e2 (fun q hq => by omega) (fun c => by subst c; exact low_nil hm')

/-- The value is not there. -/
theorem findLoop_absent {s : St T} {a1 a2 : List Nat} {v : T} (h : Cut s a1 a2 (fun x => decide (x < v))) (hv : ∀ x ∈ a2, s.val x ≠ some v) :
    ∀ (k : Nat) (pre mid : List Nat) (u : Nat), a1 = pre ++ u :: mid → (∀ r, r < k → r ≤ s.ht u) → (k = 0 → mid = []) →
    ∃ pre' u', findLoop s v k u = some (.inr u') ∧ a1 = pre' ++ [u'] := by
  intro k
  induction k with
  | zero => intro pre mid u e _ h0; exact ⟨pre, u, rfl, by rw [e, h0 rfl]⟩
  | succ r ih =>
    intro pre mid u e hu _
    obtain ⟨pre', u', mid', e1, e2, hu', hm', _⟩ := vwalk_ok (h.lvl r) h.hi (s.size + 1) pre mid u e (mid_lo h e) (hu r (Nat.lt_succ_self r)) (mid_len h e) (-pre.length)
    rw [findLoop, show (0 : Int) = pre.length + -pre.length by omega, e1, Option.bind_some, hit_none (h.lvl r) e2 hu' hm' (fun x hx => by
      obtain ⟨y, hy, _⟩ := h.hi x hx
      exact ⟨y, hy, fun _ c => hv x hx (by rw [hy, c])⟩), Option.bind_some]
    exact ih pre' mid' u' e2 (fun q hq => by omega) (fun c => by subst c; exact low_nil hm')

/-- The value is in the node `w`. -/
theorem findLoop_present {s : St T} {a1 a2 : List Nat} {w : Nat} {v : T} (h : Cut s a1 (w :: a2) (fun x => decide (x < v))) (hw : s.val w = some v) (hv : ∀ x ∈ a2, s.val x ≠ some v) :
    ∀ (k : Nat) (pre mid : List Nat) (u : Nat), 0 < k → a1 = pre ++ u :: mid → (∀ r, r < k → r ≤ s.ht u) → findLoop s v k u = some (.inl w) := by
  intro k
  induction k with
  | zero => intro _ _ _ h; omega
  | succ r ih =>
    intro pre mid u _ e hu
    obtain ⟨pre', u', mid', e1, e2, hu', hm', _⟩ := vwalk_ok (h.lvl r) h.hi (s.size + 1) pre mid u e (mid_lo h e) (hu r (Nat.lt_succ_self r)) (mid_len h e) (-pre.length)
    rw [findLoop, show (0 : Int) = pre.length + -pre.length by omega, e1, Option.bind_some]
    by_cases c : r ≤ s.ht w
    · rw [hit_some (h.lvl r) e2 hu' hm' hw c]; rfl
    · rw [hit_none (h.lvl r) e2 hu' hm' (fun x hx => by
        obtain ⟨y, hy, _⟩ := h.hi x hx
        refine ⟨y, hy, fun hr c2 => ?_⟩
        rcases List.mem_cons.1 hx with rfl | hx
        · exact c hr
        · exact hv x hx (by rw [hy, c2])), Option.bind_some]
      exact ih pre' mid' u' (by omega) e2 (fun q hq => by omega)

/-! ### emplace -/

/-- Level `r` of `stack_` and `idx_`. -/
def Stk (s : SetSt T) (a1 : List Nat) (r : Nat) : Prop :=
  ∃ pre mid, a1 = pre ++ s.stack r :: mid ∧ s.idx r = pre.length ∧ r ≤ s.b.ht (s.stack r) ∧ ∀ x ∈ mid, s.b.ht x < r

theorem empFind_absent {a1 a2 : List Nat} {v : T} {b : St T} (h : Cut b a1 a2 (fun x => decide (x < v))) (hv : ∀ x ∈ a2, b.val x ≠ some v) :
    ∀ (k : Nat) (s : SetSt T) (pre mid : List Nat) (u : Nat), s.b = b → a1 = pre ++ u :: mid → (∀ r, r < k → r ≤ b.ht u) → k ≤ 33 → (k = 0 → mid = []) →
    ∃ t, empFind v k s u (pre.length + 1) = some (t, .inr a1.length) ∧ t.b = b ∧ (∀ r, k ≤ r → t.stack r = s.stack r ∧ t.idx r = s.idx r) ∧ ∀ r, r < k → Stk t a1 r := by
  intro k
  induction k with
  | zero =>
    intro s pre mid u hb e _ _ h0
    refine ⟨s, ?_, hb, fun _ _ => ⟨rfl, rfl⟩, fun r hr => absurd hr (by omega)⟩
    rw [empFind, e, h0 rfl]; simp
  | succ r ih =>
    intro s pre mid u hb e hu hk _
    subst hb
    obtain ⟨pre', u', mid', e1, e2, hu', hm', _⟩ := vwalk_ok (h.lvl r) h.hi (s.b.size + 1) pre mid u e (mid_lo h e) (hu r (Nat.lt_succ_self r)) (mid_len h e) 1
    rw [empFind, e1, Option.bind_some, hit_none (h.lvl r) e2 hu' hm' (fun x hx => by
      obtain ⟨y, hy, _⟩ := h.hi x hx
      exact ⟨y, hy, fun _ c => hv x hx (by rw [hy, c])⟩), Option.bind_some]
    simp only [push]
    rw [if_pos (by omega), Option.bind_some]
    obtain ⟨t, e3, hb, hfr, hst⟩ := ih { s with stack := fun a => if a = r then u' else s.stack a, idx := fun a => if a = r then (pre'.length : Int) + 1 - 1 else s.idx a } pre' mid' u' rfl e2
      (fun q hq => by omega) (by omega) (fun c => by subst c; exact low_nil hm')
    refine ⟨t, e3, hb, fun q hq => ?_, fun q hq => ?_⟩
    · have := hfr q (by omega)
      simp only [show ¬ q = r by omega, if_false] at this
      exact this
    · by_cases c : q = r
      · subst c
        have := hfr q (Nat.le_refl _)
        simp only [if_true] at this
        refine ⟨pre', mid', by rw [this.1]; exact e2, by rw [this.2]; omega, by rw [hb, this.1]; exact hu', by rw [hb]; exact hm'⟩
      · exact hst q (by omega)

theorem empFind_present {a1 a2 : List Nat} {w : Nat} {v : T} {b : St T} (h : Cut b a1 (w :: a2) (fun x => decide (x < v))) (hw : b.val w = some v) (hv : ∀ x ∈ a2, b.val x ≠ some v) :
    ∀ (k : Nat) (s : SetSt T) (pre mid : List Nat) (u : Nat), s.b = b → 0 < k → a1 = pre ++ u :: mid → (∀ r, r < k → r ≤ b.ht u) → k ≤ 33 →
    ∃ t, empFind v k s u (pre.length + 1) = some (t, .inl w) ∧ t.b = b ∧ (∀ r, k ≤ r → t.stack r = s.stack r ∧ t.idx r = s.idx r) := by
  intro k
  induction k with
  | zero => intro _ _ _ _ _ h; omega
  | succ r ih =>
    intro s pre mid u hb _ e hu hk
    subst hb
    obtain ⟨pre', u', mid', e1, e2, hu', hm', _⟩ := vwalk_ok (h.lvl r) h.hi (s.b.size + 1) pre mid u e (mid_lo h e) (hu r (Nat.lt_succ_self r)) (mid_len h e) 1
    rw [empFind, e1, Option.bind_some]
    by_cases c : r ≤ s.b.ht w
    · rw [hit_some (h.lvl r) e2 hu' hm' hw c]
      exact ⟨s, rfl, rfl, fun _ _ => ⟨rfl, rfl⟩⟩
    · rw [hit_none (h.lvl r) e2 hu' hm' (fun x hx => by
        obtain ⟨y, hy, _⟩ := h.hi x hx
        refine ⟨y, hy, fun hr c2 => ?_⟩
        rcases List.mem_cons.1 hx with rfl | hx
        · exact c hr
        · exact hv x hx (by rw [hy, c2])), Option.bind_some]
      simp only [push]
      rw [if_pos (by omega), Option.bind_some]
      obtain ⟨t, e3, hb, hfr⟩ := ih { s with stack := fun a => if a = r then u' else s.stack a, idx := fun a => if a = r then (pre'.length : Int) + 1 - 1 else s.idx a } pre' mid' u' rfl (by omega) e2
        (fun q hq => by omega) (by omega)
      refine ⟨t, e3, hb, fun q hq => ?_⟩
      have := hfr q (by omega)
      simp only [show ¬ q = r by omega, if_false] at this
      exact this

theorem empStep_eq (s : SetSt T) (w hw : Nat) (j : Int) {r : Nat} (hr : r ≤ 32) (hj : s.idx r < j) :
    empStep s w hw j r = (insStep s.b w hw r (s.stack r) (j - s.idx r)).map fun b => { s with b := b } := by
  unfold empStep insStep
  rw [if_pos hr]
  cases rdNext s.b (s.stack r) r with
  | none => rfl
  | some x =>
    cases rdLen s.b (s.stack r) r with
    | none => rfl
    | some l =>
      simp only [Option.bind_some]
      by_cases c : r ≤ hw
      · rw [if_pos c, if_pos c, if_pos hj, show l - (j - s.idx r - 1) = l - (j - s.idx r) + 1 by omega]
      · rw [if_neg c, if_neg c]
        by_cases c2 : x.isSome <;> simp [c2]

theorem empLoop_ok {a1 a2 : List Nat} {w hw : Nat} (hn : (a1 ++ w :: a2).Nodup) : ∀ (k : Nat) (s : SetSt T), s.b.ht w = hw → k ≤ 33 → (∀ r, r < k → Stk s a1 r) →
    (∀ r, r < k → Lvl s.b (a1 ++ a2) r) → (∀ r, k ≤ r → Lvl s.b (a1 ++ w :: a2) r) →
    ∃ t, empLoop w hw a1.length k s = some t ∧ Same s.b t.b ∧ t.stack = s.stack ∧ t.idx = s.idx ∧ ∀ r, Lvl t.b (a1 ++ w :: a2) r := by
  intro k
  induction k with
  | zero => intro s _ _ _ _ h2; exact ⟨s, rfl, Same.refl _, rfl, rfl, fun r => h2 r (Nat.zero_le r)⟩
  | succ r ih =>
    intro s hhw hk hst h1 h2
    obtain ⟨pre, mid, e, hidx, hu, hm⟩ := hst r (Nat.lt_succ_self r)
    have hal : a1.length = pre.length + (mid.length + 1) := by rw [e]; simp
    obtain ⟨b, e3, s3, l3, f3⟩ := insStep_ok (h1 r (Nat.lt_succ_self r)) hn e hu hm
    rw [empLoop, empStep_eq s w hw _ (by omega) (by rw [hidx, hal]; omega), hidx, show (a1.length : Int) - pre.length = mid.length + 1 by rw [hal]; omega]
    subst hhw
    rw [e3, Option.map_some, Option.bind_some]
    obtain ⟨t, e4, s4, st4, ix4, l4⟩ := ih { s with b := b } (by show b.ht w = _; rw [s3.ht]) (by omega) (fun q hq => by
        obtain ⟨p, m, e, h5, h6, h7⟩ := hst q (by omega)
        exact ⟨p, m, e, h5, by show q ≤ b.ht _; rw [s3.ht]; exact h6, by show ∀ x ∈ m, b.ht x < q; rw [s3.ht]; exact h7⟩)
      (fun q hq => lvl_frame (h1 q (by omega)) s3.ht (fun a => f3 a q (by omega)))
      (fun q hq => by
        by_cases c : q = r
        · rw [c]; exact l3
        · exact lvl_frame (h2 q (by omega)) s3.ht (fun a => f3 a q c))
    exact ⟨t, e4, s3.trans s4, st4, ix4, l4⟩

/-! ### erase -/

theorem eraFind_absent {a1 a2 : List Nat} {v : T} {b : St T} (h : Cut b a1 a2 (fun x => decide (x < v))) (hv : ∀ x ∈ a2, b.val x ≠ some v) :
    ∀ (k : Nat) (s : SetSt T) (pre mid : List Nat) (u : Nat), s.b = b → a1 = pre ++ u :: mid → (∀ r, r < k → r ≤ b.ht u) → k ≤ 33 → (k = 0 → mid = []) →
    ∃ t pre' u', eraFind v k s u = some (t, (none, u')) ∧ a1 = pre' ++ [u'] ∧ t.b = b ∧ (∀ r, k ≤ r → t.stack r = s.stack r ∧ t.idx r = s.idx r) := by
  intro k
  induction k with
  | zero =>
    intro s pre mid u hb e _ _ h0
    exact ⟨s, pre, u, rfl, by rw [e, h0 rfl], hb, fun _ _ => ⟨rfl, rfl⟩⟩
  | succ r ih =>
    intro s pre mid u hb e hu hk _
    subst hb
    obtain ⟨pre', u', mid', e1, e2, hu', hm', _⟩ := vwalk_ok (h.lvl r) h.hi (s.b.size + 1) pre mid u e (mid_lo h e) (hu r (Nat.lt_succ_self r)) (mid_len h e) (-pre.length)
    rw [eraFind, show (0 : Int) = pre.length + -pre.length by omega, e1, Option.bind_some, hit_none (h.lvl r) e2 hu' hm' (fun x hx => by
      obtain ⟨y, hy, _⟩ := h.hi x hx
      exact ⟨y, hy, fun _ c => hv x hx (by rw [hy, c])⟩), Option.bind_some]
    simp only [push]
    rw [if_pos (by omega), Option.bind_some]
    obtain ⟨t, p3, u3, e3, e4, hb, hfr⟩ := ih { s with stack := fun a => if a = r then u' else s.stack a, idx := fun a => if a = r then s.idx r else s.idx a } pre' mid' u' rfl e2
      (fun q hq => by omega) (by omega) (fun c => by subst c; exact low_nil hm')
    refine ⟨t, p3, u3, e3, e4, hb, fun q hq => ?_⟩
    have := hfr q (by omega)
    simp only [show ¬ q = r by omega, if_false] at this
    exact this

/-- Level `r` of `stack_` during `erase`. -/
def Stk' (s : SetSt T) (a1 : List Nat) (r : Nat) : Prop :=
  ∃ pre mid, a1 = pre ++ s.stack r :: mid ∧ r ≤ s.b.ht (s.stack r) ∧ ∀ x ∈ mid, s.b.ht x < r

theorem eraFind_present {a1 a2 : List Nat} {w : Nat} {v : T} {b : St T} (h : Cut b a1 (w :: a2) (fun x => decide (x < v))) (hw : b.val w = some v) (hv : ∀ x ∈ a2, b.val x ≠ some v) :
    ∀ (k : Nat) (s : SetSt T) (pre mid : List Nat) (u : Nat), s.b = b → b.ht w < k → a1 = pre ++ u :: mid → (∀ r, r < k → r ≤ b.ht u) → k ≤ 33 →
    ∃ t pre' mid' u', eraFind v k s u = some (t, (some (b.ht w), u')) ∧ a1 = pre' ++ u' :: mid' ∧ b.ht w ≤ b.ht u' ∧ (∀ x ∈ mid', b.ht x < b.ht w) ∧ t.b = b ∧
      (∀ r, k ≤ r → t.stack r = s.stack r ∧ t.idx r = s.idx r) ∧ ∀ r, b.ht w < r → r < k → Stk' t a1 r := by
  intro k
  induction k with
  | zero => intro _ _ _ _ _ h; omega
  | succ r ih =>
    intro s pre mid u hb hwk e hu hk
    subst hb
    obtain ⟨pre', u', mid', e1, e2, hu', hm', _⟩ := vwalk_ok (h.lvl r) h.hi (s.b.size + 1) pre mid u e (mid_lo h e) (hu r (Nat.lt_succ_self r)) (mid_len h e) (-pre.length)
    rw [eraFind, show (0 : Int) = pre.length + -pre.length by omega, e1, Option.bind_some]
    by_cases c : r ≤ s.b.ht w
    · have hrw : r = s.b.ht w := by omega
      subst hrw
      rw [hit_some (h.lvl _) e2 hu' hm' hw c]
      exact ⟨s, pre', mid', u', rfl, e2, hu', hm', rfl, fun _ _ => ⟨rfl, rfl⟩, fun r h1 h2 => absurd h1 (by omega)⟩
    · rw [hit_none (h.lvl r) e2 hu' hm' (fun x hx => by
        obtain ⟨y, hy, _⟩ := h.hi x hx
        refine ⟨y, hy, fun hr c2 => ?_⟩
        rcases List.mem_cons.1 hx with rfl | hx
        · exact c hr
        · exact hv x hx (by rw [hy, c2])), Option.bind_some]
      simp only [push]
      rw [if_pos (by omega), Option.bind_some]
      obtain ⟨t, p3, m3, u3, e3, e4, e5, e6, hb, hfr, hst⟩ := ih { s with stack := fun a => if a = r then u' else s.stack a, idx := fun a => if a = r then s.idx r else s.idx a } pre' mid' u' rfl
        (by omega) e2 (fun q hq => by omega) (by omega)
      refine ⟨t, p3, m3, u3, e3, e4, e5, e6, hb, fun q hq => ?_, fun q h1 h2 => ?_⟩
      · have := hfr q (by omega)
        simp only [show ¬ q = r by omega, if_false] at this
        exact this
      · by_cases c2 : q = r
        · subst c2
          have := hfr q (Nat.le_refl _)
          simp only [if_true] at this
          exact ⟨pre', mid', by rw [this.1]; exact e2, by rw [hb, this.1]; exact hu', by rw [hb]; exact hm'⟩
        · exact hst q h1 (by omega)

/-- The higher levels. -/
theorem decLoop_ok {a1 a2 : List Nat} {w : Nat} (hn : (a1 ++ w :: a2).Nodup) (r : Nat) : ∀ (k : Nat) (s : SetSt T), s.b.ht w = r → r + k ≤ 32 → (∀ q, r < q → q ≤ r + k → Stk' s a1 q) →
    (∀ q, q ≤ r + k → Lvl s.b (a1 ++ w :: a2) q) → (∀ q, r + k < q → Lvl s.b (a1 ++ a2) q) →
    ∃ t, decLoop r k s = some t ∧ Same s.b t.b ∧ t.stack = s.stack ∧ t.idx = s.idx ∧ (∀ q, q ≤ r → Lvl t.b (a1 ++ w :: a2) q) ∧ (∀ q, r < q → Lvl t.b (a1 ++ a2) q) := by
  intro k
  induction k with
  | zero => intro s _ _ _ h1 h2; exact ⟨s, rfl, Same.refl _, rfl, rfl, h1, h2⟩
  | succ k ih =>
    intro s hw hk hst h1 h2
    obtain ⟨pre, mid, e, hu, hm⟩ := hst (r+1+k) (by omega) (by omega)
    have hl := h1 (r+1+k) (by omega)
    have hfl := hl pre (s.stack (r+1+k)) (mid ++ w :: a2) (by rw [e]; simp) hu
    rw [show mid ++ w :: a2 = (mid ++ [w]) ++ a2 by simp, nx_skip (by
        intro x hx
        rcases List.mem_append.1 hx with hx | hx
        · exact hm x hx
        · rw [List.mem_singleton.1 hx]; omega)] at hfl
    rw [decLoop, if_pos (by omega), rdNext_eq hu, rdLen_eq hu, Option.bind_some, Option.bind_some]
    have hkey := nx_skip hm a2
    rcases nx_cases s.b.ht (r+1+k) a2 with ⟨h3, _⟩ | ⟨m, y, post, _, _, _, h3⟩
    · rw [h3] at hfl hkey
      rw [hfl]
      have hl' : Lvl s.b (a1 ++ a2) (r+1+k) := lvl_erase hl hn e hu hm rfl (fun _ _ => rfl) (by rw [hfl, hkey]; rfl)
      exact ih s hw (by omega) (fun q h3 h4 => hst q h3 (by omega)) (fun q hq => h1 q (by omega)) (fun q hq => by
        by_cases c : q = r + 1 + k
        · rw [c]; exact hl'
        · exact h2 q (by omega))
    · rw [h3] at hfl hkey
      rw [hfl]
      simp only [Option.isSome_some, if_true] at hfl hkey ⊢
      obtain ⟨t1, e1, s1, f1, f1'⟩ := wrLink_ok hu (some y) ((m.length : Int) + 1 + ((mid ++ [w]).length : Int) - 1)
      rw [e1, Option.bind_some]
      have hl' : Lvl t1 (a1 ++ a2) (r+1+k) := lvl_erase hl hn e hu hm s1.ht (fun a h => f1' a _ (Or.inl h)) (by
        rw [f1, hkey]; congr 1; simp; omega)
      obtain ⟨t, e4, s4, st4, ix4, l4, l5⟩ := ih { s with b := t1 } (by show t1.ht w = r; rw [s1.ht]; exact hw) (by omega) (fun q h3 h4 => by
          obtain ⟨p, m, e, h6, h7⟩ := hst q h3 (by omega)
          exact ⟨p, m, e, by show q ≤ t1.ht _; rw [s1.ht]; exact h6, by show ∀ x ∈ m, t1.ht x < q; rw [s1.ht]; exact h7⟩)
        (fun q hq => lvl_frame (h1 q (by omega)) s1.ht (fun a => f1' a q (Or.inr (by omega))))
        (fun q hq => by
          by_cases c : q = r + 1 + k
          · rw [c]; exact hl'
          · exact lvl_frame (h2 q (by omega)) s1.ht (fun a => f1' a q (Or.inr c)))
      exact ⟨t, e4, s1.trans s4, st4, ix4, l4, l5⟩

/-- The lower levels, when `u` is the node just before. -/
theorem unlinkLoop_ok {a1 a2 pre : List Nat} {w u : Nat} {v : T} (hn : (a1 ++ w :: a2).Nodup) (e : a1 = pre ++ [u]) : ∀ (k : Nat) (s : St T), s.val w = some v → (∀ r, r < k → r ≤ s.ht w) → (∀ r, r < k → r ≤ s.ht u) →
    (∀ q, q < k → Lvl s (a1 ++ w :: a2) q) → (∀ q, k ≤ q → Lvl s (a1 ++ a2) q) →
    ∃ t, unlinkLoop v u k s = some t ∧ Same s t ∧ ∀ q, Lvl t (a1 ++ a2) q := by
  intro k
  induction k with
  | zero => intro s _ _ _ _ h2; exact ⟨s, rfl, Same.refl _, fun q => h2 q (Nat.zero_le q)⟩
  | succ r ih =>
    intro s hv hwr hur h1 h2
    have hl := h1 r (Nat.lt_succ_self r)
    have hu := hur r (Nat.lt_succ_self r)
    have hw := hwr r (Nat.lt_succ_self r)
    have hfl := hl pre u (w :: a2) (by rw [e]; simp) hu
    have hfw := hl a1 w a2 rfl hw
    rw [unlinkLoop, hit_some hl e hu (by simp) hv hw, Option.bind_some]
    simp only
    rw [rdLen_eq hu, rdNext_eq hw, rdLen_eq hw, Option.bind_some, Option.bind_some, Option.bind_some, hfw, hfl]
    obtain ⟨t1, e1, s1, f1, f1'⟩ := wrLink_ok hu (nx s.ht r a2).1 (if (nx s.ht r a2).1.isSome then (nx s.ht r (w :: a2)).2 + (nx s.ht r a2).2 - 1 else 0)
    rw [e1, Option.bind_some]
    have hl' : Lvl t1 (a1 ++ a2) r := lvl_erase hl hn e hu (by simp) s1.ht (fun a h => f1' a _ (Or.inl h)) (by
      rw [f1, List.nil_append, nx, if_pos hw]
      rcases nx_cases s.ht r a2 with ⟨h3, _⟩ | ⟨m, y, post, _, _, _, h3⟩
      · rw [h3]; rfl
      · rw [h3]
        simp only [Option.isSome_some, if_true]
        congr 1; omega)
    obtain ⟨t, e4, s4, l4⟩ := ih t1 (by rw [s1.val]; exact hv) (fun q hq => by rw [s1.ht]; exact hwr q (by omega)) (fun q hq => by rw [s1.ht]; exact hur q (by omega))
      (fun q hq => lvl_frame (h1 q (by omega)) s1.ht (fun a => f1' a q (Or.inr (by omega))))
      (fun q hq => by
        by_cases c : q = r
        · rw [c]; exact hl'
        · exact lvl_frame (h2 q (by omega)) s1.ht (fun a => f1' a q (Or.inr c)))
    exact ⟨t, e4, s1.trans s4, l4⟩

end Verif.Skip
