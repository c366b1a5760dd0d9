import Verif.MaxFlow.Model
import Mathlib.Algebra.BigOperators.Group.Finset.Piecewise
import Mathlib.Algebra.BigOperators.Ring.Finset
import Mathlib.Algebra.Order.BigOperators.Group.Finset
import Mathlib.Data.List.GetD
import Mathlib.Tactic.Ring
import Mathlib.Tactic.Linarith
/-!
Flow networks (specification side), and how a residual graph represents a flow.
-/
namespace Verif.MaxFlow
open Finset

/-- A capacitated edge `a → b`. -/
structure Arc where
  a : Nat
  b : Nat
  c : Nat
deriving DecidableEq, Inhabited

/-- The `k`-th edge. -/
def arc (es : List Arc) (k : Nat) : Arc := es.getD k ⟨0, 0, 0⟩

/-- Flow out of `u` minus flow into `u`, when edge `k` carries `φ k`. -/
def net (es : List Arc) (φ : Nat → Nat) (u : Nat) : Int :=
  (∑ k ∈ range es.length, if (arc es k).a = u then (φ k : Int) else 0) - ∑ k ∈ range es.length, if (arc es k).b = u then (φ k : Int) else 0

/-- `φ` is a flow from `s` to `t` of value `F` in the network `es`. -/
structure IsFlow (es : List Arc) (s t : Nat) (φ : Nat → Nat) (F : Nat) : Prop where
  cap : ∀ k < es.length, φ k ≤ (arc es k).c
  cons : ∀ u, u ≠ s → u ≠ t → net es φ u = 0
  val : net es φ s = F

/-- The capacity of the cut `X`. -/
def cutCap (es : List Arc) (X : Nat → Prop) [DecidablePred X] : Nat :=
  ∑ k ∈ range es.length, if X (arc es k).a ∧ ¬ X (arc es k).b then (arc es k).c else 0

/-- `F` is the value of a maximum flow. -/
def IsMax (es : List Arc) (s t F : Nat) : Prop := (∃ φ, IsFlow es s t φ F) ∧ ∀ ψ F', IsFlow es s t ψ F' → F' ≤ F

theorem net_zero (es : List Arc) (u : Nat) : net es (fun _ => 0) u = 0 := by simp [net]

/-- Flow across a set of vertices. -/
theorem net_sum (es : List Arc) (φ : Nat → Nat) (S : Finset Nat) :
    ∑ u ∈ S, net es φ u = ∑ k ∈ range es.length, ((if (arc es k).a ∈ S then (φ k : Int) else 0) - if (arc es k).b ∈ S then (φ k : Int) else 0) := by
  unfold net
  rw [Finset.sum_sub_distrib, Finset.sum_comm, Finset.sum_comm (s := S)]
  rw [← Finset.sum_sub_distrib]
  refine Finset.sum_congr rfl (fun k _ => ?_)
  rw [Finset.sum_ite_eq, Finset.sum_ite_eq]

theorem flow_cut {es : List Arc} {s t : Nat} {φ : Nat → Nat} {F : Nat} (h : IsFlow es s t φ F) {S : Finset Nat} (hs : s ∈ S) (ht : t ∉ S) :
    (F : Int) = ∑ k ∈ range es.length, ((if (arc es k).a ∈ S then (φ k : Int) else 0) - if (arc es k).b ∈ S then (φ k : Int) else 0) := by
  rw [← net_sum, ← h.val]
  symm
  refine Finset.sum_eq_single s (fun u hu hus => h.cons u hus (fun e => ht (e ▸ hu))) (fun hn => absurd hs hn)

/-- All vertices that matter for a predicate on vertices. -/
theorem cut_set (es : List Arc) (X : Nat → Prop) [DecidablePred X] (s t : Nat) (hs : X s) (ht : ¬ X t) :
    ∃ S : Finset Nat, s ∈ S ∧ t ∉ S ∧ ∀ k < es.length, ((arc es k).a ∈ S ↔ X (arc es k).a) ∧ ((arc es k).b ∈ S ↔ X (arc es k).b) := by
  refine ⟨((range es.length).biUnion (fun k => {(arc es k).a, (arc es k).b}) ∪ {s}).filter (fun v => X v), ?_, ?_, ?_⟩
  · simp [hs]
  · simp [ht]
  · intro k hk
    constructor
    · rw [Finset.mem_filter]
      refine ⟨fun h => h.2, fun h => ⟨?_, h⟩⟩
      refine Finset.mem_union_left _ (Finset.mem_biUnion.2 ⟨k, Finset.mem_range.2 hk, by simp⟩)
    · rw [Finset.mem_filter]
      refine ⟨fun h => h.2, fun h => ⟨?_, h⟩⟩
      refine Finset.mem_union_left _ (Finset.mem_biUnion.2 ⟨k, Finset.mem_range.2 hk, by simp⟩)

/-- Weak duality. -/
theorem flow_le_cut {es : List Arc} {s t : Nat} {φ : Nat → Nat} {F : Nat} (h : IsFlow es s t φ F) (X : Nat → Prop) [DecidablePred X] (hs : X s)
    (ht : ¬ X t) : F ≤ cutCap es X := by
  obtain ⟨S, h1, h2, h3⟩ := cut_set es X s t hs ht
  have e := flow_cut h h1 h2
  have : (F : Int) ≤ (cutCap es X : Int) := by
    rw [e, cutCap, Nat.cast_sum]
    refine Finset.sum_le_sum (fun k hk => ?_)
    have hk := Finset.mem_range.1 hk
    have a := h3 k hk
    have c := h.cap k hk
    simp only [a.1, a.2]
    by_cases p : X (arc es k).a <;> by_cases q : X (arc es k).b <;> simp [p, q]
    exact c
  exact_mod_cast this

/-- A saturated cut. -/
theorem flow_eq_cut {es : List Arc} {s t : Nat} {φ : Nat → Nat} {F : Nat} (h : IsFlow es s t φ F) (X : Nat → Prop) [DecidablePred X] (hs : X s)
    (ht : ¬ X t) (hf : ∀ k < es.length, X (arc es k).a → ¬ X (arc es k).b → φ k = (arc es k).c)
    (hb : ∀ k < es.length, ¬ X (arc es k).a → X (arc es k).b → φ k = 0) : F = cutCap es X := by
  obtain ⟨S, h1, h2, h3⟩ := cut_set es X s t hs ht
  have e := flow_cut h h1 h2
  have : (F : Int) = (cutCap es X : Int) := by
    rw [e, cutCap, Nat.cast_sum]
    refine Finset.sum_congr rfl (fun k hk => ?_)
    have hk := Finset.mem_range.1 hk
    have a := h3 k hk
    simp only [a.1, a.2]
    by_cases p : X (arc es k).a <;> by_cases q : X (arc es k).b
    · simp [p, q]
    · simp [p, q, hf k hk p q]
    · simp [p, q, hb k hk p q]
    · simp [p, q]
  exact_mod_cast this

theorem cut_max {es : List Arc} {s t : Nat} {φ : Nat → Nat} {F : Nat} (h : IsFlow es s t φ F) (X : Nat → Prop) [DecidablePred X] (hs : X s)
    (ht : ¬ X t) (e : F = cutCap es X) : IsMax es s t F := ⟨⟨φ, h⟩, fun ψ F' h' => e ▸ flow_le_cut h' X hs ht⟩

/-- Sum of all capacities. -/
def total (es : List Arc) : Nat := ∑ k ∈ range es.length, (arc es k).c

theorem cut_le_total (es : List Arc) (X : Nat → Prop) [DecidablePred X] : cutCap es X ≤ total es :=
  Finset.sum_le_sum (fun k _ => by split_ifs <;> simp)

theorem flow_le_total {es : List Arc} {s t : Nat} {φ : Nat → Nat} {F : Nat} (h : IsFlow es s t φ F) (hst : s ≠ t) : F ≤ total es :=
  le_trans (flow_le_cut h (fun v => v = s) rfl (fun e => hst e.symm)) (cut_le_total es _)

/-- Changing the flow of one edge. -/
theorem net_upd (es : List Arc) (φ : Nat → Nat) {k : Nat} (hk : k < es.length) (x : Nat) (u : Nat) :
    net es (upd φ k x) u = net es φ u + ((if (arc es k).a = u then (x : Int) - φ k else 0) - if (arc es k).b = u then (x : Int) - φ k else 0) := by
  have key : ∀ p : Nat → Prop, ∀ [DecidablePred p], (∑ j ∈ range es.length, if p j then ((upd φ k x j : Nat) : Int) else 0)
      = (∑ j ∈ range es.length, if p j then (φ j : Int) else 0) + if p k then (x : Int) - φ k else 0 := by
    intro p _
    rw [← sub_eq_iff_eq_add', ← Finset.sum_sub_distrib, Finset.sum_eq_single k]
    · rw [upd_same]; split_ifs <;> ring
    · intro j _ hj
      rw [upd_ne _ _ hj]; ring
    · intro h; exact absurd (Finset.mem_range.2 hk) h
  unfold net
  rw [key (fun j => (arc es j).a = u), key (fun j => (arc es j).b = u)]
  ring

/-! ### Residual graphs -/

theorem getE_wr2 {g g' : G} {u i : Nat} {x : FlowPath} (h : wr2 g u i x = some g') (v j : Nat) :
    getE g' v j = if v = u ∧ j = i then some x else getE g v j := by
  unfold wr2 at h
  unfold getE rd2
  cases hr : g[u]? with
  | none => rw [hr] at h; cases h
  | some row =>
    rw [hr, Option.bind_some] at h
    obtain ⟨hu, hru⟩ := List.getElem?_eq_some_iff.1 hr
    unfold wr at h
    by_cases hi : i < row.length
    · rw [if_pos hi, Option.bind_some, if_pos hu] at h
      cases h
      by_cases hv : v = u
      · subst hv
        rw [List.getElem?_set_self hu, Option.bind_some, hr, Option.bind_some]
        by_cases hj : j = i
        · subst hj; simp [List.getElem?_set_self hi]
        · rw [List.getElem?_set_ne (fun e => hj e.symm), if_neg (fun e => hj e.2)]
      · rw [List.getElem?_set_ne (fun e => hv e.symm), if_neg (fun e => hv e.1)]
    · rw [if_neg hi] at h; cases h

theorem wr2_ok {g : G} {u i : Nat} {y : FlowPath} (h : getE g u i = some y) (x : FlowPath) : ∃ g', wr2 g u i x = some g' := by
  unfold getE rd2 at h
  cases hr : g[u]? with
  | none => rw [hr] at h; cases h
  | some row =>
    rw [hr, Option.bind_some] at h
    obtain ⟨hu, _⟩ := List.getElem?_eq_some_iff.1 hr
    obtain ⟨hi, _⟩ := List.getElem?_eq_some_iff.1 h
    unfold wr2
    rw [hr, Option.bind_some]
    unfold wr
    rw [if_pos hi, Option.bind_some, if_pos hu]
    exact ⟨_, rfl⟩

/-- Row lengths. -/
def lens (g : G) : List Nat := g.map List.length

theorem wr2_lens {g g' : G} {u i : Nat} {x : FlowPath} (h : wr2 g u i x = some g') : lens g' = lens g := by
  unfold wr2 at h
  cases hr : g[u]? with
  | none => rw [hr] at h; cases h
  | some row =>
    rw [hr, Option.bind_some] at h
    obtain ⟨hu, hru⟩ := List.getElem?_eq_some_iff.1 hr
    unfold wr at h
    by_cases hi : i < row.length
    · rw [if_pos hi, Option.bind_some, if_pos hu] at h
      cases h
      unfold lens
      rw [List.map_set, List.length_set]
      apply List.ext_getElem?
      intro v
      by_cases hv : v = u
      · subst hv; rw [List.getElem?_set_self (by simpa using hu), List.getElem?_map, hr]; rfl
      · rw [List.getElem?_set_ne (fun e => hv e.symm)]
    · rw [if_neg hi] at h; cases h

theorem lens_length {g g' : G} (h : lens g' = lens g) : g'.length = g.length := by
  have := congrArg List.length h
  simpa [lens] using this

theorem lens_row {g g' : G} (h : lens g' = lens g) (u : Nat) : (g'[u]?).map List.length = (g[u]?).map List.length := by
  have := congrArg (fun l : List Nat => l[u]?) h
  simpa [lens] using this

/-- `g` is the residual graph of the flow `φ` in the network `es` over `n` vertices; edge `k` is stored at position `pf k` of its tail and, reversed, at
position `pr k` of its head. -/
structure Rp (n : Nat) (es : List Arc) (pf pr : Nat → Nat) (φ : Nat → Nat) (g : G) : Prop where
  len : g.length = n
  le : ∀ k < es.length, φ k ≤ (arc es k).c
  loop : ∀ k < es.length, (arc es k).a ≠ (arc es k).b
  fw : ∀ k < es.length, getE g (arc es k).a (pf k) = some ⟨(arc es k).b, (arc es k).c - φ k, pr k⟩
  bw : ∀ k < es.length, getE g (arc es k).b (pr k) = some ⟨(arc es k).a, φ k, pf k⟩
  all : ∀ u i x, getE g u i = some x → ∃ k < es.length, (u = (arc es k).a ∧ i = pf k) ∨ (u = (arc es k).b ∧ i = pr k)
  iff : ∀ k < es.length, ∀ l < es.length, (arc es k).a = (arc es l).a → pf k = pf l → k = l
  irr : ∀ k < es.length, ∀ l < es.length, (arc es k).b = (arc es l).b → pr k = pr l → k = l
  ifr : ∀ k < es.length, ∀ l < es.length, (arc es k).a = (arc es l).b → pf k ≠ pr l

theorem getE_lt {g : G} {u i : Nat} {x : FlowPath} (h : getE g u i = some x) : u < g.length := by
  unfold getE rd2 at h
  cases hr : g[u]? with
  | none => rw [hr] at h; cases h
  | some row => exact (List.getElem?_eq_some_iff.1 hr).1

theorem Rp.t_lt {n : Nat} {es : List Arc} {pf pr φ : Nat → Nat} {g : G} (R : Rp n es pf pr φ g) {u i : Nat} {x : FlowPath} (h : getE g u i = some x) :
    x.t < n := by
  obtain ⟨k, hk, (⟨rfl, rfl⟩ | ⟨rfl, rfl⟩)⟩ := R.all _ _ _ h
  · rw [R.fw k hk] at h; cases h; rw [← R.len]; exact getE_lt (R.bw k hk)
  · rw [R.bw k hk] at h; cases h; rw [← R.len]; exact getE_lt (R.fw k hk)

/-- Nothing changed outside arcs with both ends in `P`. -/
def Frame (P : Nat → Prop) (g g' : G) : Prop := ∀ w j x, getE g w j = some x → (¬ P w ∨ ¬ P x.t) → getE g' w j = some x

/-- What a vertex `u` gains. -/
def at_ (u d w : Nat) : Int := if w = u then (d : Int) else 0

theorem push_full {n : Nat} {es : List Arc} {pf pr φ : Nat → Nat} {g : G} (R : Rp n es pf pr φ g) {u i : Nat} {e : FlowPath} (h : getE g u i = some e) {d : Nat}
    (hd : d ≤ e.cap) : ∃ g' φ', push g u i d = some g' ∧ Rp n es pf pr φ' g' ∧ lens g' = lens g ∧ Frame (fun v => v = u ∨ v = e.t) g g' ∧
      (∀ w, net es φ' w = net es φ w + at_ u d w - at_ e.t d w) ∧
      ∃ k < es.length, (u = (arc es k).a ∧ i = pf k ∧ φ' = upd φ k (φ k + d)) ∨ (u = (arc es k).b ∧ i = pr k ∧ d ≤ φ k ∧ φ' = upd φ k (φ k - d)) := by
  have base : ∀ (y : FlowPath), getE g e.t e.rev = some y → ¬ (e.t = u ∧ e.rev = i) → ∃ g', push g u i d = some g' ∧ lens g' = lens g ∧
      ∀ v j, getE g' v j = if v = e.t ∧ j = e.rev then some ⟨y.t, y.cap + d, y.rev⟩ else if v = u ∧ j = i then some ⟨e.t, e.cap - d, e.rev⟩ else getE g v j := by
    intro y hy hne
    obtain ⟨g1, h1⟩ := wr2_ok h ⟨e.t, e.cap - d, e.rev⟩
    have hy1 : getE g1 e.t e.rev = some y := by rw [getE_wr2 h1, if_neg hne, hy]
    obtain ⟨g2, h2⟩ := wr2_ok hy1 ⟨y.t, y.cap + d, y.rev⟩
    refine ⟨g2, ?_, (wr2_lens h2).trans (wr2_lens h1), ?_⟩
    · unfold push
      rw [h, Option.bind_some, if_pos hd, h1, Option.bind_some, hy1, Option.bind_some, h2]
    · intro v j
      rw [getE_wr2 h2, getE_wr2 h1]
  obtain ⟨k, hk, (⟨rfl, rfl⟩ | ⟨rfl, rfl⟩)⟩ := R.all _ _ _ h
  · have he := R.fw k hk
    rw [h] at he
    have he := Option.some.inj he
    subst he
    dsimp only at hd base ⊢
    have hle := R.le k hk
    obtain ⟨g', p1, p2, p3⟩ := base _ (R.bw k hk) (fun e => R.loop k hk e.1.symm)
    dsimp only at p3
    refine ⟨g', upd φ k (φ k + d), p1, ?_, p2, ?_, ?_, k, hk, Or.inl ⟨rfl, rfl, rfl⟩⟩
    · refine ⟨(lens_length p2).trans R.len, ?_, R.loop, ?_, ?_, ?_, R.iff, R.irr, R.ifr⟩
      · intro l hl
        by_cases e : l = k
        · subst e; rw [upd_same]; omega
        · rw [upd_ne _ _ e]; exact R.le l hl
      · intro l hl
        rw [p3]
        by_cases e : l = k
        · subst e
          rw [if_neg (fun e => R.loop l hk e.1), if_pos ⟨rfl, rfl⟩, upd_same]
          congr 2; omega
        · rw [if_neg (fun c => R.ifr l hl k hk c.1 c.2), if_neg (fun c => e (R.iff l hl k hk c.1 c.2)), upd_ne _ _ e]
          exact R.fw l hl
      · intro l hl
        rw [p3]
        by_cases e : l = k
        · subst e
          rw [if_pos ⟨rfl, rfl⟩, upd_same]
        · rw [if_neg (fun c => e (R.irr l hl k hk c.1 c.2)), if_neg (fun c => R.ifr k hk l hl c.1.symm c.2.symm), upd_ne _ _ e]
          exact R.bw l hl
      · intro v j x hx
        rw [p3] at hx
        split_ifs at hx with c1 c2
        · exact ⟨k, hk, Or.inr c1⟩
        · exact ⟨k, hk, Or.inl c2⟩
        · exact R.all v j x hx
    · intro w j x hx hp
      rw [p3]
      rw [if_neg, if_neg, hx]
      · rintro ⟨rfl, rfl⟩
        rw [h] at hx; cases hx
        rcases hp with hp | hp
        · exact hp (Or.inl rfl)
        · exact hp (Or.inr rfl)
      · rintro ⟨rfl, rfl⟩
        rw [R.bw k hk] at hx; cases hx
        rcases hp with hp | hp
        · exact hp (Or.inr rfl)
        · exact hp (Or.inl rfl)
    · intro w
      rw [net_upd es φ hk]
      simp only [at_, eq_comm (a := w)]
      push_cast
      split_ifs <;> ring
  · have he := R.bw k hk
    rw [h] at he
    have he := Option.some.inj he
    subst he
    dsimp only at hd base ⊢
    have hle := R.le k hk
    obtain ⟨g', p1, p2, p3⟩ := base _ (R.fw k hk) (fun e => R.loop k hk e.1)
    dsimp only at p3
    refine ⟨g', upd φ k (φ k - d), p1, ?_, p2, ?_, ?_, k, hk, Or.inr ⟨rfl, rfl, hd, rfl⟩⟩
    · refine ⟨(lens_length p2).trans R.len, ?_, R.loop, ?_, ?_, ?_, R.iff, R.irr, R.ifr⟩
      · intro l hl
        by_cases e : l = k
        · subst e; rw [upd_same]; omega
        · rw [upd_ne _ _ e]; exact R.le l hl
      · intro l hl
        rw [p3]
        by_cases e : l = k
        · subst e
          rw [if_pos ⟨rfl, rfl⟩, upd_same]
          congr 2; omega
        · rw [if_neg (fun c => e (R.iff l hl k hk c.1 c.2)), if_neg (fun c => R.ifr l hl k hk c.1 c.2), upd_ne _ _ e]
          exact R.fw l hl
      · intro l hl
        rw [p3]
        by_cases e : l = k
        · subst e
          rw [if_neg (fun e => R.loop l hk e.1.symm), if_pos ⟨rfl, rfl⟩, upd_same]
        · rw [if_neg (fun c => R.ifr k hk l hl c.1.symm c.2.symm), if_neg (fun c => e (R.irr l hl k hk c.1 c.2)), upd_ne _ _ e]
          exact R.bw l hl
      · intro v j x hx
        rw [p3] at hx
        split_ifs at hx with c1 c2
        · exact ⟨k, hk, Or.inl c1⟩
        · exact ⟨k, hk, Or.inr c2⟩
        · exact R.all v j x hx
    · intro w j x hx hp
      rw [p3]
      rw [if_neg, if_neg, hx]
      · rintro ⟨rfl, rfl⟩
        rw [h] at hx; cases hx
        rcases hp with hp | hp
        · exact hp (Or.inl rfl)
        · exact hp (Or.inr rfl)
      · rintro ⟨rfl, rfl⟩
        rw [R.fw k hk] at hx; cases hx
        rcases hp with hp | hp
        · exact hp (Or.inr rfl)
        · exact hp (Or.inl rfl)
    · intro w
      rw [net_upd es φ hk]
      simp only [at_, eq_comm (a := w)]
      rw [Nat.cast_sub hd]
      split_ifs <;> ring

theorem push_ok {n : Nat} {es : List Arc} {pf pr φ : Nat → Nat} {g : G} (R : Rp n es pf pr φ g) {u i : Nat} {e : FlowPath} (h : getE g u i = some e) {d : Nat}
    (hd : d ≤ e.cap) : ∃ g' φ', push g u i d = some g' ∧ Rp n es pf pr φ' g' ∧ lens g' = lens g ∧ Frame (fun v => v = u ∨ v = e.t) g g' ∧
      (∀ w, net es φ' w = net es φ w + at_ u d w - at_ e.t d w) := by
  obtain ⟨g', φ', h1, h2, h3, h4, h5, _⟩ := push_full R h hd
  exact ⟨g', φ', h1, h2, h3, h4, h5⟩

/-- If no residual arc leaves `X`, the flow is as large as the cut. -/
theorem Rp.cut {n : Nat} {es : List Arc} {pf pr φ : Nat → Nat} {g : G} (R : Rp n es pf pr φ g) {s t F : Nat} (h : IsFlow es s t φ F) (X : Nat → Prop)
    [DecidablePred X] (hs : X s) (ht : ¬ X t) (hc : ∀ v j x, getE g v j = some x → X v → x.cap ≠ 0 → X x.t) : F = cutCap es X := by
  refine flow_eq_cut h X hs ht ?_ ?_
  · intro k hk ha hb
    have := R.le k hk
    by_contra hne
    exact hb (hc _ _ _ (R.fw k hk) ha (by dsimp only; omega))
  · intro k hk ha hb
    by_contra hne
    exact ha (hc _ _ _ (R.bw k hk) hb hne)

/-! ### Building the network -/

theorem arc_append_lt (es : List Arc) (e : Arc) {k : Nat} (h : k < es.length) : arc (es ++ [e]) k = arc es k := by
  unfold arc
  rw [List.getD_append _ _ _ _ h]

theorem arc_append_eq (es : List Arc) (e : Arc) : arc (es ++ [e]) es.length = e := by
  unfold arc
  rw [List.getD_append_right _ _ _ _ (le_refl _)]
  simp

theorem net_append (es : List Arc) (e : Arc) (φ : Nat → Nat) (h : φ es.length = 0) (u : Nat) : net (es ++ [e]) φ u = net es φ u := by
  unfold net
  rw [List.length_append, List.length_singleton, Finset.sum_range_succ, Finset.sum_range_succ, h]
  have h1 : ∀ k ∈ range es.length, (if (arc (es ++ [e]) k).a = u then (φ k : Int) else 0) = if (arc es k).a = u then (φ k : Int) else 0 := by
    intro k hk; rw [arc_append_lt _ _ (Finset.mem_range.1 hk)]
  have h2 : ∀ k ∈ range es.length, (if (arc (es ++ [e]) k).b = u then (φ k : Int) else 0) = if (arc es k).b = u then (φ k : Int) else 0 := by
    intro k hk; rw [arc_append_lt _ _ (Finset.mem_range.1 hk)]
  rw [Finset.sum_congr rfl h1, Finset.sum_congr rfl h2]
  simp

theorem net_congr (es : List Arc) (φ ψ : Nat → Nat) (h : ∀ k < es.length, φ k = ψ k) (u : Nat) : net es φ u = net es ψ u := by
  unfold net
  congr 1
  · exact Finset.sum_congr rfl (fun k hk => by rw [h k (Finset.mem_range.1 hk)])
  · exact Finset.sum_congr rfl (fun k hk => by rw [h k (Finset.mem_range.1 hk)])

theorem Rp.nil (n : Nat) (pf pr φ : Nat → Nat) : Rp n [] pf pr φ (List.replicate n []) := by
  refine ⟨by simp, ?_, ?_, ?_, ?_, ?_, ?_, ?_, ?_⟩
  all_goals try (intro k hk; simp at hk; done)
  intro u i x h
  unfold getE rd2 at h
  by_cases hu : u < n
  · rw [List.getElem?_replicate, if_pos hu] at h; simp at h
  · rw [List.getElem?_replicate, if_neg hu] at h; simp at h

theorem addEdge_full {n : Nat} {es : List Arc} {pf pr φ : Nat → Nat} {g : G} (R : Rp n es pf pr φ g) {a b : Nat} (c : Nat) (ha : a < n) (hb : b < n) (hab : a ≠ b) :
    ∃ g' ra rb, addEdge g a b c = some g' ∧ g[a]? = some ra ∧ g[b]? = some rb ∧
      Rp n (es ++ [⟨a, b, c⟩]) (upd pf es.length ra.length) (upd pr es.length rb.length) (upd φ es.length 0) g' := by
  have hal : a < g.length := R.len ▸ ha
  have hbl : b < g.length := R.len ▸ hb
  obtain ⟨ra, hra⟩ : ∃ r, g[a]? = some r := ⟨_, List.getElem?_eq_getElem hal⟩
  obtain ⟨rb, hrb⟩ : ∃ r, g[b]? = some r := ⟨_, List.getElem?_eq_getElem hbl⟩
  let g1 := g.set a (ra ++ [⟨b, c, rb.length⟩])
  let g2 := g1.set b (rb ++ [⟨a, 0, ra.length⟩])
  have e1 : addEdge g a b c = some g2 := by
    unfold addEdge
    rw [hrb, Option.bind_some, hra, Option.bind_some]
    have : wr g a (ra ++ [⟨b, c, rb.length⟩]) = some g1 := by unfold wr; rw [if_pos hal]
    rw [this, Option.bind_some]
    have h1 : g1[a]? = some (ra ++ [⟨b, c, rb.length⟩]) := List.getElem?_set_self hal
    have h2 : g1[b]? = some rb := by rw [List.getElem?_set_ne hab, hrb]
    rw [h1, Option.bind_some, h2, Option.bind_some]
    unfold wr
    rw [if_pos (by rw [List.length_set]; exact hbl)]
    simp [g2]
  have hg2 : ∀ v j, getE g2 v j = if v = a ∧ j = ra.length then some ⟨b, c, rb.length⟩ else if v = b ∧ j = rb.length then some ⟨a, 0, ra.length⟩ else getE g v j := by
    intro v j
    unfold getE rd2
    by_cases hv : v = b
    · subst hv
      have : g2[v]? = some (rb ++ [⟨a, 0, ra.length⟩]) := List.getElem?_set_self (by rw [List.length_set]; exact hbl)
      rw [this, Option.bind_some, if_neg (fun e => hab e.1.symm), hrb, Option.bind_some]
      by_cases hj : j = rb.length
      · subst hj; simp
      · rw [if_neg (fun e => hj e.2)]
        by_cases hj' : j < rb.length
        · rw [List.getElem?_append_left hj']
        · rw [List.getElem?_eq_none (by simp; omega), List.getElem?_eq_none (by omega)]
    · have h0 : g2[v]? = g1[v]? := List.getElem?_set_ne (fun e => hv e.symm)
      rw [h0]
      by_cases hv' : v = a
      · subst hv'
        have : g1[v]? = some (ra ++ [⟨b, c, rb.length⟩]) := List.getElem?_set_self hal
        rw [this, Option.bind_some, hra, Option.bind_some]
        by_cases hj : j = ra.length
        · subst hj; simp
        · rw [if_neg (fun e => hj e.2), if_neg (fun e => hv e.1)]
          by_cases hj' : j < ra.length
          · rw [List.getElem?_append_left hj']
          · rw [List.getElem?_eq_none (by simp; omega), List.getElem?_eq_none (by omega)]
      · have : g1[v]? = g[v]? := List.getElem?_set_ne (fun e => hv' e.symm)
        rw [this, if_neg (fun e => hv' e.1), if_neg (fun e => hv e.1)]
  have bnda : ∀ j x, getE g a j = some x → j < ra.length := by
    intro j x h
    unfold getE rd2 at h
    rw [hra, Option.bind_some] at h
    exact (List.getElem?_eq_some_iff.1 h).1
  have bndb : ∀ j x, getE g b j = some x → j < rb.length := by
    intro j x h
    unfold getE rd2 at h
    rw [hrb, Option.bind_some] at h
    exact (List.getElem?_eq_some_iff.1 h).1
  have pfa : ∀ k < es.length, (arc es k).a = a → pf k < ra.length := fun k hk h => bnda _ _ (h ▸ R.fw k hk)
  have pfb : ∀ k < es.length, (arc es k).a = b → pf k < rb.length := fun k hk h => bndb _ _ (h ▸ R.fw k hk)
  have pra : ∀ k < es.length, (arc es k).b = a → pr k < ra.length := fun k hk h => bnda _ _ (h ▸ R.bw k hk)
  have prb : ∀ k < es.length, (arc es k).b = b → pr k < rb.length := fun k hk h => bndb _ _ (h ▸ R.bw k hk)
  have cases_lt : ∀ k, k < (es ++ [(⟨a, b, c⟩ : Arc)]).length → k < es.length ∨ k = es.length := by
    intro k hk; simp at hk; omega
  refine ⟨g2, ra, rb, e1, hra, hrb, ?_, ?_, ?_, ?_, ?_, ?_, ?_, ?_, ?_⟩
  · simp only [g2, g1, List.length_set]; exact R.len
  · intro k hk
    rcases cases_lt k hk with h | rfl
    · rw [upd_ne _ _ (by omega), arc_append_lt _ _ h]; exact R.le k h
    · rw [upd_same]; omega
  · intro k hk
    rcases cases_lt k hk with h | rfl
    · rw [arc_append_lt _ _ h]; exact R.loop k h
    · rw [arc_append_eq]; exact hab
  · intro k hk
    rcases cases_lt k hk with h | rfl
    · rw [upd_ne _ _ (by omega), upd_ne _ _ (by omega), upd_ne _ _ (by omega), arc_append_lt _ _ h, hg2, if_neg, if_neg]
      · exact R.fw k h
      · rintro ⟨h1, h2⟩; have := pfb k h h1; omega
      · rintro ⟨h1, h2⟩; have := pfa k h h1; omega
    · rw [upd_same, upd_same, upd_same, arc_append_eq, hg2, if_pos ⟨rfl, rfl⟩]; rfl
  · intro k hk
    rcases cases_lt k hk with h | rfl
    · rw [upd_ne _ _ (by omega), upd_ne _ _ (by omega), upd_ne _ _ (by omega), arc_append_lt _ _ h, hg2, if_neg, if_neg]
      · exact R.bw k h
      · rintro ⟨h1, h2⟩; have := prb k h h1; omega
      · rintro ⟨h1, h2⟩; have := pra k h h1; omega
    · rw [upd_same, upd_same, upd_same, arc_append_eq, hg2, if_neg (fun e => hab e.1.symm), if_pos ⟨rfl, rfl⟩]
  · intro v j x hx
    rw [hg2] at hx
    split_ifs at hx with c1 c2
    · exact ⟨es.length, by simp, Or.inl (by rw [arc_append_eq, upd_same]; exact c1)⟩
    · exact ⟨es.length, by simp, Or.inr (by rw [arc_append_eq, upd_same]; exact c2)⟩
    · obtain ⟨k, hk, h⟩ := R.all v j x hx
      refine ⟨k, by simp; omega, ?_⟩
      rw [arc_append_lt _ _ hk, upd_ne _ _ (by omega), upd_ne _ _ (by omega)]
      exact h
  · intro k hk l hl
    rcases cases_lt k hk with h | rfl <;> rcases cases_lt l hl with h' | rfl
    · rw [arc_append_lt _ _ h, arc_append_lt _ _ h', upd_ne _ _ (by omega), upd_ne _ _ (by omega)]; exact R.iff k h l h'
    · rw [arc_append_lt _ _ h, arc_append_eq, upd_ne _ _ (by omega), upd_same]
      intro h1 h2; have := pfa k h h1; omega
    · rw [arc_append_lt _ _ h', arc_append_eq, upd_same, upd_ne _ _ (by omega)]
      intro h1 h2; have := pfa l h' h1.symm; omega
    · intros; rfl
  · intro k hk l hl
    rcases cases_lt k hk with h | rfl <;> rcases cases_lt l hl with h' | rfl
    · rw [arc_append_lt _ _ h, arc_append_lt _ _ h', upd_ne _ _ (by omega), upd_ne _ _ (by omega)]; exact R.irr k h l h'
    · rw [arc_append_lt _ _ h, arc_append_eq, upd_ne _ _ (by omega), upd_same]
      intro h1 h2; have := prb k h h1; omega
    · rw [arc_append_lt _ _ h', arc_append_eq, upd_same, upd_ne _ _ (by omega)]
      intro h1 h2; have := prb l h' h1.symm; omega
    · intros; rfl
  · intro k hk l hl
    rcases cases_lt k hk with h | rfl <;> rcases cases_lt l hl with h' | rfl
    · rw [arc_append_lt _ _ h, arc_append_lt _ _ h', upd_ne _ _ (by omega), upd_ne _ _ (by omega)]; exact R.ifr k h l h'
    · rw [arc_append_lt _ _ h, arc_append_eq, upd_ne _ _ (by omega), upd_same]
      intro h1 h2; have := pfb k h h1; omega
    · rw [arc_append_lt _ _ h', arc_append_eq, upd_same, upd_ne _ _ (by omega)]
      intro h1 h2; have := pra l h' h1.symm; omega
    · rw [arc_append_eq]; intro h1; exact absurd h1 hab

theorem addEdge_ok {n : Nat} {es : List Arc} {pf pr φ : Nat → Nat} {g : G} (R : Rp n es pf pr φ g) {a b : Nat} (c : Nat) (ha : a < n) (hb : b < n) (hab : a ≠ b) :
    ∃ g' pf' pr', addEdge g a b c = some g' ∧ Rp n (es ++ [⟨a, b, c⟩]) pf' pr' (upd φ es.length 0) g' := by
  obtain ⟨g', ra, rb, h1, _, _, h2⟩ := addEdge_full R c ha hb hab
  exact ⟨g', _, _, h1, h2⟩

end Verif.MaxFlow
