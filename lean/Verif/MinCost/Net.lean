import Verif.MinCost.Search
import Verif.MaxFlow.Net
/-!
Costs of flows, optimality by potentials, and the residual graph with costs.
-/
namespace Verif.MinCost
open Verif.MaxFlow (Arc arc net IsFlow IsMax Rp FlowPath getE lens Frame at_ cutCap)

/-- Cost of a flow; edge `k` costs `ct k` per unit. -/
def costOf (es : List Arc) (ct : Nat → Int) (φ : Nat → Nat) : Int := ∑ k ∈ Finset.range es.length, (φ k : Int) * ct k

/-- `π` makes the reduced costs of all residual arcs of `φ` non-negative. -/
def FeasN (es : List Arc) (ct : Nat → Int) (φ : Nat → Nat) (π : Nat → Int) : Prop :=
  ∀ k < es.length, (φ k < (arc es k).c → 0 ≤ ct k + π (arc es k).a - π (arc es k).b) ∧ (0 < φ k → 0 ≤ - ct k + π (arc es k).b - π (arc es k).a)

/-! ### Optimality -/

/-- All end points. -/
def ends (es : List Arc) : Finset Nat := (Finset.range es.length).biUnion (fun k => {(arc es k).a, (arc es k).b})

theorem mem_ends {es : List Arc} {k : Nat} (hk : k < es.length) : (arc es k).a ∈ ends es ∧ (arc es k).b ∈ ends es := by
  constructor <;> exact Finset.mem_biUnion.2 ⟨k, Finset.mem_range.2 hk, by simp⟩

theorem net_t {es : List Arc} {s t : Nat} {φ : Nat → Nat} {F : Nat} (hst : s ≠ t) (h : IsFlow es s t φ F) : net es φ t = -(F : Int) := by
  have h1 := Verif.MaxFlow.net_sum es φ (insert s (insert t (ends es)))
  have h2 : ∑ k ∈ Finset.range es.length, ((if (arc es k).a ∈ insert s (insert t (ends es)) then (φ k : Int) else 0) - if (arc es k).b ∈ insert s (insert t (ends es)) then (φ k : Int) else 0) = 0 := by
    refine Finset.sum_eq_zero fun k hk => ?_
    have := mem_ends (Finset.mem_range.1 hk)
    rw [if_pos (Finset.mem_insert_of_mem (Finset.mem_insert_of_mem this.1)), if_pos (Finset.mem_insert_of_mem (Finset.mem_insert_of_mem this.2)), sub_self]
  rw [h2] at h1
  have h3 : ∑ u ∈ insert s (insert t (ends es)), net es φ u = ∑ u ∈ ({s, t} : Finset Nat), net es φ u := by
    symm
    refine Finset.sum_subset ?_ ?_
    · intro u hu
      rcases Finset.mem_insert.1 hu with rfl | hu
      · exact Finset.mem_insert_self ..
      · rw [Finset.mem_singleton] at hu; subst hu
        exact Finset.mem_insert_of_mem (Finset.mem_insert_self ..)
    · intro u _ hu
      rw [Finset.mem_insert, Finset.mem_singleton, not_or] at hu
      exact h.cons u hu.1 hu.2
  rw [h3, Finset.sum_pair hst, h.val] at h1
  omega

theorem pot_sum (es : List Arc) (φ : Nat → Nat) (π : Nat → Int) : ∑ u ∈ ends es, π u * net es φ u = ∑ k ∈ Finset.range es.length, (φ k : Int) * (π (arc es k).a - π (arc es k).b) := by
  have h1 : ∀ u ∈ ends es, π u * net es φ u = ∑ k ∈ Finset.range es.length, ((if (arc es k).a = u then (φ k : Int) * π u else 0) - if (arc es k).b = u then (φ k : Int) * π u else 0) := by
    intro u _
    unfold net
    rw [← Finset.sum_sub_distrib, Finset.mul_sum]
    refine Finset.sum_congr rfl fun k _ => ?_
    split_ifs <;> ring
  rw [Finset.sum_congr rfl h1, Finset.sum_comm]
  refine Finset.sum_congr rfl fun k hk => ?_
  have hm := mem_ends (Finset.mem_range.1 hk)
  rw [Finset.sum_sub_distrib, Finset.sum_ite_eq, Finset.sum_ite_eq, if_pos hm.1, if_pos hm.2]
  ring

/-- A flow with feasible potentials is cheapest among the flows of its value. -/
theorem opt_of_feas {es : List Arc} {ct : Nat → Int} {s t : Nat} {φ ψ : Nat → Nat} {F : Nat} {π : Nat → Int} (hst : s ≠ t) (h : IsFlow es s t φ F) (h' : IsFlow es s t ψ F) (hf : FeasN es ct φ π) :
    costOf es ct φ ≤ costOf es ct ψ := by
  have hnet : ∀ u, net es φ u = net es ψ u := by
    intro u
    by_cases hus : u = s
    · subst hus; rw [h.val, h'.val]
    · by_cases hut : u = t
      · subst hut; rw [net_t hst h, net_t hst h']
      · rw [h.cons u hus hut, h'.cons u hus hut]
  have h1 : ∑ k ∈ Finset.range es.length, (φ k : Int) * (π (arc es k).a - π (arc es k).b) = ∑ k ∈ Finset.range es.length, (ψ k : Int) * (π (arc es k).a - π (arc es k).b) := by
    rw [← pot_sum, ← pot_sum]
    exact Finset.sum_congr rfl fun u _ => by rw [hnet u]
  have h2 : ∑ k ∈ Finset.range es.length, (φ k : Int) * (ct k + (π (arc es k).a - π (arc es k).b)) ≤ ∑ k ∈ Finset.range es.length, (ψ k : Int) * (ct k + (π (arc es k).a - π (arc es k).b)) := by
    refine Finset.sum_le_sum fun k hk => ?_
    have hk := Finset.mem_range.1 hk
    obtain ⟨f1, f2⟩ := hf k hk
    have c1 := h.cap k hk
    have c2 := h'.cap k hk
    rcases Nat.lt_trichotomy (φ k) (ψ k) with hlt | heq | hgt
    · have hr := f1 (by omega)
      have hr' : 0 ≤ ct k + (π (arc es k).a - π (arc es k).b) := by omega
      exact mul_le_mul_of_nonneg_right (by exact_mod_cast hlt.le) hr'
    · rw [heq]
    · have hr := f2 (by omega)
      have hr' : ct k + (π (arc es k).a - π (arc es k).b) ≤ 0 := by omega
      exact mul_le_mul_of_nonpos_right (by exact_mod_cast hgt.le) hr'
  simp only [mul_add, Finset.sum_add_distrib] at h2
  unfold costOf
  linarith

theorem costOf_upd {es : List Arc} {ct : Nat → Int} {φ : Nat → Nat} {k : Nat} (hk : k < es.length) (x : Nat) : costOf es ct (upd φ k x) = costOf es ct φ + ((x : Int) - φ k) * ct k := by
  unfold costOf
  rw [← sub_eq_iff_eq_add', ← Finset.sum_sub_distrib, Finset.sum_eq_single k]
  · rw [upd_same]; ring
  · intro j _ hj; rw [upd_ne _ _ hj]; ring
  · intro h; exact absurd (Finset.mem_range.2 hk) h

/-! ### The graph without its costs -/

def er (e : Path) : FlowPath := ⟨e.t, e.cap, e.rev⟩

def era (g : G) : Verif.MaxFlow.G := g.map (fun r => r.map er)

/-- The cost stored at a place. -/
def cst (g : G) (u i : Nat) : Option Int := (rd2 g u i).map Path.cost

theorem getE_era (g : G) (u i : Nat) : getE (era g) u i = (rd2 g u i).map er := by
  unfold getE rd2 era
  rw [List.getElem?_map]
  cases g[u]? with
  | none => rfl
  | some r => simp

theorem rd2_wr2 {g g' : G} {u i : Nat} {x : Path} (h : wr2 g u i x = some g') (v j : Nat) : rd2 g' v j = if v = u ∧ j = i then some x else rd2 g v j := by
  unfold wr2 at h
  unfold rd2
  cases hr : g[u]? with
  | none => rw [hr] at h; cases h
  | some row =>
    rw [hr, Option.bind_some] at h
    obtain ⟨hu, hru⟩ := List.getElem?_eq_some_iff.1 hr
    unfold wr at h
    by_cases hi : i < row.length
    · rw [if_pos hi, Option.bind_some, if_pos hu] at h
      cases h
      by_cases hv : v = u
      · subst hv
        rw [List.getElem?_set_self hu, Option.bind_some, hr, Option.bind_some]
        by_cases hj : j = i
        · subst hj; simp [List.getElem?_set_self hi]
        · rw [List.getElem?_set_ne (fun e => hj e.symm), if_neg (fun e => hj e.2)]
      · rw [List.getElem?_set_ne (fun e => hv e.symm), if_neg (fun e => hv e.1)]
    · rw [if_neg hi] at h; cases h

theorem wr2_era (g : G) (u i : Nat) (x : Path) : wr2 (era g) u i (er x) = (wr2 g u i x).map era := by
  unfold wr2 era
  rw [List.getElem?_map]
  cases hr : g[u]? with
  | none => rfl
  | some r =>
    rw [Option.map_some, Option.bind_some, Option.bind_some]
    unfold wr
    rw [List.length_map, List.length_map]
    by_cases hi : i < r.length
    · rw [if_pos hi, if_pos hi, Option.bind_some, Option.bind_some]
      by_cases hu : u < g.length
      · rw [if_pos hu, if_pos hu, Option.map_some]
        simp [List.map_set]
      · rw [if_neg hu, if_neg hu]; rfl
    · rw [if_neg hi, if_neg hi]; rfl

/-- Writing an entry of the same cost changes no cost. -/
theorem cst_wr2 {g g' : G} {u i : Nat} {x y : Path} (h : wr2 g u i x = some g') (hy : rd2 g u i = some y) (hc : x.cost = y.cost) (v j : Nat) : cst g' v j = cst g v j := by
  unfold cst
  rw [rd2_wr2 h]
  by_cases hv : v = u ∧ j = i
  · rw [if_pos hv, hv.1, hv.2, hy, Option.map_some, Option.map_some, hc]
  · rw [if_neg hv]

theorem push1_era {g : G} {i p k d : Nat} {g1 : Verif.MaxFlow.G} (hi : ∀ e, rd2 g p k = some e → e.t = i) (h : Verif.MaxFlow.push (era g) p k d = some g1) :
    ∃ g', push1 g i p k d = some g' ∧ era g' = g1 ∧ ∀ v j, cst g' v j = cst g v j := by
  unfold Verif.MaxFlow.push at h
  rw [getE_era] at h
  cases he : rd2 g p k with
  | none => rw [he] at h; cases h
  | some e =>
    have hti := hi e he
    rw [he, Option.map_some, Option.bind_some] at h
    unfold push1
    rw [he, Option.bind_some]
    by_cases hd : d ≤ e.cap
    · rw [if_pos hd]
      have hd' : d ≤ (er e).cap := hd
      rw [if_pos hd'] at h
      have e1 : wr2 (era g) p k ⟨(er e).t, (er e).cap - d, (er e).rev⟩ = (wr2 g p k { e with cap := e.cap - d }).map era := wr2_era g p k { e with cap := e.cap - d }
      rw [e1] at h
      cases hw : wr2 g p k { e with cap := e.cap - d } with
      | none => rw [hw] at h; cases h
      | some g2 =>
        rw [hw, Option.map_some, Option.bind_some, getE_era] at h
        rw [Option.bind_some]
        have hrev : rd2 g2 (er e).t (er e).rev = rd2 g2 i e.rev := by rw [← hti]; rfl
        rw [hrev] at h
        cases hx : rd2 g2 i e.rev with
        | none => rw [hx] at h; cases h
        | some x =>
          rw [hx, Option.map_some, Option.bind_some] at h
          rw [Option.bind_some]
          have e2 : wr2 (era g2) (er e).t (er e).rev ⟨(er x).t, (er x).cap + d, (er x).rev⟩ = (wr2 g2 i e.rev { x with cap := x.cap + d }).map era := by
            rw [← hti]
            exact wr2_era g2 e.t e.rev { x with cap := x.cap + d }
          rw [e2] at h
          cases hw2 : wr2 g2 i e.rev { x with cap := x.cap + d } with
          | none => rw [hw2] at h; cases h
          | some g3 =>
            rw [hw2, Option.map_some] at h
            exact ⟨g3, rfl, Option.some.inj h, fun v j => by rw [cst_wr2 hw2 hx rfl, cst_wr2 hw he rfl]⟩
    · rw [if_neg (show ¬ d ≤ (er e).cap from hd)] at h
      cases h

/-- `g` is the residual graph, with costs, of the flow `φ`. -/
structure RC (n : Nat) (es : List Arc) (ct : Nat → Int) (pf pr φ : Nat → Nat) (g : G) : Prop where
  R : Rp n es pf pr φ (era g)
  cf : ∀ k < es.length, cst g (arc es k).a (pf k) = some (ct k)
  cb : ∀ k < es.length, cst g (arc es k).b (pr k) = some (- ct k)

variable {n : Nat} {es : List Arc} {ct : Nat → Int} {pf pr φ : Nat → Nat} {g : G}

theorem RC.len (X : RC n es ct pf pr φ g) : g.length = n := by
  have := X.R.len
  unfold era at this
  rwa [List.length_map] at this

theorem of_er {g : G} {u i : Nat} {x : FlowPath} {c : Int} (h1 : getE (era g) u i = some x) (h2 : cst g u i = some c) : rd2 g u i = some ⟨x.t, x.rev, x.cap, c⟩ := by
  rw [getE_era] at h1
  unfold cst at h2
  cases he : rd2 g u i with
  | none => rw [he] at h1; cases h1
  | some e =>
    rw [he] at h1 h2
    have h1 := Option.some.inj h1
    have h2 := Option.some.inj h2
    rw [← h1, ← h2]
    rfl

/-- What the stored arcs are. -/
theorem RC.all (X : RC n es ct pf pr φ g) {u i : Nat} {e : Path} (h : rd2 g u i = some e) :
    ∃ k < es.length, (u = (arc es k).a ∧ i = pf k ∧ e = ⟨(arc es k).b, pr k, (arc es k).c - φ k, ct k⟩) ∨ (u = (arc es k).b ∧ i = pr k ∧ e = ⟨(arc es k).a, pf k, φ k, - ct k⟩) := by
  have h1 : getE (era g) u i = some (er e) := by rw [getE_era, h]; rfl
  obtain ⟨k, hk, (⟨rfl, rfl⟩ | ⟨rfl, rfl⟩)⟩ := X.R.all _ _ _ h1
  · refine ⟨k, hk, Or.inl ⟨rfl, rfl, ?_⟩⟩
    have := of_er (X.R.fw k hk) (X.cf k hk)
    rw [h] at this
    exact Option.some.inj this
  · refine ⟨k, hk, Or.inr ⟨rfl, rfl, ?_⟩⟩
    have := of_er (X.R.bw k hk) (X.cb k hk)
    rw [h] at this
    exact Option.some.inj this

theorem RC.bnd (X : RC n es ct pf pr φ g) {C : Int} (hC : ∀ k < es.length, -C ≤ ct k ∧ ct k ≤ C) : Bnd g n C := by
  intro u i e h
  have h1 : getE (era g) u i = some (er e) := by rw [getE_era, h]; rfl
  refine ⟨by rw [← X.R.len]; exact Verif.MaxFlow.getE_lt h1, X.R.t_lt h1, ?_⟩
  obtain ⟨k, hk, (⟨_, _, rfl⟩ | ⟨_, _, rfl⟩)⟩ := X.all h
  · exact hC k hk
  · have := hC k hk
    dsimp only
    omega

theorem RC.feas (X : RC n es ct pf pr φ g) {π : Nat → Int} (h : FeasN es ct φ π) : Feas g π := by
  rintro u i v c ⟨e, he, rfl, rfl, hc⟩
  obtain ⟨k, hk, (⟨rfl, _, rfl⟩ | ⟨rfl, _, rfl⟩)⟩ := X.all he
  · dsimp only at hc ⊢
    exact (h k hk).1 (by omega)
  · dsimp only at hc ⊢
    exact (h k hk).2 (by omega)

theorem RC.feasN (X : RC n es ct pf pr φ g) {π : Nat → Int} (h : Feas g π) : FeasN es ct φ π := by
  intro k hk
  constructor
  · intro hlt
    exact h _ _ _ _ ⟨_, of_er (X.R.fw k hk) (X.cf k hk), rfl, rfl, by dsimp only; omega⟩
  · intro hpos
    exact h _ _ _ _ ⟨_, of_er (X.R.bw k hk) (X.cb k hk), rfl, rfl, by dsimp only; omega⟩

/-- Sending `d` units along one arc of reduced cost 0. -/
theorem RC.push (X : RC n es ct pf pr φ g) {p k d i : Nat} {e : Path} (he : rd2 g p k = some e) (hi : e.t = i) (hd : d ≤ e.cap) {π : Nat → Int} (hf : FeasN es ct φ π) (ht : e.cost + π p - π i = 0) :
    ∃ g' φ', push1 g i p k d = some g' ∧ RC n es ct pf pr φ' g' ∧ FeasN es ct φ' π ∧ (∀ w, net es φ' w = net es φ w + at_ p d w - at_ i d w) ∧ costOf es ct φ' = costOf es ct φ + d * e.cost ∧
      ∀ w j x, rd2 g w j = some x → (¬ (w = p ∨ w = i) ∨ ¬ (x.t = p ∨ x.t = i)) → rd2 g' w j = some x := by
  have h1 : getE (era g) p k = some (er e) := by rw [getE_era, he]; rfl
  obtain ⟨g1, φ', p1, R1, l1, f1, n1, k0, hk0, hφ⟩ := Verif.MaxFlow.push_full X.R h1 (d := d) hd
  obtain ⟨g', q1, q2, q3⟩ := push1_era (g := g) (i := i) (p := p) (k := k) (d := d) (fun e' h' => by rw [he] at h'; cases h'; exact hi) p1
  have hi' : (er e).t = i := hi
  rw [hi'] at n1 f1
  subst q2
  refine ⟨g', φ', q1, ⟨R1, fun k hk => by rw [q3]; exact X.cf k hk, fun k hk => by rw [q3]; exact X.cb k hk⟩, ?_, n1, ?_, ?_⟩
  · intro l hl
    by_cases hlk : l = k0
    · subst hlk
      rcases hφ with ⟨rfl, rfl, _⟩ | ⟨rfl, rfl, _, _⟩
      · have := of_er (X.R.fw l hl) (X.cf l hl)
        rw [he] at this
        have this := Option.some.inj this
        subst this
        dsimp only at ht hi
        subst hi
        exact ⟨fun _ => by omega, fun _ => by omega⟩
      · have := of_er (X.R.bw l hl) (X.cb l hl)
        rw [he] at this
        have this := Option.some.inj this
        subst this
        dsimp only at ht hi
        subst hi
        exact ⟨fun _ => by omega, fun _ => by omega⟩
    · have : φ' l = φ l := by
        rcases hφ with ⟨_, _, rfl⟩ | ⟨_, _, _, rfl⟩ <;> exact upd_ne _ _ hlk
      rw [this]
      exact hf l hl
  · rcases hφ with ⟨rfl, rfl, rfl⟩ | ⟨rfl, rfl, hle, rfl⟩
    · have := of_er (X.R.fw k0 hk0) (X.cf k0 hk0)
      rw [he] at this
      have this := Option.some.inj this
      subst this
      rw [costOf_upd hk0]
      push_cast
      ring
    · have := of_er (X.R.bw k0 hk0) (X.cb k0 hk0)
      rw [he] at this
      have this := Option.some.inj this
      subst this
      rw [costOf_upd hk0, Nat.cast_sub hle]
      ring
  · intro w j x hx hP
    have hx' : getE (era g) w j = some (er x) := by rw [getE_era, hx]; rfl
    have h2 := f1 w j (er x) hx' hP
    have h3 : cst g' w j = some x.cost := by rw [q3]; unfold cst; rw [hx]; rfl
    exact of_er h2 h3

end Verif.MinCost
