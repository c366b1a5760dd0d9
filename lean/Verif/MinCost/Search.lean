import Verif.MinCost.Model
import Verif.Dijkstra.Proof
import Mathlib.Algebra.BigOperators.Group.Finset.Basic
import Mathlib.Algebra.Order.BigOperators.Group.Finset
import Mathlib.Data.List.Perm.Subperm
import Mathlib.Tactic.Ring
import Mathlib.Tactic.Linarith
/-!
The search of `MinCostFlowGraph::flow`: shortest paths by label correction, in a graph without negative cycles.
-/
namespace Verif.MinCost
open Verif.FibHeap

theorem gt_swo : SWO gt := Verif.Dijkstra.gt_swo

/-- An arc that can take flow. -/
def RArc (g : G) (u i v : Nat) (c : Int) : Prop := ∃ e, rd2 g u i = some e ∧ e.t = v ∧ e.cost = c ∧ e.cap ≠ 0

/-- `π` makes all reduced costs non-negative. -/
def Feas (g : G) (π : Nat → Int) : Prop := ∀ u i v c, RArc g u i v c → 0 ≤ c + π u - π v

/-- All arcs stay within `n` vertices and have costs of absolute value at most `C`. -/
def Bnd (g : G) (n : Nat) (C : Int) : Prop := ∀ u i e, rd2 g u i = some e → u < n ∧ e.t < n ∧ -C ≤ e.cost ∧ e.cost ≤ C

/-- A walk from `s`, last vertex first, with the cost up to each vertex. -/
inductive HW (g : G) (s : Nat) : List (Nat × Int) → Prop where
  | nil : HW g s [(s, 0)]
  | snoc {u i v : Nat} {c y z : Int} {l : List (Nat × Int)} (h : HW g s ((u, y) :: l)) (a : RArc g u i v c) (hz : z = y + c) : HW g s ((v, z) :: (u, y) :: l)

/-- Following `pv` from a vertex leads to `s`. -/
inductive Chain (pv : Nat → Nat) (s : Nat) : Nat → List Nat → Prop where
  | nil : Chain pv s s []
  | cons {v : Nat} {l : List Nat} (hv : v ≠ s) (h : Chain pv s (pv v) l) : Chain pv s v (pv v :: l)

variable {g : G} {n s : Nat} {π hv : Nat → Int} {C inf : Int}

theorem HW.src {l : List (Nat × Int)} (h : HW g s l) : (s, (0 : Int)) ∈ l := by
  induction h with
  | nil => exact List.mem_cons_self ..
  | snoc _ _ _ ih => exact List.mem_cons_of_mem _ ih

theorem HW.feas (hf : Feas g π) {l : List (Nat × Int)} (h : HW g s l) : ∀ v x r, l = (v, x) :: r → ∀ p ∈ l, π v - π p.1 ≤ x - p.2 := by
  induction h with
  | nil => intro v x r e p hp; cases e; rw [List.mem_singleton] at hp; subst hp; simp
  | @snoc u i v' c y z l' h a hz ih =>
    intro v x r e p hp
    cases e
    have := hf _ _ _ _ a
    rcases List.mem_cons.1 hp with rfl | hp
    · simp
    · have := ih u y l' rfl p hp
      omega

theorem HW.bound (hB : Bnd g n C) {l : List (Nat × Int)} (h : HW g s l) : ∀ v x r, l = (v, x) :: r → x ≤ r.length * C ∧ -(r.length * C) ≤ x := by
  induction h with
  | nil => intro v x r e; cases e; simp
  | @snoc u i v' c y z l' h a hz ih =>
    intro v x r e
    cases e
    obtain ⟨h1, h2⟩ := ih u y l' rfl
    obtain ⟨e, he, _, hc, _⟩ := a
    obtain ⟨_, _, h3, h4⟩ := hB _ _ _ he
    rw [List.length_cons]
    push_cast
    constructor <;> linarith

theorem HW.lt (hB : Bnd g n C) (hs : s < n) {l : List (Nat × Int)} (h : HW g s l) : ∀ p ∈ l, p.1 < n := by
  induction h with
  | nil => intro p hp; rw [List.mem_singleton] at hp; subst hp; exact hs
  | @snoc u i v' c y z l' h a hz ih =>
    intro p hp
    rcases List.mem_cons.1 hp with rfl | hp
    · obtain ⟨e, he, ht, _, _⟩ := a
      have := (hB _ _ _ he).2.1
      rw [ht] at this
      exact this
    · exact ih p hp

theorem nodup_len {l : List Nat} (nd : l.Nodup) (h : ∀ k ∈ l, k < n) : l.length ≤ n := by
  have := (nd.subperm (l₂ := List.range n) (fun k hk => List.mem_range.2 (h k hk))).length_le
  rwa [List.length_range] at this

/-- Labels `L` (with potentials added), queue `M`, predecessors. -/
structure SI (g : G) (n s : Nat) (hv : Nat → Int) (L M : Nat → Option Int) (pv pe : Nat → Nat) : Prop where
  src : L s = some 0
  q : ∀ v k, M v = some k → L v = some (k + hv v)
  hist : ∀ v x, L v = some x → ∃ l, HW g s ((v, x) :: l) ∧ (((v, x) :: l).map Prod.fst).Nodup ∧ ∀ p ∈ (v, x) :: l, ∃ z, L p.1 = some z ∧ z ≤ p.2
  pred : ∀ v x, L v = some x → v ≠ s → ∃ c y, RArc g (pv v) (pe v) v c ∧ L (pv v) = some y ∧ y + c ≤ x
  chain : ∀ v x, L v = some x → ∃ l, Chain pv s v l

variable {L M : Nat → Option Int} {pv pe : Nat → Nat}

theorem SI.lt (hB : Bnd g n C) (hs : s < n) (I : SI g n s hv L M pv pe) {v : Nat} {x : Int} (h : L v = some x) : v < n := by
  obtain ⟨l, h1, _, _⟩ := I.hist v x h
  exact h1.lt hB hs (v, x) (List.mem_cons_self ..)

/-- Labels are bounded. -/
theorem SI.bound (hB : Bnd g n C) (hC : 0 ≤ C) (hs : s < n) (I : SI g n s hv L M pv pe) {v : Nat} {x : Int} (h : L v = some x) : x + C ≤ n * C ∧ -(n * C) ≤ x := by
  obtain ⟨l, h1, h2, _⟩ := I.hist v x h
  have h3 := nodup_len h2 (n := n) (fun k hk => by
    obtain ⟨p, hp, rfl⟩ := List.mem_map.1 hk
    exact h1.lt hB hs p hp)
  rw [List.length_map, List.length_cons] at h3
  obtain ⟨h4, h5⟩ := h1.bound hB v x l rfl
  have h6 : ((l.length : Int) + 1) * C ≤ n * C := mul_le_mul_of_nonneg_right (by exact_mod_cast h3) hC
  constructor <;> linarith

theorem SI.lower (hf : Feas g π) (I : SI g n s hv L M pv pe) {v : Nat} {x : Int} (h : L v = some x) : π v - π s ≤ x := by
  obtain ⟨l, h1, _, _⟩ := I.hist v x h
  have := h1.feas hf v x l rfl (s, 0) h1.src
  simpa using this

/-- Along the predecessors. -/
theorem SI.chain_ge (hf : Feas g π) (I : SI g n s hv L M pv pe) {u : Nat} {l : List Nat} (h : Chain pv s u l) : ∀ x, L u = some x → ∀ w ∈ l, ∃ z, L w = some z ∧ π u - π w ≤ x - z := by
  induction h with
  | nil => intro x _ w hw; cases hw
  | @cons v l hvs h ih =>
    intro x hx w hw
    obtain ⟨c, y, a, hy, hc⟩ := I.pred v x hx hvs
    have := hf _ _ _ _ a
    rcases List.mem_cons.1 hw with rfl | hw
    · exact ⟨y, hy, by omega⟩
    · obtain ⟨z, hz, h⟩ := ih y hy w hw
      exact ⟨z, hz, by omega⟩

theorem Chain.upd {u : Nat} {l : List Nat} {t : Nat} (p : Nat) (h : Chain pv s u l) (hu : u ≠ t) (ht : t ∉ l) : Chain (upd pv t p) s u l := by
  induction h with
  | nil => exact Chain.nil
  | @cons v l hvs h ih =>
    have e : Verif.upd pv t p v = pv v := upd_ne _ _ hu
    have := ih (fun e => ht (e ▸ List.mem_cons_self ..)) (fun hm => ht (List.mem_cons_of_mem _ hm))
    have h2 := Chain.cons (pv := Verif.upd pv t p) hvs (l := l) (by rw [e]; exact this)
    rwa [e] at h2

theorem Chain.reroute {v : Nat} {l : List Nat} {t u : Nat} {lu : List Nat} (hts : t ≠ s) (h : Chain pv s v l) (hu : Chain (Verif.upd pv t u) s u lu) : ∃ l', Chain (Verif.upd pv t u) s v l' := by
  induction h with
  | nil => exact ⟨_, Chain.nil⟩
  | @cons v l hvs h ih =>
    by_cases hvt : v = t
    · subst hvt
      have e : Verif.upd pv v u v = u := upd_same ..
      exact ⟨_, Chain.cons hts (by rw [e]; exact hu)⟩
    · obtain ⟨l', h'⟩ := ih
      have e : Verif.upd pv t u v = pv v := upd_ne _ _ hvt
      exact ⟨_, Chain.cons hvs (by rw [e]; exact h')⟩

/-- Labels only decrease. -/
def Dec (L L' : Nat → Option Int) : Prop := ∀ v x, L v = some x → ∃ y, L' v = some y ∧ y ≤ x

theorem Dec.refl (L : Nat → Option Int) : Dec L L := fun _ x h => ⟨x, h, le_refl _⟩

theorem Dec.trans {L1 L2 L3 : Nat → Option Int} (h : Dec L1 L2) (h' : Dec L2 L3) : Dec L1 L3 := fun v x hx => by
  obtain ⟨y, hy, h1⟩ := h v x hx
  obtain ⟨z, hz, h2⟩ := h' v y hy
  exact ⟨z, hz, h2.trans h1⟩

/-- One improvement. -/
theorem SI.improve (hf : Feas g π) (I : SI g n s hv L M pv pe) {u i t : Nat} {c x : Int} (a : RArc g u i t c) (hx : L u = some x) (ht : ∀ z, L t = some z → x + c < z) :
    SI g n s hv (upd L t (some (x + c))) (upd M t (some (x + c - hv t))) (upd pv t u) (upd pe t i) ∧ Dec L (upd L t (some (x + c))) ∧ t ≠ u := by
  obtain ⟨lu, h1, h2, h3⟩ := I.hist u x hx
  have hft := hf _ _ _ _ a
  have hnot : t ∉ ((u, x) :: lu).map Prod.fst := by
    intro hm
    obtain ⟨p, hp, rfl⟩ := List.mem_map.1 hm
    obtain ⟨z, hz, hle⟩ := h3 p hp
    have := ht z hz
    have := h1.feas hf u x lu rfl p hp
    omega
  have htu : t ≠ u := fun e => hnot (by rw [e]; exact List.mem_cons_self ..)
  have hts : t ≠ s := fun e => hnot (by rw [e]; exact List.mem_map.2 ⟨_, h1.src, rfl⟩)
  have hd : Dec L (upd L t (some (x + c))) := by
    intro v y hy
    by_cases hvt : v = t
    · subst hvt
      exact ⟨_, upd_same .., le_of_lt (ht y hy)⟩
    · exact ⟨y, by rw [upd_ne _ _ hvt]; exact hy, le_refl _⟩
  have hLu : upd L t (some (x + c)) u = some x := by rw [upd_ne _ _ (Ne.symm htu)]; exact hx
  refine ⟨⟨?_, ?_, ?_, ?_, ?_⟩, hd, htu⟩
  · rw [upd_ne _ _ (Ne.symm hts)]; exact I.src
  · intro v k hk
    by_cases hvt : v = t
    · subst hvt
      rw [upd_same] at hk ⊢
      cases hk
      rw [sub_add_cancel]
    · rw [upd_ne _ _ hvt] at hk ⊢
      exact I.q v k hk
  · intro v y hy
    by_cases hvt : v = t
    · subst hvt
      rw [upd_same] at hy
      cases hy
      refine ⟨_, HW.snoc h1 a rfl, ?_, ?_⟩
      · rw [List.map_cons]
        exact List.nodup_cons.2 ⟨hnot, h2⟩
      · intro p hp
        rcases List.mem_cons.1 hp with rfl | hp
        · exact ⟨_, upd_same .., le_refl _⟩
        · obtain ⟨z, hz, hle⟩ := h3 p hp
          obtain ⟨z', hz', hle'⟩ := hd _ _ hz
          exact ⟨z', hz', hle'.trans hle⟩
    · rw [upd_ne _ _ hvt] at hy
      obtain ⟨l, a1, a2, a3⟩ := I.hist v y hy
      refine ⟨l, a1, a2, fun p hp => ?_⟩
      obtain ⟨z, hz, hle⟩ := a3 p hp
      obtain ⟨z', hz', hle'⟩ := hd _ _ hz
      exact ⟨z', hz', hle'.trans hle⟩
  · intro v y hy hvs
    by_cases hvt : v = t
    · subst hvt
      rw [upd_same] at hy
      cases hy
      rw [upd_same, upd_same]
      exact ⟨c, x, a, hLu, le_refl _⟩
    · rw [upd_ne _ _ hvt] at hy
      rw [upd_ne _ _ hvt, upd_ne _ _ hvt]
      obtain ⟨c', y', a', hy', hle⟩ := I.pred v y hy hvs
      obtain ⟨z, hz, hzl⟩ := hd _ _ hy'
      exact ⟨c', z, a', hz, by omega⟩
  · obtain ⟨lc, hlc⟩ := I.chain u x hx
    have htl : t ∉ lc := by
      intro hm
      obtain ⟨z, hz, hle⟩ := I.chain_ge hf hlc x hx t hm
      have := ht z hz
      omega
    have hcu := hlc.upd u (Ne.symm htu) htl
    intro v y hy
    by_cases hvt : v = t
    · subst hvt
      have e : upd pv v u v = u := upd_same ..
      exact ⟨_, Chain.cons hts (by rw [e]; exact hcu)⟩
    · rw [upd_ne _ _ hvt] at hy
      obtain ⟨l, hl⟩ := I.chain v y hy
      exact hl.reroute hts hcu

/-- `dist[v]` for a label. -/
def lab (inf : Int) (hv : Nat → Int) (v : Nat) : Option Int → Int
  | none => inf
  | some x => x - hv v

/-- The arrays hold the labels. -/
structure SR (n : Nat) (inf : Int) (hv : Nat → Int) (L M : Nat → Option Int) (pv pe : Nat → Nat) (sp : SP) : Prop where
  dist : Rep sp.dist n (fun v => lab inf hv v (L v))
  pv : Rep sp.pv n pv
  pe : Rep sp.pe n pe
  H : Wf gt n M sp.H

/-- Measure of what is left to do. -/
def rk (n : Nat) (C : Int) (π : Nat → Int) (s v : Nat) : Option Int → Nat
  | none => (n * C - π v + π s).toNat + 1
  | some x => (x - π v + π s).toNat

def mu (n : Nat) (C : Int) (π : Nat → Int) (s : Nat) (L M : Nat → Option Int) : Nat :=
  ∑ v ∈ Finset.range n, (2 * rk n C π s v (L v) + if (M v).isSome then 1 else 0)

theorem mu_improve {t : Nat} (ht : t < n) {y : Int} {k : Int} (h0 : π t - π s ≤ y) (hlt : match L t with | none => y ≤ n * C | some z => y < z) :
    mu n C π s (upd L t (some y)) (upd M t (some k)) < mu n C π s L M := by
  unfold mu
  refine Finset.sum_lt_sum (fun v _ => ?_) ⟨t, Finset.mem_range.2 ht, ?_⟩
  · by_cases hvt : v = t
    · subst hvt
      rw [upd_same, upd_same]
      have : rk n C π s v (some y) < rk n C π s v (L v) := by
        cases hL : L v with
        | none => rw [hL] at hlt; dsimp only at hlt; simp only [rk]; omega
        | some z => rw [hL] at hlt; dsimp only at hlt; simp only [rk]; omega
      simp only [Option.isSome_some, if_true]
      omega
    · rw [upd_ne _ _ hvt, upd_ne _ _ hvt]
  · rw [upd_same, upd_same]
    have : rk n C π s t (some y) < rk n C π s t (L t) := by
      cases hL : L t with
      | none => rw [hL] at hlt; dsimp only at hlt; simp only [rk]; omega
      | some z => rw [hL] at hlt; dsimp only at hlt; simp only [rk]; omega
    simp only [Option.isSome_some, if_true]
    omega

theorem mu_pop {t : Nat} (ht : t < n) {k : Int} (hM : M t = some k) : mu n C π s L (upd M t none) + 1 ≤ mu n C π s L M := by
  unfold mu
  refine Nat.succ_le_of_lt (Finset.sum_lt_sum (fun v _ => ?_) ⟨t, Finset.mem_range.2 ht, ?_⟩)
  · by_cases hvt : v = t
    · subst hvt; rw [upd_same]; simp
    · rw [upd_ne _ _ hvt]
  · rw [upd_same, hM]
    simp

/-- The arcs out of `u` with index below `i` are relaxed. -/
def RxI (g : G) (L : Nat → Option Int) (u i : Nat) : Prop := ∀ j t c x, j < i → RArc g u j t c → L u = some x → ∃ y, L t = some y ∧ y ≤ x + c

/-- All arcs out of `u` are relaxed. -/
def Rx (g : G) (L : Nat → Option Int) (u : Nat) : Prop := ∀ j t c x, RArc g u j t c → L u = some x → ∃ y, L t = some y ∧ y ≤ x + c

structure Ctx (g : G) (n s : Nat) (π hv : Nat → Int) (C inf : Int) : Prop where
  hf : Feas g π
  hB : Bnd g n C
  hC : 0 ≤ C
  hs : s < n
  hi : 2 * (n * C) < inf
  hh : ∀ v, -(n * C) ≤ hv v ∧ hv v ≤ n * C

theorem relax1_ok (X : Ctx g n s π hv C inf) {hl : List Int} (hR : Rep hl n hv) {sp : SP} {u i : Nat} {x : Int} {e : Path} (he : rd2 g u i = some e) (I : SI g n s hv L M pv pe) (R : SR n inf hv L M pv pe sp)
    (hx : L u = some x) (hrx : ∀ v, v ≠ u → M v = none → Rx g L v) (hri : RxI g L u i) :
    ∃ sp' L' M' pv' pe', relax1 hl u (x - hv u) i e sp = some sp' ∧ SI g n s hv L' M' pv' pe' ∧ SR n inf hv L' M' pv' pe' sp' ∧ L' u = some x ∧ (∀ v, v ≠ u → M' v = none → Rx g L' v) ∧ RxI g L' u (i+1) ∧
      mu n C π s L' M' ≤ mu n C π s L M := by
  unfold relax1
  by_cases hc0 : e.cap = 0
  · rw [if_pos hc0]
    refine ⟨sp, L, M, pv, pe, rfl, I, R, hx, hrx, ?_, le_refl _⟩
    intro j t c x' hj a hx'
    rcases Nat.lt_succ_iff_lt_or_eq.1 hj with hj | rfl
    · exact hri j t c x' hj a hx'
    · obtain ⟨e', he', _, _, hc⟩ := a
      rw [he] at he'
      cases he'
      exact absurd hc0 hc
  · rw [if_neg hc0]
    obtain ⟨hun, htn, hc1, hc2⟩ := X.hB _ _ _ he
    have a : RArc g u i e.t e.cost := ⟨e, he, rfl, rfl, hc0⟩
    rw [hR.val u hun, Option.bind_some, hR.val e.t htn, Option.bind_some, R.dist.val e.t htn, Option.bind_some]
    have ec : x - hv u + e.cost + hv u - hv e.t = x + e.cost - hv e.t := by ring
    rw [ec]
    have hb := I.bound X.hB X.hC X.hs hx
    have hht := X.hh e.t
    by_cases hge : x + e.cost - hv e.t ≥ lab inf hv e.t (L e.t)
    · rw [if_pos hge]
      refine ⟨sp, L, M, pv, pe, rfl, I, R, hx, hrx, ?_, le_refl _⟩
      intro j t c x' hj a' hx'
      rcases Nat.lt_succ_iff_lt_or_eq.1 hj with hj | rfl
      · exact hri j t c x' hj a' hx'
      · obtain ⟨e', he', ht', hc', _⟩ := a'
        rw [he] at he'
        cases he'
        rw [hx] at hx'
        cases hx'
        rw [← ht', ← hc']
        cases hL : L e.t with
        | none =>
          rw [hL] at hge
          simp only [lab] at hge
          have := X.hi
          omega
        | some z =>
          rw [hL] at hge
          simp only [lab] at hge
          exact ⟨z, rfl, by omega⟩
    · rw [if_neg hge]
      have hlt : ∀ z, L e.t = some z → x + e.cost < z := by
        intro z hz
        rw [hz] at hge
        simp only [lab] at hge
        omega
      obtain ⟨I', hd, htu⟩ := I.improve X.hf a hx hlt
      unfold MinCost.improve
      obtain ⟨d', e1, R1⟩ := R.dist.wr htn (x + e.cost - hv e.t)
      obtain ⟨H', e2, W2⟩ := push_spec gt_swo R.H htn (x + e.cost - hv e.t)
      obtain ⟨pv', e3, R3⟩ := R.pv.wr htn u
      obtain ⟨pe', e4, R4⟩ := R.pe.wr htn i
      rw [e1, Option.bind_some, e2, Option.bind_some, e3, Option.bind_some, e4]
      have hM1 : insertRaise gt M e.t (x + e.cost - hv e.t) = upd M e.t (some (x + e.cost - hv e.t)) := by
        unfold insertRaise
        cases hM : M e.t with
        | none => rfl
        | some k =>
          have := hlt _ (I.q _ _ hM)
          dsimp only
          rw [if_pos]
          unfold gt
          rw [decide_eq_true_iff]
          omega
      rw [hM1] at W2
      refine ⟨_, _, _, _, _, rfl, I', ⟨R1.congr ?_, R3, R4, W2⟩, ?_, ?_, ?_, ?_⟩
      · intro v _
        by_cases hvt : v = e.t
        · subst hvt
          rw [upd_same, upd_same]
          rfl
        · rw [upd_ne _ _ hvt, upd_ne _ _ hvt]
      · rw [upd_ne _ _ (Ne.symm htu)]; exact hx
      · intro v hvu hvM j t c x' a' hx'
        have hvt : v ≠ e.t := by rintro rfl; rw [upd_same] at hvM; cases hvM
        rw [upd_ne _ _ hvt] at hvM hx'
        obtain ⟨y, hy, hle⟩ := hrx v hvu hvM j t c x' a' hx'
        obtain ⟨y', hy', hle'⟩ := hd _ _ hy
        exact ⟨y', hy', hle'.trans hle⟩
      · intro j t c x' hj a' hx'
        rw [upd_ne _ _ (Ne.symm htu), hx] at hx'
        cases hx'
        rcases Nat.lt_succ_iff_lt_or_eq.1 hj with hj | rfl
        · obtain ⟨y, hy, hle⟩ := hri j t c x hj a' hx
          obtain ⟨y', hy', hle'⟩ := hd _ _ hy
          exact ⟨y', hy', hle'.trans hle⟩
        · obtain ⟨e', he', ht', hc', _⟩ := a'
          rw [he] at he'
          cases he'
          rw [← ht', ← hc']
          exact ⟨_, upd_same .., le_refl _⟩
      · refine le_of_lt (mu_improve htn (I'.lower X.hf (upd_same ..)) ?_)
        cases hL : L e.t with
        | none => dsimp only; omega
        | some z => exact hlt z hL

theorem relax_ok (X : Ctx g n s π hv C inf) {hl : List Int} (hR : Rep hl n hv) {u : Nat} {x : Int} : ∀ (es : List Path) (i : Nat) (sp : SP) (L M : Nat → Option Int) (pv pe : Nat → Nat), (∀ j e, es[j]? = some e → rd2 g u (i+j) = some e) →
    SI g n s hv L M pv pe → SR n inf hv L M pv pe sp → L u = some x → (∀ v, v ≠ u → M v = none → Rx g L v) → RxI g L u i →
    ∃ sp' L' M' pv' pe', relax hl u (x - hv u) i es sp = some sp' ∧ SI g n s hv L' M' pv' pe' ∧ SR n inf hv L' M' pv' pe' sp' ∧ L' u = some x ∧ (∀ v, v ≠ u → M' v = none → Rx g L' v) ∧ RxI g L' u (i + es.length) ∧
      mu n C π s L' M' ≤ mu n C π s L M := by
  intro es
  induction es with
  | nil => intro i sp L M pv pe _ I R hx h1 h2; exact ⟨sp, L, M, pv, pe, rfl, I, R, hx, h1, h2, le_refl _⟩
  | cons e es ih =>
    intro i sp L M pv pe hes I R hx h1 h2
    obtain ⟨sp1, L1, M1, pv1, pe1, a0, a1, a2, a3, a4, a5, a6⟩ := relax1_ok X hR (hes 0 e rfl) I R hx h1 h2
    obtain ⟨sp2, L2, M2, pv2, pe2, b0, b1, b2, b3, b4, b5, b6⟩ := ih (i+1) sp1 L1 M1 pv1 pe1 (fun j e' h => by
      have := hes (j+1) e' h
      rwa [show i + 1 + j = i + (j + 1) by omega]) a1 a2 a3 a4 a5
    refine ⟨sp2, L2, M2, pv2, pe2, ?_, b1, b2, b3, b4, ?_, b6.trans a6⟩
    · rw [relax]
      have : relax1 hl u (x - hv u) i e sp = some sp1 := a0
      rw [this, Option.bind_some]
      exact b0
    · rw [List.length_cons, show i + (es.length + 1) = i + 1 + es.length by omega]
      exact b5

/-- What a finished search leaves. -/
structure Fin (g : G) (n s : Nat) (inf : Int) (hv : Nat → Int) (L : Nat → Option Int) (pv pe : Nat → Nat) (sp : SP) : Prop where
  I : SI g n s hv L (fun _ => none) pv pe
  R : SR n inf hv L (fun _ => none) pv pe sp
  rx : ∀ v, Rx g L v

theorem search_ok (X : Ctx g n s π hv C inf) (hg : g.length = n) {hl : List Int} (hR : Rep hl n hv) : ∀ (f : Nat) (sp : SP) (L M : Nat → Option Int) (pv pe : Nat → Nat), mu n C π s L M < f →
    SI g n s hv L M pv pe → SR n inf hv L M pv pe sp → (∀ v, M v = none → Rx g L v) →
    ∃ sp' L' pv' pe', (∀ f', f ≤ f' → search g hl f' sp = some sp') ∧ Fin g n s inf hv L' pv' pe' sp' := by
  intro f
  induction f with
  | zero => intro sp L M pv pe h; omega
  | succ f ih =>
    intro sp L M pv pe hf I R hrx
    by_cases hz : sp.H.sz = 0
    · have hM := (Verif.Dijkstra.Wf.empty_iff R.H).1 hz
      have hM' : M = fun _ => none := funext hM
      subst hM'
      refine ⟨sp, L, pv, pe, ?_, ⟨I, R, fun v => hrx v rfl⟩⟩
      intro f' hf'
      obtain ⟨k, rfl⟩ : ∃ k, f' = k + 1 := ⟨f' - 1, by omega⟩
      rw [search, if_pos hz]
    · rcases R.H.top with ⟨_, h⟩ | ⟨u, d, h1, h2, h3, h4⟩
      · exact absurd ((Verif.Dijkstra.Wf.empty_iff R.H).2 h) hz
      · obtain ⟨H1, e1, W1⟩ := pop_spec gt_swo R.H h2
        have hLu := I.q u d h3
        have hun := I.lt X.hB X.hs hLu
        have hgu : g[u]? = some g[u] := List.getElem?_eq_getElem (by rw [hg]; exact hun)
        have I1 : SI g n s hv L (upd M u none) pv pe := by
          refine ⟨I.src, fun v k hk => ?_, I.hist, I.pred, I.chain⟩
          have hvu : v ≠ u := by rintro rfl; rw [upd_same] at hk; cases hk
          rw [upd_ne _ _ hvu] at hk
          exact I.q v k hk
        obtain ⟨sp2, L2, M2, pv2, pe2, b0, b1, b2, b3, b4, b5, b6⟩ := relax_ok X hR (u := u) (x := d + hv u) g[u] 0 ⟨sp.dist, sp.pv, sp.pe, H1⟩ L (upd M u none) pv pe
          (fun j e he => by unfold rd2; rw [hgu, Option.bind_some, Nat.zero_add]; exact he) I1 ⟨R.dist, R.pv, R.pe, W1⟩ hLu
          (fun v hvu hv => by rw [upd_ne _ _ hvu] at hv; exact hrx v hv) (fun j t c x hj => by omega)
        have hmu : mu n C π s L2 M2 < f := by
          have := mu_pop (n := n) (C := C) (π := π) (s := s) (L := L) hun h3
          omega
        obtain ⟨sp3, L3, pv3, pe3, c0, c1⟩ := ih sp2 L2 M2 pv2 pe2 hmu b1 b2 (fun v hv => by
          by_cases hvu : v = u
          · subst hvu
            intro j t c x a hx
            refine b5 j t c x ?_ a hx
            obtain ⟨e, he, _⟩ := a
            unfold rd2 at he
            rw [hgu, Option.bind_some] at he
            rw [Nat.zero_add]
            exact (List.getElem?_eq_some_iff.1 he).1
          · exact b4 v hvu hv)
        refine ⟨sp3, L3, pv3, pe3, ?_, c1⟩
        intro f' hf'
        obtain ⟨k, rfl⟩ : ∃ k, f' = k + 1 := ⟨f' - 1, by omega⟩
        rw [search, if_neg hz, h1, Option.bind_some, e1, Option.bind_some]
        dsimp only
        rw [hgu, Option.bind_some]
        have ed : d + hv u - hv u = d := by ring
        rw [ed] at b0
        rw [b0, Option.bind_some]
        exact c0 k (by omega)

end Verif.MinCost
