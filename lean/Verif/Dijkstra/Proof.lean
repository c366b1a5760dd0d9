import Verif.Dijkstra.Model
import Verif.Dijkstra.Spec
import Verif.FibHeap.Refine
/-!
Dijkstra's algorithm: the invariant.
-/
namespace Verif.Dijkstra
open Verif.FibHeap

theorem gt_swo : SWO gt := by
  unfold gt
  exact ⟨fun a => by simp, fun a b h => by simp at h ⊢; omega, fun a b c h h' => by simp at h h' ⊢; omega⟩

/-- `Fn`: the vertices taken from the queue; `M`: the queue; `dv`: the distances so far. -/
structure Inv (E : List (Nat × Nat × Int)) (s n : Nat) (inf : Int) (Fn : Finset Nat) (dv : Nat → Int) (M : Nat → Option Int) : Prop where
  lt : ∀ v ∈ Fn, v < n
  q : ∀ v x, M v = some x → v < n ∧ v ∉ Fn ∧ dv v = x ∧ x < inf ∧ ∀ u ∈ Fn, dv u ≤ x
  infty : ∀ v, v < n → v ∉ Fn → M v = none → dv v = inf
  fin : ∀ v ∈ Fn, dv v < inf
  walk : ∀ v, v < n → dv v < inf → Walk E s v (dv v)
  src : dv s ≤ 0

/-- All edges out of `v` are relaxed. -/
def Rlx (E : List (Nat × Nat × Int)) (dv : Nat → Int) (v : Nat) : Prop := ∀ t w, (v, t, w) ∈ E → dv t ≤ dv v + w

variable {E : List (Nat × Nat × Int)} {s n : Nat} {inf B : Int}

theorem relax_ok (hE : ∀ u t w, (u, t, w) ∈ E → u < n ∧ t < n ∧ 0 ≤ w ∧ inf + w ≤ B) (hs0 : s < n) {Fn : Finset Nat} {v : Nat} (hv : v ∈ Fn) {d : Int} (hd0 : 0 ≤ d) :
    ∀ (es dn : List (Nat × Int)) (dist : List Int) (dv : Nat → Int) (M : Nat → Option Int) (H : Hp Int), (∀ e ∈ es, (v, e.1, e.2) ∈ E) →
      Verif.Rep dist n dv → Wf gt n M H → Inv E s n inf Fn dv M → dv v = d → (∀ u ∈ Fn, dv u ≤ d) → (∀ u x, M u = some x → d ≤ x) →
      (∀ u ∈ Fn, u ≠ v → Rlx E dv u) → (∀ e ∈ dn, dv e.1 ≤ d + e.2) →
      ∃ dist' dv' M' H', relax B d es dist H = some (dist', H') ∧ Verif.Rep dist' n dv' ∧ Wf gt n M' H' ∧ Inv E s n inf Fn dv' M' ∧ dv' v = d ∧ (∀ u x, M' u = some x → d ≤ x) ∧
        (∀ u ∈ Fn, u ≠ v → Rlx E dv' u) ∧ ∀ e ∈ dn ++ es, dv' e.1 ≤ d + e.2 := by
  intro es
  induction es with
  | nil =>
    intro dn dist dv M H _ R W I h1 h2 h3 h4 h5
    exact ⟨dist, dv, M, H, rfl, R, W, I, h1, h3, h4, by rw [List.append_nil]; exact h5⟩
  | cons e es ih =>
    intro dn dist dv M H hes R W I h1 h2 h3 h4 h5
    have he := hes e (List.mem_cons_self ..)
    obtain ⟨hvn, htn, hw, hB⟩ := hE _ _ _ he
    have hdi : d < inf := h1 ▸ I.fin v hv
    rw [relax, R.val e.1 htn, Option.bind_some]
    have ha : add B d e.2 = some (d + e.2) := by
      unfold add
      rw [if_pos (by omega)]
    rw [ha, Option.bind_some]
    have hes' : ∀ e ∈ es, (v, e.1, e.2) ∈ E := fun x hx => hes x (List.mem_cons_of_mem _ hx)
    by_cases hc : dv e.1 ≤ d + e.2
    · rw [if_pos hc]
      obtain ⟨a1, a2, a3, a4, b0, b1, b2, b3, b4, b5, b6, b7⟩ := ih (dn ++ [e]) dist dv M H hes' R W I h1 h2 h3 h4 (fun x hx => by
        rcases List.mem_append.1 hx with h | h
        · exact h5 x h
        · rw [List.mem_singleton] at h; subst h; exact hc)
      exact ⟨a1, a2, a3, a4, b0, b1, b2, b3, b4, b5, b6, by rw [List.append_assoc] at b7; exact b7⟩
    · rw [if_neg hc]
      obtain ⟨dist1, e1, R1⟩ := R.wr htn (d + e.2)
      rw [e1, Option.bind_some]
      obtain ⟨H1, e2, W1⟩ := push_spec gt_swo W htn (d + e.2)
      rw [e2, Option.bind_some]
      have htF : e.1 ∉ Fn := fun h => by have := h2 e.1 h; omega
      have htv : e.1 ≠ v := fun h => htF (h ▸ hv)
      have hle : dv e.1 ≤ inf := by
        cases hM : M e.1 with
        | none => exact le_of_eq (I.infty e.1 htn htF hM)
        | some x => have := I.q e.1 x hM; omega
      have hM1 : insertRaise gt M e.1 (d + e.2) = upd M e.1 (some (d + e.2)) := by
        unfold insertRaise
        cases hM : M e.1 with
        | none => rfl
        | some x =>
          have := I.q e.1 x hM
          dsimp only
          rw [if_pos]
          unfold gt
          rw [decide_eq_true_iff]
          omega
      rw [hM1] at W1
      have hup : ∀ u, u ≠ e.1 → upd dv e.1 (d + e.2) u = dv u := fun u hu => upd_ne _ _ hu
      have hmono : ∀ u, upd dv e.1 (d + e.2) u ≤ dv u := by
        intro u
        by_cases hu : u = e.1
        · subst hu; rw [upd_same]; omega
        · rw [hup u hu]
      have hFn : ∀ u ∈ Fn, upd dv e.1 (d + e.2) u = dv u := fun u hu => hup u (fun h => htF (h ▸ hu))
      have I1 : Inv E s n inf Fn (upd dv e.1 (d + e.2)) (upd M e.1 (some (d + e.2))) := by
        refine ⟨I.lt, ?_, ?_, ?_, ?_, ?_⟩
        · intro u x hx
          by_cases hu : u = e.1
          · subst hu
            rw [upd_same] at hx
            cases hx
            refine ⟨htn, htF, upd_same .., by omega, fun u hu => ?_⟩
            rw [hFn u hu]
            have := h2 u hu
            omega
          · rw [upd_ne _ _ hu] at hx
            obtain ⟨c1, c2, c3, c4, c5⟩ := I.q u x hx
            exact ⟨c1, c2, by rw [hup u hu]; exact c3, c4, fun a ha => by rw [hFn a ha]; exact c5 a ha⟩
        · intro u hun huF hu
          have hne : u ≠ e.1 := by rintro rfl; rw [upd_same] at hu; cases hu
          rw [upd_ne _ _ hne] at hu ⊢
          exact I.infty u hun huF hu
        · intro u hu; rw [hFn u hu]; exact I.fin u hu
        · intro u hun hu
          by_cases hne : u = e.1
          · subst hne
            rw [upd_same]
            have := I.walk v hvn (by rw [h1]; exact hdi)
            rw [h1] at this
            exact this.snoc he
          · rw [hup u hne] at hu ⊢
            exact I.walk u hun hu
        · have := hmono s; have := I.src; omega
      obtain ⟨a1, a2, a3, a4, b0, b1, b2, b3, b4, b5, b6, b7⟩ := ih (dn ++ [e]) dist1 (upd dv e.1 (d + e.2)) (upd M e.1 (some (d + e.2))) H1 hes' R1 W1 I1
        (by rw [hFn v hv]; exact h1) (fun u hu => by rw [hFn u hu]; exact h2 u hu)
        (fun u x hx => by
          by_cases hu : u = e.1
          · subst hu; rw [upd_same] at hx; cases hx; omega
          · rw [upd_ne _ _ hu] at hx; exact h3 u x hx)
        (fun u hu hne t w htw => by
          rw [hFn u hu]
          have := h4 u hu hne t w htw
          have := hmono t
          omega)
        (fun x hx => by
          rcases List.mem_append.1 hx with h | h
          · have := h5 x h
            have := hmono x.1
            omega
          · rw [List.mem_singleton] at h; subst h; rw [upd_same])
      exact ⟨a1, a2, a3, a4, b0, b1, b2, b3, b4, b5, b6, by rw [List.append_assoc] at b7; exact b7⟩

theorem Wf.empty_iff {α : Type} {lt : α → α → Bool} {N : Nat} {M : Nat → Option α} {H : Hp α} (W : Wf lt N M H) : H.sz = 0 ↔ ∀ k, M k = none := by
  have hlt := fun k => W.lt_N (k := k)
  obtain ⟨K, o, g, W⟩ := W
  rw [W.sz]
  unfold count
  rw [Finset.card_eq_zero, Finset.filter_eq_empty_iff]
  constructor
  · intro h k
    cases hk : M k with
    | none => rfl
    | some v =>
      have hs : Sup M k := by unfold Sup; rw [hk]; rfl
      exact absurd hs (h (Finset.mem_range.2 (hlt k hs)))
  · intro h k _
    rw [h k]
    simp

/-- At the end, `dv` is the distance. -/
theorem final (hE : ∀ u t w, (u, t, w) ∈ E → u < n ∧ t < n ∧ 0 ≤ w ∧ inf + w ≤ B) (hs : s < n) {Fn : Finset Nat} {dv : Nat → Int} {M : Nat → Option Int} (I : Inv E s n inf Fn dv M) (hM : ∀ k, M k = none)
    (hr : ∀ u ∈ Fn, Rlx E dv u) : ∀ v, v < n → IsDist E s inf v (dv v) := by
  have key : ∀ v y, Walk E s v y → v < n ∧ (dv v ≤ y ∨ inf ≤ y) := by
    intro v y w
    induction w with
    | nil => exact ⟨hs, Or.inl I.src⟩
    | @snoc u v x c h he ih =>
      obtain ⟨h1, h2, h3, _⟩ := hE _ _ _ he
      refine ⟨h2, ?_⟩
      rcases ih.2 with h | h
      · by_cases hu : u ∈ Fn
        · have := hr u hu v c he
          left; omega
        · have := I.infty u h1 hu (hM u)
          right; omega
      · right; omega
  intro v hv
  by_cases hF : v ∈ Fn
  · left
    have hlt := I.fin v hF
    refine ⟨hlt, I.walk v hv hlt, fun y w => ?_⟩
    rcases (key v y w).2 with h | h <;> omega
  · right
    have := I.infty v hv hF (hM v)
    refine ⟨this, fun y w => ?_⟩
    rcases (key v y w).2 with h | h <;> omega

/-- Weights of walks are not negative. -/
theorem Walk.nonneg (hE : ∀ u t w, (u, t, w) ∈ E → u < n ∧ t < n ∧ 0 ≤ w ∧ inf + w ≤ B) {v : Nat} {y : Int} (w : Walk E s v y) : 0 ≤ y := by
  induction w with
  | nil => exact le_refl _
  | snoc h he ih => have := (hE _ _ _ he).2.2.1; omega

/-- One round of the loop. -/
theorem round_ok (hE : ∀ u t w, (u, t, w) ∈ E → u < n ∧ t < n ∧ 0 ≤ w ∧ inf + w ≤ B) (hs : s < n) {g : List (List (Nat × Int))}
    (hg : ∀ v, v < n → ∃ es, g[v]? = some es ∧ ∀ t w, (t, w) ∈ es ↔ (v, t, w) ∈ E)
    {Fn : Finset Nat} {dist : List Int} {dv : Nat → Int} {M : Nat → Option Int} {H : Hp Int} (R : Verif.Rep dist n dv) (W : Wf gt n M H) (I : Inv E s n inf Fn dv M) (hr : ∀ u ∈ Fn, Rlx E dv u) (hz : H.sz ≠ 0) :
    ∃ v d H1 M1 es dist2 dv2 M2 H2, top H = some (v, d) ∧ pop gt H = some H1 ∧ Wf gt n M1 H1 ∧ v < n ∧ v ∉ Fn ∧ dist[v]? = some d ∧ g[v]? = some es ∧ relax B d es dist H1 = some (dist2, H2) ∧
      Verif.Rep dist2 n dv2 ∧ Wf gt n M2 H2 ∧ Inv E s n inf (insert v Fn) dv2 M2 ∧ ∀ u ∈ insert v Fn, Rlx E dv2 u := by
  rcases W.top with ⟨_, h⟩ | ⟨v, d, h1, h2, h3, h4⟩
  · exact absurd ((Wf.empty_iff W).2 h) hz
  · obtain ⟨H1, e1, W1⟩ := pop_spec gt_swo W h2
    obtain ⟨hvn, hvF, hdv, hdi, hmin⟩ := I.q v d h3
    obtain ⟨es, hes, hmem⟩ := hg v hvn
    have hd0 : 0 ≤ d := by
      have := I.walk v hvn (by omega)
      rw [hdv] at this
      exact this.nonneg hE
    have hge : ∀ u x, upd M v none u = some x → u ≠ v ∧ M u = some x ∧ d ≤ x := by
      intro u x hx
      have hu : u ≠ v := by rintro rfl; rw [upd_same] at hx; cases hx
      rw [upd_ne _ _ hu] at hx
      have := h4 u x hx
      unfold gt at this
      rw [decide_eq_false_iff_not] at this
      exact ⟨hu, hx, by omega⟩
    have I1 : Inv E s n inf (insert v Fn) dv (upd M v none) := by
      refine ⟨?_, ?_, ?_, ?_, I.walk, I.src⟩
      · intro u hu
        rcases Finset.mem_insert.1 hu with rfl | h
        · exact hvn
        · exact I.lt u h
      · intro u x hx
        obtain ⟨a, b, c⟩ := hge u x hx
        obtain ⟨c1, c2, c3, c4, c5⟩ := I.q u x b
        refine ⟨c1, ?_, c3, c4, ?_⟩
        · rw [Finset.mem_insert, not_or]; exact ⟨a, c2⟩
        · intro y hy
          rcases Finset.mem_insert.1 hy with rfl | h
          · omega
          · exact c5 y h
      · intro u hun hu hM
        rw [Finset.mem_insert, not_or] at hu
        rw [upd_ne _ _ hu.1] at hM
        exact I.infty u hun hu.2 hM
      · intro u hu
        rcases Finset.mem_insert.1 hu with rfl | h
        · omega
        · exact I.fin u h
    obtain ⟨dist2, dv2, M2, H2, e2, R2, W2, I2, d2, g2, r2, p2⟩ := relax_ok (B := B) hE hs (Finset.mem_insert_self v Fn) hd0 es [] dist dv (upd M v none) H1
      (fun e he => (hmem e.1 e.2).1 he) R W1 I1 hdv (fun u hu => by
        rcases Finset.mem_insert.1 hu with rfl | h
        · omega
        · exact hmin u h) (fun u x hx => (hge u x hx).2.2) (fun u hu hne => by
        rcases Finset.mem_insert.1 hu with rfl | h
        · exact absurd rfl hne
        · exact hr u h) (by intro e he; cases he)
    refine ⟨v, d, H1, _, es, dist2, dv2, M2, H2, h1, e1, W1, hvn, hvF, by rw [R.val v hvn, hdv], hes, e2, R2, W2, I2, ?_⟩
    intro u hu
    by_cases huv : u = v
    · subst huv
      intro t w htw
      rw [d2]
      exact p2 (t, w) (by rw [List.nil_append]; exact (hmem t w).2 htw)
    · exact r2 u hu huv

theorem search_ok (hE : ∀ u t w, (u, t, w) ∈ E → u < n ∧ t < n ∧ 0 ≤ w ∧ inf + w ≤ B) (hs : s < n) {g : List (List (Nat × Int))}
    (hg : ∀ v, v < n → ∃ es, g[v]? = some es ∧ ∀ t w, (t, w) ∈ es ↔ (v, t, w) ∈ E) :
    ∀ (f : Nat) (Fn : Finset Nat) (dist : List Int) (dv : Nat → Int) (M : Nat → Option Int) (H : Hp Int), n < Fn.card + f → Verif.Rep dist n dv → Wf gt n M H → Inv E s n inf Fn dv M → (∀ u ∈ Fn, Rlx E dv u) →
      ∃ dist', search B g f dist H = some dist' ∧ dist'.length = n ∧ ∀ v, v < n → ∃ x, dist'[v]? = some x ∧ IsDist E s inf v x := by
  intro f
  induction f with
  | zero =>
    intro Fn dist dv M H hf R W I hr
    have : Fn ⊆ Finset.range n := fun v hv => Finset.mem_range.2 (I.lt v hv)
    have := Finset.card_le_card this
    rw [Finset.card_range] at this
    omega
  | succ f ih =>
    intro Fn dist dv M H hf R W I hr
    rw [search]
    by_cases hz : H.sz = 0
    · rw [if_pos hz]
      have hM := (Wf.empty_iff W).1 hz
      exact ⟨dist, rfl, R.len, fun v hv => ⟨_, R.val v hv, final hE hs I hM hr v hv⟩⟩
    · rw [if_neg hz]
      obtain ⟨v, d, H1, M1, es, dist2, dv2, M2, H2, h1, e1, _, _, hvF, hd, hes, e2, R2, W2, I2, r2⟩ := round_ok hE hs hg R W I hr hz
      rw [h1, Option.bind_some, e1, Option.bind_some]
      dsimp only
      rw [hd, Option.bind_some, if_pos rfl, hes, Option.bind_some, e2, Option.bind_some]
      exact ih (insert v Fn) dist2 dv2 M2 H2 (by rw [Finset.card_insert_of_notMem hvF]; omega) R2 W2 I2 r2

theorem dijkstra_ok (hE : ∀ u t w, (u, t, w) ∈ E → u < n ∧ t < n ∧ 0 ≤ w ∧ inf + w ≤ B) (hs : s < n) (hinf : 0 < inf) {g : List (List (Nat × Int))} (hlen : g.length = n)
    (hg : ∀ v, v < n → ∃ es, g[v]? = some es ∧ ∀ t w, (t, w) ∈ es ↔ (v, t, w) ∈ E) :
    ∃ dist, dijkstra B g s inf = some dist ∧ dist.length = n ∧ ∀ v, v < n → ∃ x, dist[v]? = some x ∧ IsDist E s inf v x := by
  unfold dijkstra
  rw [hlen]
  obtain ⟨H, e, W⟩ := mk_wf (α := Int) gt n
  rw [e, Option.bind_some]
  obtain ⟨dist, e1, R1⟩ := (Verif.Rep.replicate n inf).wr hs 0
  rw [e1, Option.bind_some]
  obtain ⟨H1, e2, W1⟩ := push_spec gt_swo W hs 0
  rw [e2, Option.bind_some]
  have : insertRaise gt (fun _ => none) s 0 = upd (fun _ => none) s (some 0) := rfl
  rw [this] at W1
  refine search_ok hE hs hg (n+1) ∅ dist _ _ H1 (by simp) R1 W1 ⟨(fun v hv => by cases hv), ?_, ?_, (fun v hv => by cases hv), ?_, ?_⟩ (fun v hv => by cases hv)
  · intro v x hx
    by_cases hv : v = s
    · subst hv
      rw [upd_same] at hx
      cases hx
      exact ⟨hs, by simp, upd_same .., hinf, fun u hu => by cases hu⟩
    · rw [upd_ne _ _ hv] at hx
      cases hx
  · intro v _ _ hx
    have hv : v ≠ s := by rintro rfl; rw [upd_same] at hx; cases hx
    rw [upd_ne _ _ hv]
  · intro v _ hx
    by_cases hv : v = s
    · subst hv
      rw [upd_same]
      exact Walk.nil
    · rw [upd_ne _ _ hv] at hx
      exact absurd hx (lt_irrefl _)
  · rw [upd_same]

theorem addDirs_ok {W : Type} (cv : W → Int) : ∀ (E : List (Nat × Nat × W)) (g : List (List (Nat × Int))), (∀ e ∈ E, e.1 < g.length ∧ e.2.1 < g.length) →
    ∃ g', addDirs cv E g = some g' ∧ g'.length = g.length ∧ ∀ v es, g[v]? = some es → ∃ es', g'[v]? = some es' ∧ ∀ t w, (t, w) ∈ es' ↔ (t, w) ∈ es ∨ ∃ c, (v, t, c) ∈ E ∧ cv c = w := by
  intro E
  induction E with
  | nil => intro g _; exact ⟨g, rfl, rfl, fun v es h => ⟨es, h, fun t w => by simp⟩⟩
  | cons e E ih =>
    intro g h
    obtain ⟨a1, a2⟩ := h e (List.mem_cons_self ..)
    have ge : g[e.1]? = some g[e.1] := List.getElem?_eq_getElem a1
    have e1 : addDir cv g e = some (g.set e.1 (g[e.1] ++ [(e.2.1, cv e.2.2)])) := by
      unfold addDir wr
      rw [ge, Option.bind_some, if_pos a2, if_pos a1]
    obtain ⟨g', e2, l, hg⟩ := ih (g.set e.1 (g[e.1] ++ [(e.2.1, cv e.2.2)])) (fun x hx => by rw [List.length_set]; exact h x (List.mem_cons_of_mem _ hx))
    refine ⟨g', by rw [addDirs, e1, Option.bind_some, e2], by rw [l, List.length_set], fun v es hv => ?_⟩
    by_cases hve : v = e.1
    · subst hve
      rw [ge] at hv
      cases hv
      obtain ⟨es', h1, h2⟩ := hg e.1 _ (List.getElem?_set_self a1)
      refine ⟨es', h1, fun t w => ?_⟩
      rw [h2, List.mem_append, List.mem_singleton, or_assoc]
      refine or_congr_right ⟨?_, ?_⟩
      · rintro (h | ⟨c, hc, hw⟩)
        · refine ⟨e.2.2, ?_, (Prod.mk.inj h).2.symm⟩
          rw [(Prod.mk.inj h).1]
          exact List.mem_cons_self ..
        · exact ⟨c, List.mem_cons_of_mem _ hc, hw⟩
      · rintro ⟨c, hc, hw⟩
        rcases List.mem_cons.1 hc with h | h
        · left
          rw [← h, ← hw]
        · exact Or.inr ⟨c, h, hw⟩
    · obtain ⟨es', h1, h2⟩ := hg v es (by rw [List.getElem?_set_ne (Ne.symm hve)]; exact hv)
      refine ⟨es', h1, fun t w => ?_⟩
      rw [h2]
      refine or_congr_right ⟨?_, ?_⟩
      · rintro ⟨c, hc, hw⟩; exact ⟨c, List.mem_cons_of_mem _ hc, hw⟩
      · rintro ⟨c, hc, hw⟩
        rcases List.mem_cons.1 hc with h | h
        · exact absurd (congrArg Prod.fst h) hve
        · exact ⟨c, h, hw⟩

end Verif.Dijkstra
