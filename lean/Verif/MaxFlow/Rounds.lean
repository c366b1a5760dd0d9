import Verif.MaxFlow.Props
import Mathlib.Data.Finset.Card
/-!
How many rounds `Dinic::flow` takes.
-/
namespace Verif.MaxFlow
open Finset

/-- A round that starts with the levels `D` and turns `g` into `g'`: what the next levels `D'` look like. -/
structure Turn (n s t : Nat) (g g' : G) (D D' : Nat → Nat) (dist dist' : List Nat) : Prop where
  bi : BInv n g s t D dist []
  bi' : BInv n g' s t D' dist' []
  mono : Mono D g g'
  tl : t < n
  small : n < IINF
  len : g'.length = n
  tlt : ∀ u i e, getE g' u i = some e → e.t < n
  fin : D t < n

namespace Turn
variable {n s t : Nat} {g g' : G} {D D' : Nat → Nat} {dist dist' : List Nat}

/-- The old levels, cut off at the level of the sink, still increase by at most one along an arc. -/
theorem pot (T : Turn n s t g g' D D' dist dist') {w j : Nat} {x : FlowPath} (h : getE g' w j = some x) (hc : x.cap ≠ 0) :
    min (D x.t) (D t) ≤ min (D w) (D t) + 1 := by
  obtain ⟨y, h1, h2, h3⟩ := T.mono w j x h
  rw [h2]
  by_cases hd : D y.t + 1 = D w
  · omega
  · have := h3 hd
    by_cases hw : w = t
    · rw [hw]; omega
    · by_cases hI : D w = IINF
      · have := T.fin; have := T.small; omega
      · have := T.bi.clo w (T.len ▸ getE_lt h) hI hw (by simp) j y h1 (by omega)
        omega

theorem lower (T : Turn n s t g g' D D' dist dist') : ∀ (k v : Nat), v < n → D' v = k → D' v ≠ IINF → min (D v) (D t) ≤ D' v := by
  intro k
  induction k with
  | zero =>
    intro v hv hk hI
    by_cases c : v = s
    · rw [c, T.bi.src]; omega
    · obtain ⟨u, j, x, p1, p2, p3, p4, p5⟩ := T.bi'.pred v hv c hI
      omega
  | succ k ih =>
    intro v hv hk hI
    by_cases c : v = s
    · rw [c, T.bi.src]; omega
    · obtain ⟨u, j, x, p1, p2, p3, p4, p5⟩ := T.bi'.pred v hv c hI
      have := ih u (T.len ▸ getE_lt p1) (by omega) p5
      have := T.pot p1 p2
      rw [p3] at this
      omega

/-- The sink does not come nearer. -/
theorem le (T : Turn n s t g g' D D' dist dist') (h : D' t ≠ IINF) : D t ≤ D' t := by
  have := T.lower _ t T.tl rfl h
  omega

end Turn

theorem Lp.le {g : G} {D : Nat → Nat} {t v : Nat} (h : Lp g D t v) : D v ≤ D t := by
  induction h with
  | here => exact le_refl _
  | step h hc hl hp ih => omega

theorem Lp.fin {g : G} {D : Nat → Nat} {t n v : Nat} (h : Lp g D t v) (hn : n < IINF) (hD : ∀ v < n, D v = IINF ∨ D v < n)
    (ht : ∀ u i e, getE g u i = some e → e.t < n) : D v < n → D t < n := by
  induction h with
  | here => exact id
  | step h hc hl hp ih =>
    intro hv
    apply ih
    rcases hD _ (ht _ _ _ h) with c | c
    · omega
    · exact c

/-- If the sink stays at its level, the level paths to it are old ones. -/
theorem Turn.back {n s t : Nat} {g g' : G} {D D' : Nat → Nat} {dist dist' : List Nat} (T : Turn n s t g g' D D' dist dist') (e : D' t = D t) {v : Nat}
    (h : Lp g' D' t v) : v < n → D v = D' v ∧ Lp g D t v := by
  induction h with
  | here => exact fun _ => ⟨e.symm, Lp.here⟩
  | @step v j x h hc hl hp ih =>
    intro hv
    obtain ⟨i1, i2⟩ := ih (T.tlt _ _ _ h)
    have h1 := hp.le
    have h2 := T.pot h hc
    have := T.fin
    have := T.small
    have h3 := T.lower _ v hv rfl (by omega)
    have hDv : D v = D' v := by omega
    obtain ⟨y, y1, y2, y3⟩ := T.mono v j x h
    rw [y2] at hl i1 i2
    have := y3 (by omega)
    exact ⟨hDv, Lp.step y1 (by omega) (by omega) i2⟩

/-- The `j`-th arc at `w` lies on a level path to the sink. -/
def On (g : G) (D : Nat → Nat) (t w j : Nat) : Prop := ∃ x, getE g w j = some x ∧ x.cap ≠ 0 ∧ D x.t = D w + 1 ∧ Lp g D t x.t

theorem Turn.on {n s t : Nat} {g g' : G} {D D' : Nat → Nat} {dist dist' : List Nat} (T : Turn n s t g g' D D' dist dist') (e : D' t = D t) {w j : Nat}
    (h : On g' D' t w j) : On g D t w j := by
  obtain ⟨x, h1, h2, h3, h4⟩ := h
  obtain ⟨a1, _⟩ := T.back e (Lp.step h1 h2 h3 h4) (T.len ▸ getE_lt h1)
  obtain ⟨b1, b2⟩ := T.back e h4 (T.tlt _ _ _ h1)
  obtain ⟨y, y1, y2, y3⟩ := T.mono w j x h1
  rw [y2] at h3 b1 b2
  have := y3 (by omega)
  exact ⟨y, y1, by omega, by omega, b2⟩

open Classical in
/-- The edges that lie, in one of the two directions, on level paths to the sink. -/
noncomputable def crit (es : List Arc) (pf pr : Nat → Nat) (g : G) (D : Nat → Nat) (t : Nat) : Finset Nat :=
  (range es.length).filter (fun k => On g D t (arc es k).a (pf k) ∨ On g D t (arc es k).b (pr k))

theorem mem_crit {es : List Arc} {pf pr : Nat → Nat} {g : G} {D : Nat → Nat} {t k : Nat} :
    k ∈ crit es pf pr g D t ↔ k < es.length ∧ (On g D t (arc es k).a (pf k) ∨ On g D t (arc es k).b (pr k)) := by
  classical
  unfold crit
  rw [mem_filter, mem_range]

/-- Bound for the number of further rounds that send flow. -/
noncomputable def pend (n : Nat) (es : List Arc) (pf pr : Nat → Nat) (g : G) (D : Nat → Nat) (t : Nat) : Nat :=
  (n - 1 - D t) * es.length + (crit es pf pr g D t).card

theorem crit_le (es : List Arc) (pf pr : Nat → Nat) (g : G) (D : Nat → Nat) (t : Nat) : (crit es pf pr g D t).card ≤ es.length := by
  classical
  unfold crit
  exact (card_filter_le _ _).trans (by simp)

/-- A saturated edge is no longer on level paths of the same length. -/
theorem crit_lt {n s t : Nat} {g g' : G} {D D' : Nat → Nat} {dist dist' : List Nat} {es : List Arc} {pf pr φ : Nat → Nat} (T : Turn n s t g g' D D' dist dist')
    (R : Rp n es pf pr φ g) (hs : Sat D t g g') :
    0 < (crit es pf pr g D t).card ∧ (D' t = D t → (crit es pf pr g' D' t).card < (crit es pf pr g D t).card) := by
  obtain ⟨w, j, x, h1, h2, h3, h4, h5⟩ := hs
  have hon : On g D t w j := ⟨x, h1, h2, h3, h4⟩
  obtain ⟨k, hk, hc⟩ := R.all w j x h1
  have hmem : k ∈ crit es pf pr g D t := by
    rw [mem_crit]
    refine ⟨hk, ?_⟩
    rcases hc with ⟨rfl, rfl⟩ | ⟨rfl, rfl⟩
    · exact Or.inl hon
    · exact Or.inr hon
  refine ⟨card_pos.2 ⟨k, hmem⟩, fun e => card_lt_card ?_⟩
  rw [ssubset_iff_of_subset]
  · refine ⟨k, hmem, ?_⟩
    rw [mem_crit]
    rintro ⟨_, hor⟩
    have hno : ¬ On g' D' t w j := fun ⟨x', a1, a2, _, _⟩ => a2 (h5 x' a1)
    rcases hc with ⟨rfl, rfl⟩ | ⟨rfl, rfl⟩
    · rcases hor with h | h
      · exact hno h
      · obtain ⟨y, y1, y2, y3, y4⟩ := T.on e h
        rw [R.bw k hk] at y1; cases y1
        rw [R.fw k hk] at h1; cases h1
        dsimp only at y3 h3
        omega
    · rcases hor with h | h
      · obtain ⟨y, y1, y2, y3, y4⟩ := T.on e h
        rw [R.fw k hk] at y1; cases y1
        rw [R.bw k hk] at h1; cases h1
        dsimp only at y3 h3
        omega
      · exact hno h
  · intro l hl
    rw [mem_crit] at hl ⊢
    exact ⟨hl.1, hl.2.imp (T.on e) (T.on e)⟩

theorem pend_lt {n s t : Nat} {g g' : G} {D D' : Nat → Nat} {dist dist' : List Nat} {es : List Arc} {pf pr φ : Nat → Nat} (T : Turn n s t g g' D D' dist dist')
    (R : Rp n es pf pr φ g) (hs : Sat D t g g') (h : D' t < n) : pend n es pf pr g' D' t < pend n es pf pr g D t := by
  obtain ⟨h1, h2⟩ := crit_lt T R hs
  have h3 := T.le (by have := T.small; omega)
  unfold pend
  rcases Nat.eq_or_lt_of_le h3 with e | e
  · rw [← e]
    have := h2 e.symm
    omega
  · have a := crit_le es pf pr g' D' t
    have b : (n - 1 - D' t + 1) * es.length ≤ (n - 1 - D t) * es.length := Nat.mul_le_mul_right _ (by omega)
    rw [Nat.add_mul, Nat.one_mul] at b
    omega

theorem dFlowLoop_rounds {n : Nat} {es : List Arc} {pf pr : Nat → Nat} {s t : Nat} (hst : s ≠ t) (hs : s < n) (ht : t < n) (hn : n < IINF) (hI : total es < INF)
    (lim : Int) (F0 : Nat) : ∀ (fuel : Nat) (φ : Nat → Nat) (g : G) (F : Nat), Rp n es pf pr φ g → IsFlow es s t φ (F0 + F) → 0 < fuel →
      (∀ D dist, BInv n g s t D dist [] → Lp g D t s → pend n es pf pr g D t < fuel) →
      ∃ g' F', dFlowLoop s t fuel g (lim - F) F = some (g', F') ∧ FlowPost n es pf pr s t F0 g' F' (lim = F') := by
  intro fuel
  induction fuel with
  | zero => intro φ g F R h hb; omega
  | succ fuel ih =>
    intro φ g F R h _ hb
    unfold dFlowLoop
    by_cases hl : lim - (F : Int) ≠ 0
    · rw [if_pos hl]
      obtain ⟨g', d, φ', e1, e2, e3, ⟨D, dist, I, M, hprog⟩, e4⟩ := dStep R h hst hs ht hn
      rw [e1, Option.bind_some]
      dsimp only
      by_cases hd : 0 < d
      · rw [if_pos hd]
        obtain ⟨hlp, hsat⟩ := hprog hd
        have hle := flow_le_total e3 hst
        have hsat := hsat.resolve_left (by omega)
        have hp := hb D dist I hlp
        have fin : ∀ (D : Nat → Nat) (dist : List Nat) (g : G), BInv n g s t D dist [] → (∀ v < n, D v = IINF ∨ D v < n) := by
          intro D dist g I v hv
          rcases I.cnt v hv with c | c
          · exact Or.inl c
          · right; omega
        have hDt : D t < n := hlp.fin hn (fin D dist g I) (fun u i e he => R.t_lt he) (by rw [I.src]; omega)
        have := ih φ' g' (F + d) e2 (by rw [← Nat.add_assoc]; exact e3) (by
          have hc : 0 < (crit es pf pr g D t).card := by
            obtain ⟨w, j, x, h1, h2, h3, h4, h5⟩ := hsat
            obtain ⟨k, hk, hc⟩ := R.all w j x h1
            refine card_pos.2 ⟨k, ?_⟩
            rw [mem_crit]
            refine ⟨hk, ?_⟩
            rcases hc with ⟨rfl, rfl⟩ | ⟨rfl, rfl⟩
            · exact Or.inl ⟨x, h1, h2, h3, h4⟩
            · exact Or.inr ⟨x, h1, h2, h3, h4⟩
          unfold pend at hp
          omega) (by
          intro D' dist' I' hlp'
          have hDt' : D' t < n := hlp'.fin hn (fin D' dist' g' I') (fun u i e he => e2.t_lt he) (by rw [I'.src]; omega)
          have := pend_lt (D' := D') (dist' := dist') ⟨I, I', M, ht, hn, e2.len, fun u i e he => e2.t_lt he, hDt⟩ R hsat hDt'
          omega)
        have e : lim - ((F + d : Nat) : Int) = lim - F - d := by push_cast; ring
        rwa [e] at this
      · rw [if_neg hd]
        have hd0 : d = 0 := by omega
        subst hd0
        exact ⟨_, _, rfl, φ', e2, e3, Or.inr (e4 rfl)⟩
    · rw [if_neg hl]
      exact ⟨_, _, rfl, φ, R, h, Or.inl (by omega)⟩

/-- At the start the sink is at level at least one. -/
theorem pend_le {n s t : Nat} {g : G} {D : Nat → Nat} {dist : List Nat} (es : List Arc) (pf pr : Nat → Nat) (hst : s ≠ t) (hs : s < n) (ht : t < n)
    (I : BInv n g s t D dist []) : pend n es pf pr g D t ≤ (n - 1) * es.length := by
  have h1 : 1 ≤ D t := by
    by_contra c
    have h0 : D t ≠ IINF := by
      have : (0 : Nat) ≠ IINF := by decide
      omega
    obtain ⟨u, j, x, _, _, _, p4, _⟩ := I.pred t ht (fun e => hst e.symm) h0
    omega
  have a := crit_le es pf pr g D t
  have b : (n - 1 - D t + 1) * es.length ≤ (n - 1) * es.length := Nat.mul_le_mul_right _ (by omega)
  rw [Nat.add_mul, Nat.one_mul] at b
  unfold pend
  omega

end Verif.MaxFlow
