import Verif.MaxFlow.Bfs
/-!
The augmentation of `Dinic` (max_flow.hpp:77-93).
-/
namespace Verif.MaxFlow

/-- What is fixed during one round: levels and row lengths. -/
structure Lv (n : Nat) (D : Nat → Nat) (dist : List Nat) (rl : Nat → Nat) (g : G) : Prop where
  rep : Rep dist n D
  fin : ∀ v < n, D v = IINF ∨ D v < n
  small : n < IINF
  rows : ∀ v < n, (g[v]?).map List.length = some (rl v)

theorem Lv.next {n : Nat} {D : Nat → Nat} {dist : List Nat} {rl : Nat → Nat} {g g' : G} (L : Lv n D dist rl g) (h : lens g' = lens g) : Lv n D dist rl g' :=
  ⟨L.rep, L.fin, L.small, fun v hv => by rw [lens_row h]; exact L.rows v hv⟩

/-- Arcs passed by the iterators lead nowhere. -/
def Dead (D rl : Nat → Nat) (t : Nat) (g : G) (N : Nat → Nat) : Prop :=
  ∀ v i x, getE g v i = some x → i < N v → x.cap = 0 ∨ D x.t ≠ D v + 1 ∨ (x.t ≠ t ∧ N x.t = rl x.t)

/-- Capacities grow only against the levels (from `g` to `g'`). -/
def Mono (D : Nat → Nat) (g g' : G) : Prop :=
  ∀ w j x', getE g' w j = some x' → ∃ x, getE g w j = some x ∧ x'.t = x.t ∧ (D x.t + 1 ≠ D w → x'.cap ≤ x.cap)

theorem Mono.refl (D : Nat → Nat) (g : G) : Mono D g g := fun _ _ x h => ⟨x, h, rfl, fun _ => le_refl _⟩

theorem Mono.trans {D : Nat → Nat} {g1 g2 g3 : G} (h : Mono D g1 g2) (k : Mono D g2 g3) : Mono D g1 g3 := by
  intro w j x3 h3
  obtain ⟨x2, a1, a2, a3⟩ := k w j x3 h3
  obtain ⟨x1, b1, b2, b3⟩ := h w j x2 a1
  exact ⟨x1, b1, a2.trans b2, fun hx => (a3 (by rw [b2]; exact hx)).trans (b3 hx)⟩

/-- There is a path from the vertex to `t` along residual arcs, each leading to the next level. -/
inductive Lp (g : G) (D : Nat → Nat) (t : Nat) : Nat → Prop
  | here : Lp g D t t
  | step {v j : Nat} {x : FlowPath} (h : getE g v j = some x) (hc : x.cap ≠ 0) (hl : D x.t = D v + 1) (hp : Lp g D t x.t) : Lp g D t v

theorem Lp.mono {D : Nat → Nat} {t : Nat} {g g' : G} (M : Mono D g g') {v : Nat} (h : Lp g' D t v) : Lp g D t v := by
  induction h with
  | here => exact Lp.here
  | @step v j x' h hc hl hp ih =>
    obtain ⟨x, a1, a2, a3⟩ := M v j x' h
    rw [a2] at hl ih
    have := a3 (by omega)
    exact Lp.step a1 (by omega) hl ih

/-- Some arc on a level path to `t` has been saturated. -/
def Sat (D : Nat → Nat) (t : Nat) (g g' : G) : Prop :=
  ∃ w j x, getE g w j = some x ∧ x.cap ≠ 0 ∧ D x.t = D w + 1 ∧ Lp g D t x.t ∧ ∀ x', getE g' w j = some x' → x'.cap = 0

theorem Sat.before {D : Nat → Nat} {t : Nat} {g0 g g' : G} (M : Mono D g0 g) (h : Sat D t g g') : Sat D t g0 g' := by
  obtain ⟨w, j, x, h1, h2, h3, h4, h5⟩ := h
  obtain ⟨x0, a1, a2, a3⟩ := M w j x h1
  rw [a2] at h3 h4
  have := a3 (by omega)
  exact ⟨w, j, x0, a1, by omega, h3, h4.mono M, h5⟩

theorem Sat.after {D : Nat → Nat} {t : Nat} {g g' g2 : G} (h : Sat D t g g') (M0 : Mono D g g') (M : Mono D g' g2) : Sat D t g g2 := by
  obtain ⟨w, j, x, h1, h2, h3, h4, h5⟩ := h
  refine ⟨w, j, x, h1, h2, h3, h4, ?_⟩
  intro x2 hx2
  obtain ⟨x', a1, a2, a3⟩ := M w j x2 hx2
  obtain ⟨y, b1, b2, b3⟩ := M0 w j x' a1
  rw [h1] at b1; cases b1
  have := a3 (by rw [b2]; omega)
  have := h5 x' a1
  omega

/-- Pushing along a level arc. -/
theorem push_level {n : Nat} {es : List Arc} {pf pr φ : Nat → Nat} {g : G} (R : Rp n es pf pr φ g) {u i : Nat} {e : FlowPath} (h : getE g u i = some e) {d : Nat}
    (hd : d ≤ e.cap) {D : Nat → Nat} (hl : D e.t = D u + 1) : ∃ g' φ', push g u i d = some g' ∧ Rp n es pf pr φ' g' ∧ lens g' = lens g ∧
      Frame (fun v => v = u ∨ v = e.t) g g' ∧ (∀ w, net es φ' w = net es φ w + at_ u d w - at_ e.t d w) ∧ Mono D g g' ∧
      ∀ x', getE g' u i = some x' → x'.cap = e.cap - d := by
  obtain ⟨g', φ', h1, h2, h3, h4, h5, k, hk, hc⟩ := push_full R h hd
  have hle := R.le k hk
  have hle' := h2.le k hk
  rcases hc with ⟨rfl, rfl, rfl⟩ | ⟨rfl, rfl, hdk, rfl⟩
  · rw [R.fw k hk] at h; cases h
    dsimp only at hl hd
    rw [upd_same] at hle'
    refine ⟨g', _, h1, h2, h3, h4, h5, ?_, ?_⟩
    · intro w j x' hx
      obtain ⟨l, hll, (⟨rfl, rfl⟩ | ⟨rfl, rfl⟩)⟩ := h2.all _ _ _ hx
      · rw [h2.fw l hll] at hx; cases hx
        refine ⟨_, R.fw l hll, rfl, fun _ => ?_⟩
        by_cases c : l = k
        · subst c; rw [upd_same]; dsimp only; omega
        · rw [upd_ne _ _ c]
      · rw [h2.bw l hll] at hx; cases hx
        refine ⟨_, R.bw l hll, rfl, fun hD => ?_⟩
        by_cases c : l = k
        · subst c; exact absurd hl.symm hD
        · rw [upd_ne _ _ c]
    · intro x' hx
      rw [h2.fw k hk] at hx; cases hx
      dsimp only
      rw [upd_same]; omega
  · rw [R.bw k hk] at h; cases h
    dsimp only at hl hd
    refine ⟨g', _, h1, h2, h3, h4, h5, ?_, ?_⟩
    · intro w j x' hx
      obtain ⟨l, hll, (⟨rfl, rfl⟩ | ⟨rfl, rfl⟩)⟩ := h2.all _ _ _ hx
      · rw [h2.fw l hll] at hx; cases hx
        refine ⟨_, R.fw l hll, rfl, fun hD => ?_⟩
        by_cases c : l = k
        · subst c; exact absurd hl.symm hD
        · rw [upd_ne _ _ c]
      · rw [h2.bw l hll] at hx; cases hx
        refine ⟨_, R.bw l hll, rfl, fun _ => ?_⟩
        by_cases c : l = k
        · subst c; rw [upd_same]; dsimp only; omega
        · rw [upd_ne _ _ c]
    · intro x' hx
      rw [h2.bw k hk] at hx; cases hx
      dsimp only
      rw [upd_same]

/-- What one call of `dfs` guarantees. -/
structure DPost (n : Nat) (es : List Arc) (pf pr φ D rl N : Nat → Nat) (t u f : Nat) (st st' : DSt) (d : Nat) (φ' N' : Nat → Nat) : Prop where
  rp : Rp n es pf pr φ' st'.g
  lens : lens st'.g = lens st.g
  le : d ≤ f
  rep : Rep st'.nxt n N'
  bnd : ∀ v < n, N' v ≤ rl v
  frame : Frame (fun v => D u ≤ D v) st.g st'.g
  low : ∀ v < n, D v < D u → N' v = N v
  net : ∀ w, net es φ' w = net es φ w + at_ u d w - at_ t d w
  zero : 0 < f → d = 0 → Dead D rl t st.g N → st'.g = st.g ∧ φ' = φ ∧ Dead D rl t st.g N' ∧ N' u = rl u ∧ u ≠ t
  mono : Mono D st.g st'.g
  prog : 0 < d → Lp st.g D t u ∧ (d = f ∨ Sat D t st.g st'.g)

/-- What the recursive calls guarantee at levels `≥ n - c`. -/
def DRec (n : Nat) (es : List Arc) (pf pr D : Nat → Nat) (dist : List Nat) (t c : Nat) (rec : Nat → Nat → DSt → Option (DSt × Nat)) : Prop :=
  ∀ u f st φ rl N, u < n → D u < n → n ≤ D u + c → Rp n es pf pr φ st.g → Lv n D dist rl st.g → Rep st.nxt n N → (∀ v < n, N v ≤ rl v) →
    ∃ st' d φ' N', rec u f st = some (st', d) ∧ DPost n es pf pr φ D rl N t u f st st' d φ' N'

theorem dLoop_ok {n : Nat} {es : List Arc} {pf pr D : Nat → Nat} {dist : List Nat} {t c : Nat} {rec : Nat → Nat → DSt → Option (DSt × Nat)}
    (hrec : DRec n es pf pr D dist t c rec) {u f : Nat} {rl : Nat → Nat} (hu : u < n) (hDu : D u < n) (hc : n ≤ D u + 1 + c) :
    ∀ (fuel : Nat) (st : DSt) (fsum : Nat) (φ N : Nat → Nat), Rp n es pf pr φ st.g → Lv n D dist rl st.g → Rep st.nxt n N → (∀ v < n, N v ≤ rl v) →
      rl u ≤ N u + fuel → fsum ≤ f →
      ∃ st' d φ' N', dLoop rec dist u f (rl u) fuel st fsum = some (st', fsum + d) ∧ Rp n es pf pr φ' st'.g ∧ lens st'.g = lens st.g ∧ fsum + d ≤ f ∧
        Rep st'.nxt n N' ∧ (∀ v < n, N' v ≤ rl v) ∧ Frame (fun v => D u ≤ D v) st.g st'.g ∧ (∀ v < n, D v < D u → N' v = N v) ∧
        (∀ w, net es φ' w = net es φ w + at_ u d w - at_ t d w) ∧
        (fsum < f → d = 0 → Dead D rl t st.g N → st'.g = st.g ∧ φ' = φ ∧ Dead D rl t st.g N' ∧ N' u = rl u) ∧
        Mono D st.g st'.g ∧ (0 < d → Lp st.g D t u ∧ (fsum + d = f ∨ Sat D t st.g st'.g)) := by
  intro fuel
  induction fuel with
  | zero =>
    intro st fsum φ N R L hN hb hfuel hfs
    unfold dLoop
    rw [hN.val u hu, Option.bind_some]
    have e : N u = rl u := by have := hb u hu; omega
    rw [if_neg (fun h => h.1 e)]
    refine ⟨st, 0, φ, N, rfl, R, rfl, hfs, hN, hb, fun w j x h _ => h, fun _ _ _ => rfl, ?_, ?_, Mono.refl _ _, fun h => absurd h (by omega)⟩
    · intro w; rw [at_zero, at_zero]; ring
    · intro _ _ hd; exact ⟨rfl, rfl, hd, e⟩
  | succ fuel ih =>
    intro st fsum φ N R L hN hb hfuel hfs
    unfold dLoop
    rw [hN.val u hu, Option.bind_some]
    by_cases hcond : N u ≠ rl u ∧ fsum < f
    · rw [if_pos hcond]
      dsimp only
      have hlt : N u < rl u := by have := hb u hu; omega
      obtain ⟨row, hrow⟩ : ∃ row, st.g[u]? = some row := ⟨_, List.getElem?_eq_getElem (by rw [R.len]; exact hu)⟩
      have hrl : row.length = rl u := by have := L.rows u hu; rw [hrow] at this; simpa using this
      have hi : N u < row.length := by omega
      have he : getE st.g u (N u) = some row[N u] := by
        unfold getE rd2
        rw [hrow, Option.bind_some, List.getElem?_eq_getElem hi]
      generalize row[N u] = e at he
      have het := R.t_lt he
      unfold dEdge
      rw [he, Option.bind_some, L.rep.val _ het, Option.bind_some, L.rep.val _ hu, Option.bind_some]
      -- advancing the iterator
      have adv : ∀ (nx : List Nat) (M : Nat → Nat), Rep nx n M → M u = N u → (∀ v < n, M v ≤ rl v) →
          ∃ nx', wr nx u (N u + 1) = some nx' ∧ Rep nx' n (upd M u (N u + 1)) ∧ (∀ v < n, upd M u (N u + 1) v ≤ rl v) ∧
            rl u ≤ upd M u (N u + 1) u + fuel ∧ (∀ v < n, D v < D u → upd M u (N u + 1) v = M v) := by
        intro nx M hM _ hMb
        obtain ⟨nx', w1, w2⟩ := hM.wr hu (N u + 1)
        refine ⟨nx', w1, w2, ?_, by rw [upd_same]; omega, ?_⟩
        · intro v hv
          by_cases cc : v = u
          · subst cc; rw [upd_same]; omega
          · rw [upd_ne _ _ cc]; exact hMb v hv
        · intro v _ hvD
          rw [upd_ne]
          rintro rfl
          omega
      have dadv : ∀ (M : Nat → Nat), M u = N u → Dead D rl t st.g M → (e.cap = 0 ∨ D e.t ≠ D u + 1 ∨ (e.t ≠ t ∧ M e.t = rl e.t ∧ e.t ≠ u)) →
          Dead D rl t st.g (upd M u (N u + 1)) := by
        intro M hMu hd hcur v i x hx hiv
        by_cases hv : v = u ∧ i = N u
        · obtain ⟨rfl, rfl⟩ := hv
          rw [he] at hx; cases hx
          rcases hcur with h | h | ⟨h1, h2, h3⟩
          · exact Or.inl h
          · exact Or.inr (Or.inl h)
          · exact Or.inr (Or.inr ⟨h1, by rw [upd_ne _ _ h3]; exact h2⟩)
        · have hiM : i < M v := by
            by_cases cc : v = u
            · subst cc
              rw [upd_same] at hiv
              rw [hMu]
              have : i ≠ N v := fun h => hv ⟨rfl, h⟩
              omega
            · rwa [upd_ne _ _ cc] at hiv
          rcases hd v i x hx hiM with h | h | ⟨h1, h2⟩
          · exact Or.inl h
          · exact Or.inr (Or.inl h)
          · refine Or.inr (Or.inr ⟨h1, ?_⟩)
            rw [upd_ne _ _ (by rintro h; rw [h, hMu] at h2; exact hcond.1 h2)]
            exact h2
      by_cases hskip : e.cap = 0 ∨ D e.t ≠ D u + 1
      · rw [if_pos hskip]
        obtain ⟨nx', w1, w2, w3, w4, w5⟩ := adv st.nxt N hN rfl hb
        rw [w1, Option.bind_some]
        obtain ⟨st', d, φ', N', a1, a2, a3, a4, a5, a6, a7, a8, a9, a10, a11, a12⟩ := ih ⟨st.g, nx'⟩ fsum φ _ R L w2 w3 w4 hfs
        refine ⟨st', d, φ', N', a1, a2, a3, a4, a5, a6, a7, ?_, a9, ?_, a11, a12⟩
        · intro v hv hvD; rw [a8 v hv hvD, w5 v hv hvD]
        · intro h1 h2 h3
          refine a10 h1 h2 (dadv N rfl h3 ?_)
          rcases hskip with h | h
          · exact Or.inl h
          · exact Or.inr (Or.inl h)
      · rw [if_neg hskip]
        rw [not_or, not_not] at hskip
        obtain ⟨hcap, hlev⟩ := hskip
        have hDe : D e.t < n := by
          rcases L.fin _ het with h | h
          · have := L.small; omega
          · exact h
        have hetu : e.t ≠ u := by intro h; rw [h] at hlev; omega
        obtain ⟨st1, d1, φ1, N1, e1, P⟩ := hrec e.t (min (f - fsum) e.cap) st φ rl N het hDe (by omega) R L hN hb
        rw [e1, Option.bind_some]
        unfold dAfter
        have hN1u : N1 u = N u := P.low u hu (by omega)
        dsimp only
        rw [P.rep.val u hu, Option.bind_some, hN1u]
        have hPle := P.le
        have he1 : getE st1.g u (N u) = some e := P.frame u _ e he (Or.inl (by omega))
        obtain ⟨nx', w1, w2, w3, w4, w5⟩ := adv st1.nxt N1 P.rep hN1u P.bnd
        have low' : ∀ v < n, D v < D u → N1 v = N v := fun v hv h => P.low v hv (by omega)
        have frame' : Frame (fun v => D u ≤ D v) st.g st1.g := by
          intro w j x hx hp
          refine P.frame w j x hx ?_
          rcases hp with h | h
          · left; omega
          · right; omega
        by_cases hd : d1 = 0
        · rw [if_neg (by simpa using hd), Option.bind_some, w1, Option.bind_some, hd, Nat.add_zero]
          obtain ⟨st', d, φ', N', a1, a2, a3, a4, a5, a6, a7, a8, a9, a10, a11, a12⟩ := ih ⟨st1.g, nx'⟩ fsum φ1 _ P.rp (L.next P.lens) w2 w3 w4 hfs
          refine ⟨st', d, φ', N', a1, a2, a3.trans P.lens, a4, a5, a6, ?_, ?_, ?_, ?_, P.mono.trans a11,
            fun h => ⟨(a12 h).1.mono P.mono, (a12 h).2.imp_right (Sat.before P.mono)⟩⟩
          · intro w j x hx hp; exact a7 w j x (frame' w j x hx hp) hp
          · intro v hv hvD; rw [a8 v hv hvD, w5 v hv hvD, low' v hv hvD]
          · intro w; rw [a9, P.net, hd, at_zero, at_zero]; ring
          · intro h1 h2 h3
            obtain ⟨z1, z2, z3, z4, z5⟩ := P.zero (by omega) hd h3
            have := a10 h1 h2 (by dsimp only; rw [z1]; exact dadv N1 hN1u z3 (Or.inr (Or.inr ⟨z5, z4, hetu⟩)))
            dsimp only at this
            rw [z1, z2] at this
            exact this
        · rw [if_pos (by simpa using hd)]
          obtain ⟨g', φ2, q1, q2, q3, q4, q5, q6, q7⟩ := push_level P.rp he1 (d := d1) (by omega) hlev
          have hprog := P.prog (by omega)
          rw [q1, Option.bind_some, w1, Option.bind_some]
          obtain ⟨st', d, φ', N', a1, a2, a3, a4, a5, a6, a7, a8, a9, a10, a11, a12⟩ := ih ⟨g', nx'⟩ (fsum + d1) φ2 _ q2 (L.next (q3.trans P.lens)) w2 w3 w4 (by omega)
          refine ⟨st', d1 + d, φ', N', by rw [← Nat.add_assoc]; exact a1, a2, a3.trans (q3.trans P.lens), by omega, a5, a6, ?_, ?_, ?_, ?_,
            P.mono.trans (q6.trans a11), fun _ => ⟨Lp.step he hcap hlev hprog.1, ?_⟩⟩
          · intro w j x hx hp
            refine a7 w j x (q4 w j x (frame' w j x hx hp) ?_) hp
            rcases hp with h | h
            · left; rintro (rfl | rfl) <;> omega
            · right
              rintro (h' | h')
              · rw [h'] at h; omega
              · rw [h'] at h; omega
          · intro v hv hvD; rw [a8 v hv hvD, w5 v hv hvD, low' v hv hvD]
          · intro w
            rw [a9, q5, P.net]
            unfold at_
            push_cast
            split_ifs <;> ring
          · intro _ h; omega
          · rcases hprog.2 with h | h
            · by_cases hm : f - fsum ≤ e.cap
              · left; rw [min_eq_left hm] at h; omega
              · right
                rw [min_eq_right (by omega)] at h
                refine Sat.after ⟨u, N u, e, he, hcap, hlev, hprog.1, fun x' hx' => ?_⟩ (P.mono.trans q6) a11
                rw [q7 x' hx']; omega
            · exact Or.inr (h.after P.mono (q6.trans a11))
    · rw [if_neg hcond]
      refine ⟨st, 0, φ, N, rfl, R, rfl, hfs, hN, hb, fun w j x h _ => h, fun _ _ _ => rfl, ?_, ?_, Mono.refl _ _, fun h => absurd h (by omega)⟩
      · intro w; rw [at_zero, at_zero]; ring
      · intro h1 _ hd
        refine ⟨rfl, rfl, hd, ?_⟩
        by_contra h
        exact hcond ⟨h, h1⟩

theorem dDfs_ok {n : Nat} {es : List Arc} {pf pr D : Nat → Nat} {dist : List Nat} {t : Nat} : ∀ fuel : Nat, DRec n es pf pr D dist t fuel (dDfs dist t (fuel)) := by
  intro fuel
  induction fuel with
  | zero =>
    intro u f st φ rl N hu hDu hf
    omega
  | succ fuel ih =>
    intro u f st φ rl N hu hDu hf R L hN hb
    unfold dDfs
    by_cases hut : u = t
    · rw [if_pos hut]
      subst hut
      refine ⟨st, f, φ, N, rfl, R, rfl, le_refl _, hN, hb, fun w j x h _ => h, fun _ _ _ => rfl, ?_, fun h1 h2 => by omega, Mono.refl _ _,
        fun _ => ⟨Lp.here, Or.inl rfl⟩⟩
      intro w; ring
    · rw [if_neg hut]
      obtain ⟨row, hrow⟩ : ∃ row, st.g[u]? = some row := ⟨_, List.getElem?_eq_getElem (by rw [R.len]; exact hu)⟩
      have hrl : row.length = rl u := by have := L.rows u hu; rw [hrow] at this; simpa using this
      rw [hrow, Option.bind_some, hrl]
      obtain ⟨st', d, φ', N', a1, a2, a3, a4, a5, a6, a7, a8, a9, a10, a11, a12⟩ := dLoop_ok ih (f := f) hu hDu (by omega) (rl u) st 0 φ N R L hN hb (by omega) (by omega)
      rw [Nat.zero_add] at a1 a4
      refine ⟨st', d, φ', N', a1, a2, a3, a4, a5, a6, a7, a8, a9, ?_, a11, by rw [Nat.zero_add] at a12; exact a12⟩
      intro h1 h2 h3
      obtain ⟨z1, z2, z3, z4⟩ := a10 h1 h2 h3
      exact ⟨z1, z2, z3, z4, hut⟩

/-- One round, or a saturated cut. -/
theorem dStep {n : Nat} {es : List Arc} {pf pr φ : Nat → Nat} {g : G} {s t F : Nat} (R : Rp n es pf pr φ g) (h : IsFlow es s t φ F) (hst : s ≠ t) (hs : s < n)
    (ht : t < n) (hn : n < IINF) : ∃ g' d φ', dRound g s t = some (g', d) ∧ Rp n es pf pr φ' g' ∧ IsFlow es s t φ' (F + d) ∧
      (∃ D dist, BInv n g s t D dist [] ∧ Mono D g g' ∧ (0 < d → Lp g D t s ∧ (d = INF ∨ Sat D t g g'))) ∧
      (d = 0 → ∃ X : Nat → Bool, X s = true ∧ X t = false ∧ F = cutCap es (fun v => X v = true)) := by
  obtain ⟨D, dist, e1, I⟩ := bfs_ok hs hst (by omega) R.len (fun u i e he => R.t_lt he)
  have L : Lv n D dist (fun v => (g.getD v []).length) g := by
    refine ⟨I.rep, ?_, hn, ?_⟩
    · intro v hv
      rcases I.cnt v hv with h | h
      · exact Or.inl h
      · right; omega
    · intro v hv
      have : v < g.length := R.len ▸ hv
      simp [List.getD_eq_getElem?_getD, List.getElem?_eq_getElem this]
  obtain ⟨st', d, φ', N', e2, P⟩ := dDfs_ok (n := n) (es := es) (pf := pf) (pr := pr) (D := D) (dist := dist) (t := t) (n+1) s INF ⟨g, List.replicate n 0⟩ φ
    (fun v => (g.getD v []).length) (fun _ => 0) hs (by rw [I.src]; omega) (by omega) R L (Rep.replicate n 0) (fun _ _ => Nat.zero_le _)
  refine ⟨st'.g, d, φ', ?_, P.rp, isFlow_aug h hst P.rp.le P.net, ⟨D, dist, I, P.mono, P.prog⟩, ?_⟩
  · unfold dRound
    rw [e1, Option.bind_some, R.len, e2]; rfl
  · intro hd
    obtain ⟨z1, z2, z3, z4, z5⟩ := P.zero (by decide) hd (fun v i x _ hi => absurd hi (Nat.not_lt_zero _))
    dsimp only at z1 z3 z4
    have dead : ∀ k v, v < n → D v = k → D v ≠ IINF → v ≠ t ∧ N' v = (g.getD v []).length := by
      intro k
      induction k with
      | zero =>
        intro v hv hk hI
        by_cases c : v = s
        · subst c; exact ⟨z5, z4⟩
        · obtain ⟨u, j, x, p1, p2, p3, p4, p5⟩ := I.pred v hv c hI
          omega
      | succ k ih =>
        intro v hv hk hI
        by_cases c : v = s
        · subst c; exact ⟨z5, z4⟩
        · obtain ⟨u, j, x, p1, p2, p3, p4, p5⟩ := I.pred v hv c hI
          have hun : u < n := R.len ▸ getE_lt p1
          obtain ⟨q1, q2⟩ := ih u hun (by omega) p5
          have hj : j < N' u := by
            rw [q2]
            have := p1
            unfold getE rd2 at this
            have hug : u < g.length := getE_lt p1
            rw [List.getElem?_eq_getElem hug, Option.bind_some] at this
            have := (List.getElem?_eq_some_iff.1 this).1
            simpa [List.getD_eq_getElem?_getD, List.getElem?_eq_getElem hug] using this
          rcases z3 u j x p1 hj with r | r | r
          · exact absurd r p2
          · rw [p3] at r; omega
          · rw [p3] at r; exact r
    have htI : D t = IINF := by
      by_contra c
      exact (dead _ t ht rfl c).1 rfl
    refine ⟨fun v => decide (v < n ∧ D v ≠ IINF), ?_, by simp [htI], ?_⟩
    · rw [decide_eq_true_eq]
      exact ⟨hs, by rw [I.src]; decide⟩
    · refine R.cut h _ ?_ (by simp [htI]) ?_
      · rw [decide_eq_true_eq]
        exact ⟨hs, by rw [I.src]; decide⟩
      · intro v j x hx hv hc
        rw [decide_eq_true_eq] at hv ⊢
        have hxt := R.t_lt hx
        refine ⟨hxt, ?_⟩
        have hvt : v ≠ t := fun c => hv.2 (c ▸ htI)
        have := I.clo v hv.1 hv.2 hvt (by simp) j x hx hc
        have h2 := (I.cnt v hv.1).resolve_left hv.2
        omega

theorem dFlowLoop_ok {n : Nat} {es : List Arc} {pf pr : Nat → Nat} {s t : Nat} (hst : s ≠ t) (hs : s < n) (ht : t < n) (hn : n < IINF) (lim : Int) (F0 : Nat) :
    ∀ (fuel : Nat) (φ : Nat → Nat) (g : G) (F : Nat), Rp n es pf pr φ g → IsFlow es s t φ (F0 + F) → total es < fuel + (F0 + F) →
      ∃ g' F', dFlowLoop s t fuel g (lim - F) F = some (g', F') ∧ FlowPost n es pf pr s t F0 g' F' (lim = F') := by
  intro fuel
  induction fuel with
  | zero =>
    intro φ g F R h hb
    have := flow_le_total h hst
    omega
  | succ fuel ih =>
    intro φ g F R h hb
    unfold dFlowLoop
    by_cases hl : lim - (F : Int) ≠ 0
    · rw [if_pos hl]
      obtain ⟨g', d, φ', e1, e2, e3, _, e4⟩ := dStep R h hst hs ht hn
      rw [e1, Option.bind_some]
      dsimp only
      by_cases hd : 0 < d
      · rw [if_pos hd]
        have := ih φ' g' (F + d) e2 (by rw [← Nat.add_assoc]; exact e3) (by omega)
        have e : lim - ((F + d : Nat) : Int) = lim - F - d := by push_cast; ring
        rwa [e] at this
      · rw [if_neg hd]
        have hd0 : d = 0 := by omega
        subst hd0
        exact ⟨_, _, rfl, φ', e2, e3, Or.inr (e4 rfl)⟩
    · rw [if_neg hl]
      exact ⟨_, _, rfl, φ, R, h, Or.inl (by omega)⟩

end Verif.MaxFlow
