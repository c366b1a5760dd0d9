import Verif.MaxFlow.Net
/-!
Correctness of the augmentation of `FordFulkerson`.
-/
namespace Verif.MaxFlow

theorem at_zero (u w : Nat) : at_ u 0 w = 0 := by simp [at_]

/-- The vertices visited only in the newer table. -/
def New (v0 v1 : List Bool) (v : Nat) : Prop := v0[v]? = some false ∧ v1[v]? = some true

/-- Visited vertices stay visited. -/
structure Grow (v0 v1 : List Bool) : Prop where
  len : v1.length = v0.length
  mono : ∀ v : Nat, v0[v]? = some true → v1[v]? = some true
  cnt : v1.count false ≤ v0.count false

theorem Grow.rfl' (v : List Bool) : Grow v v := ⟨rfl, fun _ h => h, le_refl _⟩
theorem Grow.trans {a b c : List Bool} (h : Grow a b) (k : Grow b c) : Grow a c :=
  ⟨k.len.trans h.len, fun v e => k.mono v (h.mono v e), k.cnt.trans h.cnt⟩

theorem bool_cases {l : List Bool} {v : Nat} (h : v < l.length) : l[v]? = some true ∨ l[v]? = some false := by
  rw [List.getElem?_eq_getElem h]
  cases l[v] <;> simp

/-- Newly visited vertices are not the sink and lead to visited vertices only. -/
def Clo (g : G) (t : Nat) (v0 v1 : List Bool) : Prop :=
  ∀ v : Nat, New v0 v1 v → v ≠ t ∧ ∀ j x, getE g v j = some x → x.cap ≠ 0 → v1[x.t]? = some true

theorem Clo.trans {g : G} {t : Nat} {a b c : List Bool} (hab : Grow a b) (hbc : Grow b c) (h : Clo g t a b) (k : Clo g t b c) : Clo g t a c := by
  rintro v ⟨h1, h2⟩
  have hv : v < b.length := by rw [hab.len]; exact (List.getElem?_eq_some_iff.1 h1).1
  rcases bool_cases hv with e | e
  · obtain ⟨p, q⟩ := h v ⟨h1, e⟩
    exact ⟨p, fun j x hx hc => hbc.mono _ (q j x hx hc)⟩
  · exact k v ⟨e, h2⟩

/-- What one call of `dfs` guarantees. -/
structure FPost (n : Nat) (es : List Arc) (pf pr φ : Nat → Nat) (t u f : Nat) (st st' : FSt) (d : Nat) (φ' : Nat → Nat) : Prop where
  rp : Rp n es pf pr φ' st'.g
  lens : lens st'.g = lens st.g
  le : d ≤ f
  grow : Grow st.vis st'.vis
  frame : Frame (fun v => st.vis[v]? ≠ some true) st.g st'.g
  net : ∀ w, net es φ' w = net es φ w + at_ u d w - at_ t d w
  zero : d = 0 → st'.g = st.g ∧ φ' = φ ∧ st'.vis[u]? = some true ∧ Clo st.g t st.vis st'.vis
  pos : d ≠ 0 → st.vis[u]? = some false

/-- What the recursive calls guarantee when at most `c` vertices are unvisited. -/
def FRec (n : Nat) (es : List Arc) (pf pr : Nat → Nat) (t c : Nat) (rec : Nat → Nat → FSt → Option (FSt × Nat)) : Prop :=
  ∀ u f st φ, u < n → 0 < f → Rp n es pf pr φ st.g → st.vis.length = n → st.vis.count false ≤ c →
    ∃ st' d φ', rec u f st = some (st', d) ∧ FPost n es pf pr φ t u f st st' d φ'

theorem ffLoop_ok {n : Nat} {es : List Arc} {pf pr : Nat → Nat} {t c : Nat} {rec : Nat → Nat → FSt → Option (FSt × Nat)} (hrec : FRec n es pf pr t c rec)
    {u f : Nat} (hf : 0 < f) : ∀ (m i : Nat) (st : FSt) (φ : Nat → Nat), Rp n es pf pr φ st.g → st.vis.length = n → st.vis.count false ≤ c →
      st.vis[u]? = some true → ((st.g[u]?).map List.length = some (i + m)) →
      ∃ st' d φ', ffLoop rec u f m i st = some (st', d) ∧ Rp n es pf pr φ' st'.g ∧ lens st'.g = lens st.g ∧ d ≤ f ∧ Grow st.vis st'.vis ∧
        Frame (fun v => v = u ∨ st.vis[v]? ≠ some true) st.g st'.g ∧ (∀ w, net es φ' w = net es φ w + at_ u d w - at_ t d w) ∧
        (d = 0 → st'.g = st.g ∧ φ' = φ ∧ Clo st.g t st.vis st'.vis ∧
          ∀ j x, i ≤ j → getE st.g u j = some x → x.cap ≠ 0 → st'.vis[x.t]? = some true) := by
  intro m
  induction m with
  | zero =>
    intro i st φ R hl hc hu hr
    refine ⟨st, 0, φ, rfl, R, rfl, by omega, Grow.rfl' _, fun w j x h _ => h, ?_, ?_⟩
    · intro w; rw [at_zero, at_zero]; ring
    · intro _
      refine ⟨rfl, rfl, ?_, ?_⟩
      · rintro v ⟨h1, h2⟩; rw [h1] at h2; cases h2
      · intro j x hj hx
        unfold getE rd2 at hx
        cases hg : st.g[u]? with
        | none => rw [hg] at hx; cases hx
        | some row =>
          rw [hg] at hr hx
          simp at hr hx
          have := (List.getElem?_eq_some_iff.1 hx).1
          omega
  | succ m ih =>
    intro i st φ R hl hc hu hr
    obtain ⟨row, hrow⟩ : ∃ row, st.g[u]? = some row := by
      cases hg : st.g[u]? with
      | none => rw [hg] at hr; cases hr
      | some row => exact ⟨row, rfl⟩
    have hrl : row.length = i + (m+1) := by rw [hrow] at hr; simpa using hr
    have hi : i < row.length := by omega
    have he : getE st.g u i = some row[i] := by
      unfold getE rd2
      rw [hrow, Option.bind_some, List.getElem?_eq_getElem hi]
    generalize row[i] = e at he
    have hr' : (st.g[u]?).map List.length = some (i + 1 + m) := by rw [hr]; congr 1; omega
    unfold ffLoop
    rw [he, Option.bind_some]
    by_cases h0 : e.cap = 0
    · rw [if_pos h0]
      obtain ⟨st', d, φ', a1, a2, a3, a4, a5, a6, a7, a8⟩ := ih (i+1) st φ R hl hc hu hr'
      refine ⟨st', d, φ', a1, a2, a3, a4, a5, a6, a7, ?_⟩
      intro hd
      obtain ⟨b1, b2, b3, b4⟩ := a8 hd
      refine ⟨b1, b2, b3, ?_⟩
      intro j x hj hx hxc
      by_cases hj' : j = i
      · subst hj'; rw [he] at hx; cases hx; exact absurd h0 hxc
      · exact b4 j x (by omega) hx hxc
    · rw [if_neg h0]
      unfold ffTry
      obtain ⟨st1, d1, φ1, e1, P⟩ := hrec e.t (min f e.cap) st φ (R.t_lt he) (by omega) R hl hc
      rw [e1, Option.bind_some]
      dsimp only
      by_cases hd : d1 = 0
      · rw [if_neg (by simpa using hd)]
        obtain ⟨z1, z2, z3, z4⟩ := P.zero hd
        obtain ⟨st', d, φ', a1, a2, a3, a4, a5, a6, a7, a8⟩ := ih (i+1) st1 φ1 P.rp (P.grow.len.trans hl) (P.grow.cnt.trans hc) (P.grow.mono _ hu)
          (by rw [z1]; exact hr')
        refine ⟨st', d, φ', a1, a2, a3.trans P.lens, a4, P.grow.trans a5, ?_, ?_, ?_⟩
        · intro w j x hx hp
          apply a6 w j x (by rw [z1]; exact hx)
          rcases hp with hp | hp
          · left; intro c; apply hp
            rcases c with c | c
            · exact Or.inl c
            · exact Or.inr (fun e => c (P.grow.mono _ e))
          · right; intro c; apply hp
            rcases c with c | c
            · exact Or.inl c
            · exact Or.inr (fun e => c (P.grow.mono _ e))
        · intro w; rw [a7, z2]
        · intro hd0
          obtain ⟨b1, b2, b3, b4⟩ := a8 hd0
          rw [z1] at b1 b3 b4
          refine ⟨b1, b2.trans z2, Clo.trans P.grow a5 z4 b3, ?_⟩
          intro j x hj hx hxc
          by_cases hj' : j = i
          · subst hj'; rw [he] at hx; cases hx
            exact a5.mono _ z3
          · exact b4 j x (by omega) hx hxc
      · rw [if_pos (by simpa using hd)]
        have he1 : getE st1.g u i = some e := P.frame u i e he (Or.inl (by rw [not_not]; exact hu))
        have hle := P.le
        obtain ⟨g', φ', q1, q2, q3, q4, q5⟩ := push_ok P.rp he1 (d := d1) (by omega)
        rw [q1]
        refine ⟨⟨g', st1.vis⟩, d1, φ', rfl, q2, q3.trans P.lens, by omega, P.grow, ?_, ?_, ?_⟩
        · intro w j x hx hp
          have hp1 := P.pos hd
          have hx1 := P.frame w j x hx (by
            rcases hp with hp | hp
            · left; intro c; exact hp (Or.inr c)
            · right; intro c; exact hp (Or.inr c))
          apply q4 w j x hx1
          rcases hp with hp | hp
          · left
            rintro (rfl | rfl)
            · exact hp (Or.inl rfl)
            · exact hp (Or.inr (by rw [hp1]; simp))
          · right
            rintro (h | h)
            · exact hp (Or.inl h)
            · exact hp (Or.inr (by rw [h, hp1]; simp))
        · intro w
          rw [q5, P.net]; ring
        · intro h; exact absurd h hd

theorem count_set_false {l : List Bool} {u : Nat} (h : l[u]? = some false) : (l.set u true).count false + 1 = l.count false := by
  obtain ⟨hu, e⟩ := List.getElem?_eq_some_iff.1 h
  rw [List.count_set hu, e]
  have : 0 < l.count false := List.count_pos_iff.2 (List.mem_of_getElem? h)
  simp
  omega

theorem ffDfs_ok {n : Nat} {es : List Arc} {pf pr : Nat → Nat} {t : Nat} : ∀ fuel : Nat, FRec n es pf pr t fuel (ffDfs t (fuel+1)) := by
  intro fuel
  induction fuel using Nat.strong_induction_on with
  | _ fuel ih =>
    intro u f st φ hu hf R hl hc
    unfold ffDfs
    have hul : u < st.vis.length := by omega
    rcases bool_cases hul with hb | hb
    · rw [hb, Option.bind_some, if_pos rfl]
      refine ⟨st, 0, φ, rfl, R, rfl, by omega, Grow.rfl' _, fun w j x h _ => h, ?_, ?_, fun h => absurd rfl h⟩
      · intro w; rw [at_zero, at_zero]; ring
      · intro _
        refine ⟨rfl, rfl, hb, ?_⟩
        rintro v ⟨h1, h2⟩; rw [h1] at h2; cases h2
    · rw [hb, Option.bind_some, if_neg (by simp)]
      unfold wr
      rw [if_pos hul, Option.bind_some]
      have hcs := count_set_false hb
      have hg1 : Grow st.vis (st.vis.set u true) := by
        refine ⟨by simp, ?_, by omega⟩
        intro v hv
        by_cases e : v = u
        · subst e; exact List.getElem?_set_self hul
        · rw [List.getElem?_set_ne (fun h => e h.symm)]; exact hv
      have hu1 : (st.vis.set u true)[u]? = some true := List.getElem?_set_self hul
      have hne : ∀ v, v ≠ u → (st.vis.set u true)[v]? = st.vis[v]? := fun v e => List.getElem?_set_ne (fun h => e h.symm)
      by_cases hut : u = t
      · rw [if_pos hut]
        subst hut
        refine ⟨_, f, φ, rfl, R, rfl, le_refl _, hg1, fun w j x h _ => h, ?_, fun h => absurd h (by omega), fun _ => hb⟩
        intro w; ring
      · rw [if_neg hut]
        have hugl : u < st.g.length := R.len ▸ hu
        obtain ⟨row, hrow⟩ : ∃ row, st.g[u]? = some row := ⟨_, List.getElem?_eq_getElem hugl⟩
        rw [hrow, Option.bind_some]
        have hrec : FRec n es pf pr t (fuel - 1) (ffDfs t fuel) := by
          have := ih (fuel-1) (by omega)
          have e : fuel - 1 + 1 = fuel := by omega
          rwa [e] at this
        obtain ⟨st', d, φ', a1, a2, a3, a4, a5, a6, a7, a8⟩ := ffLoop_ok hrec hf row.length 0 ⟨st.g, st.vis.set u true⟩ φ R (by simpa using hl)
          (by dsimp only; omega) hu1 (by dsimp only; rw [hrow]; simp)
        dsimp only at a3 a5 a6 a8
        refine ⟨st', d, φ', a1, a2, a3, a4, hg1.trans a5, ?_, a7, ?_, fun _ => hb⟩
        · intro w j x hx hp
          apply a6 w j x hx
          have key : ∀ v, ¬ (st.vis[v]? ≠ some true) → ¬ (v = u ∨ (st.vis.set u true)[v]? ≠ some true) := by
            intro v h c
            rw [not_not] at h
            rcases c with c | c
            · subst c; rw [hb] at h; cases h
            · exact c (hg1.mono _ h)
          rcases hp with hp | hp
          · exact Or.inl (key _ hp)
          · exact Or.inr (key _ hp)
        · intro hd
          obtain ⟨b1, b2, b3, b4⟩ := a8 hd
          refine ⟨b1, b2, a5.mono _ hu1, ?_⟩
          rintro v ⟨h1, h2⟩
          by_cases e : v = u
          · subst e
            exact ⟨hut, fun j x hx hxc => b4 j x (Nat.zero_le _) hx hxc⟩
          · exact b3 v ⟨by rw [hne v e]; exact h1, h2⟩

theorem at_self (u d : Nat) : at_ u d u = d := by simp [at_]
theorem at_ne {u w : Nat} (d : Nat) (h : w ≠ u) : at_ u d w = 0 := by simp [at_, h]

/-- Augmenting a flow. -/
theorem isFlow_aug {es : List Arc} {s t : Nat} {φ φ' : Nat → Nat} {F d : Nat} (h : IsFlow es s t φ F) (hst : s ≠ t) (hc : ∀ k < es.length, φ' k ≤ (arc es k).c)
    (hn : ∀ w, net es φ' w = net es φ w + at_ s d w - at_ t d w) : IsFlow es s t φ' (F + d) := by
  refine ⟨hc, ?_, ?_⟩
  · intro u h1 h2
    rw [hn, h.cons u h1 h2, at_ne _ h1, at_ne _ h2]; ring
  · rw [hn, h.val, at_self, at_ne _ hst]; push_cast; ring

/-- One augmentation, or a saturated cut. -/
theorem ffStep {n : Nat} {es : List Arc} {pf pr φ : Nat → Nat} {g : G} {s t F : Nat} (R : Rp n es pf pr φ g) (h : IsFlow es s t φ F) (hst : s ≠ t) (hs : s < n) :
    ∃ st' d φ', ffDfs t (g.length + 1) s INF ⟨g, List.replicate g.length false⟩ = some (st', d) ∧ Rp n es pf pr φ' st'.g ∧ IsFlow es s t φ' (F + d) ∧
      (d = 0 → ∃ X : Nat → Bool, X s = true ∧ X t = false ∧ F = cutCap es (fun v => X v = true)) := by
  obtain ⟨st', d, φ', e1, P⟩ := ffDfs_ok (n := n) (es := es) (pf := pf) (pr := pr) (t := t) g.length s INF ⟨g, List.replicate g.length false⟩ φ hs
    (by decide) R (by simp [R.len]) (by simp)
  refine ⟨st', d, φ', e1, P.rp, isFlow_aug h hst P.rp.le P.net, ?_⟩
  intro hd
  obtain ⟨z1, z2, z3, z4⟩ := P.zero hd
  dsimp only at z1 z3 z4
  have hnew : ∀ v, st'.vis[v]? = some true → New (List.replicate g.length false) st'.vis v := by
    intro v hv
    refine ⟨?_, hv⟩
    have hl := P.grow.len
    simp at hl
    have := (List.getElem?_eq_some_iff.1 hv).1
    rw [List.getElem?_replicate, if_pos (by omega)]
  refine ⟨fun v => st'.vis[v]? == some true, by simp [z3], ?_, ?_⟩
  · cases hX : (st'.vis[t]? == some true) with
    | false => exact hX
    | true => exact absurd rfl (z4 t (hnew t (by simpa using hX))).1
  · have ht : ¬ ((st'.vis[t]? == some true) = true) := fun hX => (z4 t (hnew t (by simpa using hX))).1 rfl
    refine R.cut h _ (by simp [z3]) ht ?_
    intro v j x hx hv hc
    have := (z4 v (hnew v (by simpa using hv))).2 j x hx hc
    simp [this]

/-- What a run of `flow` guarantees: `F0` is the flow already present, `F` the returned value; it ends with a maximum flow or with the limit reached. -/
def FlowPost (n : Nat) (es : List Arc) (pf pr : Nat → Nat) (s t F0 : Nat) (g' : G) (F : Nat) (stop : Prop) : Prop :=
  ∃ φ', Rp n es pf pr φ' g' ∧ IsFlow es s t φ' (F0 + F) ∧ (stop ∨ ∃ X : Nat → Bool, X s = true ∧ X t = false ∧ F0 + F = cutCap es (fun v => X v = true))

theorem ffFlowLoop_ok {n : Nat} {es : List Arc} {pf pr : Nat → Nat} {s t : Nat} (hst : s ≠ t) (hs : s < n) (lim : Int) (F0 : Nat) :
    ∀ (fuel : Nat) (φ : Nat → Nat) (g : G) (F : Nat), Rp n es pf pr φ g → IsFlow es s t φ (F0 + F) → total es < fuel + (F0 + F) →
      ∃ g' F', ffFlowLoop s t fuel g (lim - F) F = some (g', F') ∧ FlowPost n es pf pr s t F0 g' F' (lim ≤ F') := by
  intro fuel
  induction fuel with
  | zero =>
    intro φ g F R h hb
    have := flow_le_total h hst
    omega
  | succ fuel ih =>
    intro φ g F R h hb
    unfold ffFlowLoop
    by_cases hl : 0 < lim - (F : Int)
    · rw [if_pos hl]
      obtain ⟨st', d, φ', e1, e2, e3, e4⟩ := ffStep R h hst hs
      rw [e1, Option.bind_some]
      dsimp only
      by_cases hd : 0 < d
      · rw [if_pos hd]
        have := ih φ' st'.g (F + d) e2 (by rw [← Nat.add_assoc]; exact e3) (by omega)
        have e : lim - ((F + d : Nat) : Int) = lim - F - d := by push_cast; ring
        rwa [e] at this
      · rw [if_neg hd]
        have hd0 : d = 0 := by omega
        subst hd0
        exact ⟨_, _, rfl, φ', e2, e3, Or.inr (e4 rfl)⟩
    · rw [if_neg hl]
      exact ⟨_, _, rfl, φ, R, h, Or.inl (by omega)⟩

end Verif.MaxFlow
