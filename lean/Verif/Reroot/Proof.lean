import Verif.Reroot.Model
import Verif.Reroot.Spec
import Verif.Hld.Size
/-!
The two passes of rerooting.
-/
namespace Verif.Reroot
open Verif.Hld

/-- `g` holds the neighbours of every vertex of a tree, with weights. -/
def TreeG {W : Type} (n : Nat) (P : Nat → Option Nat) (g : List (List (Nat × W))) : Prop :=
  g.length = n ∧ ∀ v, v < n → ∃ gs, g[v]? = some gs ∧ Adj n P v (gs.map Prod.fst)

/-- `dp` has the shape of `g`. -/
def Shape {T W : Type} (g : List (List (Nat × W))) (dp : List (List T)) : Prop :=
  ∀ (v : Nat) (gs : List (Nat × W)), g[v]? = some gs → ∃ row : List T, dp[v]? = some row ∧ row.length = gs.length

section shape
variable {T W : Type} {g : List (List (Nat × W))} {dp : List (List T)}

theorem wr2_ok (S : Shape g dp) {s i : Nat} {gs : List (Nat × W)} (hg : g[s]? = some gs) (hi : i < gs.length) (x : T) :
    ∃ dp', wr2 dp s i x = some dp' ∧ Shape g dp' ∧ (∀ w, w ≠ s → dp'[w]? = dp[w]?) ∧ rd2 dp' s i = some x ∧ ∀ j, j ≠ i → rd2 dp' s j = rd2 dp s j := by
  obtain ⟨row, hr, hl⟩ := S s gs hg
  obtain ⟨row', e1, l1, v1, o1⟩ := wr_ok (l := row) (i := i) (by omega) x
  have hs : s < dp.length := (List.getElem?_eq_some_iff.1 hr).1
  obtain ⟨dp', e2, l2, v2, o2⟩ := wr_ok (l := dp) (i := s) hs row'
  refine ⟨dp', ?_, ?_, o2, ?_, ?_⟩
  · unfold wr2
    rw [hr, Option.bind_some, e1, Option.bind_some, e2]
  · intro v gs' hv
    by_cases h : v = s
    · subst h
      rw [hg] at hv
      cases hv
      exact ⟨row', v2, by omega⟩
    · rw [o2 v h]
      exact S v gs' hv
  · unfold rd2
    rw [v2, Option.bind_some, v1]
  · intro j hj
    unfold rd2
    rw [v2, hr, Option.bind_some, Option.bind_some, o1 j hj]

theorem rd2_ok (S : Shape g dp) {s i : Nat} {gs : List (Nat × W)} (hg : g[s]? = some gs) (hi : i < gs.length) : ∃ x, rd2 dp s i = some x := by
  obtain ⟨row, hr, hl⟩ := S s gs hg
  unfold rd2
  rw [hr, Option.bind_some]
  exact ⟨_, List.getElem?_eq_getElem (by omega)⟩

end shape

variable {T W : Type} [CommMonoid T] {F : T → Nat → W → T} {G : T → Nat → T} {g : List (List (Nat × W))} {n r : Nat} {P : Nat → Option Nat}

open Classical in
/-- The DP value, as a function. -/
noncomputable def vf (F : T → Nat → W → T) (G : T → Nat → T) (g : List (List (Nat × W))) (t : Nat) (p : Option Nat) : T :=
  if h : ∃ x, Val F G g t p x then h.choose else 1

/-- The DP value is defined. -/
def D (F : T → Nat → W → T) (G : T → Nat → T) (g : List (List (Nat × W))) (t : Nat) (p : Option Nat) : Prop := Val F G g t p (vf F G g t p)

/-- What the neighbour `tw` of `s` contributes. -/
noncomputable def ent (F : T → Nat → W → T) (G : T → Nat → T) (g : List (List (Nat × W))) (s : Nat) (tw : Nat × W) : T := F (vf F G g tw.1 (some s)) tw.1 tw.2

theorem D_of {t : Nat} {p : Option Nat} {x : T} (h : Val F G g t p x) : D F G g t p ∧ vf F G g t p = x := by
  have h0 : ∃ x, Val F G g t p x := ⟨x, h⟩
  have e : vf F G g t p = h0.choose := by unfold vf; rw [dif_pos h0]
  have : D F G g t p := by unfold D; rw [e]; exact h0.choose_spec
  exact ⟨this, this.unique h⟩

theorem D_node {t : Nat} {p : Option Nat} {gs : List (Nat × W)} (hg : g[t]? = some gs) (h : ∀ tw, tw ∈ gs → some tw.1 ≠ p → D F G g tw.1 (some t)) :
    D F G g t p ∧ vf F G g t p = G ((gs.filter (fun tw => decide (some tw.1 ≠ p))).map (ent F G g t)).prod t :=
  D_of (Val.node (fun w => vf F G g w (some t)) hg h)

open Classical in
/-- The contribution of a neighbour, that of the parent left out. -/
noncomputable def con (F : T → Nat → W → T) (G : T → Nat → T) (g : List (List (Nat × W))) (s : Nat) (p : Option Nat) (tw : Nat × W) : T := if some tw.1 = p then 1 else ent F G g s tw

theorem prod_con (s : Nat) (p : Option Nat) (gs : List (Nat × W)) : ((gs.filter (fun tw => decide (some tw.1 ≠ p))).map (ent F G g s)).prod = (gs.map (con F G g s p)).prod := by
  induction gs with
  | nil => rfl
  | cons a l ih =>
    rw [List.map_cons, List.prod_cons, ← ih, List.filter_cons]
    unfold con
    by_cases h : some a.1 = p
    · simp [h]
    · simp [h]

/-- The entries of the children of `w` are right. -/
def Down (F : T → Nat → W → T) (G : T → Nat → T) (g : List (List (Nat × W))) (P : Nat → Option Nat) (dp : List (List T)) (w : Nat) : Prop :=
  ∀ gs i tw, g[w]? = some gs → gs[i]? = some tw → some tw.1 ≠ P w → D F G g tw.1 (some w) ∧ rd2 dp w i = some (vf F G g tw.1 (some w))

/-- All entries of `w` are right. -/
def Full (F : T → Nat → W → T) (G : T → Nat → T) (g : List (List (Nat × W))) (dp : List (List T)) (w : Nat) : Prop :=
  ∀ gs i tw, g[w]? = some gs → gs[i]? = some tw → D F G g tw.1 (some w) ∧ rd2 dp w i = some (vf F G g tw.1 (some w))

theorem rd2_same {dp dp' : List (List T)} {w i : Nat} (h : dp'[w]? = dp[w]?) : rd2 dp' w i = rd2 dp w i := by
  unfold rd2; rw [h]

theorem Down.same {dp dp' : List (List T)} {w : Nat} (d : Down F G g P dp w) (h : dp'[w]? = dp[w]?) : Down F G g P dp' w := by
  intro gs i tw a b c
  rw [rd2_same h]
  exact d gs i tw a b c

theorem Full.same {dp dp' : List (List T)} {w : Nat} (d : Full F G g dp w) (h : dp'[w]? = dp[w]?) : Full F G g dp' w := by
  intro gs i tw a b
  rw [rd2_same h]
  exact d gs i tw a b

/-- A child in the list. -/
theorem kid (hG : TreeG n P g) {s : Nat} (hs : s < n) {gs : List (Nat × W)} (hg : g[s]? = some gs) {i : Nat} {tw : Nat × W} (hi : gs[i]? = some tw) (hp : some tw.1 ≠ P s) : tw.1 < n ∧ P tw.1 = some s := by
  obtain ⟨gs', h1, A⟩ := hG.2 s hs
  rw [hg] at h1
  cases h1
  exact A.child (List.mem_map_of_mem (List.mem_of_getElem? hi)) hp

theorem fst_inj (hG : TreeG n P g) {s : Nat} (hs : s < n) {gs : List (Nat × W)} (hg : g[s]? = some gs) {i j : Nat} {a b : Nat × W} (hi : gs[i]? = some a) (hj : gs[j]? = some b) (h : a.1 = b.1) : i = j := by
  obtain ⟨gs', h1, A⟩ := hG.2 s hs
  rw [hg] at h1
  cases h1
  have l := (List.getElem?_eq_some_iff.1 hi).1
  refine (List.nodup_iff_getElem?_ne_getElem?.1 A.nodup |> fun H => ?_)
  have e1 : (gs.map Prod.fst)[i]? = some a.1 := by rw [List.getElem?_map, hi]; rfl
  have e2 : (gs.map Prod.fst)[j]? = some a.1 := by rw [List.getElem?_map, hj, h]; rfl
  rcases Nat.lt_trichotomy i j with hl | hl | hl
  · exact absurd (e1.trans e2.symm) (H i j hl (List.getElem?_eq_some_iff.1 e2).1)
  · exact hl
  · exact absurd (e2.trans e1.symm) (H j i hl (List.getElem?_eq_some_iff.1 e1).1)

/-- The state in the loop of `dfs`. -/
structure J1 (F : T → Nat → W → T) (G : T → Nat → T) (g : List (List (Nat × W))) (n : Nat) (P : Nat → Option Nat) (s : Nat) (gs : List (Nat × W)) (dp0 : List (List T)) (i : Nat) (md : T × List (List T)) : Prop where
  m : md.1 = ((gs.take i).map (con F G g s (P s))).prod
  shape : Shape g md.2
  out : ∀ w, ¬ Anc P s w → md.2[w]? = dp0[w]?
  row : ∀ j tw, j < i → gs[j]? = some tw → some tw.1 ≠ P s → D F G g tw.1 (some s) ∧ rd2 md.2 s j = some (vf F G g tw.1 (some s)) ∧ ∀ w, w < n → Anc P tw.1 w → Down F G g P md.2 w

theorem dfsStep_ok (H : Tree n r P) (hG : TreeG n P g) {s : Nat} (hs : s < n) {gs : List (Nat × W)} (hg : g[s]? = some gs) {rec : Nat → List (List T) → Option (T × List (List T))}
    (hrec : ∀ t dp, t < n → P t = some s → Shape g dp → ∃ dp', rec t dp = some (vf F G g t (some s), dp') ∧ D F G g t (some s) ∧ Shape g dp' ∧ (∀ w, ¬ Anc P t w → dp'[w]? = dp[w]?) ∧ ∀ w, w < n → Anc P t w → Down F G g P dp' w)
    {dp0 : List (List T)} {i : Nat} {md : T × List (List T)} (hi : i < gs.length) (j : J1 F G g n P s gs dp0 i md) :
    ∃ md', dfsStep F rec gs s (P s) i md = some md' ∧ J1 F G g n P s gs dp0 (i+1) md' := by
  have he : gs[i]? = some gs[i] := List.getElem?_eq_getElem hi
  have htk : gs.take (i+1) = gs.take i ++ [gs[i]] := by rw [List.take_add_one, he]; rfl
  generalize gs[i] = tw at he htk
  unfold dfsStep
  rw [he, Option.bind_some]
  by_cases hp : some tw.1 = P s
  · rw [if_pos hp]
    refine ⟨md, rfl, ⟨?_, j.shape, j.out, ?_⟩⟩
    · rw [htk, List.map_append, List.prod_append, j.m]
      unfold con
      simp [hp]
    · intro k a hk ha hpa
      rcases Nat.lt_succ_iff_lt_or_eq.1 hk with h | rfl
      · exact j.row k a h ha hpa
      · rw [he] at ha; cases ha; exact absurd hp hpa
  · rw [if_neg hp]
    obtain ⟨ht, hPt⟩ := kid hG hs hg he hp
    obtain ⟨dp1, e1, d1, s1, o1, k1⟩ := hrec tw.1 md.2 ht hPt j.shape
    obtain ⟨dp2, e2, s2, o2, v2, r2⟩ := wr2_ok s1 hg hi (vf F G g tw.1 (some s))
    rw [e1, Option.bind_some]
    dsimp only
    rw [e2, Option.map_some]
    have hst : ¬ Anc P tw.1 s := H.not_anc_par ht hPt
    refine ⟨_, rfl, ⟨?_, s2, ?_, ?_⟩⟩
    · dsimp only
      rw [htk, List.map_append, List.prod_append, j.m]
      unfold con ent
      simp [hp]
    · intro w hw
      have h1 : w ≠ s := fun h => hw (h ▸ Anc.refl)
      dsimp only
      rw [o2 w h1, o1 w (fun a => hw ((Anc.step hPt Anc.refl).trans a)), j.out w hw]
    · intro k a hk ha hpa
      rcases Nat.lt_succ_iff_lt_or_eq.1 hk with h | rfl
      · obtain ⟨b1, b2, b3⟩ := j.row k a h ha hpa
        obtain ⟨c1, c2⟩ := kid hG hs hg ha hpa
        refine ⟨b1, ?_, fun w hw hanc => ?_⟩
        · dsimp only
          rw [r2 k (by omega), rd2_same (o1 s hst), b2]
        · have h1 : w ≠ s := by rintro rfl; exact H.not_anc_par c1 c2 hanc
          refine (b3 w hw hanc).same ?_
          dsimp only
          rw [o2 w h1, o1 w]
          intro hx
          have := H.children_disjoint c1 ht c2 hPt hanc hx
          have := fst_inj hG hs hg ha he this
          omega
      · rw [he] at ha
        cases ha
        refine ⟨d1, v2, fun w hw hanc => (k1 w hw hanc).same ?_⟩
        have h1 : w ≠ s := by rintro rfl; exact hst hanc
        exact o2 w h1

theorem dfs_ok (H : Tree n r P) (hG : TreeG n P g) : ∀ (f s : Nat) (dp : List (List T)), s < n → sz n P s ≤ f → Shape g dp →
    ∃ dp', dfs F G g (f+1) s (P s) dp = some (vf F G g s (P s), dp') ∧ D F G g s (P s) ∧ Shape g dp' ∧ (∀ w, ¬ Anc P s w → dp'[w]? = dp[w]?) ∧ ∀ w, w < n → Anc P s w → Down F G g P dp' w := by
  intro f
  induction f with
  | zero =>
    intro s dp hs hf
    have : s ∈ desc n P s := mem_desc.2 ⟨hs, Anc.refl⟩
    have : 0 < sz n P s := Finset.card_pos.2 ⟨s, this⟩
    omega
  | succ f ih =>
    intro s dp hs hf S
    obtain ⟨gs, hg, A⟩ := hG.2 s hs
    rw [dfs, hg, Option.bind_some]
    obtain ⟨md, e, j⟩ := forRange_inv (a := 0) (b := gs.length) (s := ((1 : T), dp)) (body := dfsStep F (fun t dp => dfs F G g (f+1) t (some s) dp) gs s (P s)) (P := J1 F G g n P s gs dp)
      (Nat.zero_le _) ⟨by simp, S, fun _ _ => rfl, fun j tw h => by omega⟩
      (fun i md _ hi j => dfsStep_ok H hG hs hg (fun t dp ht hp S => by
        have := ih t dp ht (by have := H.sz_child ht hp; omega) S
        rw [hp] at this
        exact this) hi j)
    rw [e, Option.map_some]
    have hD : ∀ tw, tw ∈ gs → some tw.1 ≠ P s → D F G g tw.1 (some s) := by
      intro tw hm hp
      obtain ⟨k, hk⟩ := List.getElem?_of_mem hm
      exact (j.row k tw (List.getElem?_eq_some_iff.1 hk).1 hk hp).1
    obtain ⟨d, ev⟩ := D_node hg hD
    refine ⟨md.2, ?_, d, j.shape, j.out, ?_⟩
    · rw [ev, prod_con, j.m, List.take_length]
    · intro w hw a
      rcases a.cases' with rfl | ⟨c, hc, a'⟩
      · intro gs' i tw h1 h2 h3
        rw [hg] at h1
        cases h1
        obtain ⟨b1, b2, _⟩ := j.row i tw (List.getElem?_eq_some_iff.1 h2).1 h2 h3
        exact ⟨b1, b2⟩
      · have hcn := a'.lt H hw
        have : c ∈ gs.map Prod.fst := (A.mem c).2 (Or.inl ⟨hcn, hc⟩)
        obtain ⟨tw, hm, rfl⟩ := List.mem_map.1 this
        obtain ⟨k, hk⟩ := List.getElem?_of_mem hm
        refine (j.row k tw (List.getElem?_eq_some_iff.1 hk).1 hk ?_).2.2 w hw a'
        intro h
        exact H.not_both hcn hc h.symm

theorem setProp_ok (hG : TreeG n P g) {s : Nat} (hs : s < n) {gs : List (Nat × W)} (hg : g[s]? = some gs) {dp : List (List T)} (S : Shape g dp) (hd : Down F G g P dp s) {prop : T}
    (hprop : ∀ q, P s = some q → D F G g q (some s) ∧ prop = vf F G g q (some s)) :
    ∃ dp', setProp gs s (P s) prop dp = some dp' ∧ Shape g dp' ∧ (∀ w, w ≠ s → dp'[w]? = dp[w]?) ∧ Full F G g dp' s := by
  unfold setProp
  cases h : gs.findIdx? (fun tw => decide (some tw.1 = P s)) with
  | none =>
    rw [List.findIdx?_eq_none_iff] at h
    refine ⟨dp, rfl, S, fun _ _ => rfl, fun gs' i tw h1 h2 => ?_⟩
    rw [hg] at h1
    cases h1
    refine hd gs i tw hg h2 fun h3 => ?_
    have := h tw (List.mem_of_getElem? h2)
    simp [h3] at this
  | some k =>
    rw [List.findIdx?_eq_some_iff_getElem] at h
    obtain ⟨hk, h1, _⟩ := h
    rw [decide_eq_true_iff] at h1
    have he : gs[k]? = some gs[k] := List.getElem?_eq_getElem hk
    generalize gs[k] = tk at he h1
    obtain ⟨dp', e, S', o, v, r⟩ := wr2_ok S hg hk prop
    refine ⟨dp', e, S', o, fun gs' i tw h2 h3 => ?_⟩
    rw [hg] at h2
    cases h2
    obtain ⟨d1, d2⟩ := hprop tk.1 h1.symm
    by_cases hik : i = k
    · subst hik
      rw [he] at h3
      cases h3
      exact ⟨d1, by rw [v, d2]⟩
    · rw [r i hik]
      refine hd gs i tw hg h3 fun h4 => hik ?_
      rw [← h1] at h4
      exact fst_inj hG hs hg h3 he (Option.some.inj h4)

theorem mkCR_ok {s : Nat} {gs : List (Nat × W)} (hg : g[s]? = some gs) {dp : List (List T)} (hf : Full F G g dp s) :
    ∃ cR, mkCR F gs s dp = some cR ∧ cR.length = gs.length ∧ ∀ i, i < gs.length → cR[i]? = some ((gs.drop (i+1)).map (ent F G g s)).prod := by
  unfold mkCR
  obtain ⟨cR, e, l, h, _⟩ := forRangeDown_inv (a := 0) (b := gs.length - 1) (s := List.replicate gs.length (1 : T)) (body := cRStep F gs s dp)
    (P := fun k cR => cR.length = gs.length ∧ (∀ i, k ≤ i → i < gs.length → cR[i]? = some ((gs.drop (i+1)).map (ent F G g s)).prod) ∧ True)
    (Nat.zero_le _) (by
      refine ⟨List.length_replicate, fun i h1 h2 => ?_, trivial⟩
      rw [List.getElem?_replicate, if_pos h2, List.drop_eq_nil_of_le (by omega)]
      rfl)
    (by
      rintro i cR - hi ⟨l, h, -⟩
      have hi1 : i + 1 < gs.length := by omega
      have he : gs[i+1]? = some gs[i+1] := List.getElem?_eq_getElem hi1
      have hdr : gs.drop (i+1) = gs[i+1] :: gs.drop (i+1+1) := List.drop_eq_getElem_cons hi1
      generalize gs[i+1] = tw at he hdr
      obtain ⟨_, hv⟩ := hf gs (i+1) tw hg he
      unfold cRStep
      rw [h (i+1) (le_refl _) hi1, Option.bind_some, he, Option.bind_some, hv, Option.bind_some]
      obtain ⟨l', e', ll, v', o'⟩ := wr_ok (l := cR) (i := i) (by omega) (((gs.drop (i+1+1)).map (ent F G g s)).prod * F (vf F G g tw.1 (some s)) tw.1 tw.2)
      refine ⟨l', e', by omega, fun j h1 h2 => ?_, trivial⟩
      by_cases hj : j = i
      · subst hj
        rw [v', hdr, List.map_cons, List.prod_cons, mul_comm]
        rfl
      · rw [o' j hj]
        exact h j (by omega) h2)
  exact ⟨cR, e, l, fun i hi => h i (Nat.zero_le _) hi⟩

theorem filter_ne {gs : List (Nat × W)} (hn : (gs.map Prod.fst).Nodup) {i : Nat} {tw : Nat × W} (h : gs[i]? = some tw) :
    gs.filter (fun a => decide (some a.1 ≠ some tw.1)) = gs.take i ++ gs.drop (i+1) := by
  induction gs generalizing i with
  | nil => cases h
  | cons a l ih =>
    rw [List.map_cons, List.nodup_cons] at hn
    cases i with
    | zero =>
      cases h
      rw [List.filter_cons]
      simp only [ne_eq, not_true_eq_false, decide_false, Bool.false_eq_true, if_false, List.take_zero, List.nil_append]
      rw [List.drop_succ_cons, List.drop_zero]
      refine List.filter_eq_self.2 fun b hb => ?_
      rw [decide_eq_true_iff]
      intro e
      refine hn.1 ?_
      rw [← Option.some.inj e]
      exact List.mem_map_of_mem hb
    | succ i =>
      rw [List.getElem?_cons_succ] at h
      have : a.1 ≠ tw.1 := by
        intro e
        exact hn.1 (e ▸ List.mem_map_of_mem (List.mem_of_getElem? h))
      rw [List.filter_cons, if_pos (by simpa using this), ih hn.2 h, List.take_succ_cons, List.drop_succ_cons, List.cons_append]

/-- The state in the loop of `dfs2`. -/
structure J2 (F : T → Nat → W → T) (G : T → Nat → T) (g : List (List (Nat × W))) (n : Nat) (P : Nat → Option Nat) (s : Nat) (gs : List (Nat × W)) (dp0 : List (List T)) (i : Nat) (cd : T × List (List T)) : Prop where
  c : cd.1 = ((gs.take i).map (ent F G g s)).prod
  shape : Shape g cd.2
  out : ∀ w, ¬ Anc P s w → cd.2[w]? = dp0[w]?
  row : Full F G g cd.2 s
  done : ∀ j tw, j < i → gs[j]? = some tw → some tw.1 ≠ P s → ∀ w, w < n → Anc P tw.1 w → Full F G g cd.2 w
  todo : ∀ j tw, i ≤ j → gs[j]? = some tw → some tw.1 ≠ P s → ∀ w, w < n → Anc P tw.1 w → Down F G g P cd.2 w

theorem dfs2Step_ok (H : Tree n r P) (hG : TreeG n P g) {s : Nat} (hs : s < n) {gs : List (Nat × W)} (hg : g[s]? = some gs) {rec : Nat → T → List (List T) → Option (List (List T))}
    (hrec : ∀ t dp, t < n → P t = some s → Shape g dp → (∀ w, w < n → Anc P t w → Down F G g P dp w) → D F G g s (some t) → ∃ dp', rec t (vf F G g s (some t)) dp = some dp' ∧ Shape g dp' ∧ (∀ w, ¬ Anc P t w → dp'[w]? = dp[w]?) ∧ ∀ w, w < n → Anc P t w → Full F G g dp' w)
    {cR : List T} (hcR : ∀ i, i < gs.length → cR[i]? = some ((gs.drop (i+1)).map (ent F G g s)).prod)
    {dp0 : List (List T)} {i : Nat} {cd : T × List (List T)} (hi : i < gs.length) (j : J2 F G g n P s gs dp0 i cd) :
    ∃ cd', dfs2Step F G rec gs cR s (P s) i cd = some cd' ∧ J2 F G g n P s gs dp0 (i+1) cd' := by
  have he : gs[i]? = some gs[i] := List.getElem?_eq_getElem hi
  have htk : gs.take (i+1) = gs.take i ++ [gs[i]] := by rw [List.take_add_one, he]; rfl
  generalize gs[i] = tw at he htk
  unfold dfs2Step
  rw [he, Option.bind_some, hcR i hi, Option.bind_some]
  have hc : ∀ dp', Full F G g dp' s → ((rd2 dp' s i).map (fun x => (cd.1 * F x tw.1 tw.2, dp'))) = some (((gs.take (i+1)).map (ent F G g s)).prod, dp') := by
    intro dp' hf
    rw [(hf gs i tw hg he).2, Option.map_some, htk, List.map_append, List.prod_append, j.c]
    simp [ent]
  unfold down
  by_cases hp : some tw.1 = P s
  · rw [if_pos hp, Option.bind_some, hc _ j.row]
    refine ⟨_, rfl, ⟨rfl, j.shape, j.out, j.row, ?_, fun k a hk => j.todo k a (by omega)⟩⟩
    intro k a hk ha hpa
    rcases Nat.lt_succ_iff_lt_or_eq.1 hk with h | rfl
    · exact j.done k a h ha hpa
    · rw [he] at ha; cases ha; exact absurd hp hpa
  · rw [if_neg hp]
    obtain ⟨ht, hPt⟩ := kid hG hs hg he hp
    have hst : ¬ Anc P tw.1 s := H.not_anc_par ht hPt
    have hnd : (gs.map Prod.fst).Nodup := by
      obtain ⟨gs', h1, A⟩ := hG.2 s hs
      rw [hg] at h1
      cases h1
      exact A.nodup
    obtain ⟨d, ev⟩ := D_node (F := F) (G := G) (p := some tw.1) hg (fun a hm _ => by
      obtain ⟨k, hk⟩ := List.getElem?_of_mem hm
      exact (j.row gs k a hg hk).1)
    rw [filter_ne hnd he, List.map_append, List.prod_append, ← j.c] at ev
    rw [← ev]
    obtain ⟨dp', e', S', o', f'⟩ := hrec tw.1 cd.2 ht hPt j.shape (j.todo i tw (le_refl _) he hp) d
    have hrow : Full F G g dp' s := j.row.same (o' s hst)
    have hdis : ∀ k a, k ≠ i → gs[k]? = some a → some a.1 ≠ P s → ∀ w, Anc P a.1 w → ¬ Anc P tw.1 w := by
      intro k a hk ha hpa w h1 h2
      obtain ⟨c1, c2⟩ := kid hG hs hg ha hpa
      exact hk (fst_inj hG hs hg ha he (H.children_disjoint c1 ht c2 hPt h1 h2))
    rw [e', Option.bind_some, hc _ hrow]
    refine ⟨_, rfl, ⟨rfl, S', ?_, hrow, ?_, ?_⟩⟩
    · intro w hw
      dsimp only
      rw [o' w (fun a => hw ((Anc.step hPt Anc.refl).trans a)), j.out w hw]
    · intro k a hk ha hpa w hw hanc
      rcases Nat.lt_succ_iff_lt_or_eq.1 hk with h | rfl
      · exact (j.done k a h ha hpa w hw hanc).same (o' w (hdis k a (by omega) ha hpa w hanc))
      · rw [he] at ha
        cases ha
        exact f' w hw hanc
    · intro k a hk ha hpa w hw hanc
      exact (j.todo k a (by omega) ha hpa w hw hanc).same (o' w (hdis k a (by omega) ha hpa w hanc))

theorem dfs2_ok (H : Tree n r P) (hG : TreeG n P g) : ∀ (f s : Nat) (prop : T) (dp : List (List T)), s < n → sz n P s ≤ f → Shape g dp →
    (∀ w, w < n → Anc P s w → Down F G g P dp w) → (∀ q, P s = some q → D F G g q (some s) ∧ prop = vf F G g q (some s)) →
    ∃ dp', dfs2 F G g (f+1) s (P s) prop dp = some dp' ∧ Shape g dp' ∧ (∀ w, ¬ Anc P s w → dp'[w]? = dp[w]?) ∧ ∀ w, w < n → Anc P s w → Full F G g dp' w := by
  intro f
  induction f with
  | zero =>
    intro s prop dp hs hf
    have : s ∈ desc n P s := mem_desc.2 ⟨hs, Anc.refl⟩
    have : 0 < sz n P s := Finset.card_pos.2 ⟨s, this⟩
    omega
  | succ f ih =>
    intro s prop dp hs hf S hd hprop
    obtain ⟨gs, hg, A⟩ := hG.2 s hs
    rw [dfs2, hg, Option.bind_some]
    obtain ⟨dp1, e1, S1, o1, f1⟩ := setProp_ok hG hs hg S (hd s hs Anc.refl) hprop
    rw [e1, Option.bind_some]
    obtain ⟨cR, e2, l2, h2⟩ := mkCR_ok hg f1
    rw [e2, Option.bind_some]
    obtain ⟨cd, e, j⟩ := forRange_inv (a := 0) (b := gs.length) (s := ((1 : T), dp1)) (body := dfs2Step F G (fun t x dp => dfs2 F G g (f+1) t (some s) x dp) gs cR s (P s)) (P := J2 F G g n P s gs dp)
      (Nat.zero_le _) ⟨by simp, S1, fun w hw => o1 w (fun h => hw (h ▸ Anc.refl)), f1, fun j tw h => by omega, by
        intro k a _ ha hpa w hw hanc
        obtain ⟨c1, c2⟩ := kid hG hs hg ha hpa
        refine (hd w hw ((Anc.step c2 Anc.refl).trans hanc)).same (o1 w ?_)
        rintro rfl
        exact H.not_anc_par c1 c2 hanc⟩
      (fun i cd _ hi j => dfs2Step_ok H hG hs hg (fun t dp ht hp S hd hD => by
        have := ih t (vf F G g s (some t)) dp ht (by have := H.sz_child ht hp; omega) S hd (fun q hq => by
          rw [hp] at hq
          cases hq
          exact ⟨hD, rfl⟩)
        rw [hp] at this
        exact this) h2 hi j)
    rw [e, Option.map_some]
    refine ⟨_, rfl, j.shape, j.out, ?_⟩
    intro w hw a
    rcases a.cases' with rfl | ⟨c, hc, a'⟩
    · exact j.row
    · have hcn := a'.lt H hw
      have : c ∈ gs.map Prod.fst := (A.mem c).2 (Or.inl ⟨hcn, hc⟩)
      obtain ⟨tw, hm, rfl⟩ := List.mem_map.1 this
      obtain ⟨k, hk⟩ := List.getElem?_of_mem hm
      exact j.done k tw (List.getElem?_eq_some_iff.1 hk).1 hk (fun h => H.not_both hcn hc h.symm) w hw a'

theorem calc_ok (H : Tree n r P) (hG : TreeG n P g) : ∃ dp, calcDp F G g r = some dp ∧ Shape g dp ∧ ∀ w, w < n → Full F G g dp w := by
  unfold calcDp
  have hsz := sz_le (n := n) (P := P) (v := r)
  obtain ⟨dp1, e1, _, S1, _, d1⟩ := dfs_ok (F := F) (G := G) H hG g.length r (g.map (fun gs => List.replicate gs.length 1)) H.root_lt (by rw [hG.1]; exact hsz) (by
    intro v gs hv
    exact ⟨List.replicate gs.length 1, by rw [List.getElem?_map, hv]; rfl, List.length_replicate⟩)
  rw [H.root] at e1
  rw [e1, Option.bind_some]
  obtain ⟨dp2, e2, S2, _, f2⟩ := dfs2_ok (F := F) (G := G) H hG g.length r 1 dp1 H.root_lt (by rw [hG.1]; exact hsz) S1 d1 (fun q hq => by rw [H.root] at hq; cases hq)
  rw [H.root] at e2
  exact ⟨dp2, e2, S2, fun w hw => f2 w hw (H.root_anc hw)⟩

end Verif.Reroot
