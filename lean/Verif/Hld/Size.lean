import Verif.Hld.Model
import Verif.Hld.Tree
/-!
`dfs_sz`: sizes, parents, and the heavy child first.
-/
namespace Verif.Hld

theorem wr_ok {α : Type} {l : List α} {i : Nat} (h : i < l.length) (x : α) : ∃ l', wr l i x = some l' ∧ l'.length = l.length ∧ l'[i]? = some x ∧ ∀ j, j ≠ i → l'[j]? = l[j]? := by
  refine ⟨l.set i x, ?_, List.length_set, List.getElem?_set_self h, fun j hj => List.getElem?_set_ne (Ne.symm hj)⟩
  unfold wr
  rw [if_pos h]

theorem swap_ok (a b : Nat) (l1 l2 : List Nat) : swap (a :: l1 ++ b :: l2) 0 (l1.length + 1) = some (b :: l1 ++ a :: l2) := by
  have h1 : (a :: l1 ++ b :: l2)[l1.length + 1]? = some b := by simp
  unfold swap wr
  rw [h1]
  simp

theorem swap_one (a : Nat) : swap [a] 0 0 = some [a] := rfl

variable {n r : Nat} {P : Nat → Option Nat}

/-- `swap_ok`, as a permutation. -/
theorem swap_perm (a b : Nat) (l1 l2 : List Nat) : (b :: l1 ++ a :: l2).Perm (a :: l1 ++ b :: l2) := by
  have h1 : (b :: l1 ++ a :: l2).Perm (b :: a :: (l1 ++ l2)) := by
    rw [List.cons_append]
    exact (List.perm_middle).cons b
  have h2 : (a :: l1 ++ b :: l2).Perm (a :: b :: (l1 ++ l2)) := by
    rw [List.cons_append]
    exact (List.perm_middle).cons a
  exact h1.trans ((List.Perm.swap a b _).trans h2.symm)

/-- The parent is first only if there is no child. -/
def First (P : Nat → Option Nat) (v : Nat) (ev : List Nat) : Prop := ∀ h tl, ev = h :: tl → P v = some h → tl = []

theorem swapBack_ok {v : Nat} {ev : List Nat} (A : Adj n P v ev) : ∃ ev', swapBack (P v) ev = some ev' ∧ ev'.Perm ev ∧ First P v ev' := by
  unfold swapBack
  cases ev with
  | nil => exact ⟨[], rfl, List.Perm.refl _, fun h tl e => by cases e⟩
  | cons a l =>
    dsimp only
    by_cases hp : some a = P v
    · rw [if_pos hp]
      rcases List.eq_nil_or_concat l with rfl | ⟨l1, z, rfl⟩
      · exact ⟨[a], swap_one a, List.Perm.refl _, fun h tl e _ => by cases e; rfl⟩
      · refine ⟨z :: l1 ++ [a], ?_, ?_, ?_⟩
        · have := swap_ok a z l1 []
          simp only [List.concat_eq_append, List.length_cons, List.length_append, List.length_nil] at this ⊢
          exact this
        · rw [List.concat_eq_append]; exact swap_perm a z l1 []
        · intro h tl e hv
          cases e
          rw [← hp] at hv
          cases hv
          have := A.nodup
          simp at this
    · rw [if_neg hp]
      refine ⟨_, rfl, List.Perm.refl _, fun h tl e hv => ?_⟩
      cases e
      exact absurd hv.symm hp

/-- A finished vertex. -/
structure Good (n : Nat) (P : Nat → Option Nat) (s : Sz) (w : Nat) : Prop where
  par : s.par[w]? = some (P w)
  size : s.size[w]? = some (sz n P w)
  edge : ∃ ev, s.edge[w]? = some ev ∧ Adj n P w ev ∧ First P w ev ∧ ∀ h tl, ev = h :: tl → P h = some w → ∀ c, c < n → P c = some w → sz n P c ≤ sz n P h

structure Lens (n : Nat) (s : Sz) : Prop where
  edge : s.edge.length = n
  size : s.size.length = n
  par : s.par.length = n

/-- `s` and `s'` agree at `w`. -/
def SameAt (s s' : Sz) (w : Nat) : Prop := s'.edge[w]? = s.edge[w]? ∧ s'.size[w]? = s.size[w]? ∧ s'.par[w]? = s.par[w]?

theorem SameAt.trans {s s' s'' : Sz} {w : Nat} (a : SameAt s s' w) (b : SameAt s' s'' w) : SameAt s s'' w := ⟨b.1.trans a.1, b.2.1.trans a.2.1, b.2.2.trans a.2.2⟩

theorem Good.same {s s' : Sz} {w : Nat} (g : Good n P s w) (h : SameAt s s' w) : Good n P s' w :=
  ⟨h.2.2.trans g.par, h.2.1.trans g.size, by rw [h.1]; exact g.edge⟩

/-- A vertex not visited yet. -/
def Raw (n : Nat) (P : Nat → Option Nat) (s : Sz) (w : Nat) : Prop := ∃ ev, s.edge[w]? = some ev ∧ Adj n P w ev

/-- The state in the loop of `v`: `dn` has been handled, `td` not. -/
structure J (n : Nat) (P : Nat → Option Nat) (v : Nat) (s0 s : Sz) (dn td : List Nat) : Prop where
  lens : Lens n s
  edge : s.edge[v]? = some (dn ++ td)
  adj : Adj n P v (dn ++ td)
  first : First P v (dn ++ td)
  par : s.par[v]? = some (P v)
  size : s.size[v]? = some (1 + (dn.map (wt n P v)).sum)
  out : ∀ w, ¬ Anc P v w → SameAt s0 s w
  good : ∀ c, c ∈ dn → P c = some v → ∀ w, w < n → Anc P c w → Good n P s w
  raw : ∀ c, c ∈ td → P c = some v → ∀ w, w < n → Anc P c w → Raw n P s w
  heavy : ∀ h tl, dn = h :: tl → P h = some v → ∀ c ∈ dn, P c = some v → sz n P c ≤ sz n P h

theorem szStep_ok (T : Tree n r P) {v : Nat} (hv : v < n) {rec : Nat → Sz → Option Sz}
    (hrec : ∀ t s, t < n → P t = some v → Lens n s → (∀ w, w < n → Anc P t w → Raw n P s w) →
      ∃ s', rec t s = some s' ∧ Lens n s' ∧ (∀ w, ¬ Anc P t w → SameAt s s' w) ∧ ∀ w, w < n → Anc P t w → Good n P s' w)
    {s0 s : Sz} {dn td : List Nat} {t : Nat} (j : J n P v s0 s dn (t :: td)) :
    ∃ s' dn', szStep rec v (P v) dn.length s = some s' ∧ dn'.length = dn.length + 1 ∧ J n P v s0 s' dn' td := by
  have hrd : rd2 s.edge v dn.length = some t := by
    unfold rd2
    rw [j.edge]
    simp
  have htm : t ∈ dn ++ t :: td := by simp
  unfold szStep
  rw [hrd, Option.bind_some]
  by_cases hp : some t = P v
  · rw [if_pos hp]
    refine ⟨s, dn ++ [t], rfl, by simp, ⟨j.lens, ?_, ?_, ?_, j.par, ?_, j.out, ?_, ?_, ?_⟩⟩
    · rw [j.edge]; simp
    · have := j.adj; rwa [List.append_cons] at this
    · have := j.first; rwa [List.append_cons] at this
    · rw [j.size]; simp [wt, hp]
    · intro c hc hcv w hw a
      rcases List.mem_append.1 hc with h | h
      · exact j.good c h hcv w hw a
      · rw [List.mem_singleton] at h
        subst h
        exfalso
        exact T.not_both (a.lt T hw) hcv hp.symm
    · intro c hc; exact j.raw c (List.mem_cons_of_mem _ hc)
    · intro h tl e hh c hc hcv
      cases dn with
      | nil =>
        cases e
        simp only [List.nil_append, List.mem_singleton] at hc
        subst hc
        exact le_refl _
      | cons h' dn' =>
        cases e
        rcases List.mem_append.1 hc with hc | hc
        · exact j.heavy h dn' rfl hh c hc hcv
        · rw [List.mem_singleton] at hc
          subst hc
          rcases (j.adj.mem c).1 (by simp) with h' | h'
          · exact absurd hp.symm (T.not_both h'.1 h'.2)
          · by_cases hcn : c < n
            · exact absurd h' (T.not_both hcn hcv)
            · have : sz n P c = 0 := by
                unfold sz
                rw [Finset.card_eq_zero, Finset.eq_empty_iff_forall_notMem]
                intro y hy
                obtain ⟨h1, h2⟩ := mem_desc.1 hy
                exact hcn (h2.lt T h1)
              omega
  · rw [if_neg hp]
    obtain ⟨htn, htv⟩ := j.adj.child htm hp
    have hnv : ¬ Anc P t v := T.not_anc_par htn htv
    obtain ⟨s1, e1, L1, out1, good1⟩ := hrec t s htn htv j.lens (j.raw t (List.mem_cons_self ..) htv)
    rw [e1, Option.bind_some]
    have sv := out1 v hnv
    have hrd1 : rd2 s1.edge v dn.length = some t := by
      unfold rd2
      rw [sv.1, j.edge]
      simp
    unfold szAdd
    rw [hrd1, Option.bind_some, sv.2.1, j.size, Option.bind_some, (good1 t htn Anc.refl).size, Option.bind_some]
    obtain ⟨size, e2, l2, h2, h2'⟩ := wr_ok (l := s1.size) (i := v) (by rw [L1.size]; exact hv) (1 + (dn.map (wt n P v)).sum + sz n P t)
    rw [e2, Option.bind_some]
    have hwt : wt n P v t = sz n P t := by unfold wt; rw [if_neg hp]
    -- the state before the swap
    have hsame : ∀ w, w ≠ v → SameAt s1 ⟨s1.edge, size, s1.par⟩ w := fun w hw => ⟨rfl, h2' w hw, rfl⟩
    have hout : ∀ w, ¬ Anc P v w → SameAt s0 ⟨s1.edge, size, s1.par⟩ w := by
      intro w hw
      refine ((j.out w hw).trans (out1 w fun a => hw ?_)).trans (hsame w ?_)
      · exact (Anc.step htv Anc.refl).trans a
      · rintro rfl; exact hw Anc.refl
    have hgood : ∀ c, c ∈ dn ∨ c = t → P c = some v → ∀ w, w < n → Anc P c w → Good n P ⟨s1.edge, size, s1.par⟩ w := by
      intro c hc hcv w hw a
      have hcn := a.lt T hw
      have hwv : w ≠ v := by rintro rfl; exact T.not_anc_par hcn hcv a
      refine Good.same ?_ (hsame w hwv)
      by_cases hct : c = t
      · subst hct; exact good1 w hw a
      · have hcd := hc.resolve_right hct
        refine (j.good c hcd hcv w hw a).same (out1 w fun a' => ?_)
        exact hct (T.children_disjoint hcn htn hcv htv a a')
    have hraw : ∀ c, c ∈ td → P c = some v → ∀ w, w < n → Anc P c w → Raw n P ⟨s1.edge, size, s1.par⟩ w := by
      intro c hc hcv w hw a
      have hcn := a.lt T hw
      have hct : c ≠ t := by
        rintro rfl
        have := j.adj.nodup
        rw [List.nodup_append] at this
        exact (List.nodup_cons.1 this.2.1).1 hc
      obtain ⟨ev, e, A⟩ := j.raw c (List.mem_cons_of_mem _ hc) hcv w hw a
      refine ⟨ev, ?_, A⟩
      show s1.edge[w]? = _
      rw [(out1 w fun a' => hct (T.children_disjoint hcn htn hcv htv a a')).1, e]
    have hedge : s1.edge[v]? = some (dn ++ t :: td) := sv.1.trans j.edge
    have hsize : size[v]? = some (1 + ((dn ++ [t]).map (wt n P v)).sum) := by rw [h2]; simp [hwt]; omega
    -- the end, for the two orders
    have fin : ∀ (dn' : List Nat) (edge : List (List Nat)), dn'.Perm (dn ++ [t]) → edge.length = n → edge[v]? = some (dn' ++ td) → (∀ w, w ≠ v → edge[w]? = s1.edge[w]?) → First P v (dn' ++ td) →
        (∀ h tl, dn' = h :: tl → P h = some v → ∀ c ∈ dn', P c = some v → sz n P c ≤ sz n P h) → J n P v s0 ⟨edge, size, s1.par⟩ dn' td := by
      intro dn' edge hperm hlen hev hoth hfirst hheavy
      have hs : ∀ w, w ≠ v → SameAt ⟨s1.edge, size, s1.par⟩ ⟨edge, size, s1.par⟩ w := fun w hw => ⟨hoth w hw, rfl, rfl⟩
      refine ⟨⟨hlen, by rw [l2]; exact L1.size, L1.par⟩, hev, ?_, hfirst, sv.2.2.trans j.par, ?_, ?_, ?_, ?_, hheavy⟩
      · refine j.adj.perm ?_
        rw [List.append_cons]
        exact hperm.append_right td
      · show size[v]? = _
        rw [hsize, (hperm.map _).sum_eq]
      · intro w hw; exact (hout w hw).trans (hs w (by rintro rfl; exact hw Anc.refl))
      · intro c hc hcv w hw a
        have hc' := hperm.mem_iff.1 hc
        rw [List.mem_append, List.mem_singleton] at hc'
        exact (hgood c hc' hcv w hw a).same (hs w (by rintro rfl; exact T.not_anc_par (a.lt T hw) hcv a))
      · intro c hc hcv w hw a
        obtain ⟨ev, e, A⟩ := hraw c hc hcv w hw a
        exact ⟨ev, by rw [← e]; exact hoth w (by rintro rfl; exact T.not_anc_par (a.lt T hw) hcv a), A⟩
    have hfirst' : First P v ((dn ++ [t]) ++ td) := by have := j.first; rwa [List.append_cons] at this
    unfold szSwap
    cases hdn : dn with
    | nil =>
      rw [hdn] at fin hedge hfirst'
      have h0 : rd2 s1.edge v 0 = some t := by unfold rd2; rw [hedge]; rfl
      rw [h0, Option.bind_some]
      have hst : size[t]? = some (sz n P t) := by rw [h2' t (by rintro rfl; exact hnv Anc.refl)]; exact (good1 t htn Anc.refl).size
      dsimp only
      rw [hst, Option.bind_some, if_neg (by omega)]
      refine ⟨_, [t], rfl, rfl, fin [t] s1.edge (List.Perm.refl _) L1.edge (by rw [hedge]; rfl) (fun _ _ => rfl) hfirst' ?_⟩
      intro h tl e _ c hc _
      cases e
      rw [List.mem_singleton] at hc
      subst hc
      exact le_refl _
    | cons a l1 =>
      rw [hdn] at fin hedge hfirst'
      have h0 : rd2 s1.edge v 0 = some a := by unfold rd2; rw [hedge]; rfl
      rw [h0, Option.bind_some]
      -- the first neighbour is a child
      have hav : ¬ some a = P v := by
        intro h
        have := j.first a (l1 ++ t :: td) (by rw [hdn]; rfl) h.symm
        simp at this
      obtain ⟨han, hac⟩ := j.adj.child (w := a) (by rw [hdn]; simp) hav
      have hsa : size[a]? = some (sz n P a) := by
        rw [h2' a (T.par_ne han hac).symm]
        exact (hgood a (Or.inl (by rw [hdn]; simp)) hac a han Anc.refl).size ▸ (h2' a (T.par_ne han hac).symm).symm
      dsimp only
      rw [hsa, Option.bind_some]
      have hmax := j.heavy a l1 hdn hac
      by_cases hc : sz n P a < sz n P t
      · rw [if_pos hc, hedge, Option.bind_some]
        have hsw := swap_ok a t l1 td
        rw [show (a :: l1).length = l1.length + 1 from rfl]
        rw [hsw, Option.bind_some]
        obtain ⟨edge, e3, l3, h3, h3'⟩ := wr_ok (l := s1.edge) (i := v) (by rw [L1.edge]; exact hv) (t :: l1 ++ a :: td)
        rw [e3]
        have hpm : (t :: l1 ++ [a]).Perm (a :: l1 ++ [t]) := swap_perm a t l1 []
        refine ⟨_, t :: l1 ++ [a], rfl, by simp, fin _ edge hpm (by rw [l3]; exact L1.edge) (by rw [h3]; simp) h3' ?_ ?_⟩
        · intro h tl e hh
          simp only [List.cons_append, List.cons.injEq] at e
          rw [← e.1] at hh
          exact absurd hh.symm hp
        · intro h tl e hh c hcm hcv
          simp only [List.cons_append, List.cons.injEq] at e
          rw [← e.1]
          have := hpm.mem_iff.1 hcm
          rw [List.mem_append, List.mem_singleton] at this
          rcases this with h' | h'
          · have := hmax c (by rw [hdn]; exact h') hcv
            omega
          · subst h'; exact le_refl _
      · rw [if_neg hc]
        refine ⟨_, a :: l1 ++ [t], rfl, by simp, fin _ s1.edge (List.Perm.refl _) L1.edge (by rw [hedge]; simp) (fun _ _ => rfl) hfirst' ?_⟩
        intro h tl e hh c hcm hcv
        simp only [List.cons_append, List.cons.injEq] at e
        rw [← e.1]
        rw [List.mem_append, List.mem_singleton] at hcm
        rcases hcm with h' | h'
        · exact hmax c (by rw [hdn]; exact h') hcv
        · subst h'; omega

theorem dfsSz_ok (T : Tree n r P) : ∀ (f v : Nat) (s : Sz), v < n → sz n P v ≤ f → Lens n s → (∀ w, w < n → Anc P v w → Raw n P s w) →
    ∃ s', dfsSz f v (P v) s = some s' ∧ Lens n s' ∧ (∀ w, ¬ Anc P v w → SameAt s s' w) ∧ ∀ w, w < n → Anc P v w → Good n P s' w := by
  intro f
  induction f with
  | zero => intro v s hv hf; have := sz_pos (P := P) hv; omega
  | succ f ih =>
    intro v s hv hf L hraw
    rw [dfsSz]
    obtain ⟨par, e1, l1, h1, h1'⟩ := wr_ok (l := s.par) (i := v) (by rw [L.par]; exact hv) (P v)
    obtain ⟨size, e2, l2, h2, h2'⟩ := wr_ok (l := s.size) (i := v) (by rw [L.size]; exact hv) 1
    obtain ⟨ev, e3, A⟩ := hraw v hv Anc.refl
    obtain ⟨ev', e4, hperm, hfirst⟩ := swapBack_ok A
    obtain ⟨edge, e5, l5, h5, h5'⟩ := wr_ok (l := s.edge) (i := v) (by rw [L.edge]; exact hv) ev'
    rw [e1, Option.bind_some, e2, Option.bind_some, e3, Option.bind_some, e4, Option.bind_some, e5, Option.bind_some]
    have A' := A.perm hperm
    have J0 : J n P v s ⟨edge, size, par⟩ [] ev' := by
      refine ⟨⟨by rw [l5]; exact L.edge, by rw [l2]; exact L.size, by rw [l1]; exact L.par⟩, h5, A', hfirst, h1, by rw [h2]; rfl, ?_, (fun c hc => by cases hc), ?_, (fun h tl e => by cases e)⟩
      · intro w hw
        have : w ≠ v := by rintro rfl; exact hw Anc.refl
        exact ⟨h5' w this, h2' w this, h1' w this⟩
      · intro c hc hcv w hw a
        have hwv : w ≠ v := by rintro rfl; exact T.not_anc_par (a.lt T hw) hcv a
        obtain ⟨e, h, A⟩ := hraw w hw ((Anc.step hcv Anc.refl).trans a)
        exact ⟨e, by rw [← h]; exact h5' w hwv, A⟩
    obtain ⟨s', es, dn, td, hl, hev, j⟩ := forRange_inv (a := 0) (b := ev'.length) (s := ⟨edge, size, par⟩) (body := szStep (fun t s => dfsSz f t (some v) s) v (P v))
      (P := fun i s' => ∃ dn td, dn.length = i ∧ dn.length + td.length = ev'.length ∧ J n P v s s' dn td) (Nat.zero_le _) ⟨[], ev', rfl, by simp, J0⟩ (by
        rintro i s1 _ hi ⟨dn, td, hl, hev, j⟩
        cases td with
        | nil => simp at hev; omega
        | cons t td =>
          obtain ⟨s', dn', e', l', j'⟩ := szStep_ok T hv (rec := fun t s => dfsSz f t (some v) s) (fun t s2 ht hp L2 hr2 => by
            have := ih t s2 ht (by have := T.sz_child ht hp; omega) L2 hr2
            rw [hp] at this
            exact this) j
          rw [hl] at e'
          exact ⟨s', e', dn', td, by omega, by simp at hev; omega, j'⟩)
    have htd : td = [] := List.length_eq_zero_iff.1 (by omega)
    subst htd
    refine ⟨s', es, j.lens, j.out, ?_⟩
    have hedge := j.edge
    have hadj := j.adj
    have hfst := j.first
    rw [List.append_nil] at hedge hadj hfst
    intro w hw a
    rcases a.cases' with h | ⟨c, hc1, hc2⟩
    · subst h
      refine ⟨j.par, by rw [j.size, ← T.sz_sum hv hadj], dn, hedge, hadj, hfst, ?_⟩
      intro h tl e hh c hc hcv
      exact j.heavy h tl e hh c ((hadj.mem c).2 (Or.inl ⟨hc, hcv⟩)) hcv
    · have hcn := hc2.lt T hw
      exact j.good c ((hadj.mem c).2 (Or.inl ⟨hcn, hc1⟩)) hc1 w hw hc2

end Verif.Hld
