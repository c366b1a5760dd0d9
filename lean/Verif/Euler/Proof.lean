import Verif.Euler.Model
import Verif.Hld.Build
import Verif.Hld.Lca
/-!
The Euler tour of a tree.
-/
namespace Verif.Euler
open Verif.Hld

variable {n r : Nat} {P : Nat → Option Nat}

/-- Parent and child. -/
def Nb (P : Nat → Option Nat) (x y : Nat) : Prop := P x = some y ∨ P y = some x

/-- `l` and `r` are the first and the last position of `w` in the tour, and the positions between them are those of the subtree of `w`. -/
structure Span (P : Nat → Option Nat) (tour : List Nat) (w l r : Nat) : Prop where
  le : l ≤ r
  left : tour[l]? = some w
  right : tour[r]? = some w
  sub : ∀ i x : Nat, tour[i]? = some x → ((l ≤ i ∧ i ≤ r) ↔ Anc P w x)

/-- A finished vertex. -/
def Done (P : Nat → Option Nat) (x : St) (w : Nat) : Prop := ∃ l r, x.L[w]? = some l ∧ x.R[w]? = some r ∧ Span P x.tour w l r

structure Lens (n : Nat) (x : St) : Prop where
  L : x.L.length = n
  R : x.R.length = n
  k : x.k = x.tour.length

/-- What a call of `dfs` on `s` or the loop of it may change. -/
structure Ext (n : Nat) (P : Nat → Option Nat) (s : Nat) (x y : St) : Prop where
  lens : Lens n y
  pre : ∃ seg, y.tour = x.tour ++ seg ∧ (∀ w ∈ seg, w < n ∧ Anc P s w)
  out : ∀ w, ¬ Anc P s w → y.L[w]? = x.L[w]? ∧ y.R[w]? = x.R[w]?

/-- The tour after `x.tour` begins and ends with `s` and moves along edges. -/
structure Walk (P : Nat → Option Nat) (s a : Nat) (tour : List Nat) : Prop where
  lt : a < tour.length
  first : tour[a]? = some s
  last : tour[tour.length - 1]? = some s
  nb : ∀ i u v : Nat, a ≤ i → tour[i]? = some u → tour[i+1]? = some v → Nb P u v

theorem Done.ext {x y : St} {w : Nat} {seg : List Nat} (d : Done P x w) (hL : y.L[w]? = x.L[w]?) (hR : y.R[w]? = x.R[w]?) (ht : y.tour = x.tour ++ seg) (hs : ∀ v ∈ seg, ¬ Anc P w v) : Done P y w := by
  obtain ⟨l, r, h1, h2, S⟩ := d
  have hr : r < x.tour.length := (List.getElem?_eq_some_iff.1 S.right).1
  have hl : l < x.tour.length := (List.getElem?_eq_some_iff.1 S.left).1
  refine ⟨l, r, hL.trans h1, hR.trans h2, ⟨S.le, ?_, ?_, ?_⟩⟩
  · rw [ht, List.getElem?_append_left hl]; exact S.left
  · rw [ht, List.getElem?_append_left hr]; exact S.right
  · intro i v hi
    rw [ht] at hi
    by_cases hlt : i < x.tour.length
    · rw [List.getElem?_append_left hlt] at hi
      exact S.sub i v hi
    · rw [List.getElem?_append_right (by omega)] at hi
      exact ⟨fun h => by omega, fun h => absurd h (hs v (List.mem_of_getElem? hi))⟩

/-- The state in the loop of `s`, which has handled `dn`. -/
structure J (n : Nat) (P : Nat → Option Nat) (s : Nat) (x0 x : St) (dn : List Nat) : Prop where
  ext : Ext n P s x0 x
  L : x.L[s]? = some x0.tour.length
  R : x.R[s]? = some (x.tour.length - 1)
  walk : Walk P s x0.tour.length x.tour
  len : x.tour.length + 1 = x0.tour.length + 2 * (1 + (dn.map (wt n P s)).sum)
  done : ∀ c ∈ dn, P c = some s → ∀ w, w < n → Anc P c w → Done P x w
  mem : ∀ c, P c = some s → c ∉ dn → ∀ v ∈ x.tour, ¬ Anc P c v

theorem enter_ok (H : Tree n r P) {s : Nat} (hs : s < n) {x : St} (Ln : Lens n x) (hfresh : ∀ v ∈ x.tour, ¬ Anc P s v) :
    ∃ y, enter s x = some y ∧ J n P s x y [] := by
  obtain ⟨l, e1, l1, v1, o1⟩ := wr_ok (l := x.L) (i := s) (by rw [Ln.L]; exact hs) x.k
  obtain ⟨r', e2, l2, v2, o2⟩ := wr_ok (l := x.R) (i := s) (by rw [Ln.R]; exact hs) x.k
  unfold enter
  rw [e1, Option.bind_some, e2, Option.map_some]
  refine ⟨_, rfl, ⟨⟨⟨l1.trans Ln.L, l2.trans Ln.R, by simp [Ln.k]⟩, ⟨[s], rfl, ?_⟩, ?_⟩, ?_, ?_, ⟨?_, ?_, ?_, ?_⟩, ?_, ?_, ?_⟩⟩
  · intro w hw
    rw [List.mem_singleton] at hw
    subst hw
    exact ⟨hs, Anc.refl⟩
  · intro w hw
    have : w ≠ s := fun h => hw (h ▸ Anc.refl)
    exact ⟨o1 w this, o2 w this⟩
  · dsimp only; rw [v1, Ln.k]
  · dsimp only; rw [v2, Ln.k]; simp
  · simp
  · simp
  · simp
  · intro i u v hi h1 h2
    have : i + 1 < (x.tour ++ [s]).length := (List.getElem?_eq_some_iff.1 h2).1
    simp at this
    omega
  · simp
  · intro c hc; cases hc
  · intro c hc _ v hv
    rcases List.mem_append.1 hv with h | h
    · exact fun a => hfresh v h ((Anc.step hc Anc.refl).trans a)
    · rw [List.mem_singleton] at h
      subst h
      intro a
      have hcn : c < n := a.lt H hs
      exact H.not_anc_par hcn hc a

theorem step_ok (H : Tree n r P) {s : Nat} (hs : s < n) {rec : Nat → St → Option St}
    (hrec : ∀ t x, t < n → P t = some s → Lens n x → (∀ v ∈ x.tour, ¬ Anc P t v) → ∃ y, rec t x = some y ∧ Ext n P t x y ∧ Walk P t x.tour.length y.tour ∧ y.tour.length + 1 = x.tour.length + 2 * sz n P t ∧ ∀ w, w < n → Anc P t w → Done P y w)
    {x0 x : St} {dn : List Nat} {t : Nat} (ht : t < n) (hPt : P t = some s) (hnd : t ∉ dn) (hdn : ∀ c ∈ dn, P c = some s → c < n) (j : J n P s x0 x dn) :
    ∃ y, (rec t x).bind (back s) = some y ∧ J n P s x0 y (dn ++ [t]) := by
  obtain ⟨y, e, E, wk, ln, dn'⟩ := hrec t x ht hPt j.ext.lens (j.mem t hPt hnd)
  rw [e, Option.bind_some]
  unfold back
  obtain ⟨r', e2, l2, v2, o2⟩ := wr_ok (l := y.R) (i := s) (by rw [E.lens.R]; exact hs) y.k
  rw [e2, Option.map_some]
  obtain ⟨seg, hseg, hsm⟩ := E.pre
  obtain ⟨seg0, hseg0, hsm0⟩ := j.ext.pre
  have hst : ¬ Anc P t s := H.not_anc_par ht hPt
  have hanc : Anc P s t := Anc.step hPt Anc.refl
  have hout : ∀ w, w ≠ s → ¬ Anc P t w → y.L[w]? = x.L[w]? ∧ r'[w]? = x.R[w]? := by
    intro w h1 h2
    obtain ⟨a, b⟩ := E.out w h2
    exact ⟨a, (o2 w h1).trans b⟩
  have hxl : x0.tour.length < x.tour.length := j.walk.lt
  have hyl : x.tour.length < y.tour.length := wk.lt
  refine ⟨_, rfl, ⟨⟨⟨E.lens.L, l2.trans E.lens.R, by simp [E.lens.k]⟩, ⟨seg0 ++ seg ++ [s], ?_, ?_⟩, ?_⟩, ?_, ?_, ⟨?_, ?_, ?_, ?_⟩, ?_, ?_, ?_⟩⟩
  · dsimp only; rw [hseg, hseg0]; simp
  · intro w hw
    rw [List.mem_append, List.mem_append, List.mem_singleton] at hw
    rcases hw with (h | h) | rfl
    · exact hsm0 w h
    · exact ⟨(hsm w h).1, hanc.trans (hsm w h).2⟩
    · exact ⟨hs, Anc.refl⟩
  · intro w hw
    obtain ⟨a, b⟩ := hout w (fun h => hw (h ▸ Anc.refl)) (fun h => hw (hanc.trans h))
    obtain ⟨c, d⟩ := j.ext.out w hw
    exact ⟨a.trans c, b.trans d⟩
  · dsimp only
    rw [(E.out s hst).1]
    exact j.L
  · dsimp only
    rw [v2, E.lens.k]
    simp
  · simp; omega
  · dsimp only
    rw [hseg, List.append_assoc, List.getElem?_append_left hxl]
    exact j.walk.first
  · simp
  · intro i u v hi h1 h2
    dsimp only at h1 h2
    by_cases c1 : i + 1 < x.tour.length
    · rw [hseg, List.append_assoc, List.getElem?_append_left (by omega)] at h1
      rw [hseg, List.append_assoc, List.getElem?_append_left (by omega)] at h2
      exact j.walk.nb i u v hi h1 h2
    · by_cases c2 : i + 1 = x.tour.length
      · rw [List.getElem?_append_left (by omega), c2, wk.first] at h2
        rw [hseg, List.append_assoc, List.getElem?_append_left (by omega), show i = x.tour.length - 1 by omega, j.walk.last] at h1
        cases h1
        cases h2
        exact Or.inr hPt
      · by_cases c3 : i + 1 < y.tour.length
        · rw [List.getElem?_append_left (by omega)] at h1
          rw [List.getElem?_append_left (by omega)] at h2
          exact wk.nb i u v (by omega) h1 h2
        · have hlt : i + 1 < (y.tour ++ [s]).length := (List.getElem?_eq_some_iff.1 h2).1
          simp at hlt
          rw [List.getElem?_append_left (by omega), show i = y.tour.length - 1 by omega, wk.last] at h1
          rw [List.getElem?_append_right (by omega), show i + 1 - y.tour.length = 0 by omega] at h2
          cases h1
          cases h2
          exact Or.inl hPt
  · have := j.len
    have hw : wt n P s t = sz n P t := by
      unfold wt
      rw [if_neg]
      exact fun h => H.not_both ht hPt h.symm
    simp [hw]
    omega
  · intro c hc hcs w hw a
    rcases List.mem_append.1 hc with h | h
    · have hcn := hdn c h hcs
      have hne : ¬ Anc P t w := by
        intro b
        have := H.children_disjoint hcn ht hcs hPt a b
        subst this
        exact hnd h
      have hws : w ≠ s := by rintro rfl; exact H.not_anc_par hcn hcs a
      obtain ⟨p1, p2⟩ := hout w hws hne
      refine (j.done c h hcs w hw a).ext (seg := seg ++ [s]) p1 p2 (by dsimp only; rw [hseg]; simp) ?_
      intro v hv b
      rcases List.mem_append.1 hv with h' | h'
      · have := H.children_disjoint hcn ht hcs hPt (a.trans b) (hsm v h').2
        subst this
        exact hnd h
      · rw [List.mem_singleton] at h'
        subst h'
        exact H.not_anc_par hcn hcs (a.trans b)
    · rw [List.mem_singleton] at h
      subst h
      have hws : w ≠ s := by rintro rfl; exact hst a
      refine (dn' w hw a).ext (seg := [s]) rfl (o2 w hws) rfl ?_
      intro v hv b
      rw [List.mem_singleton] at hv
      subst hv
      exact hst (a.trans b)
  · intro c hcs hc v hv a
    dsimp only at hv
    rw [hseg, List.mem_append, List.mem_append, List.mem_singleton] at hv
    rw [List.mem_append, List.mem_singleton, not_or] at hc
    rcases hv with (h | h) | rfl
    · exact j.mem c hcs hc.1 v h a
    · exact hc.2 (H.children_disjoint (a.lt H (hsm v h).1) ht hcs hPt a (hsm v h).2)
    · exact H.not_anc_par (a.lt H hs) hcs a

theorem loop_ok (H : Tree n r P) {s : Nat} (hs : s < n) {rec : Nat → St → Option St}
    (hrec : ∀ t x, t < n → P t = some s → Lens n x → (∀ v ∈ x.tour, ¬ Anc P t v) → ∃ y, rec t x = some y ∧ Ext n P t x y ∧ Walk P t x.tour.length y.tour ∧ y.tour.length + 1 = x.tour.length + 2 * sz n P t ∧ ∀ w, w < n → Anc P t w → Done P y w)
    {x0 : St} : ∀ (td dn : List Nat) (x : St), Adj n P s (dn ++ td) → J n P s x0 x dn → ∃ y, loop rec s (P s) td x = some y ∧ J n P s x0 y (dn ++ td) := by
  intro td
  induction td with
  | nil => intro dn x _ j; exact ⟨x, rfl, by rw [List.append_nil]; exact j⟩
  | cons t ts ih =>
    intro dn x A j
    have A' : Adj n P s (dn ++ [t] ++ ts) := by rw [List.append_assoc]; exact A
    rw [loop]
    by_cases hp : some t = P s
    · rw [if_pos hp]
      have j' : J n P s x0 x (dn ++ [t]) := by
        refine ⟨j.ext, j.L, j.R, j.walk, ?_, ?_, ?_⟩
        · have := j.len
          have hw : wt n P s t = 0 := by unfold wt; rw [if_pos hp]
          simp [hw]
          omega
        · intro c hc hcs w hw a
          rcases List.mem_append.1 hc with h | h
          · exact j.done c h hcs w hw a
          · rw [List.mem_singleton] at h
            subst h
            exact absurd hp.symm (H.not_both (a.lt H hw) hcs)
        · intro c hcs hc
          exact j.mem c hcs (fun h => hc (List.mem_append_left _ h))
      obtain ⟨y, e, jy⟩ := ih (dn ++ [t]) x A' j'
      exact ⟨y, e, by rw [List.append_assoc] at jy; exact jy⟩
    · rw [if_neg hp]
      obtain ⟨ht, hPt⟩ := A.child (w := t) (by simp) hp
      have hnd : t ∉ dn := by
        have := A.nodup
        rw [List.nodup_append] at this
        intro h
        exact this.2.2 t h t (by simp) rfl
      obtain ⟨y1, e1, j1⟩ := step_ok H hs hrec ht hPt hnd (fun c hc hcs => by
        rcases (A.mem c).1 (List.mem_append_left _ hc) with h | h
        · exact h.1
        · exact H.par_lt hs h) j
      rw [e1, Option.bind_some]
      obtain ⟨y, e, jy⟩ := ih (dn ++ [t]) y1 A' j1
      exact ⟨y, e, by rw [List.append_assoc] at jy; exact jy⟩

theorem dfs_ok (H : Tree n r P) {g : List (List Nat)} (hG : ∀ v, v < n → ∃ ev, g[v]? = some ev ∧ Adj n P v ev) : ∀ (f s : Nat) (x : St), s < n → sz n P s ≤ f → Lens n x → (∀ v ∈ x.tour, ¬ Anc P s v) →
    ∃ y, dfs g (f+1) s (P s) x = some y ∧ Ext n P s x y ∧ Walk P s x.tour.length y.tour ∧ y.tour.length + 1 = x.tour.length + 2 * sz n P s ∧ ∀ w, w < n → Anc P s w → Done P y w := by
  intro f
  induction f with
  | zero => intro s x hs hf; have := sz_pos (P := P) hs; omega
  | succ f ih =>
    intro s x hs hf Ln hfresh
    obtain ⟨ev, hev, A⟩ := hG s hs
    obtain ⟨x1, e1, j1⟩ := enter_ok H hs Ln hfresh
    rw [dfs, e1, Option.bind_some, hev, Option.bind_some]
    obtain ⟨y, e, j⟩ := loop_ok H hs (rec := fun t x => dfs g (f+1) t (some s) x) (fun t x ht hp Ln hf' => by
      have := ih t x ht (by have := H.sz_child ht hp; omega) Ln hf'
      rw [hp] at this
      exact this) ev [] x1 A j1
    rw [List.nil_append] at j
    refine ⟨y, e, j.ext, j.walk, by rw [H.sz_sum hs A]; exact j.len, ?_⟩
    intro w hw a
    rcases a.cases' with rfl | ⟨c, hc, a'⟩
    · refine ⟨_, _, j.L, j.R, ⟨?_, j.walk.first, j.walk.last, ?_⟩⟩
      · have := j.walk.lt; omega
      · intro i v hi
        obtain ⟨seg, h1, h2⟩ := j.ext.pre
        have hil : i < y.tour.length := (List.getElem?_eq_some_iff.1 hi).1
        by_cases hlt : i < x.tour.length
        · rw [h1, List.getElem?_append_left hlt] at hi
          exact ⟨fun h => by omega, fun h => absurd h (hfresh v (List.mem_of_getElem? hi))⟩
        · rw [h1, List.getElem?_append_right (by omega)] at hi
          exact ⟨fun _ => (h2 v (List.mem_of_getElem? hi)).2, fun _ => by omega⟩
    · have hcn := a'.lt H hw
      exact j.done c ((A.mem c).2 (Or.inl ⟨hcn, hc⟩)) hc w hw a'

/-- What the arrays are after `euler_tour`. -/
structure Tour (n : Nat) (P : Nat → Option Nat) (x : St) : Prop where
  len : x.tour.length + 1 = 2 * n
  lt : ∀ v ∈ x.tour, v < n
  nb : ∀ i u v : Nat, x.tour[i]? = some u → x.tour[i+1]? = some v → Nb P u v
  span : ∀ w, w < n → ∃ l r, x.L[w]? = some l ∧ x.R[w]? = some r ∧ Span P x.tour w l r

theorem sz_root (H : Tree n r P) : sz n P r = n := by
  have : desc n P r = Finset.range n := by
    ext v
    rw [mem_desc, Finset.mem_range]
    exact ⟨fun h => h.1, fun h => ⟨h, H.root_anc h⟩⟩
  unfold sz
  rw [this, Finset.card_range]

theorem resize_len (l : List Nat) (n : Nat) : (resize l n).length = n := by
  unfold resize
  rw [List.length_append, List.length_take, List.length_replicate]
  omega

theorem build_ok (H : Tree n r P) {E : List (Nat × Nat)} (hE : EdgesOf n r P E) (L0 R0 : List Nat) : ∃ x, build n E L0 R0 r = some x ∧ Tour n P x := by
  obtain ⟨g, e, l, h⟩ := addEdges_ok E (List.replicate n []) (fun e he => by
    rw [List.length_replicate]
    obtain ⟨dir, hp⟩ := hE
    rw [hp.mem_iff, List.mem_map] at he
    obtain ⟨v, hv, rfl⟩ := he
    rw [List.mem_filter, List.mem_range, decide_eq_true_iff] at hv
    obtain ⟨q, hq, e⟩ := H.par v hv.1 hv.2
    have hne := H.par_ne hv.1 e
    rw [e, Option.getD_some]
    split
    · exact ⟨hv.1, hq, hne.symm⟩
    · exact ⟨hq, hv.1, hne⟩)
  rw [List.length_replicate] at l
  unfold build
  rw [e, Option.bind_some]
  unfold eulerTour
  have hG : ∀ v, v < n → ∃ ev, g[v]? = some ev ∧ Adj n P v ev := by
    intro v hv
    refine ⟨_, h v [] (by rw [List.getElem?_replicate, if_pos hv]), ?_⟩
    rw [List.nil_append]
    exact adj_flatMap H hE hv
  obtain ⟨y, e1, E1, wk, ln, dn⟩ := dfs_ok H hG g.length r ⟨[], resize L0 g.length, resize R0 g.length, 0⟩ H.root_lt (by rw [l]; exact sz_le) ⟨(resize_len _ _).trans l, (resize_len _ _).trans l, rfl⟩ (by intro v hv; cases hv)
  rw [H.root] at e1
  refine ⟨y, e1, ⟨?_, ?_, ?_, fun w hw => dn w hw (H.root_anc hw)⟩⟩
  · rw [sz_root H] at ln
    simpa using ln
  · obtain ⟨seg, h1, h2⟩ := E1.pre
    intro v hv
    rw [h1] at hv
    exact (h2 v (by simpa using hv)).1
  · intro i u v h1 h2
    exact wk.nb i u v (Nat.zero_le _) h1 h2

/-- The lowest common ancestor is in the tour between two vertices, and everything between them is below it. -/
theorem Tour.lca (H : Tree n r P) {x : St} (t : Tour n P x) {u v c l l' : Nat} (hu : u < n) (hv : v < n) (hl : x.L[u]? = some l) (hl' : x.L[v]? = some l') (hle : l ≤ l') (hc : IsLca P u v c) :
    (∃ i, l ≤ i ∧ i ≤ l' ∧ x.tour[i]? = some c) ∧ ∀ (i : Nat) (w : Nat), l ≤ i → i ≤ l' → x.tour[i]? = some w → Anc P c w := by
  obtain ⟨a1, a2, a3⟩ := hc
  have hcn := a1.lt H hu
  obtain ⟨lc, rc, hlc, hrc, sc⟩ := t.span c hcn
  obtain ⟨l1, ru, h1, h2, su⟩ := t.span u hu
  rw [hl] at h1
  cases h1
  obtain ⟨l2, rv, h3, h4, sv⟩ := t.span v hv
  rw [hl'] at h3
  cases h3
  have b1 := (sc.sub l u su.left).2 a1
  have b2 := (sc.sub l' v sv.left).2 a2
  refine ⟨?_, fun i w hi hi' hw => (sc.sub i w hw).1 ⟨by omega, by omega⟩⟩
  rcases a1.cases' with rfl | ⟨d, hd, ad⟩
  · exact ⟨l, le_refl _, hle, su.left⟩
  · have hdn := ad.lt H hu
    obtain ⟨ld, rd, hld, hrd, sd⟩ := t.span d hdn
    have hnv : ¬ Anc P d v := fun h => H.not_anc_par hdn hd (a3 d ad h)
    have c1 := (sd.sub l u su.left).2 ad
    have c2 : ¬ (ld ≤ l' ∧ l' ≤ rd) := fun h => hnv ((sd.sub l' v sv.left).1 h)
    have hlen : l' < x.tour.length := (List.getElem?_eq_some_iff.1 sv.left).1
    have hg : x.tour[rd+1]? = some (x.tour[rd+1]'(by omega)) := List.getElem?_eq_getElem (by omega)
    generalize x.tour[rd+1]'(by omega) = z at hg
    have hz : ¬ Anc P d z := fun h => by
      have := (sd.sub (rd+1) z hg).2 h
      omega
    rcases t.nb rd d z sd.right hg with h | h
    · rw [hd] at h
      cases h
      exact ⟨rd+1, by omega, by omega, hg⟩
    · exact absurd (Anc.step h Anc.refl) hz

end Verif.Euler
