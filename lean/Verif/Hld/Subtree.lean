import Verif.Hld.View
import Mathlib.Algebra.BigOperators.Intervals
import Mathlib.Algebra.BigOperators.Group.Finset.Piecewise
/-!
`subtree_build`, `subtree_sum`, `subtree_point_add`.
-/
namespace Verif.Hld

variable {n r : Nat} {P : Nat → Option Nat} {o : Obj} {IN HD DP CL : Nat → Nat}
variable {M : Type} [AddCommMonoid M]

/-- The sum over the subtree of `w`. -/
noncomputable def subSum (n : Nat) (P : Nat → Option Nat) (g : Nat → M) (w : Nat) : M := ∑ y ∈ desc n P w, g y

/-- The children of `w`. -/
def children (n : Nat) (P : Nat → Option Nat) (w : Nat) : Finset Nat := (Finset.range n).filter (fun c => P c = some w)

open Classical in
/-- The children of `w` which start a chain. -/
noncomputable def lights (n : Nat) (P : Nat → Option Nat) (edge : List (List Nat)) (w : Nat) : Finset Nat := (Finset.range n).filter (fun c => P c = some w ∧ ¬ Heavy P edge w c)

noncomputable def lightSum (n : Nat) (P : Nat → Option Nat) (edge : List (List Nat)) (g : Nat → M) (w : Nat) : M := ∑ c ∈ lights n P edge w, subSum n P g c

theorem mem_children {w c : Nat} : c ∈ children n P w ↔ c < n ∧ P c = some w := by
  unfold children
  rw [Finset.mem_filter, Finset.mem_range]

theorem mem_lights {edge : List (List Nat)} {w c : Nat} : c ∈ lights n P edge w ↔ c < n ∧ P c = some w ∧ ¬ Heavy P edge w c := by
  classical
  simp only [lights, Finset.mem_filter, Finset.mem_range]

theorem subSum_eq (T : Tree n r P) (g : Nat → M) {w : Nat} (hw : w < n) : subSum n P g w = g w + ∑ c ∈ children n P w, subSum n P g c := by
  classical
  have hd : desc n P w = insert w ((children n P w).biUnion (desc n P)) := by
    ext y
    rw [mem_desc, Finset.mem_insert, Finset.mem_biUnion]
    constructor
    · rintro ⟨h1, h2⟩
      rcases h2.cases' with e | ⟨c, c1, c2⟩
      · exact Or.inl e
      · exact Or.inr ⟨c, mem_children.2 ⟨c2.lt T h1, c1⟩, mem_desc.2 ⟨h1, c2⟩⟩
    · rintro (rfl | ⟨c, c1, c2⟩)
      · exact ⟨hw, Anc.refl⟩
      · obtain ⟨c3, c4⟩ := mem_desc.1 c2
        exact ⟨c3, (Anc.step (mem_children.1 c1).2 Anc.refl).trans c4⟩
  unfold subSum
  rw [hd, Finset.sum_insert, Finset.sum_biUnion]
  · intro c hc c' hc' hne
    rw [Finset.mem_coe, mem_children] at hc hc'
    show Disjoint (desc n P c) (desc n P c')
    rw [Finset.disjoint_left]
    intro y hy hy'
    exact hne (T.children_disjoint hc.1 hc'.1 hc.2 hc'.2 (mem_desc.1 hy).2 (mem_desc.1 hy').2)
  · intro h
    obtain ⟨c, c1, c2⟩ := Finset.mem_biUnion.1 h
    rw [mem_children] at c1
    exact T.not_anc_par c1.1 c1.2 (mem_desc.1 c2).2

theorem sub_heavy (T : Tree n r P) {edge : List (List Nat)} (g : Nat → M) {w h : Nat} (hw : w < n) (hh : h < n) (H : Heavy P edge w h) : subSum n P g w = (g w + lightSum n P edge g w) + subSum n P g h := by
  classical
  have : children n P w = insert h (lights n P edge w) := by
    ext c
    rw [mem_children, Finset.mem_insert, mem_lights]
    constructor
    · rintro ⟨h1, h2⟩
      by_cases e : Heavy P edge w c
      · left
        obtain ⟨_, tl, e1⟩ := e
        obtain ⟨_, tl', e2⟩ := H
        rw [e1] at e2
        cases e2
        rfl
      · exact Or.inr ⟨h1, h2, e⟩
    · rintro (rfl | ⟨h1, h2, _⟩)
      · exact ⟨hh, H.1⟩
      · exact ⟨h1, h2⟩
  rw [subSum_eq T g hw, this, Finset.sum_insert (by rw [mem_lights]; exact fun e => e.2.2 H), add_assoc, add_comm (subSum n P g h)]
  rfl

/-- Without a first child there is no child. -/
theorem View.no_heavy (V : View n r P o IN HD DP CL) (T : Tree n r P) {w : Nat} (hw : w < n) (h : ∀ c, c < n → ¬ Heavy P o.sz.edge w c) : ∀ c, c < n → P c ≠ some w := by
  intro c hc hcw
  obtain ⟨ev, he, A, F⟩ := V.edge w hw
  have hcm : c ∈ ev := (A.mem c).2 (Or.inl ⟨hc, hcw⟩)
  cases ev with
  | nil => cases hcm
  | cons a tl =>
    by_cases hp : some a = P w
    · have := F a tl rfl hp.symm
      subst this
      rw [List.mem_singleton] at hcm
      subst hcm
      exact T.not_both hc hcw hp.symm
    · obtain ⟨h1, h2⟩ := A.child (List.mem_cons_self ..) hp
      exact h a h1 ⟨h2, tl, he⟩

theorem View.sub_leaf (V : View n r P o IN HD DP CL) (T : Tree n r P) (g : Nat → M) {w : Nat} (hw : w < n) (h : ∀ c, c < n → ¬ Heavy P o.sz.edge w c) : subSum n P g w = g w + lightSum n P o.sz.edge g w := by
  have h0 := V.no_heavy T hw h
  rw [subSum_eq T g hw]
  unfold lightSum
  rw [Finset.sum_eq_zero (s := children n P w) (fun c hc => absurd (mem_children.1 hc).2 (h0 c (mem_children.1 hc).1)),
    Finset.sum_eq_zero (s := lights n P o.sz.edge w) (fun c hc => absurd (mem_lights.1 hc).2.1 (h0 c (mem_lights.1 hc).1))]

/-- Every position of the subtree of `v` holds the weight of its vertex and of the subtrees of its other children. -/
def Acc (n : Nat) (P : Nat → Option Nat) (edge : List (List Nat)) (IN : Nat → Nat) (g b : Nat → M) (v : Nat) : Prop := ∀ w, w < n → Anc P v w → b (IN w) = g w + lightSum n P edge g w

theorem View.clen_le (V : View n r P o IN HD DP CL) (T : Tree n r P) : ∀ (k v : Nat), v < n → sz n P v ≤ k → CL v ≤ sz n P v := by
  intro k
  induction k with
  | zero => intro v hv h; have := sz_pos (P := P) hv; omega
  | succ k ih =>
    intro v hv hk
    by_cases hh : ∃ h, h < n ∧ Heavy P o.sz.edge v h
    · obtain ⟨h, h1, h2⟩ := hh
      have := T.sz_child h1 h2.1
      have := ih h h1 (by omega)
      obtain ⟨_, _, _, c⟩ := V.heavy v h h1 h2
      omega
    · rw [V.leaf v hv (fun w hw H => hh ⟨w, hw, H⟩)]
      exact sz_pos hv

/-- The sum over the chain is the sum over the subtree. -/
theorem View.chain_sum (V : View n r P o IN HD DP CL) (T : Tree n r P) {g b : Nat → M} : ∀ (k v : Nat), v < n → sz n P v ≤ k → Acc n P o.sz.edge IN g b v → ∑ i ∈ Finset.Ico (IN v) (IN v + CL v), b i = subSum n P g v := by
  intro k
  induction k with
  | zero => intro v hv h; have := sz_pos (P := P) hv; omega
  | succ k ih =>
    intro v hv hk acc
    by_cases hh : ∃ h, h < n ∧ Heavy P o.sz.edge v h
    · obtain ⟨h, h1, h2⟩ := hh
      have := T.sz_child h1 h2.1
      have ihh := ih h h1 (by omega) (fun w hw a => acc w hw ((Anc.step h2.1 Anc.refl).trans a))
      obtain ⟨_, _, c1, c2⟩ := V.heavy v h h1 h2
      rw [Finset.sum_eq_sum_Ico_succ_bot (by omega), acc v hv Anc.refl, sub_heavy T g hv h1 h2, ← ihh, c1, c2]
      congr 3
      omega
    · have hno : ∀ w, w < n → ¬ Heavy P o.sz.edge v w := fun w hw H => hh ⟨w, hw, H⟩
      rw [V.leaf v hv hno, Nat.Ico_succ_singleton, Finset.sum_singleton, acc v hv Anc.refl, V.sub_leaf T g hv hno]

variable {σ : Type} {A : Nat → M → σ → Option σ} {S : Nat → Nat → σ → Option M} {ab : σ → Nat → M}

/-- `A` adds at one position. -/
def AddOk (n : Nat) (A : Nat → M → σ → Option σ) (ab : σ → Nat → M) : Prop := ∀ i y x, i < n → ∃ x', A i y x = some x' ∧ ∀ j, ab x' j = if j = i then ab x j + y else ab x j

/-- `S` sums over positions. -/
def SumOk (n : Nat) (S : Nat → Nat → σ → Option M) (ab : σ → Nat → M) : Prop := ∀ l r x, l ≤ r → r ≤ n → S l r x = some (∑ i ∈ Finset.Ico l r, ab x i)

theorem subtreeSum_ok (V : View n r P o IN HD DP CL) (T : Tree n r P) (hS : SumOk n S ab) {g : Nat → M} {x : σ} {v : Nat} (hv : v < n) (acc : Acc n P o.sz.edge IN g (ab x) v) : subtreeSum o S v x = some (subSum n P g v) := by
  have h1 := V.clen_le T _ v hv (le_refl _)
  have h2 := V.range v hv
  unfold subtreeSum
  rw [V.inn v hv, Option.bind_some, V.clen v hv, Option.bind_some, hS _ _ x (by omega) (by omega), V.chain_sum T _ v hv (le_refl _) acc]

open Classical in
/-- What the neighbour `c` of `u` contributes at `u`. -/
noncomputable def lw (n : Nat) (P : Nat → Option Nat) (edge : List (List Nat)) (g : Nat → M) (u c : Nat) : M := if some c = P u ∨ Heavy P edge u c then 0 else subSum n P g c

theorem sum_lw (T : Tree n r P) {edge : List (List Nat)} (g : Nat → M) {u : Nat} {ev : List Nat} (A : Adj n P u ev) : (ev.map (lw n P edge g u)).sum = lightSum n P edge g u := by
  classical
  rw [← List.sum_toFinset _ A.nodup]
  unfold lightSum
  symm
  refine (Finset.sum_subset (s₁ := lights n P edge u) (s₂ := ev.toFinset) (f := lw n P edge g u) ?_ ?_).symm.trans ?_ |>.symm
  · intro c hc
    obtain ⟨h1, h2, _⟩ := mem_lights.1 hc
    rw [List.mem_toFinset]
    exact (A.mem c).2 (Or.inl ⟨h1, h2⟩)
  · intro c hc hno
    rw [List.mem_toFinset] at hc
    unfold lw
    rw [if_pos]
    by_contra hcon
    obtain ⟨h1, h2⟩ := not_or.1 hcon
    obtain ⟨h3, h4⟩ := A.child hc h1
    exact hno (mem_lights.2 ⟨h3, h4, h2⟩)
  · refine Finset.sum_congr rfl (fun c hc => ?_)
    obtain ⟨h1, h2, h3⟩ := mem_lights.1 hc
    unfold lw
    rw [if_neg]
    rintro (e | e)
    · exact T.not_both h1 h2 e.symm
    · exact h3 e

/-- The loop of `dfs_subtree_build`. -/
structure SI (n : Nat) (P : Nat → Option Nat) (edge : List (List Nat)) (IN : Nat → Nat) (g b0 b : Nat → M) (u : Nat) (dn : List Nat) : Prop where
  top : b (IN u) = g u + (dn.map (lw n P edge g u)).sum
  done : ∀ c ∈ dn, c < n → P c = some u → Acc n P edge IN g b c
  todo : ∀ c, c ∉ dn → c < n → P c = some u → ∀ w, w < n → Anc P c w → b (IN w) = g w
  out : ∀ w, w < n → ¬ Anc P u w → b (IN w) = b0 (IN w)

theorem dfsSub_ok (V : View n r P o IN HD DP CL) (T : Tree n r P) (hA : AddOk n A ab) (hS : SumOk n S ab) (g : Nat → M) : ∀ (f u : Nat) (x : σ), u < n → sz n P u ≤ f →
    (∀ w, w < n → Anc P u w → ab x (IN w) = g w) → ∃ x', dfsSub o A S f u x = some x' ∧ Acc n P o.sz.edge IN g (ab x') u ∧ ∀ w, w < n → ¬ Anc P u w → ab x' (IN w) = ab x (IN w) := by
  classical
  intro f
  induction f with
  | zero => intro v _ hv h; have := sz_pos (P := P) hv; omega
  | succ f ih =>
    intro u x hu hf hx
    obtain ⟨ev, he, Ad, _⟩ := V.edge u hu
    rw [dfsSub, he, Option.bind_some]
    obtain ⟨x', e', I⟩ := forRange_inv (a := 0) (b := ev.length) (s := x) (body := subStep o A S (dfsSub o A S f) u) (P := fun i x' => SI n P o.sz.edge IN g (ab x) (ab x') u (ev.take i)) (Nat.zero_le _)
      ⟨by rw [hx u hu Anc.refl]; simp, (fun c hc => by simp at hc), (fun c _ h1 h2 w hw a => hx w hw ((Anc.step h2 Anc.refl).trans a)), fun w _ _ => rfl⟩ (by
        intro i x1 _ hil I
        have hg : ev[i]? = some ev[i] := List.getElem?_eq_getElem hil
        have htake : ev.take (i+1) = ev.take i ++ [ev[i]] := List.take_succ_eq_append_getElem hil
        have hsplit : ev = ev.take i ++ ev[i] :: ev.drop (i+1) := by rw [List.getElem_cons_drop, List.take_append_drop]
        unfold subStep
        have hrd : rd2 o.sz.edge u i = some ev[i] := by unfold rd2; rw [he]; exact hg
        rw [hrd, Option.bind_some, V.par u hu, Option.bind_some, htake]
        generalize ev[i] = c at *
        have hcm : c ∈ ev := by rw [hsplit]; simp
        by_cases hp : some c = P u
        · rw [if_pos hp]
          refine ⟨x1, rfl, ⟨?_, ?_, ?_, I.out⟩⟩
          · rw [I.top, List.map_append, List.sum_append, List.map_singleton, List.sum_singleton]
            unfold lw
            rw [if_pos (Or.inl hp), add_zero]
          · intro d hd h1 h2
            rcases List.mem_append.1 hd with h | h
            · exact I.done d h h1 h2
            · rw [List.mem_singleton] at h
              subst h
              exact absurd hp.symm (T.not_both h1 h2)
          · intro d hd h1 h2
            exact I.todo d (fun h => hd (List.mem_append_left _ h)) h1 h2
        · rw [if_neg hp]
          obtain ⟨hcn, hcu⟩ := Ad.child hcm hp
          have hnd : c ∉ ev.take i := by
            have := Ad.nodup
            rw [hsplit, List.nodup_append] at this
            intro h'
            exact this.2.2 c h' c (List.mem_cons_self ..) rfl
          obtain ⟨x2, e2, acc2, out2⟩ := ih c x1 hcn (by have := T.sz_child hcn hcu; omega) (I.todo c hnd hcn hcu)
          rw [e2, Option.bind_some]
          have hnu : ¬ Anc P c u := T.not_anc_par hcn hcu
          have hH : Heavy P o.sz.edge u c ↔ i = 0 := by
            constructor
            · rintro ⟨_, tl, e⟩
              rw [he] at e
              cases e
              by_contra h0
              apply hnd
              cases i with
              | zero => exact absurd rfl h0
              | succ i => simp
            · rintro rfl
              refine ⟨hcu, ev.drop 1, ?_⟩
              rw [he]
              congr 1
          -- the state after the call, for the other vertices
          have fin : ∀ x3 : σ, (∀ w, w < n → w ≠ u → ab x3 (IN w) = ab x2 (IN w)) → ab x3 (IN u) = ab x2 (IN u) + lw n P o.sz.edge g u c → SI n P o.sz.edge IN g (ab x) (ab x3) u (ev.take i ++ [c]) := by
            intro x3 h3 h3'
            refine ⟨?_, ?_, ?_, ?_⟩
            · rw [h3', out2 u hu hnu, I.top, List.map_append, List.sum_append, List.map_singleton, List.sum_singleton, add_assoc]
            · intro d hd h1 h2 w hw a
              have hwu : w ≠ u := by rintro rfl; exact T.not_anc_par h1 h2 a
              rw [h3 w hw hwu]
              by_cases hdc : d = c
              · subst hdc; exact acc2 w hw a
              · have hdd : d ∈ ev.take i := by
                  rcases List.mem_append.1 hd with h | h
                  · exact h
                  · exact absurd (List.mem_singleton.1 h) hdc
                rw [out2 w hw (fun a' => hdc (T.children_disjoint h1 hcn h2 hcu a a'))]
                exact I.done d hdd h1 h2 w hw a
            · intro d hd h1 h2 w hw a
              have hwu : w ≠ u := by rintro rfl; exact T.not_anc_par h1 h2 a
              have hdc : d ≠ c := by rintro rfl; exact hd (by simp)
              rw [h3 w hw hwu, out2 w hw (fun a' => hdc (T.children_disjoint h1 hcn h2 hcu a a'))]
              exact I.todo d (fun h => hd (List.mem_append_left _ h)) h1 h2 w hw a
            · intro w hw hn
              have hwu : w ≠ u := by rintro rfl; exact hn Anc.refl
              rw [h3 w hw hwu, out2 w hw (fun a => hn ((Anc.step hcu Anc.refl).trans a))]
              exact I.out w hw hn
          unfold subAdd
          by_cases h0 : i > 0
          · rw [if_pos h0, V.inn u hu, Option.bind_some, V.inn c hcn, Option.bind_some, V.clen c hcn, Option.bind_some]
            have hsum := subtreeSum_ok V T hS hcn acc2
            unfold subtreeSum at hsum
            rw [V.inn c hcn, Option.bind_some, V.clen c hcn, Option.bind_some] at hsum
            rw [hsum, Option.bind_some]
            obtain ⟨x3, e3, h3⟩ := hA (IN u) (subSum n P g c) x2 (V.lt hu)
            rw [e3]
            refine ⟨x3, rfl, fin x3 ?_ ?_⟩
            · intro w hw hwu
              rw [h3, if_neg (fun e => hwu (V.inj hw hu e))]
            · rw [h3, if_pos rfl]
              unfold lw
              rw [if_neg]
              rintro (e | e)
              · exact hp e
              · exact absurd (hH.1 e) (by omega)
          · rw [if_neg h0]
            refine ⟨x2, rfl, fin x2 (fun _ _ _ => rfl) ?_⟩
            unfold lw
            rw [if_pos (Or.inr (hH.2 (by omega))), add_zero])
    refine ⟨x', e', ?_, I.out⟩
    have hd := I.done
    have ht := I.top
    rw [List.take_length] at hd ht
    intro w hw a
    rcases a.cases' with e | ⟨c, c1, c2⟩
    · subst e
      rw [ht, sum_lw T g Ad]
    · have hcn := c2.lt T hw
      exact hd c ((Ad.mem c).2 (Or.inl ⟨hcn, c1⟩)) hcn c1 w hw c2

theorem subtreeBuild_ok (V : View n r P o IN HD DP CL) (T : Tree n r P) (hA : AddOk n A ab) (hS : SumOk n S ab) (g : Nat → M) (x : σ) (hx : ∀ w, w < n → ab x (IN w) = g w) :
    ∃ x', subtreeBuild o A S x = some x' ∧ Acc n P o.sz.edge IN g (ab x') r := by
  unfold subtreeBuild
  rw [V.n_eq, V.r_eq]
  obtain ⟨x', e, acc, _⟩ := dfsSub_ok V T hA hS g (n+1) r x T.root_lt (by have := sz_le (n := n) (P := P) (v := r); omega) (fun w hw _ => hx w hw)
  exact ⟨x', e, acc⟩

/-- `w` starts a chain below which `u` lies, seen from its parent. -/
def LightAbove (n : Nat) (P : Nat → Option Nat) (edge : List (List Nat)) (u w : Nat) : Prop := ∃ c, c < n ∧ P c = some w ∧ ¬ Heavy P edge w c ∧ Anc P c u

theorem View.lightAbove_iff (V : View n r P o IN HD DP CL) (T : Tree n r P) {u p w : Nat} (hu : u < n) (hp : P (HD u) = some p) :
    LightAbove n P o.sz.edge u w ↔ w = p ∨ LightAbove n P o.sz.edge p w := by
  obtain ⟨h1, h2, h3⟩ := V.hd T hu
  constructor
  · rintro ⟨c, hc, hcw, hl, a⟩
    have hhc := (V.light w c hc hcw hl).1
    by_cases e : HD c = HD u
    · left
      rw [← e, hhc, hcw] at hp
      exact Option.some.inj hp
    · exact Or.inr ⟨c, hc, hcw, hl, V.above T hu a e hp⟩
  · rintro (rfl | ⟨c, hc, hcw, hl, a⟩)
    · refine ⟨HD u, V.hd_lt T hu, hp, ?_, h1⟩
      intro hH
      have := (V.heavy _ _ (V.hd_lt T hu) hH).2.1
      rcases V.up_cases T hu with ⟨_, _, e⟩ | ⟨q, _, e, hd⟩
      · rw [hp] at e; cases e
      · rw [hp] at e; cases e; omega
    · exact ⟨c, hc, hcw, hl, (a.trans (Anc.step hp Anc.refl)).trans h1⟩

theorem View.lightAbove_root (V : View n r P o IN HD DP CL) (T : Tree n r P) {u w : Nat} (hu : u < n) (hp : P (HD u) = none) : ¬ LightAbove n P o.sz.edge u w := by
  rintro ⟨c, hc, hcw, hl, a⟩
  rcases V.up_cases T hu with ⟨e1, e2, _⟩ | ⟨q, _, e, _⟩
  · have := (V.light w c hc hcw hl).2
    have := (V.depth_le T hu a).1
    omega
  · rw [hp] at e; cases e

open Classical in
theorem pointAdd_ok (V : View n r P o IN HD DP CL) (T : Tree n r P) (hA : AddOk n A ab) (y : M) : ∀ (f u : Nat) (x : σ), u < n → DP u + 1 < f →
    ∃ x', pointAdd o A y f (some u) x = some x' ∧ ∀ w, w < n → ab x' (IN w) = ab x (IN w) + (if w = u ∨ LightAbove n P o.sz.edge u w then y else 0) := by
  intro f
  induction f with
  | zero => intro u x _ h; omega
  | succ f ih =>
    intro u x hu hf
    obtain ⟨x1, e1, h1⟩ := hA (IN u) y x (V.lt hu)
    have hstep : ∀ w, w < n → ab x1 (IN w) = ab x (IN w) + (if w = u then y else 0) := by
      intro w hw
      rw [h1]
      by_cases e : w = u
      · subst e; rw [if_pos rfl, if_pos rfl]
      · rw [if_neg (fun h => e (V.inj hw hu h)), if_neg e, add_zero]
    rw [pointAdd, V.inn u hu, Option.bind_some, e1, Option.bind_some, V.head u hu, Option.bind_some, V.par _ (V.hd_lt T hu), Option.bind_some]
    cases hp : P (HD u) with
    | none =>
      obtain ⟨f, rfl⟩ : ∃ f', f = f' + 1 := ⟨f - 1, by omega⟩
      refine ⟨x1, rfl, fun w hw => ?_⟩
      rw [hstep w hw]
      congr 1
      by_cases e : w = u
      · rw [if_pos e, if_pos (Or.inl e)]
      · rw [if_neg e, if_neg]
        rintro (h | h)
        · exact e h
        · exact V.lightAbove_root T hu hp h
    | some p =>
      have hpn := T.par_lt (V.hd_lt T hu) hp
      have hdp : DP u = DP p + 1 := by
        rcases V.up_cases T hu with ⟨_, _, e⟩ | ⟨q, _, e, hd⟩
        · rw [hp] at e; cases e
        · rw [hp] at e; cases e; exact hd
      obtain ⟨x2, e2, h2⟩ := ih p x1 hpn (by omega)
      refine ⟨x2, e2, fun w hw => ?_⟩
      rw [h2 w hw, hstep w hw, add_assoc]
      congr 1
      have hiff := V.lightAbove_iff T (w := w) hu hp
      have hpu : Anc P p u := (Anc.step hp Anc.refl).trans (V.hd T hu).1
      by_cases e : w = u
      · rw [if_pos e, if_pos (Or.inl e), if_neg, add_zero]
        rintro (h | ⟨c, hc, hcw, hl, a⟩)
        · rw [e] at h
          subst h
          omega
        · rw [e] at hcw
          exact T.not_anc_par hc hcw (a.trans hpu)
      · rw [if_neg e, zero_add]
        by_cases h : w = p ∨ LightAbove n P o.sz.edge p w
        · rw [if_pos h, if_pos (Or.inr (hiff.2 h))]
        · rw [if_neg h, if_neg]
          rintro (h' | h')
          · exact e h'
          · exact h (hiff.1 h')

/-- The weights after adding `y` at `u`. -/
def addAt (g : Nat → M) (u : Nat) (y : M) (w : Nat) : M := if w = u then g w + y else g w

open Classical in
theorem subSum_addAt (g : Nat → M) {u : Nat} (hu : u < n) (y : M) (c : Nat) : subSum n P (addAt g u y) c = subSum n P g c + (if Anc P c u then y else 0) := by
  unfold subSum
  have : ∀ w, addAt g u y w = g w + (if w = u then y else 0) := by
    intro w
    unfold addAt
    by_cases e : w = u
    · rw [if_pos e, if_pos e]
    · rw [if_neg e, if_neg e, add_zero]
  rw [Finset.sum_congr rfl (fun w _ => this w), Finset.sum_add_distrib, Finset.sum_ite_eq']
  congr 1
  by_cases h : Anc P c u
  · rw [if_pos h, if_pos (mem_desc.2 ⟨hu, h⟩)]
  · rw [if_neg h, if_neg (fun e => h (mem_desc.1 e).2)]

open Classical in
theorem lightSum_addAt (T : Tree n r P) {edge : List (List Nat)} (g : Nat → M) {u : Nat} (hu : u < n) (y : M) (w : Nat) :
    lightSum n P edge (addAt g u y) w = lightSum n P edge g w + (if LightAbove n P edge u w then y else 0) := by
  unfold lightSum
  rw [Finset.sum_congr rfl (fun c _ => subSum_addAt g hu y c), Finset.sum_add_distrib]
  congr 1
  by_cases h : LightAbove n P edge u w
  · obtain ⟨c, hc, hcw, hl, a⟩ := h
    rw [if_pos ⟨c, hc, hcw, hl, a⟩, Finset.sum_eq_single c]
    · rw [if_pos a]
    · intro d hd hne
      obtain ⟨d1, d2, _⟩ := mem_lights.1 hd
      rw [if_neg]
      intro a'
      exact hne (T.children_disjoint d1 hc d2 hcw a' a)
    · intro hno
      exact absurd (mem_lights.2 ⟨hc, hcw, hl⟩) hno
  · rw [if_neg h]
    refine Finset.sum_eq_zero (fun c hc => ?_)
    obtain ⟨c1, c2, c3⟩ := mem_lights.1 hc
    rw [if_neg]
    intro a
    exact h ⟨c, c1, c2, c3, a⟩

theorem pointAdd_acc (V : View n r P o IN HD DP CL) (T : Tree n r P) (hA : AddOk n A ab) {g : Nat → M} {x : σ} (acc : Acc n P o.sz.edge IN g (ab x) r) {u : Nat} (hu : u < n) (y : M) :
    ∃ x', pointAdd o A y (o.n + 2) (some u) x = some x' ∧ Acc n P o.sz.edge IN (addAt g u y) (ab x') r := by
  classical
  have h1 := V.dp_le T hu
  have h2 := V.lt hu
  rw [V.n_eq]
  obtain ⟨x', e, h⟩ := pointAdd_ok V T hA y (n+2) u x hu (by omega)
  refine ⟨x', e, fun w hw a => ?_⟩
  rw [h w hw, acc w hw a, lightSum_addAt T g hu y w]
  by_cases e : w = u
  · subst e
    have : ¬ LightAbove n P o.sz.edge w w := by
      rintro ⟨c, hc, hcw, _, a⟩
      exact T.not_anc_par hc hcw a
    rw [if_pos (Or.inl rfl), if_neg this, add_zero]
    unfold addAt
    rw [if_pos rfl, add_assoc, add_assoc, add_comm y]
  · unfold addAt
    rw [if_neg e]
    by_cases h' : LightAbove n P o.sz.edge u w
    · rw [if_pos h', if_pos (Or.inr h'), add_assoc]
    · rw [if_neg h', if_neg (by rintro (h'' | h''); exacts [e h'', h' h'']), add_zero, add_zero]

end Verif.Hld
