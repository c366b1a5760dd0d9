import Verif.UnionFind.Spec
/-! Invariant and helper lemmas for union-find. -/
namespace Verif.UnionFind

/-- number of indices below `n` with representative `r`. -/
def cls (n : Nat) (f : Nat → Nat) (r : Nat) : Nat := (List.range n).countP (fun w => f w == r)

/-- `f` gives the representative, `d` a decreasing measure along parents. -/
structure Inv (n : Nat) (par : Par) (f d : Nat → Nat) : Prop where
  len : par.length = n
  lt : ∀ u, u < n → f u < n
  idem : ∀ u, u < n → f (f u) = f u
  rootv : ∀ u, u < n → f u = u → par[u]? = some (-(cls n f u : Int))
  nonroot : ∀ u, u < n → f u ≠ u → ∃ p : Nat, par[u]? = some (p : Int) ∧ p < n ∧ f p = f u ∧ d p < d u ∧ d (f u) < d u
  meas : ∀ u, u < n → d u < cls n f (f u)

theorem cls_le (n f r) : cls n f r ≤ n := by
  unfold cls
  have := List.countP_le_length (p := fun w => f w == r) (l := List.range n)
  simpa using this

theorem cls_pos {n f u} (hu : u < n) : 0 < cls n f (f u) := by
  unfold cls
  rw [List.countP_pos_iff]
  exact ⟨u, by simpa using hu, by simp⟩

theorem Inv.compress {n par f d u} (h : Inv n par f d) (hu : u < n) (hne : f u ≠ u) :
    Inv n (par.set u (f u : Int)) f d := by
  have hl := h.len
  refine ⟨by simp [hl], h.lt, h.idem, ?_, ?_, h.meas⟩
  · intro w hw hr
    have : w ≠ u := by rintro rfl; exact hne hr
    rw [List.getElem?_set_ne (Ne.symm this)]
    exact h.rootv w hw hr
  · intro w hw hr
    by_cases hwu : w = u
    · subst hwu
      obtain ⟨p, _, _, _, _, h5⟩ := h.nonroot w hw hr
      refine ⟨f w, ?_, h.lt w hw, h.idem w hw, h5, h5⟩
      rw [List.getElem?_set_self (by omega)]
    · rw [List.getElem?_set_ne (Ne.symm hwu)]
      exact h.nonroot w hw hr

theorem rootF_spec {n f d} : ∀ (k : Nat) (par : Par) (u : Nat), Inv n par f d → u < n → d u < k →
    ∃ par', rootF k par u = some (f u, par') ∧ Inv n par' f d := by
  intro k
  induction k with
  | zero => intro par u _ _ hk; omega
  | succ k ih =>
    intro par u h hu hk
    unfold rootF
    by_cases hr : f u = u
    · have hx := h.rootv u hu hr
      have := cls_pos (n := n) (f := f) hu
      rw [hr] at this
      simp only [hx, Option.bind_eq_bind, Option.bind_some]
      rw [if_pos (by omega)]
      exact ⟨par, by rw [hr], h⟩
    · obtain ⟨p, hx, hp, hfp, hd, hd2⟩ := h.nonroot u hu hr
      simp only [hx, Option.bind_eq_bind, Option.bind_some]
      rw [if_neg (by omega)]
      obtain ⟨par', e, h'⟩ := ih par p h hp (by omega)
      simp only [Int.toNat_natCast, e, Option.bind_some]
      rw [if_pos (by rw [h'.len]; exact hu)]
      refine ⟨_, by rw [hfp], ?_⟩
      exact h'.compress hu hr

theorem root_spec {n f d par u} (h : Inv n par f d) (hu : u < n) :
    ∃ par', root par u = some (f u, par') ∧ Inv n par' f d := by
  apply rootF_spec _ _ _ h hu
  have := h.meas u hu
  have := cls_le n f (f u)
  rw [h.len]; omega

theorem areUnion_spec {n f d par u v} (h : Inv n par f d) (hu : u < n) (hv : v < n) :
    ∃ par', areUnion par u v = some (f u == f v, par') ∧ Inv n par' f d := by
  obtain ⟨p1, e1, h1⟩ := root_spec h hu
  obtain ⟨p2, e2, h2⟩ := root_spec h1 hv
  exact ⟨p2, by simp [areUnion, e1, e2], h2⟩

theorem sizeOf_spec {n f d par u} (h : Inv n par f d) (hu : u < n) :
    ∃ par', sizeOf par u = some ((cls n f (f u) : Int), par') ∧ Inv n par' f d := by
  obtain ⟨p1, e1, h1⟩ := root_spec h hu
  have hr := h1.rootv (f u) (h.lt u hu) (h.idem u hu)
  exact ⟨p1, by simp [sizeOf, e1, hr], h1⟩

/-- representative after linking the class of `b` under `a`. -/
def merge (f : Nat → Nat) (a b : Nat) : Nat → Nat := fun w => if f w = b then a else f w

/-- measure after linking. -/
def mergeD (f d : Nat → Nat) (b : Nat) (k : Nat) : Nat → Nat := fun w => if f w = b then d w + k else d w

theorem countP_congr' {α} (l : List α) {p q : α → Bool} (h : ∀ x ∈ l, p x = q x) : l.countP p = l.countP q := by
  induction l with
  | nil => rfl
  | cons x xs ih =>
    rw [List.countP_cons, List.countP_cons, h x (by simp), ih (fun y hy => h y (by simp [hy]))]

theorem countP_or_disj {α} (l : List α) {p q : α → Bool} (h : ∀ x ∈ l, ¬ (p x = true ∧ q x = true)) :
    l.countP (fun x => p x || q x) = l.countP p + l.countP q := by
  induction l with
  | nil => rfl
  | cons x xs ih =>
    rw [List.countP_cons, List.countP_cons, List.countP_cons, ih (fun y hy => h y (by simp [hy]))]
    have := h x (by simp)
    by_cases hp : p x = true <;> by_cases hq : q x = true <;> simp_all <;> omega

theorem cls_merge_self {n f a b} (hab : a ≠ b) : cls n (merge f a b) a = cls n f a + cls n f b := by
  unfold cls
  rw [← countP_or_disj]
  · apply countP_congr'
    intro x _
    unfold merge
    by_cases h : f x = b <;> simp [h]
  · intro x _
    simp only [beq_iff_eq]
    rintro ⟨h1, h2⟩
    exact hab (h1.symm.trans h2)

theorem cls_merge_other {n f a b r} (hra : r ≠ a) (hrb : r ≠ b) : cls n (merge f a b) r = cls n f r := by
  unfold cls
  apply countP_congr'
  intro x _
  unfold merge
  by_cases h : f x = b
  · have h1 : (a == r) = false := by simp [Ne.symm hra]
    have h2 : (b == r) = false := by simp [Ne.symm hrb]
    simp [h, h1, h2]
  · simp [h]

/-- `link` on distinct classes; in between (line 34 done, line 35 not) the size stored at the
first root is already the new one, which `root` never looks at beyond its sign. -/
structure InvMid (n : Nat) (par : Par) (f d : Nat → Nat) (a : Nat) (s : Int) : Prop where
  len : par.length = n
  lt : ∀ u, u < n → f u < n
  idem : ∀ u, u < n → f (f u) = f u
  rootv : ∀ u, u < n → f u = u → u ≠ a → par[u]? = some (-(cls n f u : Int))
  roota : par[a]? = some (-s)
  spos : 0 < s
  an : f a = a
  nonroot : ∀ u, u < n → f u ≠ u → ∃ p : Nat, par[u]? = some (p : Int) ∧ p < n ∧ f p = f u ∧ d p < d u ∧ d (f u) < d u
  meas : ∀ u, u < n → d u < cls n f (f u)

theorem InvMid.compress {n par f d u a s} (h : InvMid n par f d a s) (hu : u < n) (hne : f u ≠ u) :
    InvMid n (par.set u (f u : Int)) f d a s := by
  have hl := h.len
  refine ⟨by simp [hl], h.lt, h.idem, ?_, ?_, h.spos, h.an, ?_, h.meas⟩
  · intro w hw hr hwa
    have : w ≠ u := by rintro rfl; exact hne hr
    rw [List.getElem?_set_ne (Ne.symm this)]
    exact h.rootv w hw hr hwa
  · have : a ≠ u := by rintro rfl; exact hne h.an
    rw [List.getElem?_set_ne (Ne.symm this)]
    exact h.roota
  · intro w hw hr
    by_cases hwu : w = u
    · subst hwu
      obtain ⟨p, _, _, _, _, h5⟩ := h.nonroot w hw hr
      refine ⟨f w, ?_, h.lt w hw, h.idem w hw, h5, h5⟩
      rw [List.getElem?_set_self (by omega)]
    · rw [List.getElem?_set_ne (Ne.symm hwu)]
      exact h.nonroot w hw hr

theorem rootF_specMid {n f d a s} : ∀ (k : Nat) (par : Par) (u : Nat), InvMid n par f d a s → u < n → d u < k →
    ∃ par', rootF k par u = some (f u, par') ∧ InvMid n par' f d a s := by
  intro k
  induction k with
  | zero => intro par u _ _ hk; omega
  | succ k ih =>
    intro par u h hu hk
    unfold rootF
    by_cases hr : f u = u
    · have hx : ∃ x : Int, par[u]? = some x ∧ x < 0 := by
        by_cases hua : u = a
        · subst hua; exact ⟨_, h.roota, by have := h.spos; omega⟩
        · refine ⟨_, h.rootv u hu hr hua, ?_⟩
          have := cls_pos (n := n) (f := f) hu
          rw [hr] at this; omega
      obtain ⟨x, hx, hneg⟩ := hx
      simp only [hx, Option.bind_eq_bind, Option.bind_some]
      rw [if_pos hneg]
      exact ⟨par, by rw [hr], h⟩
    · obtain ⟨p, hx, hp, hfp, hd, hd2⟩ := h.nonroot u hu hr
      simp only [hx, Option.bind_eq_bind, Option.bind_some]
      rw [if_neg (by omega)]
      obtain ⟨par', e, h'⟩ := ih par p h hp (by omega)
      simp only [Int.toNat_natCast, e, Option.bind_some]
      rw [if_pos (by rw [h'.len]; exact hu)]
      refine ⟨_, by rw [hfp], ?_⟩
      exact h'.compress hu hr

theorem root_specMid {n f d par u a s} (h : InvMid n par f d a s) (hu : u < n) :
    ∃ par', root par u = some (f u, par') ∧ InvMid n par' f d a s := by
  apply rootF_specMid _ _ _ h hu
  have := h.meas u hu
  have := cls_le n f (f u)
  rw [h.len]; omega

theorem link_specK {n f d par u v} (k : Nat) (h : Inv n par f d) (hu : u < n) (hv : v < n) (hne : f u ≠ f v) (hk1 : d (f u) < d (f v) + k)
    (hk2 : ∀ w, w < n → f w = f v → d w + k < cls n f (f u) + cls n f (f v)) :
    ∃ par', link par u v = some par' ∧ Inv n par' (merge f (f u) (f v)) (mergeD f d (f v) k) := by
  obtain ⟨p1, e1, h1⟩ := sizeOf_spec h hv
  obtain ⟨p2, e2, h2⟩ := root_spec h1 hu
  have hfu := h.lt u hu
  have hfv := h.lt v hv
  have hru := h2.rootv (f u) hfu (h.idem u hu)
  have hm : InvMid n (p2.set (f u) (-(cls n f (f u) : Int) - (cls n f (f v) : Int))) f d (f u)
      ((cls n f (f u) : Int) + (cls n f (f v) : Int)) := by
    refine ⟨by simp [h2.len], h.lt, h.idem, ?_, ?_, ?_, h.idem u hu, ?_, h.meas⟩
    · intro w hw hr hwa
      rw [List.getElem?_set_ne (Ne.symm hwa)]
      exact h2.rootv w hw hr
    · rw [List.getElem?_set_self (by rw [h2.len]; exact hfu)]
      congr 1; omega
    · have := cls_pos (n := n) (f := f) hu; omega
    · intro w hw hr
      have : w ≠ f u := by rintro rfl; exact hr (h.idem u hu)
      rw [List.getElem?_set_ne (Ne.symm this)]
      exact h2.nonroot w hw hr
  obtain ⟨p4, e4, h4⟩ := root_specMid hm hu
  obtain ⟨p5, e5, h5⟩ := root_specMid h4 hv
  have hl5 := h5.len
  refine ⟨p5.set (f v) (f u : Int), ?_, ?_⟩
  · unfold link
    simp only [e1, e2, hru, Option.bind_eq_bind, Option.bind_some, e4, e5]
    rw [if_pos (by omega)]
  · have hid : ∀ w, w < n → merge f (f u) (f v) (merge f (f u) (f v) w) = merge f (f u) (f v) w := by
      intro w hw
      unfold merge
      by_cases hb : f w = f v
      · simp [hb, h.idem u hu]
      · simp [hb, h.idem w hw]
    refine ⟨by simp [hl5], ?_, hid, ?_, ?_, ?_⟩
    · intro w hw
      unfold merge
      split
      · exact hfu
      · exact h.lt w hw
    · intro w hw hr
      by_cases hwv : w = f v
      · exfalso
        unfold merge at hr
        rw [hwv, h.idem v hv] at hr
        simp at hr
        exact hne hr
      · have hfw : f w = w := by
          unfold merge at hr
          by_cases hb : f w = f v
          · simp [hb] at hr
            rw [← hr, h.idem u hu] at hb
            exact absurd hb hne
          · simpa [hb] using hr
        rw [List.getElem?_set_ne (Ne.symm hwv)]
        by_cases hwu : w = f u
        · rw [hwu, cls_merge_self hne, h5.roota]
          congr 1
        · rw [cls_merge_other hwu hwv]
          exact h5.rootv w hw hfw hwu
    · intro w hw hr
      by_cases hwv : w = f v
      · subst hwv
        refine ⟨f u, ?_, hfu, ?_, ?_, ?_⟩
        · rw [List.getElem?_set_self (by omega)]
        · simp [merge, h.idem u hu, h.idem v hv, hne]
        · simp [mergeD, h.idem u hu, h.idem v hv, hne]; omega
        · simp [merge, mergeD, h.idem u hu, h.idem v hv, hne]; omega
      · have hfw : f w ≠ w := by
          intro e
          apply hr
          unfold merge
          rw [e, if_neg hwv]
        obtain ⟨p, g1, g2, g3, g4, g5⟩ := h5.nonroot w hw hfw
        rw [List.getElem?_set_ne (Ne.symm hwv)]
        refine ⟨p, g1, g2, ?_, ?_, ?_⟩
        · simp [merge, g3]
        · simp only [mergeD, g3]
          split <;> omega
        · by_cases hb : f w = f v
          · rw [hb] at g5
            simp [merge, mergeD, hb, h.idem u hu, hne]; omega
          · simp [merge, mergeD, hb, h.idem w hw, g5]
    · intro w hw
      have := h.meas w hw
      by_cases hb : f w = f v
      · simp only [merge, mergeD, hb, if_true]
        show _ < cls n (merge f (f u) (f v)) (f u)
        rw [cls_merge_self hne]
        exact hk2 w hw hb
      · simp only [merge, mergeD, hb, if_false]
        show d w < cls n (merge f (f u) (f v)) (f w)
        by_cases hu' : f w = f u
        · rw [hu', cls_merge_self hne]; rw [hu'] at this; omega
        · rw [cls_merge_other hu' hb]; exact this

theorem link_spec {n f d par u v} (h : Inv n par f d) (hu : u < n) (hv : v < n) (hne : f u ≠ f v) :
    ∃ par' d', link par u v = some par' ∧ Inv n par' (merge f (f u) (f v)) d' := by
  have hmeas : d (f u) < cls n f (f u) := by
    have := h.meas (f u) (h.lt u hu)
    rwa [h.idem u hu] at this
  obtain ⟨par', e, h'⟩ := link_specK (cls n f (f u)) h hu hv hne (by omega) (fun w hw hb => by
    have := h.meas w hw
    rw [hb] at this
    omega)
  exact ⟨par', _, e, h'⟩

/-- The abstraction: `f` identifies exactly connected indices. -/
def Rep (n : Nat) (ps : List (Nat × Nat)) (f : Nat → Nat) : Prop :=
  ∀ u v, u < n → v < n → (f u = f v ↔ Connected ps u v)

theorem Connected.mono {ps qs u v} (hsub : ∀ x, x ∈ ps → x ∈ qs) (h : Connected ps u v) : Connected qs u v := by
  induction h with
  | pair hp => exact .pair (hsub _ hp)
  | refl u => exact .refl u
  | symm _ ih => exact ih.symm
  | trans _ _ ih1 ih2 => exact ih1.trans ih2

/-- Soundness of any function constant on pairs. -/
theorem Connected.const {ps u v} (h : Connected ps u v) (g : Nat → Nat) (hg : ∀ a b, (a, b) ∈ ps → g a = g b) :
    g u = g v := by
  induction h with
  | pair hp => exact hg _ _ hp
  | refl u => rfl
  | symm _ ih => exact ih.symm
  | trans _ _ ih1 ih2 => exact ih1.trans ih2

theorem Rep.merge {n ps f a b} (hr : Rep n ps f) (ha : a < n) (hb : b < n)
    (hps : ∀ x y, (x, y) ∈ ps → x < n ∧ y < n) :
    Rep n (ps ++ [(a, b)]) (merge f (f a) (f b)) := by
  have hsub : ∀ x, x ∈ ps → x ∈ ps ++ [(a, b)] := by intro x hx; simp [hx]
  have hc : Connected (ps ++ [(a, b)]) a b := .pair (by simp)
  intro u v hu hv
  constructor
  · intro h
    unfold Verif.UnionFind.merge at h
    by_cases h1 : f u = f b <;> by_cases h2 : f v = f b
    · exact ((hr u v hu hv).1 (h1.trans h2.symm)).mono hsub
    · simp [h1, h2] at h
      exact (((hr u b hu hb).1 h1).mono hsub).trans (hc.symm.trans (((hr a v ha hv).1 h).mono hsub))
    · simp [h1, h2] at h
      exact (((hr u a hu ha).1 h).mono hsub).trans (hc.trans (((hr b v hb hv).1 h2.symm).mono hsub))
    · simp [h1, h2] at h
      exact ((hr u v hu hv).1 h).mono hsub
  · intro h
    apply h.const
    intro x y hxy
    simp only [List.mem_append, List.mem_singleton, Prod.mk.injEq] at hxy
    rcases hxy with hxy | ⟨rfl, rfl⟩
    · have hb' := hps x y hxy
      have := (hr x y hb'.1 hb'.2).2 (.pair hxy)
      simp [Verif.UnionFind.merge, this]
    · by_cases e : f x = f y <;> simp [Verif.UnionFind.merge, e]

theorem Rep.same {n ps f a b} (hr : Rep n ps f) (ha : a < n) (hb : b < n) (he : f a = f b) :
    Rep n (ps ++ [(a, b)]) f := by
  have hsub : ∀ x, x ∈ ps → x ∈ ps ++ [(a, b)] := by intro x hx; simp [hx]
  intro u v hu hv
  rw [hr u v hu hv]
  constructor
  · exact fun h => h.mono hsub
  · intro h
    have : ∀ {x y}, Connected (ps ++ [(a, b)]) x y → Connected ps x y := by
      intro x y h
      induction h with
      | pair hp =>
        simp only [List.mem_append, List.mem_singleton, Prod.mk.injEq] at hp
        rcases hp with hp | ⟨rfl, rfl⟩
        · exact .pair hp
        · exact (hr _ _ ha hb).1 he
      | refl u => exact .refl u
      | symm _ ih => exact ih.symm
      | trans _ _ ih1 ih2 => exact ih1.trans ih2
    exact this h

theorem Rep.congrSwap {n ps f a b} (hr : Rep n (ps ++ [(b, a)]) f) : Rep n (ps ++ [(a, b)]) f := by
  have key : ∀ {a b x y}, Connected (ps ++ [(b, a)]) x y → Connected (ps ++ [(a, b)]) x y := by
    intro a b x y h
    induction h with
    | pair hp =>
      simp only [List.mem_append, List.mem_singleton, Prod.mk.injEq] at hp
      rcases hp with hp | ⟨rfl, rfl⟩
      · exact .pair (by simp [hp])
      · exact .symm (.pair (by simp))
    | refl u => exact .refl u
    | symm _ ih => exact ih.symm
    | trans _ _ ih1 ih2 => exact ih1.trans ih2
  intro u v hu hv
  rw [hr u v hu hv]
  exact ⟨key, key⟩

/-- Full state abstraction. -/
def Good (n : Nat) (ps : List (Nat × Nat)) (par : Par) : Prop :=
  (∀ x y, (x, y) ∈ ps → x < n ∧ y < n) ∧ ∃ f d, Inv n par f d ∧ Rep n ps f

theorem init_good (n) : Good n [] (init n) := by
  refine ⟨by simp, id, fun _ => 0, ⟨by simp [init], by simp, by simp, ?_, by simp, ?_⟩, ?_⟩
  · intro u hu _
    have : cls n id u = 1 := by
      unfold cls
      simp only [id]
      have : (List.range n).count u = 1 := by
        rw [List.nodup_range.count]
        simp [hu]
      exact this
    simp [init, hu, this]
  · intro u hu
    exact cls_pos (f := id) hu
  · intro u v _ _
    simp only [id]
    constructor
    · rintro rfl; exact .refl _
    · intro h
      exact h.const id (by simp)

theorem unite_good {n ps par u v} (h : Good n ps par) (hu : u < n) (hv : v < n) :
    ∃ b par', unite par u v = some (b, par') ∧ (b = true ↔ ¬ Connected ps u v) ∧ Good n (ps ++ [(u, v)]) par' := by
  obtain ⟨hps, f, d, hi, hr⟩ := h
  have hps' : ∀ x y, (x, y) ∈ ps ++ [(u, v)] → x < n ∧ y < n := by
    intro x y hxy
    simp only [List.mem_append, List.mem_singleton, Prod.mk.injEq] at hxy
    rcases hxy with hxy | ⟨rfl, rfl⟩
    · exact hps x y hxy
    · exact ⟨hu, hv⟩
  obtain ⟨p1, e1, h1⟩ := areUnion_spec hi hu hv
  unfold unite
  simp only [e1, Option.bind_eq_bind, Option.bind_some]
  by_cases he : f u = f v
  · simp only [he, beq_self_eq_true, if_true]
    refine ⟨_, _, rfl, ?_, hps', f, d, h1, hr.same hu hv he⟩
    simp [(hr u v hu hv).1 he]
  · have hb : (f u == f v) = false := by simp [he]
    simp only [hb]
    obtain ⟨p2, e2, h2⟩ := sizeOf_spec h1 hu
    obtain ⟨p3, e3, h3⟩ := sizeOf_spec h2 hv
    simp only [e2, e3, Option.bind_some, Bool.false_eq_true, if_false]
    have hnc : ¬ Connected ps u v := fun hc => he ((hr u v hu hv).2 hc)
    split
    · obtain ⟨p4, d', e4, h4⟩ := link_spec h3 hv hu (Ne.symm he)
      simp only [e4, Option.bind_some]
      exact ⟨_, _, rfl, by simp [hnc], hps', _, d', h4, (hr.merge hv hu hps).congrSwap⟩
    · obtain ⟨p4, d', e4, h4⟩ := link_spec h3 hu hv he
      simp only [e4, Option.bind_some]
      exact ⟨_, _, rfl, by simp [hnc], hps', _, d', h4, hr.merge hu hv hps⟩

theorem Good.perm {n ps par} (h : Good n ps par) {op : Op} (hop : op.Valid n) :
    ∃ par', step par op = some par' ∧ Good n (ps ++ united [op]) par' := by
  cases op with
  | unite u v =>
    obtain ⟨b, p, e, _, g⟩ := unite_good h hop.1 hop.2
    exact ⟨p, by simp [step, e], by simpa [united] using g⟩
  | areUnion u v =>
    obtain ⟨hps, f, d, hi, hr⟩ := h
    obtain ⟨p, e, h1⟩ := areUnion_spec hi hop.1 hop.2
    exact ⟨p, by simp [step, e], by simpa [united] using ⟨hps, f, d, h1, hr⟩⟩
  | sizeOf u =>
    obtain ⟨hps, f, d, hi, hr⟩ := h
    obtain ⟨p, e, h1⟩ := sizeOf_spec hi hop
    exact ⟨p, by simp [step, e], by simpa [united] using ⟨hps, f, d, h1, hr⟩⟩
  | root u =>
    obtain ⟨hps, f, d, hi, hr⟩ := h
    obtain ⟨p, e, h1⟩ := root_spec hi hop
    exact ⟨p, by simp [step, e], by simpa [united] using ⟨hps, f, d, h1, hr⟩⟩

theorem united_cons (op : Op) (ops) : united (op :: ops) = united [op] ++ united ops := by
  cases op <;> simp [united]

theorem exec_good {n} : ∀ (ops : List Op) (ps) (par : Par), Good n ps par → (∀ op ∈ ops, op.Valid n) →
    ∃ par', exec par ops = some par' ∧ Good n (ps ++ united ops) par' := by
  intro ops
  induction ops with
  | nil => intro ps par h _; exact ⟨par, rfl, by simpa [united] using h⟩
  | cons op ops ih =>
    intro ps par h hv
    obtain ⟨p1, e1, g1⟩ := h.perm (hv op (by simp))
    obtain ⟨p2, e2, g2⟩ := ih _ p1 g1 (fun o ho => hv o (by simp [ho]))
    refine ⟨p2, by simp [exec, e1, e2], ?_⟩
    rw [united_cons, ← List.append_assoc]
    exact g2

end Verif.UnionFind
