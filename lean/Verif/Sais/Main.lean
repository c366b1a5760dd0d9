import Verif.Sais.Names
/-! `sa_is` sorts the suffixes. -/
namespace Verif.Sais

variable {n N : Nat} {S : Nat → Nat} {ty : Nat → Bool}

/-- Strings accepted by `sa_is`: a final 0 that occurs nowhere else, and characters below the length. -/
structure Valid (Sl : List Nat) : Prop where
  last : Sl.getLast? = some 0
  lt : ∀ c ∈ Sl, c < Sl.length
  pos : ∀ x, x + 1 < Sl.length → 0 < Sl.getD x 0

section Reduced
variable (C : Ctx n S ty)

theorem lmsList_at {a : Nat} (h : a < (lmsList n ty).length) : (lmsList n ty).getD a 0 < n ∧ lms ty ((lmsList n ty).getD a 0) = true := by
  rw [List.getD_eq_getElem _ 0 h]
  exact lmsList_mem.1 (List.getElem_mem h)

theorem lmsList_ex {x : Nat} (hx : x < n) (lx : lms ty x = true) : ∃ a, a < (lmsList n ty).length ∧ (lmsList n ty).getD a 0 = x := by
  obtain ⟨a, ha, e⟩ := List.mem_iff_getElem.1 (lmsList_mem.2 ⟨hx, lx⟩)
  exact ⟨a, ha, by rw [List.getD_eq_getElem _ 0 ha, e]⟩

theorem lmsList_lt {a b : Nat} (hb : b < (lmsList n ty).length) (h : a < b) : (lmsList n ty).getD a 0 < (lmsList n ty).getD b 0 := by
  have ha : a < (lmsList n ty).length := by omega
  rw [List.getD_eq_getElem _ 0 ha, List.getD_eq_getElem _ 0 hb]
  exact List.pairwise_iff_getElem.1 lmsList_sorted a b ha hb h

theorem lmsList_inj {a b : Nat} (ha : a < (lmsList n ty).length) (hb : b < (lmsList n ty).length)
    (h : (lmsList n ty).getD a 0 = (lmsList n ty).getD b 0) : a = b := by
  rcases Nat.lt_trichotomy a b with e | e | e
  · have := lmsList_lt hb e; omega
  · exact e
  · have := lmsList_lt ha e; omega

include C

theorem Ctx.lmsList_pos : 0 < (lmsList n ty).length := by
  have := C.two
  exact List.length_pos_of_mem (lmsList_mem.2 ⟨(by omega : n - 1 < n), C.lms_last⟩)

theorem Ctx.lmsList_last {a : Nat} (h : a + 1 = (lmsList n ty).length) : (lmsList n ty).getD a 0 = n - 1 := by
  have := C.two
  obtain ⟨b, hb, e⟩ := lmsList_ex (ty := ty) (by omega : n - 1 < n) C.lms_last
  rcases Nat.lt_or_ge b a with h1 | h1
  · have h2 := lmsList_lt (n := n) (ty := ty) (a := b) (b := a) (by omega) h1
    have h3 := (lmsList_at (n := n) (ty := ty) (a := a) (by omega)).1
    omega
  · rw [show a = b by omega, e]

theorem Ctx.lmsList_ne {a : Nat} (h : a + 1 < (lmsList n ty).length) : (lmsList n ty).getD a 0 ≠ n - 1 := by
  have h2 := lmsList_lt (n := n) (ty := ty) (a := a) h (by omega)
  have h3 := (lmsList_at (n := n) (ty := ty) h).1
  omega

/-- The next LMS position. -/
theorem Ctx.lmsList_next {a : Nat} (h : a + 1 < (lmsList n ty).length) : nx2 n ty ((lmsList n ty).getD a 0) = (lmsList n ty).getD (a+1) 0 := by
  obtain ⟨h1, h2⟩ := lmsList_at (n := n) (ty := ty) (a := a) (by omega)
  obtain ⟨h5, h6⟩ := lmsList_at (n := n) (ty := ty) h
  have h3 := C.lmsList_ne h
  obtain ⟨q1, q2, q3, q4⟩ := C.nx2_spec n _ (by omega) (by omega) (lms_ty h2)
  have h4 := lmsList_lt (n := n) (ty := ty) (a := a) h (by omega)
  obtain ⟨c, hc, e⟩ := lmsList_ex q1 q3
  have hac : a < c := by
    by_contra hca
    rcases Nat.lt_or_ge c a with h7 | h7
    · have := lmsList_lt (n := n) (ty := ty) (a := c) (b := a) (by omega) h7
      omega
    · have : c = a := by omega
      subst this; omega
  rcases Nat.lt_or_ge (a+1) c with h7 | h7
  · have h8 := lmsList_lt (n := n) (ty := ty) (a := a+1) hc h7
    have := q4 _ h4 (by omega)
    rw [h6] at this; cases this
  · rw [← e, show c = a + 1 by omega]

/-- The reduced string is accepted. -/
theorem Ctx.reduced_valid : Valid ((lmsList n ty).map (nm n S ty)) := by
  have hp := C.lmsList_pos
  have hm : (lmsList n ty).length = num n (fun x => lms ty x = true) := by rw [num_filter]; rfl
  refine ⟨?_, ?_, ?_⟩
  · rw [List.getLast?_eq_getElem?, List.length_map, List.getElem?_map, List.getElem?_eq_getElem (by omega)]
    have := C.lmsList_last (a := (lmsList n ty).length - 1) (by omega)
    rw [List.getD_eq_getElem _ 0 (by omega)] at this
    rw [this, Option.map_some, C.nm_last]
  · intro c hc
    rw [List.mem_map] at hc
    obtain ⟨x, hx, rfl⟩ := hc
    rw [lmsList_mem] at hx
    rw [List.length_map, hm]
    exact nm_bound hx.1 hx.2
  · intro a ha
    rw [List.length_map] at ha
    rw [List.getD_eq_getElem _ 0 (by rw [List.length_map]; omega), List.getElem_map]
    have h1 := C.lmsList_ne ha
    have h2 := (lmsList_at (n := n) (ty := ty) (a := a) (by omega)).1
    rw [List.getD_eq_getElem _ 0 (by omega)] at h1 h2
    exact C.nm_pos h2 h1

/-- The order of the suffixes of the reduced string is that of the LMS suffixes. -/
theorem Ctx.reduced_order : ∀ (d a b : Nat), (lmsList n ty).length - a ≤ d → a < (lmsList n ty).length → b < (lmsList n ty).length →
    ((lmsList n ty).map (nm n S ty)).drop a < ((lmsList n ty).map (nm n S ty)).drop b →
    fk n S ty ((lmsList n ty).getD a 0) < fk n S ty ((lmsList n ty).getD b 0) := by
  have hd : ∀ a, a < (lmsList n ty).length → ((lmsList n ty).map (nm n S ty)).drop a =
      nm n S ty ((lmsList n ty).getD a 0) :: ((lmsList n ty).map (nm n S ty)).drop (a+1) := by
    intro a ha
    rw [List.drop_eq_getElem_cons (by rw [List.length_map]; exact ha), List.getElem_map, List.getD_eq_getElem _ 0 ha]
  intro d
  induction d with
  | zero => intro a b h ha; omega
  | succ d ih =>
    intro a b h ha hb e
    obtain ⟨a1, a2⟩ := lmsList_at ha
    obtain ⟨b1, b2⟩ := lmsList_at hb
    rw [hd a ha, hd b hb, cons_lt] at e
    rcases e with e | ⟨e1, e2⟩
    · exact fk_of_s2 n _ _ (by omega) (s2_of_nm b1 b2 e)
    · have hs := nm_eq a1 b1 a2 b2 e1
      have hab : a ≠ b := by
        rintro rfl; exact absurd e2 (lt_irrefl _)
      have hone : ∀ a b, a < (lmsList n ty).length → b < (lmsList n ty).length → a ≠ b →
          nm n S ty ((lmsList n ty).getD a 0) = nm n S ty ((lmsList n ty).getD b 0) → a + 1 < (lmsList n ty).length := by
        intro a b ha hb hne h1
        by_contra hc
        have h2 := C.lmsList_last (a := a) (by omega)
        rw [h2, C.nm_last] at h1
        obtain ⟨b1, b2⟩ := lmsList_at hb
        have h3 : (lmsList n ty).getD b 0 = n - 1 := by
          by_contra hc2
          have := C.nm_pos b1 hc2
          omega
        exact hne (lmsList_inj ha hb (by rw [h2, h3]))
      have ha2 := hone a b ha hb hab e1
      have hb2 := hone b a hb ha hab.symm e1.symm
      rw [fk_nx2 n _ _ (by omega) hs, C.lmsList_next ha2, C.lmsList_next hb2]
      exact ih (a+1) (b+1) (by omega) ha2 hb2 e2

/-- If the last name is the number of LMS positions minus one, the names are distinct. -/
theorem Ctx.distinct {p : Nat} (hp : p < n) (lp : lms ty p = true) (hmax : ∀ x, x < n → lms ty x = true → s2 n S ty x ≤ s2 n S ty p)
    (h : num n (fun x => lms ty x = true) - 1 = nm n S ty p) : ((lmsList n ty).map (nm n S ty)).Nodup := by
  classical
  have hm : (lmsList n ty).length = num n (fun x => lms ty x = true) := by rw [num_filter]; rfl
  have hpos := C.lmsList_pos
  have hnd : (lmsList n ty).Nodup := lmsList_sorted.imp (fun h => Nat.ne_of_lt h)
  have h1 : (Insert.insert (s2 n S ty p) (below n S ty p)).card = (lmsList n ty).toFinset.card := by
    rw [Finset.card_insert_of_notMem, List.toFinset_card_of_nodup hnd, hm]
    · show nm n S ty p + 1 = _
      omega
    · rw [mem_below]
      rintro ⟨_, _, _, _, h1⟩
      exact absurd h1 (lt_irrefl _)
  have h2 : (lmsList n ty).toFinset.image (s2 n S ty) = Insert.insert (s2 n S ty p) (below n S ty p) := by
    ext w
    simp only [Finset.mem_image, Finset.mem_insert, mem_below, List.mem_toFinset, lmsList_mem]
    constructor
    · rintro ⟨x, ⟨hx, lx⟩, rfl⟩
      rcases lt_or_eq_of_le (hmax x hx lx) with h3 | h3
      · exact Or.inr ⟨x, hx, lx, rfl, h3⟩
      · exact Or.inl h3
    · rintro (rfl | ⟨x, hx, lx, rfl, _⟩)
      · exact ⟨p, ⟨hp, lp⟩, rfl⟩
      · exact ⟨x, ⟨hx, lx⟩, rfl⟩
  rw [← h2] at h1
  have h3 := Finset.card_image_iff.1 h1
  refine List.Nodup.map_on ?_ hnd
  intro x hx y hy e
  have hx' := lmsList_mem.1 hx
  have hy' := lmsList_mem.1 hy
  exact h3 (by simp only [List.coe_toFinset]; exact hx) (by simp only [List.coe_toFinset]; exact hy) (nm_eq hx'.1 hy'.1 hx'.2 hy'.2 e)

end Reduced

theorem foldlM_congr {α β : Type} {f g : β → α → Option β} : ∀ (l : List α) (s : β), (∀ s, ∀ x ∈ l, f s x = g s x) → l.foldlM f s = l.foldlM g s := by
  intro l
  induction l with
  | nil => intro s _; rfl
  | cons a l ih =>
    intro s h
    rw [List.foldlM_cons, List.foldlM_cons, h s a (by simp)]
    cases g s a with
    | none => rfl
    | some s' => exact ih s' (fun s x hx => h s x (by simp [hx]))

theorem foldlM_map' {α β γ : Type} (h : α → γ) (f : β → γ → Option β) : ∀ (l : List α) (s : β), (l.map h).foldlM f s = l.foldlM (fun s x => f s (h x)) s := by
  intro l
  induction l with
  | nil => intro s; rfl
  | cons a l ih =>
    intro s
    rw [List.map_cons, List.foldlM_cons, List.foldlM_cons]
    cases f s (h a) with
    | none => rfl
    | some s' => exact ih s'

/-- The second placing and the second induced sort. -/
theorem resort_ok (C : Ctx n S ty) (hN : n ≤ N) {Sl : List Nat} (hS : Rep Sl n S) {t : List Bool} (ht : Rep t n ty)
    {B : Buckets} {g : Nat → Nat × Nat} (hB : Rep B N g) (hg : ∀ c, c < n → g c = (st n S c, st n S (c+1))) {o : List Nat}
    (hp : o.Perm (List.range (lmsList n ty).length))
    (ho : o.Pairwise (fun a b => ((lmsList n ty).map (nm n S ty)).drop a < ((lmsList n ty).map (nm n S ty)).drop b)) :
    ∃ (o' : List Nat) (B' : Buckets), ((o.map some).reverse.foldlM (reseedStep Sl (lmsList n ty)) (List.replicate n none, B)).bind (inducedSort Sl t)
      = some (o'.map some, B') ∧ B'.length = N ∧ o'.Perm (List.range n) ∧ o'.Pairwise (fun x y => fk n S ty x < fk n S ty y) := by
  have hlt : ∀ a ∈ o, a < (lmsList n ty).length := fun a ha => List.mem_range.1 (hp.mem_iff.1 ha)
  have e1 : (o.map some).reverse.foldlM (reseedStep Sl (lmsList n ty)) (List.replicate n none, B) =
      (o.reverse.map (fun a => (lmsList n ty).getD a 0)).foldlM (fun s x => placeBack Sl x s) (List.replicate n none, B) := by
    rw [← List.map_reverse, foldlM_map', foldlM_map']
    apply foldlM_congr
    intro s a ha
    have := hlt a (List.mem_reverse.1 ha)
    simp [reseedStep, List.getElem?_eq_getElem this]
  obtain ⟨s, e2, h⟩ := place_list C (fk_keyL (n := n) (S := S) (ty := ty)) hN hS (o.reverse.map (fun a => (lmsList n ty).getD a 0)) (fun _ => False)
    (List.replicate n none, B) (PSt.empty _ hB hg) (fun _ _ h => h.elim) (by
      intro x hx
      rw [List.mem_map] at hx
      obtain ⟨a, ha, rfl⟩ := hx
      exact lmsList_at (hlt a (List.mem_reverse.1 ha))) (by
      intro y hy ly
      right
      obtain ⟨a, ha, rfl⟩ := lmsList_ex hy ly
      exact List.mem_map.2 ⟨a, List.mem_reverse.2 (hp.mem_iff.2 (List.mem_range.2 ha)), rfl⟩) (fun _ _ _ _ h => h.elim) (by
      rw [List.pairwise_map, List.pairwise_reverse]
      refine List.Pairwise.imp_of_mem ?_ ho
      intro a b ha hb hab
      exact C.reduced_order _ a b (le_refl _) (hlt a ha) (hlt b hb) hab)
  obtain ⟨o', B', e3, h1, h2, h3⟩ := inducedSort_ok C (fk_keyL (n := n) (S := S) (ty := ty)) (fk_keyS (n := n) (S := S) (ty := ty))
    (fun _ _ _ _ _ _ => Iff.rfl) hN hS ht h
  exact ⟨o', B', by rw [e1, e2]; exact e3, h1, h2, h3⟩

/-- The short strings. -/
theorem short_ok {Sl : List Nat} (V : Valid Sl) (h : Sl.length ≤ 3) : ∃ o : List Nat, short Sl = o.map some ∧ o.Perm (List.range Sl.length) ∧
    o.Pairwise (fun x y => Sl.drop x < Sl.drop y) := by
  obtain ⟨hl, _, hp⟩ := V
  match Sl with
  | [] => simp at hl
  | [a] =>
    exact ⟨[0], rfl, (by decide : [0].Perm (List.range 1)), List.pairwise_singleton _ _⟩
  | [a, b] =>
    have hb : b = 0 := by simpa using hl
    have ha : 0 < a := hp 0 (by simp)
    refine ⟨[1, 0], rfl, (by decide : [1, 0].Perm (List.range 2)), ?_⟩
    simp only [List.pairwise_cons, List.mem_cons, List.not_mem_nil, or_false, forall_eq]
    refine ⟨?_, by simp⟩
    show [b] < [a, b]
    rw [hb]; exact head_lt ha
  | [a, b, c] =>
    have hc : c = 0 := by simpa using hl
    have ha : 0 < a := hp 0 (by simp)
    have hb : 0 < b := hp 1 (by simp)
    by_cases hab : a < b
    · refine ⟨[2, 0, 1], ?_, (by decide : [2, 0, 1].Perm (List.range 3)), ?_⟩
      · simp [short, hab]
      · simp only [List.pairwise_cons, List.mem_cons, List.not_mem_nil, or_false, forall_eq_or_imp, forall_eq]
        refine ⟨⟨?_, ?_⟩, ?_, by simp⟩
        · show [c] < [a, b, c]
          rw [hc]; exact head_lt ha
        · show [c] < [b, c]
          rw [hc]; exact head_lt hb
        · show [a, b, c] < [b, c]
          exact head_lt hab
    · refine ⟨[2, 1, 0], ?_, (by decide : [2, 1, 0].Perm (List.range 3)), ?_⟩
      · simp [short, hab]
      · simp only [List.pairwise_cons, List.mem_cons, List.not_mem_nil, or_false, forall_eq_or_imp, forall_eq]
        refine ⟨⟨?_, ?_⟩, ?_, by simp⟩
        · show [c] < [b, c]
          rw [hc]; exact head_lt hb
        · show [c] < [a, b, c]
          rw [hc]; exact head_lt ha
        · show [b, c] < [a, b, c]
          rw [cons_lt]
          by_cases h2 : b = a
          · right
            refine ⟨h2, ?_⟩
            rw [hc]; exact head_lt hb
          · left; omega
  | _ :: _ :: _ :: _ :: _ => simp at h

/-- `sa_is` sorts the suffixes. -/
theorem saIs_ok : ∀ (fuel : Nat) (Sl : List Nat) (bucket : Buckets) (dist : Bool), Sl.length ≤ fuel → Valid Sl → Sl.length ≤ bucket.length →
    (dist = true → Sl.Nodup) → ∃ (o : List Nat) (B : Buckets), saIs fuel Sl bucket dist = some (o.map some, B) ∧ B.length = bucket.length ∧
      o.Perm (List.range Sl.length) ∧ o.Pairwise (fun x y => Sl.drop x < Sl.drop y) := by
  intro fuel
  induction fuel with
  | zero =>
    intro Sl bucket dist h V
    have : Sl = [] := List.length_eq_zero_iff.1 (by omega)
    have := V.last
    simp_all
  | succ fuel ih =>
    intro Sl bucket dist hf V hb hd
    rw [saIs, if_pos ⟨V.last, V.lt⟩]
    by_cases h3 : Sl.length ≤ 3
    · rw [if_pos h3]
      obtain ⟨o, e, h1, h2⟩ := short_ok V h3
      exact ⟨o, bucket, by rw [e], rfl, h1, h2⟩
    · rw [if_neg h3]
      obtain ⟨n, hn⟩ : ∃ n, Sl.length = n := ⟨_, rfl⟩
      obtain ⟨N, hNe⟩ : ∃ N, bucket.length = N := ⟨_, rfl⟩
      have hN : n ≤ N := by omega
      have hS : Rep Sl n (fun i => Sl.getD i 0) := by rw [← hn]; exact Rep.ofList Sl 0
      generalize hSf : (fun i => Sl.getD i 0) = S at hS
      have hlt : ∀ x, x < n → S x < n := by
        intro x hx
        rw [← hSf]
        show Sl.getD x 0 < n
        have hx' : x < Sl.length := by omega
        rw [List.getD_eq_getElem _ 0 hx']
        have := V.lt _ (List.getElem_mem hx')
        omega
      have hlast : S (n-1) = 0 := by
        have := V.last
        rw [List.getLast?_eq_getElem?, hn, hS.val (n-1) (by omega)] at this
        injection this
      have hpos : ∀ x, x + 1 < n → 0 < S x := by
        intro x hx
        rw [← hSf]
        exact V.pos x (by omega)
      obtain ⟨t, ty, et, ht, C⟩ := types_ok hS (by omega) hlt hlast hpos
      obtain ⟨cnt, ec, hc⟩ := counts_ok hS hlt
      obtain ⟨b1, g1, eb, hb1, hg1⟩ := initBucket_ok hc hNe hN
      rw [et]; simp only [Option.bind_some]
      rw [ec]; simp only [Option.bind_some]
      rw [if_neg (by omega), hn, eb]; simp only [Option.bind_some]
      cases dist with
      | true =>
        have hinj : ∀ x y, x < n → y < n → S x = S y → x = y := by
          intro x y hx hy e
          have h1 : Sl[x]'(by omega) = Sl[y]'(by omega) := by
            have h2 := hS.val x hx
            have h4 := hS.val y hy
            rw [List.getElem?_eq_getElem (by omega)] at h2 h4
            injection h2 with h2
            injection h4 with h4
            rw [h2, h4, e]
          exact (List.Nodup.getElem_inj_iff (hd rfl)).1 h1
        obtain ⟨s, es, hs⟩ := seed_ok C (fk_keyL (n := n) (S := S) (ty := ty)) hN hS ht hb1 hg1 (by
          intro p y hp hy _ _ e
          have := hinj y p hy hp e
          subst this
          exact ⟨fun h => absurd h (lt_irrefl _), fun h => absurd h (lt_irrefl _)⟩)
        obtain ⟨o, B, e, h1, h2, h4⟩ := inducedSort_ok C (fk_keyL (n := n) (S := S) (ty := ty)) (fk_keyS (n := n) (S := S) (ty := ty))
          (fun _ _ _ _ _ _ => Iff.rfl) hN hS ht hs
        rw [es]; simp only [Option.bind_some]
        rw [e]; simp only [Option.bind_some, if_true]
        exact ⟨o, B, rfl, by rw [h1, hNe], h2, h4.imp (fun h => C.drop_of_fk hS n _ _ (by omega) h)⟩
      | false =>
        obtain ⟨s, es, hs⟩ := seed_ok C (k1_keyL (n := n) (S := S) (ty := ty)) hN hS ht hb1 hg1 (by
          intro p y hp hy lp ly e
          rw [k1_S hp (lms_ty lp), k1_S hy (lms_ty ly), tail_lt (tc_congr e.symm ((lms_ty lp).trans (lms_ty ly).symm)), cons_lt]
          simp)
        obtain ⟨o, B, e, h1, h2, h4⟩ := inducedSort_ok C (k1_keyL (n := n) (S := S) (ty := ty)) (k2_keyS (n := n) (S := S) (ty := ty))
          k12 hN hS ht hs
        rw [es]; simp only [Option.bind_some]
        rw [e]; simp only [Option.bind_some, Bool.false_eq_true, if_false]
        obtain ⟨p, hp, lp, hmax, en⟩ := names_ok C hS ht h2 h4 rfl
        rw [en]; simp only [Option.bind_some]
        have hml : (lmsList n ty).length = num n (fun x => lms ty x = true) := by rw [num_filter]; rfl
        have hhalf := lms_half (ty := ty) n
        obtain ⟨o2, B2, e2, q1, q2, q3⟩ := ih ((lmsList n ty).map (nm n S ty)) B
          (decide (num n (fun x => lms ty x = true) - 1 = nm n S ty p)) (by rw [List.length_map, hml]; omega) C.reduced_valid
          (by rw [List.length_map, hml, h1]; omega) (fun hdd => C.distinct hp lp hmax (of_decide_eq_true hdd))
        rw [List.length_map] at q2
        rw [e2]; simp only [Option.bind_some]
        rw [citi_ok ht C.two]; simp only [Option.bind_some]
        obtain ⟨b3, g3, eb3, hb3, hg3⟩ := initBucket_ok hc (by rw [q1, h1] : B2.length = N) hN
        rw [eb3]; simp only [Option.bind_some]
        obtain ⟨o3, B3, e3, w1, w2, w3⟩ := resort_ok C hN hS ht hb3 hg3 q2 q3
        rw [e3]
        exact ⟨o3, B3, rfl, by rw [w1, hNe], w2, w3.imp (fun h => C.drop_of_fk hS n _ _ (by omega) h)⟩

end Verif.Sais
