import Verif.Sais.Loops
/-! The names of the LMS substrings. -/
namespace Verif.Sais

variable {n N : Nat} {S : Nat → Nat} {ty : Nat → Bool}

/-- The LMS substrings before that of `x`. -/
noncomputable def below (n : Nat) (S : Nat → Nat) (ty : Nat → Bool) (x : Nat) : Finset (List Nat) := by
  classical exact ((Finset.range n).filter (fun y => lms ty y = true ∧ s2 n S ty y < s2 n S ty x)).image (s2 n S ty)

/-- The name of an LMS substring: the number of different LMS substrings before it. -/
noncomputable def nm (n : Nat) (S : Nat → Nat) (ty : Nat → Bool) (x : Nat) : Nat := (below n S ty x).card

theorem mem_below {x : Nat} {w : List Nat} : w ∈ below n S ty x ↔ ∃ y, y < n ∧ lms ty y = true ∧ s2 n S ty y = w ∧ w < s2 n S ty x := by
  unfold below
  simp only [Finset.mem_image, Finset.mem_filter, Finset.mem_range]
  constructor
  · rintro ⟨y, ⟨h1, h2, h3⟩, rfl⟩; exact ⟨y, h1, h2, rfl, h3⟩
  · rintro ⟨y, h1, h2, rfl, h3⟩; exact ⟨y, ⟨h1, h2, h3⟩, rfl⟩

theorem nm_congr {x y : Nat} (h : s2 n S ty x = s2 n S ty y) : nm n S ty x = nm n S ty y := by
  unfold nm
  congr 1
  ext w
  rw [mem_below, mem_below, h]

theorem nm_lt {x y : Nat} (hx : x < n) (lx : lms ty x = true) (h : s2 n S ty x < s2 n S ty y) : nm n S ty x < nm n S ty y := by
  unfold nm
  apply Finset.card_lt_card
  rw [Finset.ssubset_iff_of_subset]
  · refine ⟨s2 n S ty x, mem_below.2 ⟨x, hx, lx, rfl, h⟩, ?_⟩
    rw [mem_below]
    rintro ⟨_, _, _, _, h1⟩
    exact absurd h1 (lt_irrefl _)
  · intro w hw
    rw [mem_below] at *
    obtain ⟨z, h1, h2, h3, h4⟩ := hw
    exact ⟨z, h1, h2, h3, lt_trans h4 h⟩

theorem nm_eq {x y : Nat} (hx : x < n) (hy : y < n) (lx : lms ty x = true) (ly : lms ty y = true) (h : nm n S ty x = nm n S ty y) :
    s2 n S ty x = s2 n S ty y := by
  rcases lt_trichotomy (s2 n S ty x) (s2 n S ty y) with e | e | e
  · have := nm_lt hx lx e; omega
  · exact e
  · have := nm_lt hy ly e; omega

theorem s2_of_nm {x y : Nat} (hy : y < n) (ly : lms ty y = true) (h : nm n S ty x < nm n S ty y) :
    s2 n S ty x < s2 n S ty y := by
  rcases lt_trichotomy (s2 n S ty x) (s2 n S ty y) with e | e | e
  · exact e
  · have := nm_congr e; omega
  · have := nm_lt hy ly e; omega

/-- The name of the next different substring. -/
theorem nm_succ {x y : Nat} (hy : y < n) (ly : lms ty y = true) (h : s2 n S ty y < s2 n S ty x)
    (hb : ∀ z, z < n → lms ty z = true → s2 n S ty z < s2 n S ty x → s2 n S ty z ≤ s2 n S ty y) : nm n S ty x = nm n S ty y + 1 := by
  classical
  unfold nm
  have : below n S ty x = Insert.insert (s2 n S ty y) (below n S ty y) := by
    ext w
    rw [Finset.mem_insert, mem_below, mem_below]
    constructor
    · rintro ⟨z, h1, h2, rfl, h4⟩
      rcases lt_or_eq_of_le (hb z h1 h2 h4) with h5 | h5
      · exact Or.inr ⟨z, h1, h2, rfl, h5⟩
      · exact Or.inl h5
    · rintro (rfl | ⟨z, h1, h2, h3, h4⟩)
      · exact ⟨y, hy, ly, rfl, h⟩
      · exact ⟨z, h1, h2, h3, lt_trans h4 h⟩
  rw [this, Finset.card_insert_of_notMem]
  rw [mem_below]
  rintro ⟨_, _, _, _, h1⟩
  exact absurd h1 (lt_irrefl _)

theorem nm_bound {x : Nat} (hx : x < n) (lx : lms ty x = true) : nm n S ty x < num n (fun y => lms ty y = true) := by
  have h1 : nm n S ty x ≤ num n (fun y => lms ty y = true ∧ s2 n S ty y < s2 n S ty x) := by
    classical
    unfold nm below num
    refine le_trans Finset.card_image_le (le_of_eq ?_)
    congr
  refine lt_of_le_of_lt h1 ?_
  exact num_lt hx (fun h => absurd h.2 (lt_irrefl _)) lx (fun y _ hy => hy.1)

theorem Ctx.s2_last (C : Ctx n S ty) : s2 n S ty (n-1) = [1] := by
  have := C.two
  rw [s2_S (by omega) C.tlast, s2_ge (by omega), tc, C.last, C.tlast]
  rfl

theorem Ctx.last_least (C : Ctx n S ty) {x : Nat} (hx : x < n) (h : x ≠ n - 1) : s2 n S ty (n-1) < s2 n S ty x := by
  have hp := C.pos x (by omega)
  rw [C.s2_last]
  have : ∃ l, s2 n S ty x = tc S ty x :: l := by
    cases t : ty x with
    | true => exact ⟨_, s2_S hx t⟩
    | false => exact ⟨_, s2_L hx t⟩
  obtain ⟨l, e⟩ := this
  rw [e]
  apply head_lt
  unfold tc; omega

theorem Ctx.nm_last (C : Ctx n S ty) : nm n S ty (n-1) = 0 := by
  unfold nm
  rw [Finset.card_eq_zero, Finset.eq_empty_iff_forall_notMem]
  intro w hw
  rw [mem_below] at hw
  obtain ⟨y, h1, h2, rfl, h3⟩ := hw
  by_cases h : y = n - 1
  · rw [h] at h3; exact absurd h3 (lt_irrefl _)
  · exact absurd h3 (lt_asymm (C.last_least h1 h))

theorem Ctx.nm_pos (C : Ctx n S ty) {x : Nat} (hx : x < n) (h : x ≠ n - 1) : 0 < nm n S ty x := by
  have := C.two
  have := nm_lt (by omega) C.lms_last (C.last_least hx h)
  omega

/-- The naming loop. -/
theorem nameLoop_ok (C : Ctx n S ty) {Sl : List Nat} (hS : Rep Sl n S) {t : List Bool} (ht : Rep t n ty) {o : List Nat}
    (hp : o.Perm (List.range n)) (ho : o.Pairwise (fun x y => k2 n S ty x < k2 n S ty y)) {m : Nat} (hm : m = num n (fun x => lms ty x = true)) :
    (o.map some)[0]? = some (some (n-1)) ∧ ∃ l0, wr (List.replicate n 0) (m + (n-1)/2) 0 = some l0 ∧
    ∃ l c p, forRange 1 n (nameStep Sl t (o.map some) m) (l0, 0, n-1) = some (l, c, p) ∧ l.length = n ∧
      (∀ x, x < n → lms ty x = true → l[m + x/2]? = some (nm n S ty x)) ∧ p < n ∧ lms ty p = true ∧ c = nm n S ty p ∧
      ∀ x, x < n → lms ty x = true → s2 n S ty x ≤ s2 n S ty p := by
  have hn := C.two
  have hmh : m ≤ n / 2 := by rw [hm]; exact lms_half n
  have hol : o.length = n := by rw [hp.length_eq, List.length_range]
  have hon : o.Nodup := hp.nodup_iff.2 List.nodup_range
  have hlt : ∀ i (h : i < o.length), o[i] < n := fun i h => List.mem_range.1 (hp.mem_iff.1 (List.getElem_mem h))
  have hex : ∀ x, x < n → ∃ i, ∃ h : i < o.length, o[i] = x := by
    intro x hx
    exact List.mem_iff_getElem.1 (hp.mem_iff.2 (List.mem_range.2 hx))
  have hmono : ∀ i j (hi : i < o.length) (hj : j < o.length), i < j → k2 n S ty o[i] < k2 n S ty o[j] :=
    fun i j hi hj hij => List.pairwise_iff_getElem.1 ho i j hi hj hij
  have hinj : ∀ i j (hi : i < o.length) (hj : j < o.length), o[i] = o[j] → i = j := by
    intro i j hi hj e
    exact (List.Nodup.getElem_inj_iff hon).1 e
  have h0 : ∃ h : 0 < o.length, o[0] = n - 1 := by
    obtain ⟨i, hi, e⟩ := hex (n-1) (by omega)
    refine ⟨by omega, ?_⟩
    by_cases h : i = 0
    · subst h; exact e
    · exfalso
      have h1 := hmono 0 i (by omega) hi (by omega)
      rw [e] at h1
      have h2 : o[0] ≠ n - 1 := by
        intro h2
        have := hinj 0 i (by omega) hi (by rw [h2, e])
        omega
      have h3 := hlt 0 (by omega)
      have h4 := k2_keyS.chr (S := S) (n-1) o[0] (dom_all (by omega)) (dom_all (ty := ty) h3) (by rw [C.last]; exact C.pos _ (by omega))
      exact absurd h1 (lt_asymm h4)
  obtain ⟨h00, h0⟩ := h0
  refine ⟨by rw [List.getElem?_map, List.getElem?_eq_getElem h00, h0]; rfl, ?_⟩
  obtain ⟨l0, e0, r0⟩ := (Rep.replicate n 0).wr (i := m + (n-1)/2) (by omega) 0
  refine ⟨l0, e0, ?_⟩
  obtain ⟨⟨l, c, p⟩, e, h1, h2, j, hj, h3, h4, h5, h6, h7⟩ := forRange_inv (a := 1) (b := n) (s := (l0, 0, n-1)) (body := nameStep Sl t (o.map some) m)
    (fun i s => s.1.length = n ∧ (∀ j (h : j < o.length), j < i → lms ty o[j] = true → s.1[m + o[j]/2]? = some (nm n S ty o[j])) ∧
      ∃ j, ∃ h : j < o.length, j < i ∧ o[j] = s.2.2 ∧ lms ty s.2.2 = true ∧ s.2.1 = nm n S ty s.2.2 ∧
        ∀ a (h : a < o.length), j < a → a < i → lms ty o[a] = false) (by omega)
    ⟨r0.len, by
      intro j h hj _
      have : j = 0 := by omega
      subst this
      rw [h0, C.nm_last]
      show l0[m + (n-1)/2]? = some 0
      rw [r0.val _ (by omega), upd_same], 0, h00, by omega, h0, C.lms_last, C.nm_last.symm, by intro a _ h1 h2; omega⟩
    (by
      rintro i ⟨l, c, p⟩ hi1 hi ⟨h1, h2, j, hj, h3, h4, h5, h6, h7⟩
      have h1 : l.length = n := h1
      have h4 : o[j] = p := h4
      have h5 : lms ty p = true := h5
      have h6 : c = nm n S ty p := h6
      have hil : i < o.length := by omega
      have hx := hlt i hil
      have hAi : (o.map some)[i]? = some (some o[i]) := by rw [List.getElem?_map, List.getElem?_eq_getElem hil]; rfl
      cases hl : lms ty o[i] with
      | false =>
        refine ⟨(l, c, p), ?_, h1, ?_, j, hj, by omega, h4, h5, h6, ?_⟩
        · simp [nameStep, hAi, isLms_ok ht hx, hl]
        · intro a ha h8 h9
          by_cases hai : a = i
          · subst hai; rw [hl] at h9; cases h9
          · exact h2 a ha (by omega) h9
        · intro a ha h8 h9
          by_cases hai : a = i
          · subst hai; exact hl
          · exact h7 a ha h8 (by omega)
      | true =>
        have hpn : p < n := by rw [← h4]; exact hlt j hj
        have hkp := hmono j i hj hil h3
        rw [h4] at hkp
        have hne : p ≠ o[i] := by
          intro e
          rw [e] at hkp; exact absurd hkp (lt_irrefl _)
        have hsame := sameLms_ok C hS ht hpn hx hne h5 hl
        have hle := s2_of_k2 (n := n) (S := S) (ty := ty) n p o[i] (by omega) hkp
        have hval : (if decide (s2 n S ty p = s2 n S ty o[i]) = true then c else c + 1) = nm n S ty o[i] := by
          rw [h6]
          by_cases hs : s2 n S ty p = s2 n S ty o[i]
          · rw [if_pos (by simp [hs]), nm_congr hs]
          · rw [if_neg (by simp [hs])]
            refine (nm_succ hpn h5 (lt_of_le_of_ne hle hs) ?_).symm
            intro z hz lz hzs
            obtain ⟨b, hb, eb⟩ := hex z hz
            have hbi : b < i := by
              by_contra hc
              rcases Nat.lt_or_ge i b with h8 | h8
              · have := s2_of_k2 (n := n) (S := S) (ty := ty) n o[i] z (by omega) (by rw [← eb]; exact hmono i b hil hb h8)
                exact absurd hzs (not_lt_of_ge this)
              · have : b = i := by omega
                subst this
                rw [eb] at hzs
                exact absurd hzs (lt_irrefl _)
            have hbj : b ≤ j := by
              by_contra hc
              have := h7 b hb (by omega) hbi
              rw [eb, lz] at this; cases this
            rcases Nat.lt_or_ge b j with h8 | h8
            · rw [← eb, ← h4]
              exact s2_of_k2 (n := n) (S := S) (ty := ty) n _ _ (by omega) (hmono b j hb hj h8)
            · have : b = j := by omega
              subst this
              rw [← eb, ← h4]
        have hnm := nm_bound (S := S) hx hl
        have hidx : m + o[i]/2 < l.length := by omega
        refine ⟨(l.set (m + o[i]/2) (nm n S ty o[i]), nm n S ty o[i], o[i]), ?_, by simp [h1], ?_, i, hil, by omega, rfl, hl, rfl, ?_⟩
        · simp only [nameStep, hAi, Option.bind_some, isLms_ok ht hx, hl, if_true, hsame, hval, wr, if_pos hidx, Option.map_some]
        · intro a ha h8 h9
          by_cases hai : a = i
          · subst hai
            exact List.getElem?_set_self hidx
          · have : o[a]/2 ≠ o[i]/2 := by
              intro e
              exact hai (hinj a i ha hil (lms_div h9 hl e))
            show (l.set (m + o[i]/2) (nm n S ty o[i]))[m + o[a]/2]? = _
            rw [List.getElem?_set_ne (by omega)]
            exact h2 a ha (by omega) h9
        · intro a ha h8 h9; omega)
  have h4 : o[j] = p := h4
  refine ⟨l, c, p, e, h1, ?_, by rw [← h4]; exact hlt j hj, h5, h6, ?_⟩
  · intro x hx lx
    obtain ⟨b, hb, eb⟩ := hex x hx
    subst eb
    exact h2 b hb (by omega) lx
  · intro x hx lx
    obtain ⟨b, hb, eb⟩ := hex x hx
    subst eb
    rcases Nat.lt_trichotomy b j with h8 | h8 | h8
    · rw [← h4]
      exact s2_of_k2 (n := n) (S := S) (ty := ty) n _ _ (by omega) (hmono b j hb hj h8)
    · subst h8; rw [h4]
    · have := h7 b hb h8 (by omega)
      rw [lx] at this; cases this

/-- The reduced string. -/
theorem names_ok (C : Ctx n S ty) {Sl : List Nat} (hS : Rep Sl n S) {t : List Bool} (ht : Rep t n ty) {o : List Nat}
    (hp : o.Perm (List.range n)) (ho : o.Pairwise (fun x y => k2 n S ty x < k2 n S ty y)) {m : Nat} (hm : m = num n (fun x => lms ty x = true)) :
    ∃ p, p < n ∧ lms ty p = true ∧ (∀ x, x < n → lms ty x = true → s2 n S ty x ≤ s2 n S ty p) ∧
      names Sl t (o.map some) m = some ((lmsList n ty).map (nm n S ty), nm n S ty p) := by
  have hn := C.two
  have hmh : m ≤ n / 2 := by rw [hm]; exact lms_half n
  have hml : (lmsList n ty).length = m := by rw [hm, num_filter]; rfl
  obtain ⟨hA, l0, e0, l, c, p, e1, hl, hv, hpn, hpl, hc, hmax⟩ := nameLoop_ok C hS ht hp ho hm
  refine ⟨p, hpn, hpl, hmax, ?_⟩
  obtain ⟨⟨l', k⟩, e2, h1, h2, h3, h4⟩ := forRange_inv (a := 1) (b := n) (s := (l, 0)) (body := packStep t m)
    (fun i s => s.1.length = n ∧ (∀ x, x < n → lms ty x = true → s.1[m + x/2]? = some (nm n S ty x)) ∧
      s.2 = (lmsList i ty).length ∧ s.1.take s.2 = (lmsList i ty).map (nm n S ty)) (by omega)
    ⟨hl, hv, by simp [lmsList_succ, lmsList, lms], by simp [lmsList_succ, lmsList, lms]⟩
    (by
      rintro i ⟨l, k⟩ hi1 hi ⟨h1, h2, h3, h4⟩
      have h1 : l.length = n := h1
      have h3 : k = (lmsList i ty).length := h3
      have h4 : l.take k = _ := h4
      cases hli : lms ty i with
      | false =>
        have e : lmsList (i+1) ty = lmsList i ty := by rw [lmsList_succ, hli]; simp
        exact ⟨(l, k), by simp [packStep, isLms_ok ht hi, hli], h1, h2, by rw [e]; exact h3, by rw [e]; exact h4⟩
      | true =>
        have e : lmsList (i+1) ty = lmsList i ty ++ [i] := by rw [lmsList_succ, hli]; simp
        have hkm : k < m := by
          have h5 : num (i+1) (fun x => lms ty x = true) = k + 1 := by
            rw [num_filter, show (List.range (i+1)).filter (fun x => lms ty x) = lmsList (i+1) ty from rfl, e, List.length_append, h3]; rfl
          have h6 : ∀ d, num (i+1) (fun x => lms ty x = true) ≤ num (i+1+d) (fun x => lms ty x = true) := by
            intro d
            induction d with
            | zero => exact le_refl _
            | succ d ih => rw [← Nat.add_assoc, num_step (i+1+d)]; omega
          have h7 := h6 (n - (i+1))
          rw [show i + 1 + (n - (i+1)) = n by omega, ← hm] at h7
          omega
        have hkl : k < l.length := by omega
        refine ⟨(l.set k (nm n S ty i), k+1), ?_, by simp [h1], ?_, ?_, ?_⟩
        · simp only [packStep, isLms_ok ht hi, hli, Option.bind_some, if_true, h2 i hi hli, wr, if_pos hkl, Option.map_some]
        · intro x hx lx
          show (l.set k _)[m + x/2]? = _
          rw [List.getElem?_set_ne (by omega)]
          exact h2 x hx lx
        · rw [e, List.length_append, ← h3]; rfl
        · show (l.set k (nm n S ty i)).take (k+1) = _
          rw [e, List.map_append, ← h4, List.take_succ, List.getElem?_set_self hkl, List.take_set_of_le (le_refl k)]
          rfl)
  have h3 : k = m := by rw [← hml]; exact h3
  have h4 : l'.take k = _ := h4
  unfold names
  rw [hS.len, if_pos hA, e0]
  simp only [Option.bind_some]
  rw [e1]
  simp only [Option.bind_some]
  rw [e2]
  simp only [Option.map_some]
  rw [← h3, h4, hc]

end Verif.Sais
