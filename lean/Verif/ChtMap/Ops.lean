import Verif.ChtMap.Proofs
/-! The operations of the map version of the convex hull trick on well-formed states. -/
namespace Verif.ChtMap
open Verif

variable {up : Bool} {I M : Int} {m : Nat} {f : Nat → Line}

theorem X3_drop {g h i : Line} (s1 : na up g < na up h) (s2 : na up h < na up i) (hc : ¬ X3 up I g h i) (x : Int) :
    ev up h x ≤ ev up g x ∨ ev up h x ≤ ev up i x := by
  refine cr_drop s1 s2 ?_ x
  intro h; exact hc (Or.inr (Or.inr h))

theorem left_ok (hM : 1 ≤ M) (hI : 4*M*M < I) (H : HF up I M m f) {L : List Line} (hL : Rep L (m+2) f) {line : Line} (rl : Real M line) {it : Nat}
    (hit : it ≤ m + 1) (s2 : na up line < na up (f it)) : ∀ lit, lit < it → na up (f lit) < na up line → X3 up I (f lit) line (f it) →
    ∃ lit', lit' ≤ lit ∧ leftLoop up I L line lit lit = some (lit', lit') ∧ X3 up I (f lit') line (f it) ∧ (lit' = 0 ∨ X3 up I (f (lit'-1)) (f lit') line) ∧
      ∀ j, lit' < j → j ≤ lit → ∀ x, ev up (f j) x ≤ ev up line x ∨ (0 < lit' ∧ ev up (f j) x ≤ ev up (f lit') x) := by
  intro lit
  induction lit with
  | zero => intro _ _ hx; exact ⟨0, le_rfl, rfl, hx, Or.inl rfl, fun j h1 h2 => by omega⟩
  | succ lit ih =>
    intro hlt s1 hx
    have s0 := H.sl lit (lit+1) (by omega) (by omega)
    have hI3 := interLess_eq hM hI s0 s1 (H.real (lit+1) (by omega) (by omega)) (H.lo_or (by omega)) (Or.inr rl)
    by_cases hc : X3 up I (f lit) (f (lit+1)) line
    · refine ⟨lit+1, le_rfl, ?_, hx, Or.inr (by simpa using hc), fun j h1 h2 => by omega⟩
      unfold leftLoop
      rw [hL.val lit (by omega), hL.val (lit+1) (by omega), Option.bind_some, Option.bind_some, hI3, decide_eq_true hc]
      rfl
    · have hl0 : lit ≠ 0 := by
        rintro rfl
        exact hc (Or.inl (by rw [H.lo]))
      have hx' : X3 up I (f lit) line (f it) := by
        by_cases e : it = m + 1
        · exact Or.inr (Or.inl ((H.hi_iff hM hI hit).2 e))
        · rcases hx with hx | hx | hx
          · rw [H.lo_iff hM hI (by omega)] at hx; omega
          · rw [H.hi_iff hM hI (by omega)] at hx; omega
          · exact Or.inr (Or.inr (cr_popl s0 s1 s2 (H.cv lit (lit+1) it (by omega) (by omega) hlt (by omega)) hx))
      obtain ⟨lit', h1, h2, h3, h4, h5⟩ := ih (by omega) (lt_trans s0 s1) hx'
      refine ⟨lit', by omega, ?_, h3, h4, ?_⟩
      · unfold leftLoop
        rw [hL.val lit (by omega), hL.val (lit+1) (by omega), Option.bind_some, Option.bind_some, hI3, decide_eq_false hc, Option.bind_some,
          if_neg Bool.false_ne_true, if_neg (by omega), Nat.add_sub_cancel, h2]
      · intro j j1 j2 x
        by_cases ej : j ≤ lit
        · exact h5 j j1 ej x
        · have : j = lit + 1 := by omega
          subst this
          rcases X3_drop s0 s1 hc x with hd | hd
          · by_cases el : lit = lit'
            · subst el; exact Or.inr ⟨by omega, hd⟩
            · rcases h5 lit (by omega) le_rfl x with h | h
              · exact Or.inl (le_trans hd h)
              · exact Or.inr ⟨h.1, le_trans hd h.2⟩
          · exact Or.inl hd

theorem right_ok (hM : 1 ≤ M) (hI : 4*M*M < I) (H : HF up I M m f) {L : List Line} (hL : Rep L (m+2) f) {line : Line} (rl : Real M line) {lit : Nat}
    (s1 : na up (f lit) < na up line) : ∀ fuel it, m + 2 - it ≤ fuel → it ≤ m + 1 → lit < it → na up line < na up (f it) → X3 up I (f lit) line (f it) →
    ∃ it', it ≤ it' ∧ it' ≤ m + 1 ∧ rightLoop up I L line (m+1) fuel it it = some (it', it') ∧ X3 up I (f lit) line (f it') ∧
      (it' = m + 1 ∨ X3 up I line (f it') (f (it'+1))) ∧
      ∀ j, it ≤ j → j < it' → ∀ x, ev up (f j) x ≤ ev up line x ∨ (it' ≤ m ∧ ev up (f j) x ≤ ev up (f it') x) := by
  intro fuel
  induction fuel with
  | zero => intro it h1 h2; omega
  | succ fuel ih =>
    intro it hf hit hlt s2 hx
    unfold rightLoop
    by_cases e : it + 1 = L.length
    · rw [if_pos e]
      rw [hL.len] at e
      exact ⟨it, le_rfl, hit, rfl, hx, Or.inl (by omega), fun j h1 h2 => by omega⟩
    · rw [if_neg e]
      rw [hL.len] at e
      have s3 := H.sl it (it+1) (by omega) (by omega)
      have hI3 := interLess_eq hM hI s2 s3 (H.real it (by omega) (by omega)) (Or.inr rl) (H.hi_or (by omega) (by omega))
      rw [hL.val it (by omega), hL.val (it+1) (by omega), Option.bind_some, Option.bind_some, hI3]
      by_cases hc : X3 up I line (f it) (f (it+1))
      · rw [decide_eq_true hc]
        exact ⟨it, le_rfl, hit, rfl, hx, Or.inr hc, fun j h1 h2 => by omega⟩
      · have hl0 : it ≠ m := by
          rintro rfl
          exact hc (Or.inr (Or.inl (by rw [H.hi])))
        have hx' : X3 up I (f lit) line (f (it+1)) := by
          rcases hx with hx | hx | hx
          · exact Or.inl hx
          · rw [H.hi_iff hM hI (by omega)] at hx; omega
          · by_cases e0 : lit = 0
            · exact Or.inl ((H.lo_iff hM hI (by omega)).2 e0)
            · exact Or.inr (Or.inr (cr_popr s1 s2 s3 hx (H.cv lit it (it+1) (by omega) (by omega) (by omega) (by omega))))
        obtain ⟨it', h1, h1', h2, h3, h4, h5⟩ := ih (it+1) (by omega) (by omega) (by omega) (lt_trans s2 s3) hx'
        refine ⟨it', by omega, h1', ?_, h3, h4, ?_⟩
        · rw [decide_eq_false hc, Option.bind_some, if_neg Bool.false_ne_true, if_neg (by omega), h2]
        · intro j j1 j2 x
          by_cases ej : it + 1 ≤ j
          · exact h5 j ej j2 x
          · have : j = it := by omega
            subst this
            rcases X3_drop s2 s3 hc x with hd | hd
            · exact Or.inl hd
            · by_cases el : j + 1 = it'
              · subst el; exact Or.inr ⟨by omega, hd⟩
              · rcases h5 (j+1) le_rfl (by omega) x with h | h
                · exact Or.inl (le_trans hd h)
                · exact Or.inr ⟨h.1, le_trans hd h.2⟩

/-- The hull after an insertion. -/
def ins (f : Nat → Line) (line : Line) (lit it : Nat) (i : Nat) : Line :=
  if i ≤ lit then f i else if i = lit + 1 then line else f (i - (lit + 2) + it)

theorem ins_lo {line : Line} {lit it i : Nat} (h : i ≤ lit) : ins f line lit it i = f i := if_pos h
theorem ins_mid {line : Line} {lit it : Nat} : ins f line lit it (lit+1) = line := by
  unfold ins; rw [if_neg (by omega), if_pos rfl]
theorem ins_hi {line : Line} {lit it : Nat} (d : Nat) : ins f line lit it (lit + 2 + d) = f (it + d) := by
  unfold ins; rw [if_neg (by omega), if_neg (by omega)]; congr 1; omega

theorem ins_HF (hM : 1 ≤ M) (hI : 4*M*M < I) (H : HF up I M m f) {line : Line} (rl : Real M line) {lit it : Nat} (hlt : lit < it) (hit : it ≤ m + 1)
    (s1 : na up (f lit) < na up line) (s2 : na up line < na up (f it)) (c0 : X3 up I (f lit) line (f it))
    (c1 : lit = 0 ∨ X3 up I (f (lit-1)) (f lit) line) (c2 : it = m + 1 ∨ X3 up I line (f it) (f (it+1))) :
    HF up I M (lit + m + 2 - it) (ins f line lit it) := by
  have rn := real_ne (up := up) hM hI rl
  have hs : ∀ i j, i < j → j ≤ (lit + m + 2 - it) + 1 → na up (ins f line lit it i) < na up (ins f line lit it j) := by
    apply sl_of_step
    intro i hi
    rcases Nat.lt_trichotomy i lit with h | h | h
    · rw [ins_lo (by omega), ins_lo (by omega)]; exact H.sl _ _ (by omega) (by omega)
    · subst h; rw [ins_lo le_rfl, ins_mid]; exact s1
    · by_cases h2 : i = lit + 1
      · subst h2
        rw [ins_mid, show lit + 1 + 1 = lit + 2 + 0 from rfl, ins_hi]; exact s2
      · obtain ⟨d, rfl⟩ : ∃ d, i = lit + 2 + d := ⟨i - lit - 2, by omega⟩
        rw [ins_hi, Nat.add_assoc, ins_hi]
        exact H.sl _ _ (by omega) (by omega)
  refine ⟨?_, ?_, ?_, hs, ?_⟩
  · rw [ins_lo (by omega)]; exact H.lo
  · rw [show lit + m + 2 - it + 1 = lit + 2 + (m + 1 - it) from by omega, ins_hi, show it + (m + 1 - it) = m + 1 from by omega]
    exact H.hi
  · intro i h1 h2
    by_cases h : i ≤ lit
    · rw [ins_lo h]; exact H.real i h1 (by omega)
    · by_cases h3 : i = lit + 1
      · subst h3; rw [ins_mid]; exact rl
      · obtain ⟨d, rfl⟩ : ∃ d, i = lit + 2 + d := ⟨i - lit - 2, by omega⟩
        rw [ins_hi]
        exact H.real _ (by omega) (by omega)
  · intro i j k
    apply cv_of_step hs ?_ (k - i) i j k le_rfl
    intro i h1 h2
    by_cases h : i + 2 ≤ lit
    · rw [ins_lo (by omega), ins_lo (by omega), ins_lo h]; exact H.cv _ _ _ h1 (by omega) (by omega) (by omega)
    · by_cases e1 : i + 1 = lit
      · subst e1
        rw [ins_lo (by omega), ins_lo (by omega), ins_mid]
        rcases c1 with c1 | c1 | c1 | c1
        · omega
        · rw [Nat.add_sub_cancel, H.lo_iff hM hI (by omega)] at c1; omega
        · exact absurd c1 rn.2
        · exact c1
      · by_cases e2 : i = lit
        · subst e2
          rw [ins_lo le_rfl, ins_mid, show i + 2 = i + 2 + 0 from rfl, ins_hi]
          rcases c0 with c0 | c0 | c0
          · rw [H.lo_iff hM hI (by omega)] at c0; omega
          · rw [H.hi_iff hM hI (by omega)] at c0; omega
          · exact c0
        · by_cases e3 : i = lit + 1
          · subst e3
            rw [ins_mid, show lit + 1 + 1 = lit + 2 + 0 from rfl, ins_hi, show lit + 1 + 2 = lit + 2 + 1 from rfl, ins_hi]
            rcases c2 with c2 | c2 | c2 | c2
            · omega
            · exact absurd c2 rn.1
            · rw [H.hi_iff hM hI (by omega)] at c2; omega
            · exact c2
          · obtain ⟨d, rfl⟩ : ∃ d, i = lit + 2 + d := ⟨i - lit - 2, by omega⟩
            rw [Nat.add_assoc _ d, Nat.add_assoc _ d, ins_hi, ins_hi, ins_hi]
            exact H.cv _ _ _ (by omega) (by omega) (by omega) (by omega)

/-- A state that represents the hull `f`. -/
structure St (up : Bool) (I M : Int) (s : Cht) (m : Nat) (f : Nat → Line) : Prop where
  hf : HF up I M m f
  l : Rep s.L (m+2) f
  t : Rep s.tr (m+1) (ent up I f)

theorem splice_ok (hM : 1 ≤ M) (hI : 4*M*M < I) {s : Cht} (hs : St up I M s m f) {line : Line} (rl : Real M line) {lit it : Nat} (hlt : lit < it)
    (hit : it ≤ m + 1) (s1 : na up (f lit) < na up line) (s2 : na up line < na up (f it)) (c0 : X3 up I (f lit) line (f it))
    (c1 : lit = 0 ∨ X3 up I (f (lit-1)) (f lit) line) (c2 : it = m + 1 ∨ X3 up I line (f it) (f (it+1))) :
    ∃ s', splice up I s line lit it lit it = some s' ∧ St up I M s' (lit + m + 2 - it) (ins f line lit it) := by
  have H' := ins_HF hM hI hs.hf rl hlt hit s1 s2 c0 c1 c2
  have hM' : lit + 1 ≤ lit + m + 2 - it := by omega
  have hL := rep_erase hs.l (a := lit + 1) (b := it) (by omega) (by omega)
  have hT := rep_erase hs.t (a := lit) (b := it) (by omega) (by omega)
  have eL0 := hL.val lit (by omega)
  have eL1 := hL.val (lit+1) (by omega)
  rw [if_pos (by omega)] at eL0
  rw [if_neg (by omega), show lit + 1 - (lit + 1) + it = it from by omega] at eL1
  have eL1' : (s.L.take (lit+1) ++ s.L.drop it)[lit+1]? = some (f it) := eL1
  have e1 : ent up I (ins f line lit it) lit = (nd up I (f lit) line, f lit) := by
    unfold ent; rw [ins_lo le_rfl, ins_mid]
  have e2 : ent up I (ins f line lit it) (lit+1) = (nd up I line (f it), line) := by
    unfold ent; rw [ins_mid, show lit + 1 + 1 = lit + 2 + 0 from rfl, ins_hi, Nat.add_zero]
  have hT' : Rep (s.tr.take lit ++ s.tr.drop it) (lit + m + 1 - it)
      (fun i => if i < lit then (fun i => if i < lit then ent up I (ins f line lit it) i else ent up I (ins f line lit it) (i+1)) i
        else (fun i => if i < lit then ent up I (ins f line lit it) i else ent up I (ins f line lit it) (i+1)) (i+1)) := by
    rw [show lit + m + 1 - it = m + 1 - (it - lit) from by omega]
    refine hT.congr ?_
    intro i hi
    by_cases h : i < lit
    · simp only [if_pos h, ent]
      rw [ins_lo (by omega), ins_lo (by omega)]
    · simp only [if_neg h, if_neg (show ¬ i + 1 < lit by omega), ent]
      obtain ⟨d, rfl⟩ : ∃ d, i = lit + d := ⟨i - lit, by omega⟩
      rw [show lit + d + 1 + 1 = lit + 2 + d from by omega, ins_hi, show lit + 2 + d + 1 = lit + 2 + (d+1) from rfl, ins_hi,
        show lit + d - lit + it = it + d from by omega]
      rfl
  have n2 : mkNode up I line (f it) = some (nd up I line (f it)) :=
    mkNode_eq hM hI s2 (Or.inr rl) (hs.hf.hi_or (by omega) hit)
  have n1 : mkNode up I (f lit) line = some (nd up I (f lit) line) :=
    mkNode_eq hM hI s1 (hs.hf.lo_or (by omega)) (Or.inr rl)
  have hNB : ∀ i, i ≤ lit + m + 2 - it → NB I M (ent up I (ins f line lit it) i).1 := fun i hi => H'.ent_NB hi
  have hlt' : ∀ i j, i < j → j ≤ lit + m + 2 - it → nlt I (ent up I (ins f line lit it) i).1 (ent up I (ins f line lit it) j).1 :=
    fun i j h1 h2 => H'.ent_lt hM hI h1 h2
  obtain ⟨t1, ht1, rt1⟩ := emplaceTr_rep hM hI hT' (k := lit) (by omega)
    (by
      intro i hi
      by_cases h : i < lit
      · simp only [if_pos h]; exact hNB i (by omega)
      · simp only [if_neg h]; exact hNB (i+1) (by omega))
    (by
      intro i j hij hj
      by_cases h : i < lit
      · by_cases h2 : j < lit
        · simp only [if_pos h, if_pos h2]; exact hlt' i j hij (by omega)
        · simp only [if_pos h, if_neg h2]; exact hlt' i (j+1) (by omega) (by omega)
      · simp only [if_neg h, if_neg (show ¬ j < lit by omega)]; exact hlt' (i+1) (j+1) (by omega) (by omega))
  simp only [if_neg (lt_irrefl lit), e2] at ht1
  obtain ⟨t2, ht2, rt2⟩ := emplaceTr_rep hM hI rt1 (k := lit) (by omega) (fun i hi => hNB i (by omega)) (fun i j h1 h2 => hlt' i j h1 (by omega))
  simp only [e1] at ht2
  have hLf : Rep (s.L.take (lit+1) ++ s.L.drop it) (lit + m + 2 - it + 1)
      (fun i => if i < lit + 1 then ins f line lit it i else ins f line lit it (i+1)) := by
    rw [show lit + m + 2 - it + 1 = m + 2 - (it - (lit + 1)) from by omega]
    refine hL.congr ?_
    intro i hi
    by_cases h : i < lit + 1
    · simp only [if_pos h]; rw [ins_lo (by omega)]
    · simp only [if_neg h]
      obtain ⟨d, rfl⟩ : ∃ d, i = lit + 1 + d := ⟨i - lit - 1, by omega⟩
      rw [show lit + 1 + d + 1 = lit + 2 + d from by omega, ins_hi]
      congr 1; omega
  have rL := emplaceL_rep (up := up) hLf (k := lit + 1) (by omega) (fun i j h1 h2 => H'.sl i j h1 h2)
  rw [ins_mid] at rL
  refine ⟨⟨t2, emplaceL up line (s.L.take (lit+1) ++ s.L.drop it)⟩, ?_, H', ?_, ?_⟩
  · unfold splice
    rw [if_pos ⟨by omega, by omega⟩]
    simp only [eL0, eL1', Option.bind_some, n2, n1]
    have hok : beforeTr I (nd up I line (f it)) (s.tr.take lit ++ s.tr.drop it)[lit]? = some true := by
      by_cases h : lit < lit + m + 1 - it
      · rw [hT'.val lit h]
        simp only [if_neg (lt_irrefl lit), if_neg (show ¬ lit + 1 < lit by omega)]
        have a := hNB (lit+1) (by omega)
        have b := hNB (lit+1+1) (by omega)
        have c := hlt' (lit+1) (lit+1+1) (by omega) (by omega)
        rw [e2] at a c
        show nodeLt I _ _ = _
        rw [nodeLt_eq hM hI a b, decide_eq_true c]
      · rw [List.getElem?_eq_none (by rw [hT'.len]; omega)]
        rfl
    rw [hok]
    simp only [Option.bind_some, if_true, ht1]
    rw [rt1.val lit (by omega)]
    simp only [if_neg (lt_irrefl lit), e2, Option.bind_some]
    have a := hNB lit (by omega)
    have b := hNB (lit+1) (by omega)
    have c := hlt' lit (lit+1) (by omega) (by omega)
    rw [e2] at b c
    rw [e1] at a c
    rw [nodeLt_eq hM hI a b, decide_eq_true c]
    simp only [Option.bind_some, if_true, ht2, Option.map_some]
  · exact rL
  · have := rt2
    rwa [show lit + m + 1 - it + 1 + 1 = lit + m + 2 - it + 1 from by omega] at this

theorem find_ok (hM : 1 ≤ M) (hI : 4*M*M < I) {s : Cht} (hs : St up I M s m f) {i : Nat} (hi : i ≤ m) :
    findTr I (nd up I (f i) (f (i+1))) s.tr = some i := by
  have hN := hs.hf.ent_NB hi
  have irr : ¬ nlt I (ent up I f i).1 (ent up I f i).1 := fun h => nlt_asymm hM hI h h
  unfold findTr
  have : lowerTr I (nd up I (f i) (f (i+1))) s.tr = some i := by
    apply lowerTr_eq _ _ (by rw [hs.t.len]; omega)
    · intro j hj e he
      rw [hs.t.val j (by omega)] at he
      cases he
      exact (nodeLt_eq hM hI (hs.hf.ent_NB (by omega)) hN).trans (by rw [decide_eq_true (hs.hf.ent_lt hM hI hj hi)])
    · intro e he
      rw [hs.t.val i (by omega)] at he
      cases he
      exact (nodeLt_eq hM hI hN hN).trans (by rw [decide_eq_false irr])
  rw [this, Option.bind_some, hs.t.val i (by omega), Option.bind_some]
  have h2 : nodeLt I (nd up I (f i) (f (i+1))) (ent up I f i).1 = some false :=
    (nodeLt_eq hM hI hN hN).trans (by rw [decide_eq_false irr])
  rw [h2]
  rfl

/-- What `add` does to the hull: every old line is dominated by the new hull, and the new lines are old lines or the added one. -/
def Grows (up : Bool) (m : Nat) (f : Nat → Line) (line : Line) (m' : Nat) (f' : Nat → Line) : Prop :=
  (∀ i, 1 ≤ i → i ≤ m' → f' i = line ∨ ∃ j, 1 ≤ j ∧ j ≤ m ∧ f' i = f j) ∧
  (∀ j, 1 ≤ j → j ≤ m → ∀ x, ∃ i, 1 ≤ i ∧ i ≤ m' ∧ ev up (f j) x ≤ ev up (f' i) x) ∧
  ∀ x, ∃ i, 1 ≤ i ∧ i ≤ m' ∧ ev up line x ≤ ev up (f' i) x

/-- From a gap between `lit` and `it` on. -/
theorem gap_ok (hM : 1 ≤ M) (hI : 4*M*M < I) {s : Cht} (hs : St up I M s m f) {line : Line} (rl : Real M line) {lit it : Nat} (hlt : lit < it)
    (hit : it ≤ m + 1) (s1 : na up (f lit) < na up line) (s2 : na up line < na up (f it)) (c0 : X3 up I (f lit) line (f it))
    (hdrop : ∀ j, lit < j → j < it → ∀ x, ev up (f j) x ≤ ev up line x) :
    ∃ s' m' f', ((leftLoop up I s.L line lit lit).bind fun l => (rightLoop up I s.L line s.tr.length s.L.length it it).bind fun r =>
      splice up I s line l.1 r.1 l.2 r.2) = some s' ∧ St up I M s' m' f' ∧ Grows up m f line m' f' := by
  obtain ⟨lit', h1, h2, h3, h4, h5⟩ := left_ok hM hI hs.hf hs.l rl hit s2 lit hlt s1 c0
  have s1' : na up (f lit') < na up line := by
    by_cases e : lit' = lit
    · rw [e]; exact s1
    · exact lt_trans (hs.hf.sl lit' lit (by omega) (by omega)) s1
  obtain ⟨it', g1, g1', g2, g3, g4, g5⟩ := right_ok hM hI hs.hf hs.l rl s1' (m+2) it (by omega) hit (by omega) s2 h3
  have s2' : na up line < na up (f it') := by
    by_cases e : it' = it
    · rw [e]; exact s2
    · exact lt_trans s2 (hs.hf.sl it it' (by omega) (by omega))
  obtain ⟨s', e, hs'⟩ := splice_ok hM hI hs rl (lit := lit') (it := it') (by omega) g1' s1' s2' g3 h4 g4
  refine ⟨s', _, _, ?_, hs', ?_, ?_, ?_⟩
  · rw [h2, Option.bind_some, hs.t.len, hs.l.len, g2]
    exact e
  · intro i i1 i2
    by_cases h : i ≤ lit'
    · rw [ins_lo h]; exact Or.inr ⟨i, i1, by omega, rfl⟩
    · by_cases h3 : i = lit' + 1
      · subst h3; rw [ins_mid]; exact Or.inl rfl
      · obtain ⟨d, rfl⟩ : ∃ d, i = lit' + 2 + d := ⟨i - lit' - 2, by omega⟩
        rw [ins_hi]
        exact Or.inr ⟨it' + d, by omega, by omega, rfl⟩
  · intro j j1 j2 x
    have hline : ∀ y, y ≤ ev up line x → ∃ i, 1 ≤ i ∧ i ≤ lit' + m + 2 - it' ∧ y ≤ ev up (ins f line lit' it' i) x :=
      fun y hy => ⟨lit'+1, by omega, by omega, by rw [ins_mid]; exact hy⟩
    by_cases h : j ≤ lit'
    · exact ⟨j, j1, by omega, by rw [ins_lo h]⟩
    · by_cases hj2 : j ≤ lit
      · rcases h5 j (by omega) hj2 x with hd | hd
        · exact hline _ hd
        · exact ⟨lit', by omega, by omega, by rw [ins_lo le_rfl]; exact hd.2⟩
      · by_cases hj3 : j < it
        · exact hline _ (hdrop j (by omega) hj3 x)
        · by_cases hj4 : j < it'
          · rcases g5 j (by omega) hj4 x with hd | hd
            · exact hline _ hd
            · exact ⟨lit' + 2 + 0, by omega, by omega, by rw [ins_hi]; exact hd.2⟩
          · refine ⟨lit' + 2 + (j - it'), by omega, by omega, ?_⟩
            rw [ins_hi, show it' + (j - it') = j from by omega]
  · intro x
    exact ⟨lit'+1, by omega, by omega, by rw [ins_mid]⟩

theorem add_ok (hM : 1 ≤ M) (hI : 4*M*M < I) {s : Cht} (hs : St up I M s m f) {a b : Int} (rl : Real M (a, b)) :
    ∃ s' m' f', add up I s a b = some s' ∧ St up I M s' m' f' ∧ Grows up m f (a, b) m' f' := by
  have hb := big hM hI
  -- the lower bound
  have hlo : na up (f 0) < na up (a, b) := by
    rw [hs.hf.lo]
    obtain ⟨h1, h2, -, -⟩ := rl
    simp only at h1 h2
    cases up <;> simp only [na, sg, axLo, mi, if_true, Bool.false_eq_true, if_false] <;> omega
  have hhi : na up (a, b) < na up (f (m+1)) := by
    rw [hs.hf.hi]
    obtain ⟨h1, h2, -, -⟩ := rl
    simp only at h1 h2
    cases up <;> simp only [na, sg, axHi, mi, if_true, Bool.false_eq_true, if_false] <;> omega
  obtain ⟨it, hit0, hitm, hbelow, habove⟩ : ∃ it, 1 ≤ it ∧ it ≤ m + 1 ∧ na up (f (it-1)) < na up (a, b) ∧ na up (a, b) ≤ na up (f it) := by
    have key : ∀ n, n ≤ m + 1 → na up (a, b) ≤ na up (f n) → ∃ it, 1 ≤ it ∧ it ≤ n ∧ na up (f (it-1)) < na up (a, b) ∧ na up (a, b) ≤ na up (f it) := by
      intro n
      induction n with
      | zero => intro _ h; omega
      | succ n ih =>
        intro hn h
        by_cases hc : na up (a, b) ≤ na up (f n)
        · obtain ⟨it, q1, q2, q3⟩ := ih (by omega) hc
          exact ⟨it, q1, by omega, q3⟩
        · exact ⟨n+1, by omega, le_rfl, by simpa using hc, h⟩
    exact key (m+1) le_rfl (by omega)
  have hlow : lowerL up a s.L = it := by
    apply lowerL_eq _ _ (by rw [hs.l.len]; omega)
    · intro i hi e he
      rw [hs.l.val i (by omega)] at he
      cases he
      refine (lt_na (h := (a, b))).2 ?_
      by_cases e : i = it - 1
      · rw [e]; exact hbelow
      · exact lt_trans (hs.hf.sl i (it-1) (by omega) (by omega)) hbelow
    · intro e he
      rw [hs.l.val it (by omega)] at he
      cases he
      rw [Bool.eq_false_iff]
      intro h
      have := (lt_na (g := f it) (h := (a, b))).1 h
      omega
  unfold add
  simp only [hlow]
  rw [if_neg (by rw [hs.l.len]; omega), hs.l.val it (by omega), Option.bind_some]
  by_cases ea : (f it).1 = a
  · have hitm' : it ≤ m := by
      by_contra h
      have : it = m + 1 := by omega
      rw [this] at ea
      exact na_ne hhi ea.symm
    have ena : na up (f it) = na up (a, b) := by rw [na, na, ea]
    rw [if_pos ea]
    by_cases hc : lt up (f it).2 b = true
    · rw [if_pos hc]
      have hnb : nb up (f it) < nb up (a, b) := (lt_nb (h := (a, b))).1 hc
      -- the first turn of the left loop removes the old line
      have s2 : na up (a, b) < na up (f (it+1)) := by rw [← ena]; exact hs.hf.sl _ _ (by omega) (by omega)
      have c0 : X3 up I (f (it-1)) (a, b) (f (it+1)) := by
        by_cases e0 : it - 1 = 0
        · exact Or.inl ((hs.hf.lo_iff hM hI (by omega)).2 e0)
        · by_cases e1 : it + 1 = m + 1
          · exact Or.inr (Or.inl ((hs.hf.hi_iff hM hI (by omega)).2 e1))
          · refine Or.inr (Or.inr ?_)
            have hcv := hs.hf.cv (it-1) it (it+1) (by omega) (by omega) (by omega) (by omega)
            have q1 := hs.hf.sl (it-1) it (by omega) (by omega)
            unfold cr at *
            rw [← ena]
            have p1 : 0 < (nb up (a, b) - nb up (f it)) * (na up (f it) - na up (f (it-1))) := mul_pos (by omega) (by omega)
            have p2 : 0 < (nb up (a, b) - nb up (f it)) * (na up (f (it+1)) - na up (f it)) := mul_pos (by omega) (by omega)
            nlinarith
      have hdrop : ∀ j, it - 1 < j → j < it + 1 → ∀ x, ev up (f j) x ≤ ev up (a, b) x := by
        intro j j1 j2 x
        have : j = it := by omega
        subst this
        unfold ev
        rw [ena]
        omega
      obtain ⟨s', m', f', h1, h2, h3⟩ := gap_ok hM hI hs rl (lit := it-1) (it := it+1) (by omega) (by omega) hbelow s2 c0 hdrop
      refine ⟨s', m', f', ?_, h2, h3⟩
      rw [← h1]
      unfold replace
      rw [hs.l.val it (by omega), hs.l.val (it+1) (by omega), Option.bind_some, Option.bind_some,
        mkNode_eq hM hI (hs.hf.sl _ _ (by omega) (by omega)) (hs.hf.lo_or hitm') (hs.hf.hi_or (by omega) (by omega)), Option.bind_some,
        find_ok hM hI hs hitm', Option.bind_some]
      have hleft : leftLoop up I s.L (a, b) it it = leftLoop up I s.L (a, b) (it-1) (it-1) := by
        obtain ⟨k, rfl⟩ : ∃ k, it = k + 1 := ⟨it - 1, by omega⟩
        conv_lhs => unfold leftLoop
        rw [hs.l.val k (by omega), hs.l.val (k+1) (by omega), Option.bind_some, Option.bind_some]
        have : interLess up I (f k) (f (k+1)) (a, b) = some false := by
          unfold interLess
          rw [if_neg (na_ne (hs.hf.sl k (k+1) (by omega) (by omega))), if_pos ea]
          congr 1
          rw [Bool.eq_false_iff]
          intro h
          have := (lt_nb (g := (a, b)) (h := f (k+1))).1 h
          omega
        rw [this, Option.bind_some, if_neg Bool.false_ne_true, if_neg (by omega)]
        rfl
      rw [hleft]
    · rw [if_neg hc]
      refine ⟨s, m, f, rfl, hs, fun i h1 h2 => Or.inr ⟨i, h1, h2, rfl⟩, fun j h1 h2 x => ⟨j, h1, h2, le_rfl⟩, fun x => ⟨it, by omega, hitm', ?_⟩⟩
      have : ¬ nb up (f it) < nb up (a, b) := fun h => hc ((lt_nb (h := (a, b))).2 h)
      unfold ev
      rw [ena]
      omega
  · rw [if_neg ea, hs.l.val (it-1) (by omega), Option.bind_some]
    have habove' : na up (a, b) < na up (f it) := by
      rcases lt_or_eq_of_le habove with h | h
      · exact h
      · exfalso; apply ea
        cases up <;> simp only [na, sg, if_true, Bool.false_eq_true, if_false] at h <;> omega
    rw [interLess_eq hM hI hbelow habove' rl (hs.hf.lo_or (by omega)) (hs.hf.hi_or (by omega) hitm), Option.bind_some]
    by_cases hc : X3 up I (f (it-1)) (a, b) (f it)
    · rw [decide_eq_true hc, if_pos rfl]
      obtain ⟨s', m', f', h1, h2, h3⟩ := gap_ok hM hI hs rl (lit := it-1) (it := it) (by omega) hitm hbelow habove' hc (fun j j1 j2 => by omega)
      refine ⟨s', m', f', ?_, h2, h3⟩
      rw [← h1]
      unfold replace
      have hfind := find_ok hM hI hs (i := it - 1) (by omega)
      rw [show it - 1 + 1 = it from by omega] at hfind
      rw [hs.l.val (it-1) (by omega), hs.l.val it (by omega), Option.bind_some, Option.bind_some,
        mkNode_eq hM hI (hs.hf.sl _ _ (by omega) (by omega)) (hs.hf.lo_or (by omega)) (hs.hf.hi_or (by omega) (by omega)), Option.bind_some,
        hfind, Option.bind_some, show it - 1 + 1 = it from by omega]
    · rw [decide_eq_false hc, if_neg Bool.false_ne_true]
      have hcl : ¬ (f (it-1)).1 = axLo up I := fun h => hc (Or.inl h)
      have hch : ¬ (f it).1 = axHi up I := fun h => hc (Or.inr (Or.inl h))
      rw [hs.hf.lo_iff hM hI (by omega)] at hcl
      rw [hs.hf.hi_iff hM hI (by omega)] at hch
      refine ⟨s, m, f, rfl, hs, fun i h1 h2 => Or.inr ⟨i, h1, h2, rfl⟩, fun j h1 h2 x => ⟨j, h1, h2, le_rfl⟩, fun x => ?_⟩
      rcases X3_drop hbelow habove' hc x with h | h
      · exact ⟨it-1, by omega, by omega, h⟩
      · exact ⟨it, by omega, by omega, h⟩

/-! ### Queries -/

/-- Position `i` is the best at `x`. -/
def Best (up : Bool) (m : Nat) (f : Nat → Line) (x : Int) (i : Nat) : Prop := 1 ≤ i ∧ i ≤ m ∧ ∀ j, 1 ≤ j → j ≤ m → ev up (f j) x ≤ ev up (f i) x

theorem best_of (H : HF up I M m f) {x : Int} {i : Nat} (h1 : 1 ≤ i) (h2 : i ≤ m) (hl : ∀ j, 1 ≤ j → j < i → ev up (f j) x ≤ ev up (f (j+1)) x)
    (hr : i + 1 ≤ m → ev up (f (i+1)) x ≤ ev up (f i) x) : Best up m f x i := by
  refine ⟨h1, h2, ?_⟩
  have right : ∀ d, i + d + 1 ≤ m → ev up (f (i+d+1)) x ≤ ev up (f (i+d)) x := by
    intro d
    induction d with
    | zero => exact hr
    | succ d ih =>
      intro hd
      exact le_of_lt (cr_peak (H.sl _ _ (by omega) (by omega)) (H.sl _ _ (by omega) (by omega))
        (H.cv (i+d) (i+d+1) (i+(d+1)+1) (by omega) (by omega) (by omega) hd) (ih (by omega)))
  have right' : ∀ d, i + d ≤ m → ev up (f (i+d)) x ≤ ev up (f i) x := by
    intro d
    induction d with
    | zero => intro _; exact le_rfl
    | succ d ih => intro hd; exact le_trans (right d hd) (ih (by omega))
  have left' : ∀ d, d < i → ev up (f (i-d)) x ≤ ev up (f i) x := by
    intro d
    induction d with
    | zero => intro _; exact le_rfl
    | succ d ih =>
      intro hd
      have := hl (i-(d+1)) (by omega) (by omega)
      rw [show i - (d+1) + 1 = i - d from by omega] at this
      exact le_trans this (ih (by omega))
  intro j j1 j2
  by_cases h : j < i
  · have := left' (i-j) (by omega)
    rwa [show i - (i - j) = j from by omega] at this
  · have := right' (j-i) (by omega)
    rwa [show i + (j - i) = j from by omega] at this

/-- The comparison of a node with the query. -/
theorem query_nlt (hM : 1 ≤ M) (hI : 4*M*M < I) (H : HF up I M m f) {x : Int} (hx : -M ≤ x ∧ x ≤ M) {i : Nat} (hi : i ≤ m) :
    nlt I (ent up I f i).1 (1, x) ↔ i = 0 ∨ (i < m ∧ ev up (f i) x < ev up (f (i+1)) x) := by
  have hb := big hM hI
  by_cases e0 : i = 0
  · subst e0
    have a : (ent up I f 0).1 = (0, mi I) := by unfold ent nd; rw [H.lo]; simp
    rw [a]
    simp only [nlt, true_or, iff_true, and_true, mi]
    omega
  · by_cases e1 : i = m
    · have a : (ent up I f i).1 = (0, I) := by
        unfold ent nd
        rw [if_neg (by rw [H.lo_iff hM hI (by omega)]; omega), if_pos (by rw [H.hi_iff hM hI (by omega)]; omega)]
      rw [a]
      simp only [nlt, true_or, not_true_eq_false, false_and, false_iff]
      omega
    · have a : (ent up I f i).1 = _ := H.nd_eq hM hI (i := i) (by omega) (by omega)
      have r1 := real_nab (up := up) (H.real i (by omega) (by omega))
      have r2 := real_nab (up := up) (H.real (i+1) (by omega) (by omega))
      rw [a]
      simp only [nlt, ev, mi]
      constructor
      · rintro ⟨h1, h2 | h2 | h2⟩
        · omega
        · omega
        · refine Or.inr ⟨by omega, ?_⟩
          nlinarith
      · rintro (h | h)
        · omega
        · refine ⟨by omega, Or.inr (Or.inr ?_)⟩
          nlinarith [h.2]

theorem get_ok (hM : 1 ≤ M) (hI : 4*M*M < I) {s : Cht} (hs : St up I M s m f) (hm : 1 ≤ m) {x : Int} (hx : -M ≤ x ∧ x ≤ M) :
    ∃ i, Best up m f x i ∧ get I s x = some ((f i).1 * x + (f i).2) := by
  have hN : NB I M (1, x) := Or.inr (Or.inr (by simp only; omega))
  -- the first position that does not increase
  obtain ⟨i, h1, h2, h3, h4⟩ : ∃ i, 1 ≤ i ∧ i ≤ m ∧ (∀ j, 1 ≤ j → j < i → ev up (f j) x < ev up (f (j+1)) x) ∧
      (i + 1 ≤ m → ev up (f (i+1)) x ≤ ev up (f i) x) := by
    have key : ∀ d i, m - i ≤ d → 1 ≤ i → i ≤ m → (∀ j, 1 ≤ j → j < i → ev up (f j) x < ev up (f (j+1)) x) →
        ∃ i, 1 ≤ i ∧ i ≤ m ∧ (∀ j, 1 ≤ j → j < i → ev up (f j) x < ev up (f (j+1)) x) ∧ (i + 1 ≤ m → ev up (f (i+1)) x ≤ ev up (f i) x) := by
      intro d
      induction d with
      | zero => intro i hd h1 h2 h3; exact ⟨i, h1, h2, h3, fun h => by omega⟩
      | succ d ih =>
        intro i hd h1 h2 h3
        by_cases hc : i + 1 ≤ m → ev up (f (i+1)) x ≤ ev up (f i) x
        · exact ⟨i, h1, h2, h3, hc⟩
        · have hc' : i + 1 ≤ m ∧ ev up (f i) x < ev up (f (i+1)) x := by
            constructor <;> by_contra h <;> apply hc <;> intro h' <;> omega
          refine ih (i+1) (by omega) (by omega) hc'.1 ?_
          intro j j1 j2
          by_cases e : j = i
          · rw [e]; exact hc'.2
          · exact h3 j j1 (by omega)
    exact key m 1 (by omega) le_rfl hm (fun j h1 h2 => by omega)
  refine ⟨i, best_of hs.hf h1 h2 (fun j a b => le_of_lt (h3 j a b)) h4, ?_⟩
  have hl : lowerTr I (1, x) s.tr = some i := by
    apply lowerTr_eq _ _ (by rw [hs.t.len]; omega)
    · intro j hj e he
      rw [hs.t.val j (by omega)] at he
      cases he
      rw [nodeLt_eq hM hI (hs.hf.ent_NB (by omega)) hN, decide_eq_true]
      rw [query_nlt hM hI hs.hf hx (by omega)]
      by_cases e : j = 0
      · exact Or.inl e
      · exact Or.inr ⟨by omega, h3 j (by omega) hj⟩
    · intro e he
      rw [hs.t.val i (by omega)] at he
      cases he
      rw [nodeLt_eq hM hI (hs.hf.ent_NB (by omega)) hN, decide_eq_false]
      rw [query_nlt hM hI hs.hf hx (by omega)]
      rintro (h | h)
      · omega
      · have := h4 (by omega); omega
  unfold get
  rw [hl, Option.bind_some, hs.t.val i (by omega), Option.bind_some]
  exact f_eq hM hI (hs.hf.real i h1 h2) hx

theorem incLoop_ok (hM : 1 ≤ M) (hI : 4*M*M < I) {s : Cht} (hs : St up I M s m f) {x : Int} (hx : -M ≤ x ∧ x ≤ M) :
    ∀ fuel e, m - e < fuel → 1 ≤ e → e ≤ m → (∀ j, 1 ≤ j → j < e → ev up (f j) x < ev up (f (j+1)) x) →
    ∃ i, incLoop up I s.L x fuel e = some i ∧ 1 ≤ i ∧ i ≤ m ∧ (∀ j, 1 ≤ j → j < i → ev up (f j) x < ev up (f (j+1)) x) ∧
      (i + 1 ≤ m → ev up (f (i+1)) x ≤ ev up (f i) x) := by
  intro fuel
  induction fuel with
  | zero => intro e h; omega
  | succ fuel ih =>
    intro e hf h1 h2 h3
    unfold incLoop
    rw [hs.l.len]
    by_cases he : e = m
    · rw [if_pos (by omega)]
      exact ⟨e, rfl, h1, h2, h3, fun h => by omega⟩
    · rw [if_neg (by omega), hs.l.val e (by omega), hs.l.val (e+1) (by omega), Option.bind_some, Option.bind_some,
        f_eq hM hI (hs.hf.real e h1 h2) hx, f_eq hM hI (hs.hf.real (e+1) (by omega) (by omega)) hx, Option.bind_some, Option.bind_some]
      by_cases hc : ev up (f e) x < ev up (f (e+1)) x
      · rw [if_pos (lt_ev.2 hc)]
        refine ih (e+1) (by omega) (by omega) (by omega) ?_
        intro j j1 j2
        by_cases e' : j = e
        · rw [e']; exact hc
        · exact h3 j j1 (by omega)
      · rw [if_neg (fun h => hc (lt_ev.1 h))]
        exact ⟨e, rfl, h1, h2, h3, fun _ => by omega⟩

/-- `get_incremental`: the answer is the best, and the lines thrown away are dominated from `x` on. -/
theorem getInc_ok (hM : 1 ≤ M) (hI : 4*M*M < I) {s : Cht} (hs : St up I M s m f) (hm : 1 ≤ m) {x : Int} (hx : -M ≤ x ∧ x ≤ M) :
    ∃ i s' m' f', Best up m f x i ∧ getInc up I s x = some (s', (f i).1 * x + (f i).2) ∧ St up I M s' m' f' ∧ 1 ≤ m' ∧
      (∀ j, 1 ≤ j → j ≤ m' → ∃ k, 1 ≤ k ∧ k ≤ m ∧ f' j = f k) ∧
      (∀ j, 1 ≤ j → j ≤ m → ∀ y, x ≤ y → ∃ k, 1 ≤ k ∧ k ≤ m' ∧ ev up (f j) y ≤ ev up (f' k) y) := by
  obtain ⟨i, h0, h1, h2, h3, h4⟩ := incLoop_ok hM hI hs hx (m+2) 1 (by omega) le_rfl hm (fun j h1 h2 => by omega)
  have hbest := best_of hs.hf h1 h2 (fun j a b => le_of_lt (h3 j a b)) h4
  by_cases e : i = 1
  · subst e
    refine ⟨1, s, m, f, hbest, ?_, hs, hm, fun j a b => ⟨j, a, b, rfl⟩, fun j a b y _ => ⟨j, a, b, le_rfl⟩⟩
    unfold getInc
    rw [hs.l.len, h0, Option.bind_some, if_pos rfl, hs.l.val 1 (by omega), Option.bind_some, f_eq hM hI (hs.hf.real 1 le_rfl hm) hx]
    rfl
  · let f' : Nat → Line := fun j => if j = 0 then f 0 else f (j + i - 1)
    have f0 : f' 0 = f 0 := rfl
    have fs : ∀ j, f' (j+1) = f (j + i) := by intro j; show f _ = _; congr 1; omega
    have H' : HF up I M (m + 1 - i) f' := by
      refine ⟨?_, ?_, ?_, ?_, ?_⟩
      · rw [f0]; exact hs.hf.lo
      · rw [fs, show m + 1 - i + i = m + 1 from by omega]; exact hs.hf.hi
      · intro j j1 j2
        obtain ⟨k, rfl⟩ : ∃ k, j = k + 1 := ⟨j - 1, by omega⟩
        rw [fs]; exact hs.hf.real _ (by omega) (by omega)
      · intro j k j1 j2
        obtain ⟨k, rfl⟩ : ∃ k', k = k' + 1 := ⟨k - 1, by omega⟩
        by_cases ej : j = 0
        · subst ej; rw [f0, fs]; exact hs.hf.sl _ _ (by omega) (by omega)
        · obtain ⟨j, rfl⟩ : ∃ j', j = j' + 1 := ⟨j - 1, by omega⟩
          rw [fs, fs]; exact hs.hf.sl _ _ (by omega) (by omega)
      · intro j k l j1 j2 j3 j4
        obtain ⟨j, rfl⟩ : ∃ j', j = j' + 1 := ⟨j - 1, by omega⟩
        obtain ⟨k, rfl⟩ : ∃ k', k = k' + 1 := ⟨k - 1, by omega⟩
        obtain ⟨l, rfl⟩ : ∃ l', l = l' + 1 := ⟨l - 1, by omega⟩
        rw [fs, fs, fs]; exact hs.hf.cv _ _ _ (by omega) (by omega) (by omega) (by omega)
    have hL : Rep (s.L.take 1 ++ s.L.drop i) (m + 1 - i + 2) f' := by
      have := rep_erase hs.l (a := 1) (b := i) h1 (by omega)
      rw [show m + 2 - (i - 1) = m + 1 - i + 2 from by omega] at this
      refine this.congr ?_
      intro j hj
      by_cases ej : j = 0
      · subst ej; rfl
      · obtain ⟨j, rfl⟩ : ∃ j', j = j' + 1 := ⟨j - 1, by omega⟩
        rw [if_neg (by omega), fs]
        congr 1
    have hT : Rep (s.tr.drop i) (m + 1 - i) (fun j => if j < 0 then ent up I f' j else ent up I f' (j+1)) := by
      have := rep_erase hs.t (a := 0) (b := i) (by omega) (by omega)
      rw [List.take_zero, List.nil_append, Nat.sub_zero] at this
      refine this.congr ?_
      intro j hj
      rw [if_neg (by omega), if_neg (by omega)]
      unfold ent
      rw [fs, fs, show j + 1 + i = j - 0 + i + 1 from by omega, show j + i = j - 0 + i from by omega]
    obtain ⟨t', ht', rt'⟩ := emplaceTr_rep hM hI hT (Nat.zero_le _) (fun j hj => H'.ent_NB hj) (fun j k a b => H'.ent_lt hM hI a b)
    refine ⟨i, ⟨t', s.L.take 1 ++ s.L.drop i⟩, m + 1 - i, f', hbest, ?_, ⟨H', hL, rt'⟩, by omega, ?_, ?_⟩
    · unfold getInc
      rw [hs.l.len, h0, Option.bind_some, if_neg e, hs.t.len, if_neg (by omega)]
      have l0 := hL.val 0 (by omega)
      have l1 := hL.val 1 (by omega)
      have hnode : mkNode up I (f' 0) (f' 1) = some (ent up I f' 0).1 :=
        mkNode_eq hM hI (H'.sl 0 1 (by omega) (by omega)) (H'.lo_or (by omega)) (H'.hi_or (by omega) (by omega))
      have ht'' : emplaceTr I (ent up I f' 0).1 (f' 0) (s.tr.drop i) = some (t', 0) := ht'
      simp only [l0, l1, Option.bind_some, hnode, ht'']
      have : f' 1 = f i := by rw [fs 0, Nat.zero_add]
      rw [this, f_eq hM hI (hs.hf.real i h1 h2) hx]
      rfl
    · intro j j1 j2
      obtain ⟨k, rfl⟩ : ∃ k, j = k + 1 := ⟨j - 1, by omega⟩
      exact ⟨k + i, by omega, by omega, fs k⟩
    · intro j j1 j2 y hy
      by_cases ej : j < i
      · refine ⟨1, by omega, by omega, ?_⟩
        rw [fs 0, Nat.zero_add]
        have := hbest.2.2 j j1 j2
        have hsl := hs.hf.sl j i ej (by omega)
        unfold ev at *
        have p : 0 ≤ (na up (f i) - na up (f j)) * (y - x) := mul_nonneg (by omega) (by omega)
        nlinarith
      · refine ⟨j - i + 1, by omega, by omega, ?_⟩
        rw [fs, show j - i + i = j from by omega]

theorem decLoop_ok (hM : 1 ≤ M) (hI : 4*M*M < I) {s : Cht} (hs : St up I M s m f) {x : Int} (hx : -M ≤ x ∧ x ≤ M) :
    ∀ e, 1 ≤ e → e ≤ m → (e + 1 ≤ m → ev up (f (e+1)) x < ev up (f e) x) →
    ∃ i, decLoop up I s.L x e = some i ∧ 1 ≤ i ∧ i ≤ e ∧ (i + 1 ≤ m → ev up (f (i+1)) x < ev up (f i) x) ∧
      (1 < i → ev up (f (i-1)) x ≤ ev up (f i) x) := by
  intro e
  induction e with
  | zero => intro h; omega
  | succ e ih =>
    intro _ h2 h3
    unfold decLoop
    by_cases he : e = 0
    · rw [if_pos he]
      exact ⟨e+1, rfl, by omega, le_rfl, h3, fun h => by omega⟩
    · rw [if_neg he, hs.l.val e (by omega), hs.l.val (e+1) (by omega), Option.bind_some, Option.bind_some,
        f_eq hM hI (hs.hf.real e (by omega) (by omega)) hx, f_eq hM hI (hs.hf.real (e+1) (by omega) (by omega)) hx, Option.bind_some, Option.bind_some]
      by_cases hc : ev up (f (e+1)) x < ev up (f e) x
      · rw [if_pos (lt_ev.2 hc)]
        obtain ⟨i, a, b, c, d⟩ := ih (by omega) (by omega) (fun _ => hc)
        exact ⟨i, a, b, by omega, d⟩
      · rw [if_neg (fun h => hc (lt_ev.1 h))]
        exact ⟨e+1, rfl, by omega, le_rfl, h3, fun _ => by simpa using hc⟩

theorem best_dec (H : HF up I M m f) {x : Int} {i : Nat} (h1 : 1 ≤ i) (h2 : i ≤ m) (hr : i + 1 ≤ m → ev up (f (i+1)) x < ev up (f i) x)
    (hl : 1 < i → ev up (f (i-1)) x ≤ ev up (f i) x) : Best up m f x i := by
  refine best_of H h1 h2 ?_ (fun h => le_of_lt (hr h))
  have key : ∀ d, 1 < i - d → d < i → ev up (f (i-d-1)) x ≤ ev up (f (i-d)) x := by
    intro d
    induction d with
    | zero => intro h _; exact hl h
    | succ d ih =>
      intro h h'
      by_contra hn
      have e1 := ih (by omega) (by omega)
      have := cr_peak (H.sl (i-(d+1)-1) (i-(d+1)) (by omega) (by omega)) (H.sl (i-(d+1)) (i-d) (by omega) (by omega))
        (H.cv _ _ _ (by omega) (by omega) (by omega) (by omega)) (x := x) (by omega)
      rw [show i - (d+1) = i - d - 1 from by omega] at this
      omega
  intro j j1 j2
  have := key (i - j - 1) (by omega) (by omega)
  rwa [show i - (i - j - 1) - 1 = j from by omega, show i - (i - j - 1) = j + 1 from by omega] at this

theorem getDec_ok (hM : 1 ≤ M) (hI : 4*M*M < I) {s : Cht} (hs : St up I M s m f) (hm : 1 ≤ m) {x : Int} (hx : -M ≤ x ∧ x ≤ M) :
    ∃ i s' m' f', Best up m f x i ∧ getDec up I s x = some (s', (f i).1 * x + (f i).2) ∧ St up I M s' m' f' ∧ 1 ≤ m' ∧
      (∀ j, 1 ≤ j → j ≤ m' → ∃ k, 1 ≤ k ∧ k ≤ m ∧ f' j = f k) ∧
      (∀ j, 1 ≤ j → j ≤ m → ∀ y, y ≤ x → ∃ k, 1 ≤ k ∧ k ≤ m' ∧ ev up (f j) y ≤ ev up (f' k) y) := by
  obtain ⟨i, h0, h1, h2, h3, h4⟩ := decLoop_ok hM hI hs hx m hm le_rfl (fun h => by omega)
  have hbest := best_dec hs.hf h1 h2 h3 h4
  by_cases e : i = m
  · subst e
    refine ⟨i, s, i, f, hbest, ?_, hs, hm, fun j a b => ⟨j, a, b, rfl⟩, fun j a b y _ => ⟨j, a, b, le_rfl⟩⟩
    unfold getDec
    simp only [hs.l.len, Nat.add_sub_cancel, h0, Option.bind_some, if_true, hs.l.val i (by omega)]
    rw [f_eq hM hI (hs.hf.real i h1 le_rfl) hx]
    rfl
  · let f' : Nat → Line := fun j => if j ≤ i then f j else f (j - (i + 1) + (m + 1))
    have fl : ∀ j, j ≤ i → f' j = f j := fun j hj => if_pos hj
    have fh : f' (i+1) = f (m+1) := by
      show (if _ then _ else _) = _
      rw [if_neg (by omega)]; congr 1; omega
    have H' : HF up I M i f' := by
      refine ⟨?_, ?_, ?_, ?_, ?_⟩
      · rw [fl 0 (by omega)]; exact hs.hf.lo
      · rw [fh]; exact hs.hf.hi
      · intro j j1 j2
        rw [fl j j2]; exact hs.hf.real _ (by omega) (by omega)
      · intro j k j1 j2
        by_cases ek : k = i + 1
        · subst ek; rw [fl j (by omega), fh]; exact hs.hf.sl _ _ (by omega) (by omega)
        · rw [fl j (by omega), fl k (by omega)]; exact hs.hf.sl _ _ (by omega) (by omega)
      · intro j k l j1 j2 j3 j4
        rw [fl j (by omega), fl k (by omega), fl l j4]; exact hs.hf.cv _ _ _ (by omega) (by omega) (by omega) (by omega)
    have hL : Rep (s.L.take (i+1) ++ s.L.drop (m+1)) (i + 2) f' := by
      have := rep_erase hs.l (a := i+1) (b := m+1) (by omega) (by omega)
      rw [show m + 2 - (m + 1 - (i + 1)) = i + 2 from by omega] at this
      refine this.congr ?_
      intro j hj
      by_cases ej : j ≤ i
      · rw [if_pos (by omega), fl j ej]
      · rw [if_neg (by omega), show j = i + 1 from by omega, fh]; congr 1; omega
    have hT : Rep (s.tr.take i) i (fun j => if j < i then ent up I f' j else ent up I f' (j+1)) := by
      constructor
      · rw [List.length_take, hs.t.len]; omega
      · intro j hj
        rw [List.getElem?_take_of_lt hj, hs.t.val j (by omega), if_pos hj]
        unfold ent
        rw [fl j (by omega), fl (j+1) (by omega)]
    obtain ⟨t', ht', rt'⟩ := emplaceTr_rep hM hI hT le_rfl (fun j hj => H'.ent_NB hj) (fun j k a b => H'.ent_lt hM hI a b)
    refine ⟨i, ⟨t', s.L.take (i+1) ++ s.L.drop (m+1)⟩, i, f', hbest, ?_, ⟨H', hL, rt'⟩, h1, ?_, ?_⟩
    · unfold getDec
      simp only [hs.l.len, Nat.add_sub_cancel, h0, Option.bind_some, hs.t.len]
      rw [if_neg e, if_neg (by omega), show m + 1 - (m - i + 1) = i from by omega, hL.val i (by omega), hL.val (i+1) (by omega)]
      have hnode : mkNode up I (f' i) (f' (i+1)) = some (ent up I f' i).1 :=
        mkNode_eq hM hI (H'.sl i (i+1) (by omega) (by omega)) (H'.lo_or le_rfl) (H'.hi_or (by omega) (by omega))
      have ht'' : emplaceTr I (ent up I f' i).1 (f' i) (s.tr.take i) = some (t', i) := ht'
      simp only [Option.bind_some, hnode, ht'']
      rw [fl i le_rfl, f_eq hM hI (hs.hf.real i h1 h2) hx]
      rfl
    · intro j j1 j2
      exact ⟨j, j1, by omega, fl j j2⟩
    · intro j j1 j2 y hy
      by_cases ej : i < j
      · refine ⟨i, h1, le_rfl, ?_⟩
        rw [fl i le_rfl]
        have := hbest.2.2 j j1 j2
        have hsl := hs.hf.sl i j ej (by omega)
        unfold ev at *
        have p : 0 ≤ (na up (f j) - na up (f i)) * (x - y) := mul_nonneg (by omega) (by omega)
        nlinarith
      · refine ⟨j, j1, by omega, ?_⟩
        rw [fl j (by omega)]

theorem init_ok (hM : 1 ≤ M) (hI : 4*M*M < I) : ∃ s f, init up I = some s ∧ St up I M s 0 f := by
  have hb := big hM hI
  let f : Nat → Line := fun i => if i = 0 then (axLo up I, 0) else (axHi up I, 0)
  refine ⟨⟨[((0, mi I), (axLo up I, 0))], [(axLo up I, 0), (axHi up I, 0)]⟩, f, ?_, ⟨rfl, rfl, fun i h1 h2 => by omega, ?_, fun i j k h1 h2 h3 h4 => by omega⟩,
    ⟨rfl, ?_⟩, ⟨rfl, ?_⟩⟩
  · unfold init mkNode
    rw [if_pos rfl]
    rfl
  · intro i j hij hj
    have e1 : i = 0 := by omega
    have e2 : j = 1 := by omega
    subst e1; subst e2
    show na up (axLo up I, 0) < na up (axHi up I, 0)
    cases up <;> simp only [na, sg, axLo, axHi, mi, if_true, Bool.false_eq_true, if_false] <;> omega
  · intro i hi
    have : i = 0 ∨ i = 1 := by omega
    rcases this with rfl | rfl <;> rfl
  · intro i hi
    have : i = 0 := by omega
    subst this
    show some _ = some _
    congr 1
    unfold ent nd
    rw [if_pos (show (f 0).1 = axLo up I from rfl)]
    rfl

end Verif.ChtMap
