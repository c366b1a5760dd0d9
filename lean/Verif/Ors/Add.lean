import Verif.Ors.Trav
/-! `weight_add`. -/
namespace Verif.Ors
open Verif Verif.Succinct Verif.Wavelet

variable {W : Type}

theorem hb_self (k v : Nat) : hb k (v.testBit k) v = true := by simp [hb]
theorem hb_not (k v : Nat) : hb k (!v.testBit k) v = false := by simp [hb]

theorem kill (k v : Nat) (w : W) (P Q : List (Nat × W)) : (P ++ (v, w) :: Q).filter (hp k (!v.testBit k)) = (P ++ Q).filter (hp k (!v.testBit k)) := by
  have : hp k (!v.testBit k) (v, w) = false := hb_not k v
  rw [List.filter_append, List.filter_cons_of_neg (by rw [this]; simp), List.filter_append]

theorem keep (k v : Nat) (w : W) (P Q : List (Nat × W)) :
    (P ++ (v, w) :: Q).filter (hp k (v.testBit k)) = P.filter (hp k (v.testBit k)) ++ (v, w) :: Q.filter (hp k (v.testBit k)) := by
  rw [List.filter_append, List.filter_cons_of_pos (by exact hb_self k v)]

theorem preB_ind (k v : Nat) (w : W) (A P Q C : List (Nat × W)) : preB k (v.testBit k) A (P ++ (v, w) :: Q) C = preB k (v.testBit k) A (P ++ Q) C := by
  have := kill k v w P Q
  unfold preB
  cases hb : v.testBit k
  · rfl
  · rw [hb] at this
    simp only [if_true, List.filter_append] at this ⊢
    rw [← List.filter_append] at this
    simp only [List.filter_append, Bool.not_true] at this
    rw [this]

theorem postB_ind (k v : Nat) (w : W) (A P Q C : List (Nat × W)) : postB k (v.testBit k) A (P ++ (v, w) :: Q) C = postB k (v.testBit k) A (P ++ Q) C := by
  have := kill k v w P Q
  unfold postB
  cases hb : v.testBit k
  · rw [hb] at this
    simp only [Bool.false_eq_true, if_false, List.filter_append, Bool.not_false] at this ⊢
    rw [this]
  · rfl

/-- Where the element `(v, w)` of `f w` is at level `t`. -/
def Loc (h v : Nat) (f : W → List (Nat × W)) (t : Nat) (A P Q C : List (Nat × W)) : Prop := ∀ w, levP h (f w) t = A ++ (P ++ (v, w) :: Q) ++ C

theorem Loc.next {h v : Nat} {f : W → List (Nat × W)} {t : Nat} {A P Q C : List (Nat × W)} (hl : Loc h v f t A P Q C) :
    Loc h v f (t + 1) (preB (h - 1 - t) (v.testBit (h - 1 - t)) A (P ++ Q) C) (P.filter (hp (h - 1 - t) (v.testBit (h - 1 - t)))) (Q.filter (hp (h - 1 - t) (v.testBit (h - 1 - t))))
      (postB (h - 1 - t) (v.testBit (h - 1 - t)) A (P ++ Q) C) := by
  intro w
  rw [lev_next (hl w) (v.testBit (h - 1 - t)), preB_ind, postB_ind, keep]

section
variable [AddCommMonoid W]

theorem drop_next (h : Nat) (SW : List (Nat × W)) {t : Nat} (ht : t ≤ h) :
    (allW h SW (h + 1)).drop (SW.length * t) = (levP h SW t).map (·.2) ++ (allW h SW (h + 1)).drop (SW.length * (t + 1)) := by
  obtain ⟨R, e⟩ := allW_split h SW t (h + 1) (by omega)
  have hl := allW_length h SW t
  have hl2 := allW_length h SW (t + 1)
  rw [allW] at hl2
  conv => lhs; rw [e, ← hl, List.append_assoc, List.drop_left]
  rw [e, ← hl2, List.drop_left]

theorem upDown {w : WM} {f : W → List (Nat × W)} {v : Nat} {w0 dw : W} (ok : Wavelet.Ok w ((f w0).map (·.1))) (hne : f w0 ≠ []) (hfl : (f (w0 + dw)).length = (f w0).length) :
    ∀ (k : Nat), k ≤ w.h → ∀ (A P Q C : List (Nat × W)), Loc w.h v f (w.h - k) A P Q C → (∀ p ∈ P, hi k v p.1 = true ∧ p.1 ≠ v) →
      ∃ p : Nat × Nat, descend w v k ((f w0).length * (w.h - k) + A.length) ((f w0).length * (w.h - k) + A.length + (P.length + (Q.length + 1))) = some p ∧ p.1 ≠ p.2 ∧
        forRange 0 k (waUp w v dw) (allW w.h (f w0) (w.h + 1), p.1) =
          some (allW w.h (f w0) (w.h - k + 1) ++ (allW w.h (f (w0 + dw)) (w.h + 1)).drop ((f w0).length * (w.h - k + 1)), (f w0).length * (w.h - k) + A.length + P.length)
  | 0, _, A, P, Q, C, hl, hP => by
    have : P = [] := by
      cases P with
      | nil => rfl
      | cons p P =>
        obtain ⟨h1, h2⟩ := hP p List.mem_cons_self
        rw [hi_zero] at h1
        exact absurd (by simpa using h1) h2
    subst this
    refine ⟨_, rfl, by simp, ?_⟩
    rw [forRange_nil (Nat.le_refl _), List.drop_eq_nil_of_le (by rw [allW_length, hfl, Nat.sub_zero]), List.append_nil]
    rfl
  | k+1, hk, A, P, Q, C, hl, hP => by
    obtain ⟨t, ht⟩ : ∃ t, t = w.h - (k+1) := ⟨_, rfl⟩
    have htk : w.h - k = t + 1 := by omega
    have hkt : w.h - 1 - t = k := by omega
    have hkt2 : w.h - 1 - k = t := by omega
    rw [← ht] at hl
    have hn := hl.next
    rw [hkt] at hn
    have ih := upDown ok hne hfl k (by omega) _ _ _ _ (by rw [htk]; exact hn) (by
      intro p hp
      obtain ⟨p1, p2⟩ := List.mem_filter.1 hp
      obtain ⟨h1, h2⟩ := hP p p1
      exact ⟨by rw [hi_succ, h1, Bool.true_and]; exact p2, h2⟩)
    obtain ⟨p, e1, e2, e3⟩ := ih
    rw [htk] at e1 e3
    have et := tieP ok hne (t := t) (by omega) (hl w0) (v.testBit k)
    rw [hkt, preB_ind, keep] at et
    simp only [List.length_append, List.length_cons] at et
    refine ⟨p, ?_, e2, ?_⟩
    · rw [descend, ← ht, hkt2, et, Option.bind_some]
      exact e1
    · rw [← ht, forRange_last (Nat.zero_le _), e3, Option.bind_some, waUp, hkt2]
      dsimp only
      have hpar : w.parent t ((f w0).length * (t + 1) + (preB k (v.testBit k) A (P ++ Q) C).length + (P.filter (hp k (v.testBit k))).length) (v.testBit k) = some ((f w0).length * t + A.length + P.length) := by
        have hs : Sg w ((f w0).map (·.1)) t ((f w0).length * t + A.length) ((f w0).length * t + A.length + (P.length + (Q.length + 1))) (P.map (·.1) ++ v :: Q.map (·.1)) := by
          refine ⟨A.map (·.1), C.map (·.1), ?_, by simp, by simp⟩
          rw [← levP_fst, hl w0]; simp
        have hu := (ok.up (by omega) hs (by rw [hkt]; exact et)).1
        rw [hkt, len_hp, List.length_map] at hu
        exact hu
      have hadd : addAt (allW w.h (f w0) (t + 1 + 1) ++ (allW w.h (f (w0 + dw)) (w.h + 1)).drop ((f w0).length * (t + 1 + 1))) ((f w0).length * (t + 1) + (preB k (v.testBit k) A (P ++ Q) C).length + (P.filter (hp k (v.testBit k))).length) dw =
          some (allW w.h (f w0) (t + 1) ++ (allW w.h (f (w0 + dw)) (w.h + 1)).drop ((f w0).length * (t + 1))) := by
        have d := drop_next w.h (f (w0 + dw)) (t := t + 1) (by omega)
        rw [hfl] at d
        rw [d, hn (w0 + dw), allW, hn w0]
        have hl := allW_length w.h (f w0) (t + 1)
        generalize preB k (v.testBit k) A (P ++ Q) C = A'
        generalize postB k (v.testBit k) A (P ++ Q) C = C'
        generalize P.filter (hp k (v.testBit k)) = P'
        generalize Q.filter (hp k (v.testBit k)) = Q'
        generalize (allW w.h (f (w0 + dw)) (w.h + 1)).drop ((f w0).length * (t + 1 + 1)) = R
        have := addAt_mid (allW w.h (f w0) (t + 1) ++ A'.map (·.2) ++ P'.map (·.2)) (Q'.map (·.2) ++ C'.map (·.2) ++ R) w0 dw
        simp only [List.length_append, List.length_map, hl] at this
        simp only [List.map_append, List.map_cons, List.append_assoc, List.cons_append] at this ⊢
        exact this
      rw [hadd, Option.bind_some, hpar]
      rfl

theorem climb_ok {w : WM} {S0 S1 P0 Q0 : List (Nat × W)} {v : Nat} {w0 dw : W} (ok : Wavelet.Ok w ((S0 ++ (P0 ++ (v, w0) :: Q0) ++ S1).map (·.1))) (hv : v < 2^w.h) (hP : ∀ p ∈ P0, p.1 ≠ v) :
    ∃ p : Nat × Nat, descend w v w.h S0.length (S0.length + (P0.length + (Q0.length + 1))) = some p ∧ p.1 ≠ p.2 ∧
      ((forRange 0 w.h (waUp w v dw) (allW w.h (S0 ++ (P0 ++ (v, w0) :: Q0) ++ S1) (w.h + 1), p.1)).bind fun t => addAt t.1 t.2 dw) =
        some (allW w.h (S0 ++ (P0 ++ (v, w0 + dw) :: Q0) ++ S1) (w.h + 1)) := by
  have hloc : Loc w.h v (fun x => S0 ++ (P0 ++ (v, x) :: Q0) ++ S1) 0 S0 P0 Q0 S1 := fun _ => rfl
  obtain ⟨p, e1, e2, e3⟩ := upDown (f := fun x => S0 ++ (P0 ++ (v, x) :: Q0) ++ S1) (v := v) (w0 := w0) (dw := dw) ok (by simp) (by simp) w.h (Nat.le_refl _) S0 P0 Q0 S1 (by rw [Nat.sub_self]; exact hloc) (by
    intro p hp
    refine ⟨?_, hP p hp⟩
    have := ok.lt p.1 (List.mem_map.2 ⟨p, by simp [hp], rfl⟩)
    unfold hi
    rw [Nat.div_eq_of_lt this, Nat.div_eq_of_lt hv]; simp)
  rw [Nat.sub_self, Nat.mul_zero, Nat.zero_add] at e1
  rw [Nat.sub_self, Nat.mul_zero, Nat.zero_add, Nat.zero_add] at e3
  refine ⟨p, e1, e2, ?_⟩
  rw [e3, Option.bind_some]
  dsimp only
  have d := drop_next w.h (S0 ++ (P0 ++ (v, w0 + dw) :: Q0) ++ S1) (t := 0) (Nat.zero_le _)
  rw [Nat.mul_zero, List.drop_zero, Nat.zero_add] at d
  have hl : (S0 ++ (P0 ++ (v, w0 + dw) :: Q0) ++ S1).length = (S0 ++ (P0 ++ (v, w0) :: Q0) ++ S1).length := by simp
  rw [hl] at d
  conv => rhs; rw [d]
  generalize (allW w.h (S0 ++ (P0 ++ (v, w0 + dw) :: Q0) ++ S1) (w.h + 1)).drop ((S0 ++ (P0 ++ (v, w0) :: Q0) ++ S1).length * 1) = R
  have := addAt_mid (S0.map (·.2) ++ P0.map (·.2)) (Q0.map (·.2) ++ S1.map (·.2) ++ R) w0 dw
  simp only [List.length_append, List.length_map] at this
  simp only [allW, levP, List.nil_append, List.map_append, List.map_cons, List.append_assoc, List.cons_append] at this ⊢
  exact this

end
end Verif.Ors
