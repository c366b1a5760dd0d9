import Verif.Ors.Model
import Mathlib.Algebra.BigOperators.Group.List.Basic
/-! The weights at every level of the wavelet matrix. -/
namespace Verif.Ors
open Verif Verif.Succinct

variable {W : Type}

def hp (k : Nat) (b : Bool) (p : Nat × W) : Bool := Wavelet.hb k b p.1

/-- Keys and weights at level `t`. -/
def levP (h : Nat) (SW : List (Nat × W)) : Nat → List (Nat × W)
  | 0 => SW
  | t+1 => (levP h SW t).filter (hp (h - 1 - t) false) ++ (levP h SW t).filter (hp (h - 1 - t) true)

theorem map_hp (k : Nat) (b : Bool) (L : List (Nat × W)) : (L.filter (hp k b)).map (·.1) = (L.map (·.1)).filter (Wavelet.hb k b) := by
  rw [List.filter_map]; rfl

theorem levP_fst (h : Nat) (SW : List (Nat × W)) : ∀ t, (levP h SW t).map (·.1) = Wavelet.lev h (SW.map (·.1)) t
  | 0 => rfl
  | t+1 => by rw [levP, List.map_append, map_hp, map_hp, levP_fst h SW t]; rfl

theorem levP_length (h : Nat) (SW : List (Nat × W)) (t : Nat) : (levP h SW t).length = SW.length := by
  have := congrArg List.length (levP_fst h SW t)
  rwa [List.length_map, Wavelet.lev_length, List.length_map] at this

/-- The weights of the levels below `t`. -/
def allW (h : Nat) (SW : List (Nat × W)) : Nat → List W
  | 0 => []
  | t+1 => allW h SW t ++ (levP h SW t).map (·.2)

theorem allW_length (h : Nat) (SW : List (Nat × W)) : ∀ t, (allW h SW t).length = SW.length * t
  | 0 => rfl
  | t+1 => by rw [allW, List.length_append, allW_length h SW t, List.length_map, levP_length, Nat.mul_add, Nat.mul_one]

theorem allW_split (h : Nat) (SW : List (Nat × W)) (t : Nat) : ∀ u, t < u → ∃ R, allW h SW u = allW h SW t ++ (levP h SW t).map (·.2) ++ R
  | u+1, hu => by
    by_cases c : t = u
    · subst c; exact ⟨[], by rw [allW, List.append_nil]⟩
    · obtain ⟨R, e⟩ := allW_split h SW t u (by omega)
      exact ⟨R ++ (levP h SW u).map (·.2), by rw [allW, e, List.append_assoc]⟩

theorem backFill_ok : ∀ (l A C : List (Nat × W)), l.length ≤ A.length →
    backFill (A ++ C) A.length l = some (A.take (A.length - l.length) ++ (l.reverse ++ C), A.length - l.length)
  | [], A, C, _ => by simp [backFill]
  | x :: l, A, C, h => by
      have hl : l.length + 1 ≤ A.length := h
      rw [backFill, if_neg (by omega), wr_some (by simp; omega), Option.bind_some]
      have e : (A ++ C).set (A.length - 1) x = A.take (A.length - 1) ++ (x :: C) := by
        rw [List.set_append, if_pos (by omega)]
        conv => lhs; rw [← List.take_append_drop (A.length - 1) A]
        rw [List.set_append, if_neg (by simp)]
        have : A.drop (A.length - 1) = [A[A.length - 1]'(by omega)] := by
          rw [List.drop_eq_getElem_cons (by omega), List.drop_eq_nil_of_le (by omega)]
        rw [this]
        simp
      have ih := backFill_ok l (A.take (A.length - 1)) (x :: C) (by simp; omega)
      have e2 : (A.take (A.length - 1)).length = A.length - 1 := by simp
      rw [e2] at ih
      rw [e, ih, List.take_take, Nat.min_eq_left (by omega)]
      simp only [List.reverse_cons, List.append_assoc, List.singleton_append, List.length_cons, Nat.sub_sub, Nat.add_comm 1]

section
variable [AddCommMonoid W]

theorem addAt_mid (A B : List W) (x w : W) : addAt (A ++ x :: B) A.length w = some (A ++ (x + w) :: B) := by
  unfold addAt
  rw [List.getElem?_append_right (Nat.le_refl _), Nat.sub_self]
  show wr _ _ _ = _
  rw [wr_some (by simp), List.set_append, if_neg (by omega), Nat.sub_self]; rfl

theorem take_succ_get {L : List (Nat × W)} {i : Nat} {x : Nat × W} (h : L[i]? = some x) : L.take (i + 1) = L.take i ++ [x] := by
  rw [List.take_succ, h]; rfl

theorem add_fill (A : List W) (SW : List (Nat × W)) {i m : Nat} {x : Nat × W} (hx : SW[i]? = some x) :
    addAt (A ++ ((SW.take i).map (·.2) ++ List.replicate (SW.length - i + m) 0)) (A.length + i) x.2 =
      some (A ++ ((SW.take (i+1)).map (·.2) ++ List.replicate (SW.length - (i+1) + m) 0)) := by
  have hi := (List.getElem?_eq_some_iff.1 hx).1
  have := addAt_mid (A ++ (SW.take i).map (·.2)) (List.replicate (SW.length - (i+1) + m) 0) 0 x.2
  rw [List.length_append, List.length_map, List.length_take, Nat.min_eq_left (by omega), zero_add] at this
  rw [show SW.length - i + m = SW.length - (i+1) + m + 1 by omega, List.replicate_succ, ← List.append_assoc, this, take_succ_get hx, List.map_append]
  simp

theorem split_ok {h k m : Nat} {A : List W} {SW : List (Nat × W)} (hA : A.length = SW.length * (h - 1 - k)) :
    ∃ q, forRange 0 SW.length (splitBody SW.length h SW k) ⟨[], [], A ++ List.replicate (SW.length + m) 0⟩ = some q ∧
      q.z = SW.filter (hp k false) ∧ q.o = SW.filter (hp k true) ∧ q.F = A ++ SW.map (·.2) ++ List.replicate m 0 := by
  obtain ⟨q, e, h1, h2, h3⟩ := forRange_inv
    (P := fun i (q : SplitSt W) => q.z = (SW.take i).filter (hp k false) ∧ q.o = (SW.take i).filter (hp k true) ∧
      q.F = A ++ ((SW.take i).map (·.2) ++ List.replicate (SW.length - i + m) 0))
    (body := splitBody SW.length h SW k) (s := ⟨[], [], A ++ List.replicate (SW.length + m) 0⟩) (a := 0) (b := SW.length) (Nat.zero_le _)
    ⟨by simp, by simp, by simp⟩
    (by
      intro i q _ hi ⟨h1, h2, h3⟩
      have ex : SW[i]? = some SW[i] := List.getElem?_eq_getElem hi
      generalize SW[i] = x at ex
      rw [splitBody, ex, Option.bind_some, h3, ← hA, add_fill A SW ex, Option.map_some]
      refine ⟨_, rfl, ?_⟩
      rw [take_succ_get ex, List.filter_append, List.filter_append]
      by_cases c : x.1.testBit k = true
      · rw [if_pos c]
        refine ⟨?_, ?_, rfl⟩
        · show q.z = _; rw [h1]; simp [hp, Wavelet.hb, c]
        · show q.o ++ [x] = _; rw [h2]; simp [hp, Wavelet.hb, c]
      · rw [if_neg c]
        have c' : x.1.testBit k = false := by simpa using c
        refine ⟨?_, ?_, rfl⟩
        · show q.z ++ [x] = _; rw [h1]; simp [hp, Wavelet.hb, c']
        · show q.o = _; rw [h2]; simp [hp, Wavelet.hb, c'])
  refine ⟨q, e, by rw [h1, List.take_length], by rw [h2, List.take_length], ?_⟩
  rw [h3, List.take_length, Nat.sub_self, Nat.zero_add, List.append_assoc]

theorem filter_len (k : Nat) (L : List (Nat × W)) : (L.filter (hp k false)).length + (L.filter (hp k true)).length = L.length := by
  have := Wavelet.filter_split_length k (L.map (·.1))
  rwa [← map_hp, ← map_hp, List.length_map, List.length_map, List.length_map] at this

theorem level_ok {h t m : Nat} (ht : t < h) {SW : List (Nat × W)} :
    levelBody SW.length h (h - 1 - t) (levP h SW t, allW h SW t ++ List.replicate (SW.length + m) 0) = some (levP h SW (t+1), allW h SW (t+1) ++ List.replicate m 0) := by
  have hl := levP_length h SW t
  have hA : (allW h SW t).length = (levP h SW t).length * (h - 1 - (h - 1 - t)) := by
    rw [allW_length, hl, show h - 1 - (h - 1 - t) = t by omega]
  obtain ⟨q, e, e1, e2, e3⟩ := split_ok (k := h - 1 - t) (m := m) hA
  rw [hl] at e
  have hs := filter_len (h - 1 - t) (levP h SW t)
  rw [hl] at hs
  unfold levelBody
  rw [e, Option.bind_some, e1, e2, e3]
  have b1 := backFill_ok ((levP h SW t).filter (hp (h - 1 - t) true)).reverse (levP h SW t) [] (by rw [List.length_reverse, hl]; omega)
  rw [List.append_nil, hl] at b1
  dsimp only
  rw [b1, Option.bind_some, List.reverse_reverse, List.append_nil, List.length_reverse]
  have hz : ((levP h SW t).take (SW.length - ((levP h SW t).filter (hp (h - 1 - t) true)).length)).length = SW.length - ((levP h SW t).filter (hp (h - 1 - t) true)).length := by
    rw [List.length_take, hl]; omega
  have b2 := backFill_ok ((levP h SW t).filter (hp (h - 1 - t) false)).reverse ((levP h SW t).take (SW.length - ((levP h SW t).filter (hp (h - 1 - t) true)).length))
    ((levP h SW t).filter (hp (h - 1 - t) true)) (by rw [List.length_reverse, hz]; omega)
  rw [hz] at b2
  rw [b2, Option.map_some, List.reverse_reverse, List.length_reverse, show SW.length - ((levP h SW t).filter (hp (h - 1 - t) true)).length - ((levP h SW t).filter (hp (h - 1 - t) false)).length = 0 by omega]
  rfl

/-- The loops over the levels put the weights of all levels into the caller's array. -/
theorem weights_ok (h : Nat) (SW : List (Nat × W)) :
    ((forRangeDown 0 h (levelBody SW.length h) (SW, List.replicate (SW.length * (h + 1)) 0)).bind fun t => forRange 0 SW.length (lastBody SW.length h t.1) t.2) = some (allW h SW (h + 1)) := by
  obtain ⟨t, e, ht⟩ := forRangeDown_inv (P := fun k (c : List (Nat × W) × List W) => c = (levP h SW (h - k), allW h SW (h - k) ++ List.replicate (SW.length * (k + 1)) 0)) (body := levelBody SW.length h)
    (s := (SW, List.replicate (SW.length * (h + 1)) 0)) (a := 0) (b := h) (Nat.zero_le _) (by rw [Nat.sub_self]; rfl)
    (by
      intro k c _ hk hc
      have := level_ok (t := h - (k + 1)) (m := SW.length * (k + 1)) (h := h) (by omega) (SW := SW)
      rw [show h - 1 - (h - (k + 1)) = k by omega, show h - (k+1) + 1 = h - k by omega] at this
      rw [hc, show SW.length * (k + 1 + 1) = SW.length + SW.length * (k + 1) by ring]
      exact ⟨_, this, rfl⟩)
  rw [Nat.sub_zero, Nat.zero_add, Nat.mul_one] at ht
  rw [e, Option.bind_some, ht]
  have hl := levP_length h SW h
  obtain ⟨F, eF, hF⟩ := forRange_inv (P := fun i (F : List W) => F = allW h SW h ++ (((levP h SW h).take i).map (·.2) ++ List.replicate ((levP h SW h).length - i + 0) 0))
    (body := lastBody SW.length h (levP h SW h)) (s := allW h SW h ++ List.replicate SW.length 0) (a := 0) (b := SW.length) (Nat.zero_le _) (by simp [hl])
    (by
      intro i F _ hi hF
      have ex : (levP h SW h)[i]? = some ((levP h SW h)[i]'(by omega)) := List.getElem?_eq_getElem _
      generalize (levP h SW h)[i]'_ = x at ex
      rw [lastBody, ex, Option.bind_some, hF, ← allW_length, add_fill _ _ ex]
      exact ⟨_, rfl, rfl⟩)
  show forRange 0 SW.length (lastBody SW.length h (levP h SW h)) (allW h SW h ++ List.replicate SW.length 0) = _
  rw [eF, hF, ← hl, List.take_length, Nat.sub_self]
  simp [allW]

end

end Verif.Ors
