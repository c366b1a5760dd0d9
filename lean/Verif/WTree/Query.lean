import Verif.WTree.Build
import Mathlib.Tactic.Linarith
/-!
The queries of `WaveletTree`.
-/
namespace Verif.WTree
open Verif.BitManip Verif.Succinct Verif.Wavelet

/-- `M` is the node at `[l, r)`, on level `t`. -/
def Node (w : WT) (S : List Nat) (t l r : Nat) (M : List Nat) : Prop :=
  ∃ P Q, nodes w.h S t = P ++ M :: Q ∧ l = S.length * t + P.flatten.length ∧ r = l + M.length

theorem Node.root (w : WT) (S : List Nat) : Node w S 0 0 S.length S := ⟨[], [], rfl, by simp, by simp⟩

theorem Node.left {w : WT} {S : List Nat} {t l r : Nat} {M : List Nat} (h : Node w S t l r M) :
    Node w S (t + 1) (l + S.length) (l + S.length + (M.filter (hb (w.h - 1 - t) false)).length) (M.filter (hb (w.h - 1 - t) false)) := by
  obtain ⟨P, Q, e, e1, e2⟩ := h
  refine ⟨P.flatMap (split (w.h - 1 - t)), M.filter (hb (w.h - 1 - t) true) :: Q.flatMap (split (w.h - 1 - t)), ?_, ?_, rfl⟩
  · rw [nodes, e, List.flatMap_append, List.flatMap_cons]; rfl
  · rw [splits_length, e1, Nat.mul_add]; omega

theorem Node.right {w : WT} {S : List Nat} {t l r : Nat} {M : List Nat} (h : Node w S t l r M) :
    Node w S (t + 1) (l + S.length + (M.filter (hb (w.h - 1 - t) false)).length) (r + S.length) (M.filter (hb (w.h - 1 - t) true)) := by
  obtain ⟨P, Q, e, e1, e2⟩ := h
  have hs := filter_split_length (w.h - 1 - t) M
  refine ⟨P.flatMap (split (w.h - 1 - t)) ++ [M.filter (hb (w.h - 1 - t) false)], Q.flatMap (split (w.h - 1 - t)), ?_, ?_, ?_⟩
  · rw [nodes, e, List.flatMap_append, List.flatMap_cons, List.append_assoc]; rfl
  · rw [List.flatten_append, List.length_append, splits_length, e1, Nat.mul_add]
    simp
    omega
  · omega

theorem Node.fit {w : WT} {S : List Nat} {t l r : Nat} {M : List Nat} (h : Node w S t l r M) : S.length * t ≤ l ∧ r ≤ S.length * (t + 1) ∧ r = l + M.length := by
  obtain ⟨P, Q, e, e1, e2⟩ := h
  have hl := seq_length w.h S t
  unfold seq at hl
  rw [e, List.flatten_append, List.flatten_cons, List.length_append, List.length_append] at hl
  rw [Nat.mul_add]
  omega

theorem Node.bits {w : WT} {S : List Nat} {t l r : Nat} {M : List Nat} (h : Node w S t l r M) (ht : t < w.h) :
    ∃ X Z, ab w.h S w.h = X ++ M.map (fun x => x.testBit (w.h - 1 - t)) ++ Z ∧ X.length = l := by
  obtain ⟨P, Q, e, e1, e2⟩ := h
  obtain ⟨R, eR⟩ := ab_split w.h S t w.h ht
  refine ⟨ab w.h S t ++ P.flatten.map (fun x => x.testBit (w.h - 1 - t)), Q.flatten.map (fun x => x.testBit (w.h - 1 - t)) ++ R, ?_, ?_⟩
  · rw [eR, lb, seq, e, List.flatten_append, List.flatten_cons, List.map_append, List.map_append]
    simp
  · rw [List.length_append, List.length_map, ab_length, e1]

theorem lrank_mid {X Y Z : List Bool} {j : Nat} (b : Bool) (hj : j ≤ Y.length) : lrank (X ++ Y ++ Z) b (X.length + j) = X.count b + (Y.take j).count b := by
  unfold lrank
  rw [List.append_assoc, List.take_length_add_append, List.take_append_of_le_length hj, List.count_append]

theorem count_map (k : Nat) (b : Bool) : ∀ M : List Nat, (M.map (fun x => x.testBit k)).count b = (M.filter (hb k b)).length
  | [] => rfl
  | x :: M => by
    rw [List.map_cons, List.count_cons, count_map k b M, List.filter_cons]
    unfold hb
    by_cases c : x.testBit k = b
    · simp [c]
    · simp [c]

/-- Ranks inside a node. -/
theorem rk_ok {w : WT} {S : List Nat} (ok : Ok w S) {t l r : Nat} {M : List Nat} (h : Node w S t l r M) (ht : t < w.h) :
    ∃ rl, rl ≤ l ∧ ∀ j, j ≤ M.length → w.rk (l + j) = some (rl + ((M.take j).filter (hb (w.h - 1 - t) true)).length) := by
  obtain ⟨X, Z, e, el⟩ := h.bits ht
  refine ⟨X.count true, by rw [← el]; exact List.count_le_length, fun j hj => ?_⟩
  have h1 := h.fit
  have h2 : S.length * (t + 1) ≤ S.length * w.h := Nat.mul_le_mul_left _ ht
  rw [ok.rk _ (by omega), e, ← el, lrank_mid _ (by rw [List.length_map]; exact hj), ← List.map_take, count_map]

theorem take_split_length (k j : Nat) (M : List Nat) (hj : j ≤ M.length) : ((M.take j).filter (hb k false)).length + ((M.take j).filter (hb k true)).length = j := by
  rw [filter_split_length, List.length_take, Nat.min_eq_left hj]

theorem usub_some {a b : Nat} (h : b ≤ a) : usub a b = some (a - b) := by unfold usub; rw [if_pos h]

theorem ranks_ok {w : WT} {S : List Nat} (ok : Ok w S) {t l r j : Nat} {M : List Nat} (h : Node w S t l r M) (ht : t < w.h) (hj : j ≤ M.length) :
    ∃ q, w.ranks l r j = some q ∧ q.zs = (M.filter (hb (w.h - 1 - t) false)).length ∧ q.ones = some ((M.take j).filter (hb (w.h - 1 - t) true)).length ∧
      q.zeros l j = some ((M.take j).filter (hb (w.h - 1 - t) false)).length := by
  obtain ⟨rl, h1, h2⟩ := rk_ok ok h ht
  have h0 := h2 0 (Nat.zero_le _)
  have hr := h2 M.length (Nat.le_refl _)
  have hjj := h2 j hj
  have s1 := take_split_length (w.h - 1 - t) j M hj
  have s2 := filter_split_length (w.h - 1 - t) M
  rw [← h.fit.2.2, List.take_length] at hr
  rw [Nat.add_zero, List.take_zero, List.filter_nil, List.length_nil, Nat.add_zero] at h0
  have hf := h.fit.2.2
  unfold WT.ranks
  rw [h0, Option.bind_some, hjj, Option.bind_some, hr, Option.bind_some, usub_some (by omega), Option.bind_some, usub_some (by omega), Option.bind_some, usub_some (by omega), Option.map_some]
  refine ⟨_, rfl, ?_, ?_, ?_⟩
  · show r - l - _ = _
    omega
  · show usub _ _ = _
    rw [usub_some (by show rl ≤ rl + _; omega)]
    congr 1
    show rl + _ - rl = _
    omega
  · show (usub (l + j) (rl + _)).bind (fun a => (usub l rl).bind (fun b => usub a b)) = _
    rw [usub_some (by omega), Option.bind_some, usub_some h1, Option.bind_some, usub_some (by omega)]
    congr 1
    omega

/-! ### `rank`, `rank_lower`, `rank_3way` -/

theorem take_filter (p : Nat → Bool) : ∀ (i : Nat) (M : List Nat), (M.filter p).take ((M.take i).filter p).length = (M.take i).filter p
  | 0, M => by simp
  | i+1, [] => by simp
  | i+1, x :: M => by
    rw [List.take_succ_cons, List.filter_cons, List.filter_cons]
    cases c : p x
    · simp only [Bool.false_eq_true, if_false]
      exact take_filter p i M
    · simp only [if_true]
      rw [List.length_cons, List.take_succ_cons, take_filter p i M]

theorem take_filter_le (p : Nat → Bool) (i : Nat) (M : List Nat) : ((M.take i).filter p).length ≤ (M.filter p).length :=
  (List.Sublist.filter p (List.take_sublist i M)).length_le

theorem Node.child {w : WT} {S : List Nat} {k l r v : Nat} (hk : k < w.h) (h : Node w S (w.h - (k + 1)) l r (S.filter (hi (k+1) v))) :
    (v.testBit k = true → Node w S (w.h - k) (l + S.length + ((S.filter (hi (k+1) v)).filter (hb k false)).length) (r + S.length) (S.filter (hi k v))) ∧
    (v.testBit k = false → Node w S (w.h - k) (l + S.length) (l + S.length + ((S.filter (hi (k+1) v)).filter (hb k false)).length) (S.filter (hi k v))) := by
  have h1 := h.right
  have h2 := h.left
  rw [show w.h - 1 - (w.h - (k + 1)) = k by omega, show w.h - (k + 1) + 1 = w.h - k by omega] at h1 h2
  refine ⟨fun c => ?_, fun c => ?_⟩
  · rw [← hi_filter k v S, c]; exact h1
  · have e := hi_filter k v S
    rw [c] at e
    rw [← e]; exact h2

/-- The facts used at each step. -/
theorem step {w : WT} {S : List Nat} (ok : Ok w S) {k l r v : Nat} (i : Nat) (hk : k < w.h) (h : Node w S (w.h - (k + 1)) l r (S.filter (hi (k+1) v))) :
    ∃ q, w.ranks l r ((S.take i).filter (hi (k+1) v)).length = some q ∧ q.zs = ((S.filter (hi (k+1) v)).filter (hb k false)).length ∧
      q.ones = some (((S.take i).filter (hi (k+1) v)).filter (hb k true)).length ∧ q.zeros l ((S.take i).filter (hi (k+1) v)).length = some (((S.take i).filter (hi (k+1) v)).filter (hb k false)).length := by
  have := ranks_ok ok h (by omega) (take_filter_le _ i S)
  rw [take_filter, show w.h - 1 - (w.h - (k + 1)) = k by omega] at this
  exact this

theorem r3Loop_ok {w : WT} {S : List Nat} (ok : Ok w S) (v i : Nat) : ∀ (k l r : Nat), k ≤ w.h → Node w S (w.h - k) l r (S.filter (hi k v)) →
    w.rankLoop v k l r ((S.take i).filter (hi k v)).length = some ((S.take i).filter (hi 0 v)).length ∧
    w.lowLoop v k l r ((S.take i).filter (hi k v)).length ((S.take i).filter (ltB k v)).length = some ((S.take i).filter (ltB 0 v)).length ∧
    w.r3Loop v k l r ((S.take i).filter (hi k v)).length ((S.take i).filter (ltB k v)).length ((S.take i).filter (gtB k v)).length =
      some (((S.take i).filter (ltB 0 v)).length, ((S.take i).filter (hi 0 v)).length, ((S.take i).filter (gtB 0 v)).length)
  | 0, l, r, _, _ => ⟨rfl, rfl, rfl⟩
  | k+1, l, r, hk, h => by
    obtain ⟨q, e1, e2, e3, e4⟩ := step ok i (by omega) h
    obtain ⟨c1, c2⟩ := Node.child (by omega) h
    have hs := filter_split_length k ((S.take i).filter (hi (k+1) v))
    have hf := hi_filter k v (S.take i)
    have t1 := lt_step k v (S.take i)
    have t2 := gt_step k v (S.take i)
    rw [WT.rankLoop, WT.lowLoop, WT.r3Loop, e1, Option.bind_some, Option.bind_some, Option.bind_some, cbit_nat, e2, e3, e4, ok.n]
    cases c : v.testBit k
    · rw [c] at hf t1 t2
      simp only [Bool.false_eq_true, if_false, Option.bind_some] at t1 t2 ⊢
      rw [hf] at hs ⊢
      rw [show ((S.take i).filter (ltB (k+1) v)).length = ((S.take i).filter (ltB k v)).length by omega,
        show ((S.take i).filter (gtB (k+1) v)).length + (((S.take i).filter (hi (k+1) v)).filter (hb k true)).length = ((S.take i).filter (gtB k v)).length by omega]
      exact r3Loop_ok ok v i k _ _ (by omega) (c2 c)
    · rw [c] at hf t1 t2
      simp only [if_true, Option.bind_some] at t1 t2 ⊢
      rw [hf] at hs ⊢
      rw [show ((S.take i).filter (gtB (k+1) v)).length = ((S.take i).filter (gtB k v)).length by omega,
        show ((S.take i).filter (ltB (k+1) v)).length + (((S.take i).filter (hi (k+1) v)).filter (hb k false)).length = ((S.take i).filter (ltB k v)).length by omega]
      exact r3Loop_ok ok v i k _ _ (by omega) (c1 c)

theorem ranks3_ok {w : WT} {S : List Nat} (ok : Ok w S) {v : Nat} (hv : v < 2^w.h) {i : Nat} (hi' : i ≤ S.length) :
    w.rank v i = some ((S.take i).count v) ∧ w.rankLower v i = some ((S.take i).filter (fun x => decide (x < v))).length ∧
    w.rank3 v i = some (((S.take i).filter (fun x => decide (x < v))).length, (S.take i).count v, ((S.take i).filter (fun x => decide (v < x))).length) := by
  have hm : ∀ x ∈ S.take i, x < 2^w.h := fun x hx => ok.lt x (List.mem_of_mem_take hx)
  have hn := Node.root w S
  rw [← hi_top ok.lt hv] at hn
  have e := r3Loop_ok ok v i w.h 0 S.length (Nat.le_refl _) (by rw [Nat.sub_self, hi_top ok.lt hv] at *; exact hn)
  have z1 : (S.take i).filter (ltB w.h v) = [] := by
    rw [List.filter_eq_nil_iff]
    intro x hx
    unfold ltB
    rw [Nat.div_eq_of_lt (hm x hx), Nat.div_eq_of_lt hv]; simp
  have z2 : (S.take i).filter (gtB w.h v) = [] := by
    rw [List.filter_eq_nil_iff]
    intro x hx
    unfold gtB
    rw [Nat.div_eq_of_lt (hm x hx), Nat.div_eq_of_lt hv]; simp
  rw [z1, z2, hi_top hm hv, List.length_take, Nat.min_eq_left hi'] at e
  have e0 : (S.take i).filter (hi 0 v) = (S.take i).filter (· == v) := List.filter_congr (fun x _ => hi_zero v x)
  have el : (S.take i).filter (ltB 0 v) = (S.take i).filter (fun x => decide (x < v)) := List.filter_congr (fun x _ => by unfold ltB; simp)
  have eg : (S.take i).filter (gtB 0 v) = (S.take i).filter (fun x => decide (v < x)) := List.filter_congr (fun x _ => by unfold gtB; simp)
  rw [e0, el, eg] at e
  have ec : ((S.take i).filter (· == v)).length = (S.take i).count v := by rw [List.count, List.countP_eq_length_filter]
  rw [ec] at e
  unfold WT.rank WT.rankLower WT.rank3
  rw [ok.n]
  exact e

/-! ### `get` -/

theorem filter_get {M : List Nat} {j x : Nat} (p : Nat → Bool) (hx : M[j]? = some x) (hp : p x = true) : (M.filter p)[((M.take j).filter p).length]? = some x := by
  have hj := (List.getElem?_eq_some_iff.1 hx).1
  have e : M = M.take j ++ (x :: M.drop (j+1)) := by
    have := List.drop_eq_getElem_cons hj
    rw [(List.getElem?_eq_some_iff.1 hx).2] at this
    rw [← this, List.take_append_drop]
  conv => lhs; rw [e]
  have el : ((M.take j ++ x :: M.drop (j+1)).take j) = M.take j := by
    rw [← e]
  rw [el, List.filter_append, List.getElem?_append_right (Nat.le_refl _), Nat.sub_self, List.filter_cons, if_pos hp]; rfl

theorem get_bit {w : WT} {S : List Nat} (ok : Ok w S) {t l r j x : Nat} {M : List Nat} (h : Node w S t l r M) (ht : t < w.h) (hx : M[j]? = some x) :
    w.B.get (l + j) = some (x.testBit (w.h - 1 - t)) := by
  obtain ⟨X, Z, e, el⟩ := h.bits ht
  have hj := (List.getElem?_eq_some_iff.1 hx).1
  have h1 := h.fit
  have h2 : S.length * (t + 1) ≤ S.length * w.h := Nat.mul_le_mul_left _ ht
  rw [ok.get _ (by omega), e, List.getD_eq_getElem?_getD, ← el, List.append_assoc, List.getElem?_append_right (by omega), Nat.add_sub_cancel_left,
    List.getElem?_append_left (by rw [List.length_map]; exact hj), List.getElem?_map, hx]
  rfl

theorem getLoop_ok {w : WT} {S : List Nat} (ok : Ok w S) (x : Nat) : ∀ (k l r j : Nat) (M : List Nat), k < w.h → Node w S (w.h - (k + 1)) l r M → M[j]? = some x →
    ∃ l' r' j' M', w.getLoop k l r j (2^(k+1) * (x / 2^(k+1))) = some (l', j', 2^1 * (x / 2^1)) ∧ Node w S (w.h - 1) l' r' M' ∧ M'[j']? = some x
  | 0, l, r, j, M, _, h, hx => ⟨l, r, j, M, rfl, h, hx⟩
  | k+1, l, r, j, M, hk, h, hx => by
    have hj := (List.getElem?_eq_some_iff.1 hx).1
    obtain ⟨q, e1, e2, e3, e4⟩ := ranks_ok ok h (by omega) (Nat.le_of_lt hj)
    have hl := h.left
    have hr := h.right
    have hg := get_bit ok h (by omega) hx
    rw [show w.h - 1 - (w.h - (k + 1 + 1)) = k + 1 by omega] at e2 e3 e4 hl hr hg
    rw [show w.h - (k + 1 + 1) + 1 = w.h - (k + 1) by omega] at hl hr
    have hh := high_step x (k+1)
    rw [WT.getLoop, e1, Option.bind_some, hg, Option.bind_some, e2, e3, e4, ok.n]
    cases c : x.testBit (k+1)
    · rw [c] at hh
      simp only [Bool.false_eq_true, if_false, Option.bind_some] at hh ⊢
      rw [hh]
      exact getLoop_ok ok x k _ _ _ _ (by omega) hl (filter_get _ hx (by simp [hb, c]))
    · rw [c] at hh
      simp only [if_true, Option.bind_some] at hh ⊢
      rw [hh]
      exact getLoop_ok ok x k _ _ _ _ (by omega) hr (filter_get _ hx (by simp [hb, c]))

theorem get_ok {w : WT} {S : List Nat} (ok : Ok w S) {i x : Nat} (hx : S[i]? = some x) : w.get i = some x := by
  have h1 := ok.h1
  have hlt : x < 2^w.h := ok.lt x (List.mem_of_getElem? hx)
  obtain ⟨l, r, j, M, e, h, hx'⟩ := getLoop_ok ok x (w.h - 1) 0 S.length i S (by omega) (by rw [show w.h - (w.h - 1 + 1) = 0 by omega]; exact Node.root w S) hx
  rw [show w.h - 1 + 1 = w.h by omega, Nat.div_eq_of_lt hlt, Nat.mul_zero] at e
  have hg := get_bit ok h (by omega) hx'
  rw [show w.h - 1 - (w.h - 1) = 0 by omega] at hg
  unfold WT.get
  rw [ok.n, e, Option.bind_some]
  show (w.B.get (l + j)).map (fun b => if b then 2^1 * (x / 2^1) ||| 1 else 2^1 * (x / 2^1)) = _
  rw [hg, Option.map_some]
  have := high_step x 0
  rw [Nat.pow_zero, Nat.div_one, Nat.one_mul] at this
  exact congrArg some this

/-! ### `select` -/

/-- The positions recorded on the way down. -/
def Path (w : WT) (S : List Nat) (v : Nat) (ls : List Nat) (k : Nat) : Prop :=
  ∀ u, k ≤ u → u < w.h → ∃ l r, ls[u - k]? = some l ∧ Node w S (w.h - (u + 1)) l r (S.filter (hi (u+1) v))

theorem selDown_ok {w : WT} {S : List Nat} (ok : Ok w S) (hsz : S.length * w.h < 2^31) (v : Nat) : ∀ (k l r : Nat) (ls : List Nat), k ≤ w.h →
    Node w S (w.h - k) l r (S.filter (hi k v)) → Path w S v ls k → ∃ ls' l' r', w.selDown v k l r ls = some (ls', l', r') ∧ Node w S w.h l' r' (S.filter (hi 0 v)) ∧ Path w S v ls' 0
  | 0, l, r, ls, _, h, hp => ⟨ls, l, r, rfl, h, hp⟩
  | k+1, l, r, ls, hk, h, hp => by
    obtain ⟨rl, h1, h2⟩ := rk_ok ok h (by omega)
    have h0 := h2 0 (Nat.zero_le _)
    have hr := h2 _ (Nat.le_refl _)
    have hf := h.fit
    rw [← hf.2.2, List.take_length] at hr
    rw [Nat.add_zero, List.take_zero, List.filter_nil, List.length_nil, Nat.add_zero] at h0
    rw [show w.h - 1 - (w.h - (k + 1)) = k by omega] at hr
    have hs := filter_split_length k (S.filter (hi (k+1) v))
    have hle : S.length * (w.h - (k + 1) + 1) ≤ S.length * w.h := Nat.mul_le_mul_left _ (by omega)
    obtain ⟨c1, c2⟩ := Node.child (by omega) h
    have hp' : Path w S v (l :: ls) k := by
      intro u hu1 hu2
      by_cases c : u = k
      · subst c
        exact ⟨l, r, by simp, h⟩
      · obtain ⟨l', r', q1, q2⟩ := hp u (by omega) hu2
        exact ⟨l', r', by rw [show u - k = u - (k + 1) + 1 by omega, List.getElem?_cons_succ]; exact q1, q2⟩
    rw [WT.selDown, if_pos (by omega), h0, Option.bind_some, hr, Option.bind_some, usub_some (by omega), Option.bind_some, usub_some (by omega), Option.bind_some, usub_some (by omega), Option.bind_some,
      cbit_nat, ok.n]
    rw [show r - l - (rl + ((S.filter (hi (k+1) v)).filter (hb k true)).length - rl) = ((S.filter (hi (k+1) v)).filter (hb k false)).length by omega]
    cases c : v.testBit k
    · simp only [Bool.false_eq_true, if_false]
      exact selDown_ok ok hsz v k _ _ _ (by omega) (c2 c) hp'
    · simp only [if_true]
      exact selDown_ok ok hsz v k _ _ _ (by omega) (c1 c) hp'

/-- The position of the `k`-th `b` is unique. -/
theorem select_unique {l : List Bool} {b : Bool} {p q : Nat} (hp : l[p]? = some b) (hq : l[q]? = some b) (h : lrank l b p = lrank l b q) : p = q := by
  have key : ∀ {p q : Nat}, l[p]? = some b → p < q → lrank l b p < lrank l b q := by
    intro p q hp hlt
    unfold lrank
    have e : l.take (p + 1) = l.take p ++ [b] := by rw [List.take_succ, hp]; rfl
    have h1 : (l.take (p+1)).count b ≤ (l.take q).count b := (List.take_sublist_take_left (by omega)).count_le b
    rw [e, List.count_append] at h1
    simp at h1
    omega
  rcases Nat.lt_trichotomy p q with c | c | c
  · have := key hp c; omega
  · exact c
  · have := key hq c; omega

/-- Inside a node: the `j`-th element of a child. -/
theorem up_pos {p : Nat → Bool} : ∀ (M : List Nat) (j x : Nat), (M.filter p)[j]? = some x → ∃ q, M[q]? = some x ∧ (M.take q).filter p = (M.filter p).take j
  | [], j, x, h => by simp at h
  | y :: M, j, x, h => by
    rw [List.filter_cons] at h
    by_cases c : p y = true
    · rw [if_pos c] at h
      cases j with
      | zero =>
        rw [List.getElem?_cons_zero] at h
        exact ⟨0, by simpa using h, by simp⟩
      | succ j =>
        rw [List.getElem?_cons_succ] at h
        obtain ⟨q, h1, h2⟩ := up_pos M j x h
        exact ⟨q + 1, by simpa using h1, by rw [List.take_succ_cons, List.filter_cons, if_pos c, h2, List.filter_cons, if_pos c, List.take_succ_cons]⟩
    · rw [if_neg c] at h
      obtain ⟨q, h1, h2⟩ := up_pos M j x h
      exact ⟨q + 1, by simpa using h1, by rw [List.take_succ_cons, List.filter_cons, if_neg c, h2, List.filter_cons, if_neg c]⟩

theorem count_false_eq (k : Nat) (X : List Bool) : X.count false = X.length - X.count true := by
  induction X with
  | nil => rfl
  | cons b X ih =>
    have := List.count_le_length (a := true) (l := X)
    cases b <;> simp [List.count_cons, ih] <;> omega

theorem selUp_ok {w : WT} {S : List Nat} (ok : Ok w S) {v : Nat} {ls : List Nat} (hp : Path w S v ls 0) {k j : Nat} (hk : k < w.h) (hj : (S.filter (hi k v))[j]? = some x) :
    ∃ q, w.selUp v ls k j = some q ∧ (S.filter (hi (k+1) v))[q]? = some x ∧ ((S.filter (hi (k+1) v)).take q).filter (hb k (v.testBit k)) = (S.filter (hi k v)).take j := by
  obtain ⟨l, r, e1, h⟩ := hp k (Nat.zero_le _) hk
  rw [Nat.sub_zero] at e1
  rw [← hi_filter k v S] at hj ⊢
  generalize S.filter (hi (k+1) v) = M at *
  obtain ⟨q, q1, q2⟩ := up_pos M j x hj
  have hxb : x.testBit k = v.testBit k := by
    have := (List.mem_filter.1 (List.mem_of_getElem? hj)).2
    simpa [hb] using this
  have hql := (List.getElem?_eq_some_iff.1 q1).1
  have hjl := (List.getElem?_eq_some_iff.1 hj).1
  refine ⟨q, ?_, q1, q2⟩
  obtain ⟨X, Z, e, el⟩ := h.bits (by omega)
  rw [show w.h - 1 - (w.h - (k + 1)) = k by omega] at e
  have hf := h.fit
  have hle : S.length * (w.h - (k + 1) + 1) ≤ S.length * w.h := Nat.mul_le_mul_left _ (by omega)
  have hrk : w.rk l = some (X.count true) := by
    have := ok.rk l (by omega)
    rw [e, ← el] at this
    have l0 := lrank_mid (X := X) (Y := M.map (fun x => x.testBit k)) (Z := Z) (j := 0) true (Nat.zero_le _)
    rw [Nat.add_zero, List.take_zero] at l0
    rw [l0] at this
    rw [← el, this]; rfl
  have hsel : ∀ b, v.testBit k = b → selectB 64 w.B.src w.bv b (j + X.count b) = some (l + q) := by
    intro b hb'
    obtain ⟨p, ep, h1, _⟩ := ok.sel b (j + X.count b)
    have hbit : (ab w.h S w.h)[l + q]? = some b := by
      rw [e, ← el, List.append_assoc, List.getElem?_append_right (by omega), Nat.add_sub_cancel_left, List.getElem?_append_left (by rw [List.length_map]; exact hql), List.getElem?_map, q1, ← hb', ← hxb]
      rfl
    have hlr : lrank (ab w.h S w.h) b (l + q) = j + X.count b := by
      rw [e, ← el, lrank_mid _ (by rw [List.length_map]; omega), ← List.map_take, count_map, ← hb', q2, List.length_take, Nat.min_eq_left (by omega)]
      omega
    have hlt : j + X.count b < (ab w.h S w.h).count b := by
      have h2 : (((ab w.h S w.h).take (l + q + 1)).count b) ≤ (ab w.h S w.h).count b := (List.take_sublist _ _).count_le b
      rw [List.take_succ, hbit, List.count_append] at h2
      unfold lrank at hlr
      rw [hlr] at h2
      simp at h2
      omega
    obtain ⟨_, h3, h4⟩ := h1 hlt
    rw [ep, select_unique h3 hbit (by rw [h4, hlr])]
  unfold WT.selUp
  rw [e1, Option.bind_some, hrk, Option.bind_some, cbit_nat]
  cases c : v.testBit k
  · simp only [Bool.false_eq_true, if_false]
    have hc : X.count true ≤ l := by rw [← el]; exact List.count_le_length
    have hcf := count_false_eq k X
    rw [usub_some hc, Option.bind_some, ← el, ← hcf, hsel false c, Option.bind_some, usub_some (by omega)]
    congr 1; omega
  · simp only [if_true]
    rw [hsel true c, Option.bind_some, usub_some (by omega)]
    congr 1; omega

theorem select_ok {w : WT} {S : List Nat} (ok : Ok w S) (hsz : S.length * w.h < 2^31) {v : Nat} (hv : v < 2^w.h) (i : Nat) :
    (i < S.count v → ∃ p, w.select v i = some p ∧ p < S.length ∧ S[p]? = some v ∧ (S.take p).count v = i) ∧ (S.count v ≤ i → w.select v i = some S.length) := by
  obtain ⟨ls, l, r, e, h, hp⟩ := selDown_ok ok hsz v w.h 0 S.length [] (Nat.le_refl _) (by rw [Nat.sub_self, hi_top ok.lt hv]; exact Node.root w S) (fun u h1 h2 => by omega)
  have hf := h.fit
  have e0 : S.filter (hi 0 v) = S.filter (· == v) := List.filter_congr (fun x _ => hi_zero v x)
  have ec : (S.filter (hi 0 v)).length = S.count v := by rw [e0, List.count, List.countP_eq_length_filter]
  unfold WT.select
  rw [ok.n, e, Option.bind_some]
  show (i < S.count v → ∃ p, ((usub r l).bind fun d => _) = some p ∧ _) ∧ (S.count v ≤ i → ((usub r l).bind fun d => _) = _)
  rw [usub_some (by omega), Option.bind_some, show r - l = S.count v by omega]
  refine ⟨fun hi' => ?_, fun hi' => by rw [if_pos hi']⟩
  rw [if_neg (by omega)]
  have hi2 : i < (S.filter (hi 0 v)).length := by omega
  have hx0 : (S.filter (hi 0 v))[i]? = some v := by
    have h1 := List.getElem?_eq_getElem hi2
    have h2 := (List.mem_filter.1 (List.mem_of_getElem? h1)).2
    rw [hi_zero] at h2
    rw [h1]
    simpa using h2
  obtain ⟨p, ep, h1, h2⟩ := forRange_inv (P := fun k j => (S.filter (hi k v))[j]? = some v ∧ ((S.filter (hi k v)).take j).count v = i)
    (body := w.selUp v ls) (s := i) (a := 0) (b := w.h) (Nat.zero_le _)
    ⟨hx0, by
      have : ∀ y ∈ (S.filter (hi 0 v)).take i, v = y := by
        intro y hy
        have := (List.mem_filter.1 (List.mem_of_mem_take hy)).2
        rw [hi_zero] at this
        exact (by simpa using this : y = v).symm
      rw [List.count_eq_length.2 this, List.length_take, Nat.min_eq_left (by omega)]⟩
    (by
      intro k j _ hk ⟨g1, g2⟩
      obtain ⟨q, eq, q1, q2⟩ := selUp_ok ok hp hk g1
      refine ⟨q, eq, q1, ?_⟩
      rw [← g2, ← q2, List.count_filter]
      simp [hb])
  rw [hi_top ok.lt hv] at h1 h2
  exact ⟨p, ep, (List.getElem?_eq_some_iff.1 h1).1, h1, h2⟩

/-! ### `enumerate` -/

/-- `E` lists the distinct values of `W` in increasing order with their numbers of occurrences. -/
def Enm (W : List Nat) (E : List (Nat × Nat)) : Prop := E.Pairwise (fun a b => a.1 < b.1) ∧ ∀ v m, (v, m) ∈ E ↔ 0 < m ∧ W.count v = m

theorem filter_count (k : Nat) (b : Bool) (W : List Nat) (v : Nat) : (W.filter (hb k b)).count v = if v.testBit k = b then W.count v else 0 := by
  by_cases c : v.testBit k = b
  · rw [if_pos c, List.count_filter (by simp [hb, c])]
  · rw [if_neg c, List.count_eq_zero]
    intro hm
    have := (List.mem_filter.1 hm).2
    exact c (by simpa [hb] using this)

theorem enm_join {k : Nat} {c : Nat} {W : List Nat} {E0 E1 : List (Nat × Nat)} (h0 : Enm (W.filter (hb k false)) E0) (h1 : Enm (W.filter (hb k true)) E1)
    (hW : ∀ x ∈ W, x / 2^(k+1) = c / 2^(k+1)) : Enm W (E0 ++ E1) := by
  constructor
  · rw [List.pairwise_append]
    refine ⟨h0.1, h1.1, ?_⟩
    intro a ha b hb'
    have ca := (h0.2 a.1 a.2).1 ha
    have cb := (h1.2 b.1 b.2).1 hb'
    have ma : a.1 ∈ W.filter (hb k false) := List.count_pos_iff.1 (by omega)
    have mb : b.1 ∈ W.filter (hb k true) := List.count_pos_iff.1 (by omega)
    obtain ⟨ma1, ma2⟩ := List.mem_filter.1 ma
    obtain ⟨mb1, mb2⟩ := List.mem_filter.1 mb
    have e1 := div_succ a.1 k
    have e2 := div_succ b.1 k
    rw [hW _ ma1] at e1
    rw [hW _ mb1] at e2
    have t1 : a.1.testBit k = false := by simpa [hb] using ma2
    have t2 : b.1.testBit k = true := by simpa [hb] using mb2
    rw [t1] at e1
    rw [t2] at e2
    by_contra hc
    have := Nat.div_le_div_right (c := 2^k) (Nat.le_of_not_lt hc)
    rw [e1, e2] at this
    simp at this
  · intro v m
    rw [List.mem_append, h0.2, h1.2, filter_count, filter_count]
    cases v.testBit k <;> simp <;> omega

theorem enum_nil (w : WT) (k l r c : Nat) (A W : List Nat) (h0 : W.length = 0) : ∃ E, w.enum (k + 1) l r A.length (A.length + W.length) c = some E ∧ Enm W E := by
  rw [WT.enum, usub_some (by omega), Option.bind_some, if_pos (by omega)]
  refine ⟨_, rfl, List.Pairwise.nil, fun v m => ?_⟩
  rw [List.length_eq_zero_iff.1 h0]
  simp
  omega

theorem enum_ok {w : WT} {S : List Nat} (ok : Ok w S) : ∀ (k l r c : Nat) (M A W C : List Nat), k ≤ w.h → Node w S (w.h - k) l r M → M = A ++ W ++ C → c % 2^k = 0 →
    (∀ x ∈ W, x / 2^k = c / 2^k) → ∃ E, w.enum (k + 1) l r A.length (A.length + W.length) c = some E ∧ Enm W E
  | 0, l, r, c, M, A, W, C, hk, h, hM, hc, hW => by
    by_cases c0 : W.length = 0
    · exact enum_nil w 0 l r c A W c0
    · have hf := h.fit
      rw [WT.enum, usub_some (by omega), Option.bind_some, if_neg (by omega), Nat.add_sub_cancel_left, ok.n]
      rw [if_pos (by simpa using hf.1)]
      refine ⟨_, rfl, List.pairwise_singleton _ _, fun v m => ?_⟩
      have hW' : ∀ x ∈ W, c = x := fun x hx => by have := hW x hx; simpa using this.symm
      rw [List.mem_singleton]
      by_cases cv : v = c
      · subst cv
        rw [List.count_eq_length.2 hW']
        simp
        omega
      · have : W.count v = 0 := List.count_eq_zero.2 (fun hm => cv (hW' v hm).symm)
        rw [this]
        simp [cv]
        omega
  | k+1, l, r, c, M, A, W, C, hk, h, hM, hc, hW => by
    by_cases c0 : W.length = 0
    · exact enum_nil w (k + 1) l r c A W c0
    · have hf := h.fit
      rw [WT.enum, usub_some (by omega), Option.bind_some, if_neg (by omega), Nat.add_sub_cancel_left, ok.n]
      have hml : M.length = A.length + W.length + C.length := by rw [hM]; simp [Nat.add_assoc]
      have hle : S.length * (w.h - (k + 1) + 1) ≤ S.length * w.h := Nat.mul_le_mul_left _ (by omega)
      rw [if_neg (by omega)]
      obtain ⟨rl, h1, h2⟩ := rk_ok ok h (by omega)
      rw [show w.h - 1 - (w.h - (k + 1)) = k by omega] at h2
      have r0 := h2 0 (Nat.zero_le _)
      have rr := h2 M.length (Nat.le_refl _)
      have ra := h2 A.length (by omega)
      have rb := h2 (A.length + W.length) (by omega)
      have tA : M.take A.length = A := by rw [hM, List.append_assoc, List.take_left]
      have tB : M.take (A.length + W.length) = A ++ W := by rw [hM, ← List.length_append, List.take_left]
      rw [← hf.2.2, List.take_length] at rr
      rw [Nat.add_zero, List.take_zero, List.filter_nil, List.length_nil, Nat.add_zero] at r0
      rw [tA] at ra
      rw [tB] at rb
      have sM := filter_split_length k M
      have sA := filter_split_length k A
      have sW := filter_split_length k W
      rw [List.filter_append, List.length_append] at rb
      rw [r0, Option.bind_some, rr, Option.bind_some, ra, Option.bind_some, rb, Option.bind_some, usub_some (by omega), Option.bind_some, usub_some (by omega), Option.bind_some,
        usub_some (by omega), Option.bind_some, usub_some h1, Option.bind_some, usub_some (by omega), Option.bind_some, usub_some (by omega), Option.bind_some, usub_some (by omega), Option.bind_some]
      have hl := h.left
      have hr := h.right
      rw [show w.h - 1 - (w.h - (k + 1)) = k by omega, show w.h - (k + 1) + 1 = w.h - k by omega] at hl hr
      have hdec : ∀ p : Nat → Bool, M.filter p = A.filter p ++ W.filter p ++ C.filter p := fun p => by rw [hM, List.filter_append, List.filter_append]
      have hWs : ∀ b, ∀ x ∈ W.filter (hb k b), x / 2^k = (if b then c ||| 2^k else c) / 2^k := by
        intro b x hx
        obtain ⟨hx1, hx2⟩ := List.mem_filter.1 hx
        obtain ⟨_, x2, x3⟩ := ext_bit hc b
        have hxb : x.testBit k = b := by simpa [hb] using hx2
        rw [div_succ x k, div_succ (if b then c ||| 2^k else c) k, x2, x3, hxb, hW x hx1]
      have hc2 : c % 2^k = 0 := Nat.mod_eq_zero_of_dvd (Nat.dvd_trans (Nat.pow_dvd_pow 2 (by omega)) (Nat.dvd_of_mod_eq_zero hc))
      obtain ⟨E0, f1, f2⟩ := enum_ok ok k _ _ c _ _ _ _ (by omega) hl (hdec _) hc2 (hWs false)
      obtain ⟨E1, g1, g2⟩ := enum_ok ok k _ _ (c ||| 2^k) _ _ _ _ (by omega) hr (hdec _) (ext_bit hc true).1 (hWs true)
      have n0 : 0 < S.length := List.length_pos_iff.2 ok.hne
      have hlv : l / S.length = w.h - (k + 1) := by
        rw [Nat.mul_add] at hf
        rw [show l = S.length * (w.h - (k + 1)) + (l - S.length * (w.h - (k + 1))) by omega, Nat.mul_add_div n0, Nat.div_eq_of_lt (by omega), Nat.add_zero]
      rw [show A.length - (rl + (A.filter (hb k true)).length - rl) = (A.filter (hb k false)).length by omega,
        show A.length + W.length - (rl + ((A.filter (hb k true)).length + (W.filter (hb k true)).length) - rl) = (A.filter (hb k false)).length + (W.filter (hb k false)).length by omega,
        show r - (rl + (M.filter (hb k true)).length) - (l - rl) = (M.filter (hb k false)).length by omega, f1, Option.bind_some, if_neg (by omega), hlv, usub_some (by omega), Option.bind_some,
        show w.h - 1 - (w.h - (k + 1)) = k by omega, show rl + (A.filter (hb k true)).length - rl = (A.filter (hb k true)).length by omega,
        show rl + ((A.filter (hb k true)).length + (W.filter (hb k true)).length) - rl = (A.filter (hb k true)).length + (W.filter (hb k true)).length by omega, g1, Option.map_some]
      exact ⟨_, rfl, enm_join f2 g2 hW⟩

theorem enumerate_ok {w : WT} {S : List Nat} (ok : Ok w S) {l r : Nat} (h1 : l ≤ r) (h2 : r ≤ S.length) : ∃ E, w.enumerate l r = some E ∧ Enm (slice S l r) E := by
  obtain ⟨e, el⟩ := slice_split h1 h2
  have hl : (S.take l).length = l := by simp; omega
  obtain ⟨E, e1, e2⟩ := enum_ok ok w.h 0 S.length 0 S (S.take l) (slice S l r) (S.drop r) (Nat.le_refl _) (by rw [Nat.sub_self]; exact Node.root w S) e (by simp)
    (fun x hx => by rw [Nat.div_eq_of_lt (ok.lt x (slice_mem hx))]; simp)
  rw [hl, el, show l + (r - l) = r by omega] at e1
  unfold WT.enumerate
  rw [ok.n]
  exact ⟨E, e1, e2⟩

end Verif.WTree
