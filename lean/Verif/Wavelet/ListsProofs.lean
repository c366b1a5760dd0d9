import Verif.Wavelet.Lists
import Verif.Wavelet.Query
/-!
Proofs about `range_list_k` and `top_k`.
-/
namespace Verif.Wavelet

/-- The bits of `v` from `d` upwards are `p`. -/
def pf (d p v : Nat) : Bool := decide (v / 2^d = p)

theorem pf_succ (d p : Nat) (b : Bool) (M : List Nat) : (M.filter (pf (d+1) p)).filter (hb d b) = M.filter (pf d (2 * p + b.toNat)) := by
  rw [List.filter_filter]
  apply List.filter_congr
  intro x _
  unfold pf hb
  rw [div_succ x d, Bool.eq_iff_iff]
  simp only [beq_iff_eq, Bool.and_eq_true, decide_eq_true_eq]
  cases x.testBit d <;> cases b <;> simp <;> omega

theorem pf_top {h : Nat} {M : List Nat} (hM : ∀ x ∈ M, x < 2^h) : M.filter (pf h 0) = M := by
  rw [List.filter_eq_self]
  intro x hx
  unfold pf
  rw [Nat.div_eq_of_lt (hM x hx)]; rfl

theorem pf_zero (p : Nat) (M : List Nat) : (M.filter (pf 0 p)).length = M.count p := by
  rw [List.count, List.countP_eq_length_filter]
  congr 1
  apply List.filter_congr
  intro x _
  unfold pf
  rw [Bool.eq_iff_iff]; simp

theorem pf_child {w : WM} {S M : List Nat} (ok : Ok w S) (hne : S ≠ []) {t l r p : Nat} (ht : t < w.h) (hs : Sg w S t l r (M.filter (pf (w.h - t) p))) (b : Bool) :
    ∃ l' r', w.tie t l r b = some (l', r') ∧ Sg w S (t + 1) l' r' (M.filter (pf (w.h - (t + 1)) (2 * p + b.toNat))) := by
  obtain ⟨l', r', e, h'⟩ := ok.tie hne ht hs b
  rw [show w.h - t = w.h - 1 - t + 1 by omega, pf_succ, show w.h - 1 - t = w.h - (t + 1) by omega] at h'
  exact ⟨l', r', e, h'⟩

/-- `k = 0` is no limit. -/
def cut (k : Nat) (L : List (Nat × Nat)) : List (Nat × Nat) := if k = 0 then L else L.take k

theorem cut_hit {k : Nat} {L A : List (Nat × Nat)} (h : L.length = k) (hk : 0 < L.length) : cut k (L ++ A) = L := by
  unfold cut
  rw [if_neg (by omega), ← h, List.take_left]

theorem cut_le {k : Nat} {L : List (Nat × Nat)} (h : L.length ≤ k ∨ k = 0) : cut k L = L := by
  unfold cut
  split
  · rfl
  · exact List.take_of_length_le (by omega)

/-! ### range_list_k -/

/-- Values that are asked for. -/
def RlArgs.want (a : RlArgs) (v : Nat) : Bool := !a.vr || (decide (a.x ≤ (v : Int)) && decide ((v : Int) < a.y))

/-- The listing below a prefix. -/
def lst (a : RlArgs) (M : List Nat) : Nat → Nat → List (Nat × Nat)
  | 0, p => if p ∈ M ∧ a.want p = true then [(p, M.count p)] else []
  | d+1, p => lst a M d (2 * p + (!a.asc).toNat) ++ lst a M d (2 * p + a.asc.toNat)

theorem half_iff {v d p : Nat} (b : Bool) : (v / 2^(d+1) = p ↔ v / 2^d = 2 * p + (!b).toNat ∨ v / 2^d = 2 * p + b.toNat) := by
  rw [div_succ v d]
  cases v.testBit d <;> cases b <;> simp <;> omega

theorem lst_mem (a : RlArgs) (M : List Nat) : ∀ d p v f, (v, f) ∈ lst a M d p ↔ (v / 2^d = p ∧ v ∈ M ∧ a.want v = true ∧ f = M.count v)
  | 0, p, v, f => by
      rw [lst]
      split
      · rename_i h
        rw [List.mem_singleton, Prod.mk.injEq]
        constructor
        · rintro ⟨rfl, rfl⟩; exact ⟨by simp, h.1, h.2, rfl⟩
        · rintro ⟨h1, _, _, rfl⟩
          have : v = p := by simpa using h1
          subst this; exact ⟨rfl, rfl⟩
      · rename_i h
        simp only [List.not_mem_nil, false_iff]
        rintro ⟨h1, h2, h3, _⟩
        have : v = p := by simpa using h1
        subst this; exact h ⟨h2, h3⟩
  | d+1, p, v, f => by
      rw [lst, List.mem_append, lst_mem a M d, lst_mem a M d, half_iff a.asc]
      tauto

theorem lst_nil {a : RlArgs} {M : List Nat} {d p : Nat} (h : ∀ v ∈ M, v / 2^d = p → a.want v = false) : lst a M d p = [] := by
  rw [List.eq_nil_iff_forall_not_mem]
  rintro ⟨v, f⟩ hm
  obtain ⟨h1, h2, h3, _⟩ := (lst_mem a M d p v f).mp hm
  rw [h v h2 h1] at h3; cases h3

/-- Order of the listing. -/
def RlArgs.before (a : RlArgs) (p q : Nat × Nat) : Prop := if a.asc then p.1 < q.1 else q.1 < p.1

theorem lst_sorted (a : RlArgs) (M : List Nat) : ∀ d p, (lst a M d p).Pairwise a.before
  | 0, p => by rw [lst]; split <;> simp
  | d+1, p => by
      rw [lst, List.pairwise_append]
      refine ⟨lst_sorted a M d _, lst_sorted a M d _, ?_⟩
      rintro ⟨v, f⟩ h1 ⟨v', f'⟩ h2
      have h1 := ((lst_mem a M d _ v f).mp h1).1
      have h2 := ((lst_mem a M d _ v' f').mp h2).1
      unfold RlArgs.before
      cases e : a.asc
      · rw [e] at h1 h2
        simp only [Bool.false_eq_true, if_false]
        simp at h1 h2
        refine Nat.lt_of_not_le (fun hc => ?_)
        have := Nat.div_le_div_right (c := 2^d) hc
        omega
      · rw [e] at h1 h2
        simp only [if_true]
        simp at h1 h2
        refine Nat.lt_of_not_le (fun hc => ?_)
        have := Nat.div_le_div_right (c := 2^d) hc
        omega

/-- A queue item of level `t`. -/
structure RI (w : WM) (S M : List Nat) (a : RlArgs) (t : Nat) (i : Item) : Prop where
  sg : Sg w S t i.2.1 (i.2.1 + i.1) (M.filter (pf (w.h - t) i.2.2))
  pos : 0 < i.1
  leaf : t = w.h → a.want i.2.2 = true

/-- Arguments for which `y-1` is the difference. -/
def RlArgs.Good (a : RlArgs) : Prop := a.vr = true → ym1 a.u a.y = a.y - 1

theorem skip_want {a : RlArgs} (hg : a.Good) {s nc : Nat} (h : a.skip s nc = true) {v : Nat} (hv : v / 2^s = nc) : a.want v = false := by
  unfold RlArgs.skip at h
  rw [Bool.and_eq_true] at h
  obtain ⟨h1, h2⟩ := h
  rw [hg h1, Bool.or_eq_true, decide_eq_true_eq, decide_eq_true_eq] at h2
  unfold RlArgs.want
  rw [h1, Bool.not_true, Bool.false_or, Bool.and_eq_false_iff, decide_eq_false_iff_not, decide_eq_false_iff_not]
  have e : ((nc : Nat) : Int) = (v : Int) / 2^s := by rw [← hv]; norm_cast
  rw [e] at h2
  have hp : (0 : Int) < 2^s := by exact_mod_cast Nat.two_pow_pos s
  rcases h2 with h2 | h2
  · left
    intro hc
    have := Int.ediv_le_ediv hp hc
    omega
  · right
    intro hc
    have := Int.ediv_le_ediv hp (show (v : Int) ≤ a.y - 1 by omega)
    omega

theorem skip_leaf {a : RlArgs} (hg : a.Good) {nc : Nat} (h : a.skip 0 nc = false) : a.want nc = true := by
  unfold RlArgs.want
  cases e : a.vr
  · rfl
  · unfold RlArgs.skip at h
    rw [hg e, e, Bool.true_and, Bool.or_eq_false_iff, decide_eq_false_iff_not, decide_eq_false_iff_not, pow_zero, Int.ediv_one, Int.ediv_one] at h
    simp
    omega

def rwt (w : WM) (t : Nat) (i : Item) : Nat := i.1 * (w.h + 1 - t)

theorem rlPush_ok {w : WM} {S M : List Nat} (ok : Ok w S) (hne : S ≠ []) {a : RlArgs} (hg : a.Good) {t range s p : Nat} (ht : t < w.h) (hl : s / w.n = t)
    (hs : Sg w S t s (s + range) (M.filter (pf (w.h - t) p))) (b : Bool) (q : List Item) :
    ∃ q', w.rlPush a range s p b q = some (q ++ q') ∧ (∀ i ∈ q', RI w S M a (t + 1) i) ∧
      q'.flatMap (fun i => lst a M (w.h - (t + 1)) i.2.2) = lst a M (w.h - (t + 1)) (2 * p + b.toNat) ∧
      (q'.map (rwt w (t + 1))).sum ≤ (M.filter (pf (w.h - (t + 1)) (2 * p + b.toNat))).length * (w.h - t) := by
  unfold WM.rlPush
  rw [hl]
  by_cases c : a.skip (w.h - 1 - t) (2 * p + b.toNat) = true
  · rw [if_pos c]
    refine ⟨[], by simp, by simp, ?_, by simp⟩
    rw [List.flatMap_nil, lst_nil]
    intro v _ hv
    exact skip_want hg c (by rw [show w.h - 1 - t = w.h - (t + 1) by omega]; exact hv)
  · rw [if_neg c]
    obtain ⟨l', r', e, h'⟩ := pf_child ok hne ht hs b
    rw [e, Option.bind_some]
    dsimp only
    have hle := h'.le
    by_cases c2 : l' = r'
    · rw [if_neg (by simpa using c2)]
      have hz : M.filter (pf (w.h - (t + 1)) (2 * p + b.toNat)) = [] := List.length_eq_zero_iff.mp (by omega)
      refine ⟨[], by simp, by simp, ?_, by simp⟩
      rw [List.flatMap_nil, lst_nil]
      intro v hm hv
      rw [List.filter_eq_nil_iff] at hz
      exact absurd (decide_eq_true hv) (hz v hm)
    · rw [if_pos c2]
      have hu := h'.usub
      rw [hu]
      refine ⟨[((M.filter (pf (w.h - (t + 1)) (2 * p + b.toNat))).length, l', 2 * p + b.toNat)], rfl, ?_, by simp, ?_⟩
      · intro i hi
        rw [List.mem_singleton] at hi
        subst hi
        refine ⟨?_, ?_, ?_⟩
        · dsimp only
          rw [show l' + (M.filter (pf (w.h - (t + 1)) (2 * p + b.toNat))).length = r' by omega]
          exact h'
        · dsimp only; omega
        · intro hh
          apply skip_leaf hg
          rw [show w.h - 1 - t = 0 by omega] at c
          simpa using c
      · simp only [List.map_cons, List.map_nil, List.sum_cons, List.sum_nil, rwt, Nat.add_zero]
        rw [show w.h + 1 - (t + 1) = w.h - t by omega]

theorem rl_split (a : RlArgs) (M : List Nat) (d p : Nat) :
    (M.filter (pf d (2 * p + (!a.asc).toNat))).length + (M.filter (pf d (2 * p + a.asc.toNat))).length = (M.filter (pf (d+1) p)).length := by
  have := filter_split_length d (M.filter (pf (d+1) p))
  rw [pf_succ, pf_succ] at this
  cases a.asc
  · rw [Nat.add_comm]; exact this
  · exact this

theorem rlLoop_ok {w : WM} {S M : List Nat} (ok : Ok w S) (hne : S ≠ []) {a : RlArgs} (hg : a.Good) (k : Nat) : ∀ (fuel t : Nat) (A B : List Item) (ret : List (Nat × Nat)),
    t ≤ w.h → (∀ i ∈ A, RI w S M a t i) → (∀ i ∈ B, RI w S M a (t + 1) i) → (t = w.h → B = []) → (ret.length < k ∨ k = 0) →
    (A.map (rwt w t)).sum + (B.map (rwt w (t + 1))).sum ≤ fuel →
    w.rlLoop a k fuel (A ++ B) ret =
      some (cut k (ret ++ (B.flatMap (fun i => lst a M (w.h - (t + 1)) i.2.2) ++ A.flatMap (fun i => lst a M (w.h - t) i.2.2)))) := by
  have hn0 : w.n ≠ 0 := by rw [ok.n]; intro hh; exact hne (List.length_eq_zero_iff.mp hh)
  -- an item is there
  have main : ∀ (fuel t : Nat) (i : Item) (A B : List Item) (ret : List (Nat × Nat)),
      (∀ fuel', fuel' < fuel → ∀ (A B : List Item) (ret : List (Nat × Nat)), (∀ i ∈ A, RI w S M a t i) → (∀ i ∈ B, RI w S M a (t + 1) i) → (t = w.h → B = []) →
        (ret.length < k ∨ k = 0) → (A.map (rwt w t)).sum + (B.map (rwt w (t + 1))).sum ≤ fuel' →
        w.rlLoop a k fuel' (A ++ B) ret =
          some (cut k (ret ++ (B.flatMap (fun i => lst a M (w.h - (t + 1)) i.2.2) ++ A.flatMap (fun i => lst a M (w.h - t) i.2.2))))) →
      t ≤ w.h → (∀ j ∈ i :: A, RI w S M a t j) → (∀ i ∈ B, RI w S M a (t + 1) i) → (t = w.h → B = []) → (ret.length < k ∨ k = 0) →
      ((i :: A).map (rwt w t)).sum + (B.map (rwt w (t + 1))).sum ≤ fuel →
      w.rlLoop a k fuel ((i :: A) ++ B) ret =
        some (cut k (ret ++ (B.flatMap (fun i => lst a M (w.h - (t + 1)) i.2.2) ++ (i :: A).flatMap (fun i => lst a M (w.h - t) i.2.2)))) := by
    intro fuel t i A B ret ih ht hA hB hB0 hk hf
    obtain ⟨range, s, p⟩ := i
    have hi := hA _ List.mem_cons_self
    have hpos : 0 < range := hi.pos
    have hsg : Sg w S t s (s + range) (M.filter (pf (w.h - t) p)) := hi.sg
    have hlen : range = (M.filter (pf (w.h - t) p)).length := by have := hsg.le; omega
    have hA' : ∀ j ∈ A, RI w S M a t j := fun j hj => hA j (List.mem_cons_of_mem _ hj)
    rw [List.map_cons, List.sum_cons] at hf
    have hw0 : 0 < rwt w t (range, s, p) := Nat.mul_pos hpos (by omega)
    have hlev : s / w.n = t := hsg.level ok (by omega)
    cases fuel with
    | zero => omega
    | succ fuel =>
        rw [List.cons_append, WM.rlLoop, if_neg hn0, hlev]
        by_cases c : t = w.h
        · have hB0 := hB0 c
          subst hB0
          have hwant := hi.leaf c
          dsimp only at hwant
          rw [if_pos c]
          have hgd : a.vr = false ∨ (a.x ≤ (p : Int) ∧ (p : Int) < a.y) := by
            unfold RlArgs.want at hwant
            cases e : a.vr
            · left; rfl
            · right
              rw [e] at hwant
              simpa using hwant
          rw [if_pos hgd]
          have hl0 : lst a M (w.h - t) p = [(p, range)] := by
            have : w.h - t = 0 := by omega
            rw [this, pf_zero] at hlen
            rw [this, lst, if_pos ⟨List.count_pos_iff.mp (by omega), hwant⟩, hlen]
          have hfl : ret ++ (List.flatMap (fun (i : Item) => lst a M (w.h - (t + 1)) i.2.2) [] ++ ((range, s, p) :: A).flatMap (fun i => lst a M (w.h - t) i.2.2)) =
              (ret ++ [(p, range)]) ++ A.flatMap (fun i => lst a M (w.h - t) i.2.2) := by
            rw [List.flatMap_cons, hl0]; simp
          rw [hfl]
          by_cases c2 : (ret ++ [(p, range)]).length = k
          · rw [if_pos c2, cut_hit c2 (by simp)]
          · rw [if_neg c2]
            have hlk : (ret ++ [(p, range)]).length < k ∨ k = 0 := by
              rw [List.length_append, List.length_singleton] at *
              omega
            have := ih fuel (Nat.lt_succ_self _) A [] (ret ++ [(p, range)]) hA' (by simp) (fun _ => rfl) hlk (by simp at hf ⊢; omega)
            rw [this]
            simp
        · have ht' : t < w.h := by omega
          rw [if_neg c, if_pos ht']
          obtain ⟨q0, e0, v0, f0, g0⟩ := rlPush_ok ok hne hg ht' hlev hsg (!a.asc) (A ++ B)
          obtain ⟨q1, e1, v1, f1, g1⟩ := rlPush_ok ok hne hg ht' hlev hsg a.asc (A ++ B ++ q0)
          rw [e0, Option.bind_some, e1, Option.bind_some]
          have hsp := rl_split a M (w.h - (t + 1)) p
          rw [show w.h - (t + 1) + 1 = w.h - t by omega] at hsp
          have hwt : rwt w t (range, s, p) = (M.filter (pf (w.h - (t + 1)) (2 * p + (!a.asc).toNat))).length * (w.h - t) +
              (M.filter (pf (w.h - (t + 1)) (2 * p + a.asc.toNat))).length * (w.h - t) + range := by
            unfold rwt
            dsimp only
            rw [← Nat.add_mul, hsp, ← hlen, show w.h + 1 - t = w.h - t + 1 by omega, Nat.mul_add, Nat.mul_one]
          have := ih fuel (Nat.lt_succ_self _) A (B ++ q0 ++ q1) ret hA' (by
              intro j hj
              rcases List.mem_append.mp hj with hj | hj
              · rcases List.mem_append.mp hj with hj | hj
                · exact hB j hj
                · exact v0 j hj
              · exact v1 j hj) (fun hh => absurd hh c) hk (by
              rw [List.map_append, List.map_append, List.sum_append, List.sum_append]
              omega)
          rw [show A ++ B ++ q0 ++ q1 = A ++ (B ++ q0 ++ q1) by simp only [List.append_assoc], this]
          congr 3
          rw [List.flatMap_append, List.flatMap_append, f0, f1, List.flatMap_cons]
          dsimp only
          have hl1 : lst a M (w.h - t) p = lst a M (w.h - (t + 1)) (2 * p + (!a.asc).toNat) ++ lst a M (w.h - (t + 1)) (2 * p + a.asc.toNat) := by
            rw [show w.h - t = w.h - (t + 1) + 1 by omega, lst]
          rw [hl1]
          simp only [List.append_assoc]
  intro fuel
  induction fuel using Nat.strong_induction_on with
  | _ fuel ih =>
    intro t A B ret ht hA hB hB0 hk hf
    cases A with
    | cons i A => exact main fuel t i A B ret (fun f hf A B ret => ih f hf t A B ret ht) ht hA hB hB0 hk hf
    | nil =>
        cases B with
        | nil =>
            cases fuel <;> rw [List.nil_append, WM.rlLoop] <;> simp [cut_le (show ret.length ≤ k ∨ k = 0 by omega)]
        | cons i B =>
            have ht' : t ≠ w.h := fun hh => by have := hB0 hh; cases this
            have := main fuel (t + 1) i B [] ret (fun f hf A B ret => ih f hf (t + 1) A B ret (by omega)) (by omega) hB (by simp) (fun _ => rfl) hk (by simp at hf ⊢; omega)
            rw [List.append_nil] at this
            rw [List.nil_append, this]
            simp

/-- `t` exists at `s` even when the range is empty. -/
theorem rangeListK_ok {w : WM} {S : List Nat} (ok : Ok w S) (hh : 1 ≤ w.h) {a : RlArgs} (hg : a.Good) {l r : Nat} (h1 : l < r) (h2 : r ≤ S.length) (k : Nat) :
    w.rangeListK a l r k = some (cut k (lst a (slice S l r) w.h 0)) := by
  have hne : S ≠ [] := by intro h; rw [h] at h2; simp at h2; omega
  have hs := Sg.start (w := w) (Nat.le_of_lt h1) h2
  have hlen := (slice_split (Nat.le_of_lt h1) h2).2
  unfold WM.rangeListK usub
  rw [if_pos (Nat.le_of_lt h1), Option.bind_some]
  have := rlLoop_ok (M := slice S l r) ok hne hg k ((r - l) * (w.h + 1) + 2) 0 [(r - l, l, 0)] [] [] (Nat.zero_le _) (by
    intro i hi
    rw [List.mem_singleton] at hi
    subst hi
    refine ⟨?_, by dsimp only; omega, by omega⟩
    dsimp only
    rw [Nat.sub_zero, pf_top (fun x hx => ok.lt x (slice_mem hx)), show l + (r - l) = r by omega]
    exact hs) (by simp) (fun _ => rfl) (by
    simp only [List.length_nil]; omega) (by simp [rwt])
  rw [List.append_nil] at this
  rw [this]
  simp

/-- The result for an empty range. -/
theorem rangeListK_empty {w : WM} {S : List Nat} (ok : Ok w S) (hh : 1 ≤ w.h) (hne : S ≠ []) {a : RlArgs} (hg : a.Good) {l : Nat} (h : l < S.length ∨ l = S.length ∧ 1 < w.h) (k : Nat) :
    w.rangeListK a l l k = some [] := by
  have hn0 : 0 < S.length := List.length_pos_iff.mpr hne
  have hn : w.n = S.length := ok.n
  unfold WM.rangeListK usub
  rw [if_pos (Nat.le_refl _), Option.bind_some, Nat.sub_self, Nat.zero_mul]
  have key : ∀ t, t < w.h → l / w.n = t → Sg w S t l (l + 0) (([] : List Nat).filter (pf (w.h - t) 0)) → w.rlLoop a k (0 + 2) [(0, l, 0)] [] = some [] := by
    intro t ht hlev hs
    obtain ⟨q0, e0, v0, f0, g0⟩ := rlPush_ok (M := []) ok hne hg ht hlev hs (!a.asc) []
    obtain ⟨q1, e1, v1, f1, g1⟩ := rlPush_ok (M := []) ok hne hg ht hlev hs a.asc ([] ++ q0)
    have hz : ∀ q' : List Item, (∀ i ∈ q', RI w S [] a (t + 1) i) → q' = [] := by
      intro q' hq
      rw [List.eq_nil_iff_forall_not_mem]
      intro i hi
      have := (hq i hi).pos
      have := (hq i hi).sg.le
      simp at this
      omega
    have hq0 := hz q0 v0
    have hq1 := hz q1 v1
    subst hq0 hq1
    rw [WM.rlLoop, if_neg (by omega), hlev, if_neg (by omega), if_pos ht, e0, Option.bind_some, e1, Option.bind_some]
    rfl
  rcases h with h | ⟨h, h1⟩
  · refine key 0 (by omega) (by rw [hn, Nat.div_eq_of_lt h]) ?_
    exact ⟨S.take l, S.drop l, by simp [lev], by simp; omega, by simp⟩
  · refine key 1 h1 (by rw [hn, h, Nat.div_self hn0]) ?_
    exact ⟨[], lev w.h S 1, by simp, by simp; omega, by simp⟩

end Verif.Wavelet
