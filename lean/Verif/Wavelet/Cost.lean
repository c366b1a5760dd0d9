import Verif.Wavelet.TopK
/-!
The number of rounds of the loops of `top_k` and `range_list_k`.
-/
namespace Verif.Wavelet

/-- `f m` is the outcome of a loop that is stopped after `m` rounds (`none`: it has not ended).  The loop ends in round `n` with result `x`. -/
def Takes {α : Type} (f : Nat → Option α) (n : Nat) (x : α) : Prop := (∀ m, m < n → f m = none) ∧ ∀ m, n ≤ m → f m = some x

theorem takes_of {α : Type} {f : Nat → Option α} (mono : ∀ m x, f m = some x → f (m + 1) = some x) : ∀ (N : Nat) (x : α), f N = some x → ∃ n, n ≤ N ∧ Takes f n x := by
  have up : ∀ n x, f n = some x → ∀ m, n ≤ m → f m = some x := by
    intro n x h m hm
    induction hm with
    | refl => exact h
    | step _ ih => exact mono _ _ ih
  intro N
  induction N with
  | zero => exact fun x h => ⟨0, Nat.le_refl _, by omega, up 0 x h⟩
  | succ N ih =>
      intro x h
      cases e : f N with
      | none =>
          refine ⟨N + 1, Nat.le_refl _, ?_, up _ x h⟩
          intro m hm
          cases em : f m with
          | none => rfl
          | some y => rw [up m y em N (by omega)] at e; cases e
      | some y =>
          have := mono _ _ e
          rw [h] at this
          cases this
          obtain ⟨n, h1, h2⟩ := ih x e
          exact ⟨n, by omega, h2⟩

/-! ### top_k -/

theorem tkLoop_mono (w : WM) (k : Nat) : ∀ (m : Nat) (q : List Item) (ret x : List (Nat × Nat)), w.tkLoop k m q ret = some x → w.tkLoop k (m + 1) q ret = some x
  | 0, q, ret, x, h => by
      rw [WM.tkLoop] at h
      by_cases c : q = []
      · rw [if_pos c] at h
        subst c
        rw [WM.tkLoop]
        exact h
      · rw [if_neg c] at h; cases h
  | m+1, q, ret, x, h => by
      rw [WM.tkLoop] at h
      rw [WM.tkLoop]
      cases e : pqTop q with
      | none => rw [e] at h; exact h
      | some i =>
          obtain ⟨range, s, c⟩ := i
          rw [e] at h
          dsimp only at h ⊢
          by_cases c0 : w.n = 0
          · rw [if_pos c0] at h; cases h
          · rw [if_neg c0] at h ⊢
            by_cases c1 : s / w.n = w.h
            · rw [if_pos c1] at h ⊢
              by_cases c2 : (ret ++ [(c, range)]).length = k
              · rw [if_pos c2] at h ⊢; exact h
              · rw [if_neg c2] at h ⊢; exact tkLoop_mono w k m _ _ _ h
            · rw [if_neg c1] at h ⊢
              by_cases c3 : s / w.n < w.h
              · rw [if_pos c3] at h ⊢
                cases e0 : w.tkPush range s c false (q.erase (range, s, c)) with
                | none => rw [e0] at h; cases h
                | some q0 =>
                    rw [e0, Option.bind_some] at h
                    rw [Option.bind_some]
                    cases e1 : w.tkPush range s c true q0 with
                    | none => rw [e1] at h; cases h
                    | some q1 =>
                        rw [e1, Option.bind_some] at h
                        rw [Option.bind_some]
                        exact tkLoop_mono w k m _ _ _ h
              · rw [if_neg c3] at h; cases h

/-- Rounds an item still causes, at most; `M'` has an element for every value. -/
def cwt (w : WM) (M' : List Nat) (i : Item) : Nat := (vals w M' i).length * (w.h + 1 - i.2.1 / w.n)

theorem tkPush_cost {w : WM} {S M : List Nat} (ok : Ok w S) (hne : S ≠ []) {range s c : Nat} (hi : TI w S M (range, s, c)) (ht : s / w.n < w.h) (b : Bool) (q : List Item) :
    ∃ q', w.tkPush range s c b q = some (q ++ q') ∧ (∀ i ∈ q', TI w S M i) ∧
      ∀ M', (q'.map (cwt w M')).sum ≤ ((vals w M' (range, s, c)).filter (hb (w.h - 1 - s / w.n) b)).length * (w.h - s / w.n) := by
  obtain ⟨p, hp⟩ := hi.c0
  dsimp only at hp
  have hpos := Nat.two_pow_pos (w.h - s / w.n)
  have hval : ∀ M, vals w M (range, s, c) = M.filter (pf (w.h - s / w.n) p) := by
    intro M
    unfold vals
    dsimp only
    rw [hp, Nat.mul_div_cancel_left _ hpos]
  have hsg := hi.sg
  rw [hval] at hsg
  dsimp only at hsg
  obtain ⟨l', r', e, h'⟩ := pf_child ok hne ht hsg b
  have hf : ∀ M, (vals w M (range, s, c)).filter (hb (w.h - 1 - s / w.n) b) = M.filter (pf (w.h - (s / w.n + 1)) (2 * p + b.toNat)) := by
    intro M
    rw [hval, show w.h - s / w.n = w.h - 1 - s / w.n + 1 by omega, pf_succ, show w.h - 1 - s / w.n = w.h - (s / w.n + 1) by omega]
  have hc : c ||| (b.toNat * 2^(w.h - 1 - s / w.n)) = 2^(w.h - (s / w.n + 1)) * (2 * p + b.toNat) := by
    have h1 : w.h - s / w.n = w.h - 1 - s / w.n + 1 := by omega
    have h2 : w.h - (s / w.n + 1) = w.h - 1 - s / w.n := by omega
    rw [h2]
    rw [h1] at hp
    rw [Nat.pow_succ] at hp
    cases b
    · simp [hp, Nat.mul_assoc]
    · have := or_bit (c := c) (d := w.h - 1 - s / w.n) (by rw [hp, ← Nat.pow_succ, Nat.mul_mod_right])
      simp only [Bool.toNat_true, Nat.one_mul]
      rw [this, hp]
      ring
  have hpos2 := Nat.two_pow_pos (w.h - (s / w.n + 1))
  unfold WM.tkPush
  rw [e, Option.bind_some]
  dsimp only
  have hle := h'.le
  by_cases c2 : l' = r'
  · rw [if_neg (by simpa using c2)]
    exact ⟨[], by simp, by simp, by simp⟩
  · rw [if_pos c2, h'.usub]
    have hlev : l' / w.n = s / w.n + 1 := h'.level ok (by omega)
    have hv : ∀ M', vals w M' ((M.filter (pf (w.h - (s / w.n + 1)) (2 * p + b.toNat))).length, l', c ||| (b.toNat * 2^(w.h - 1 - s / w.n))) =
        M'.filter (pf (w.h - (s / w.n + 1)) (2 * p + b.toNat)) := by
      intro M'
      unfold vals
      dsimp only
      rw [hlev, hc, Nat.mul_div_cancel_left _ hpos2]
    refine ⟨[((M.filter (pf (w.h - (s / w.n + 1)) (2 * p + b.toNat))).length, l', c ||| (b.toNat * 2^(w.h - 1 - s / w.n)))], rfl, ?_, ?_⟩
    · intro i hi
      rw [List.mem_singleton] at hi
      subst hi
      refine ⟨?_, ?_, ?_, ?_⟩
      · dsimp only; omega
      · dsimp only; rw [hlev, hc]; exact Nat.dvd_mul_right _ _
      · rw [hv]; dsimp only
        rw [hlev, show l' + (M.filter (pf (w.h - (s / w.n + 1)) (2 * p + b.toNat))).length = r' by omega]
        exact h'
      · dsimp only; omega
    · intro M'
      rw [hf]
      simp only [List.map_cons, List.map_nil, List.sum_cons, List.sum_nil, cwt, Nat.add_zero]
      rw [hlev, hv, show w.h + 1 - (s / w.n + 1) = w.h - s / w.n by omega]

theorem TI.cwt_pos {w : WM} {S M M' : List Nat} (hM : ∀ v ∈ M, v ∈ M') {i : Item} (h : TI w S M i) : 0 < cwt w M' i := by
  refine Nat.mul_pos ?_ (by have := h.lv; omega)
  have h1 : 0 < (vals w M i).length := by rw [← h.len]; exact h.pos
  obtain ⟨v, hv⟩ := List.exists_mem_of_length_pos h1
  unfold vals at hv ⊢
  rw [List.mem_filter] at hv
  exact List.length_pos_of_mem (List.mem_filter.mpr ⟨hM v hv.1, hv.2⟩)

theorem tkLoop_cost {w : WM} {S M M' : List Nat} (ok : Ok w S) (hne : S ≠ []) (hM : ∀ v ∈ M, v ∈ M') (k : Nat) : ∀ (fuel : Nat) (q : List Item) (ret : List (Nat × Nat)),
    (∀ i ∈ q, TI w S M i) → (q.map (cwt w M')).sum ≤ fuel → ∃ x, w.tkLoop k fuel q ret = some x
  | 0, q, ret, hq, hf => by
      have hq0 : q = [] := by
        cases q with
        | nil => rfl
        | cons i q =>
            have := (hq i List.mem_cons_self).cwt_pos hM
            rw [List.map_cons, List.sum_cons] at hf
            omega
      subst hq0
      exact ⟨ret, by rw [WM.tkLoop, if_pos rfl]⟩
  | fuel+1, q, ret, hq, hf => by
      have hn0 : w.n ≠ 0 := by rw [ok.n]; intro hh; exact hne (List.length_eq_zero_iff.mp hh)
      rw [WM.tkLoop]
      cases e : pqTop q with
      | none => exact ⟨ret, rfl⟩
      | some m =>
          obtain ⟨range, s, c⟩ := m
          obtain ⟨hm, _⟩ := pqTop_some e
          have hperm := List.perm_cons_erase hm
          have hq' : ∀ i ∈ q.erase (range, s, c), TI w S M i := fun i hi => hq i (List.mem_of_mem_erase hi)
          have hsum : (q.map (cwt w M')).sum = cwt w M' (range, s, c) + ((q.erase (range, s, c)).map (cwt w M')).sum := by
            rw [(hperm.map (cwt w M')).sum_eq, List.map_cons, List.sum_cons]
          have hti := hq _ hm
          have hw := hti.cwt_pos hM
          have hlv : s / w.n ≤ w.h := hti.lv
          dsimp only
          rw [if_neg hn0]
          by_cases c1 : s / w.n = w.h
          · rw [if_pos c1]
            by_cases c2 : (ret ++ [(c, range)]).length = k
            · rw [if_pos c2]; exact ⟨_, rfl⟩
            · rw [if_neg c2]
              exact tkLoop_cost ok hne hM k fuel _ _ hq' (by omega)
          · have ht : s / w.n < w.h := by omega
            rw [if_neg c1, if_pos ht]
            obtain ⟨q0, e0, t0, s0⟩ := tkPush_cost ok hne hti ht false (q.erase (range, s, c))
            obtain ⟨q1, e1, t1, s1⟩ := tkPush_cost ok hne hti ht true (q.erase (range, s, c) ++ q0)
            rw [e0, Option.bind_some, e1, Option.bind_some]
            have s0 := s0 M'
            have s1 := s1 M'
            have hsp := filter_split_length (w.h - 1 - s / w.n) (vals w M' (range, s, c))
            have hwt : cwt w M' (range, s, c) = ((vals w M' (range, s, c)).filter (hb (w.h - 1 - s / w.n) false)).length * (w.h - s / w.n) +
                ((vals w M' (range, s, c)).filter (hb (w.h - 1 - s / w.n) true)).length * (w.h - s / w.n) + (vals w M' (range, s, c)).length := by
              unfold cwt
              dsimp only
              rw [← Nat.add_mul, hsp, show w.h + 1 - s / w.n = w.h - s / w.n + 1 by omega, Nat.mul_add, Nat.mul_one]
            have hpos : 0 < (vals w M' (range, s, c)).length := Nat.pos_of_mul_pos_right hw
            refine tkLoop_cost ok hne hM k fuel _ ret ?_ ?_
            · intro i hi
              rcases List.mem_append.mp hi with hi | hi
              · rcases List.mem_append.mp hi with hi | hi
                · exact hq' i hi
                · exact t0 i hi
              · exact t1 i hi
            · rw [List.map_append, List.map_append, List.sum_append, List.sum_append]
              omega

/-! ### range_list_k -/

theorem rlLoop_mono (w : WM) (a : RlArgs) (k : Nat) : ∀ (m : Nat) (q : List Item) (ret x : List (Nat × Nat)), w.rlLoop a k m q ret = some x → w.rlLoop a k (m + 1) q ret = some x
  | m, [], ret, x, h => by
      cases m <;> rw [WM.rlLoop] at h <;> rw [WM.rlLoop] <;> exact h
  | 0, i :: q, ret, x, h => by rw [WM.rlLoop] at h; cases h
  | m+1, (range, s, c) :: q, ret, x, h => by
      rw [WM.rlLoop] at h
      rw [WM.rlLoop]
      by_cases c0 : w.n = 0
      · rw [if_pos c0] at h; cases h
      · rw [if_neg c0] at h ⊢
        by_cases c1 : s / w.n = w.h
        · rw [if_pos c1] at h ⊢
          by_cases c4 : a.vr = false ∨ (a.x ≤ (c : Int) ∧ (c : Int) < a.y)
          · rw [if_pos c4] at h ⊢
            by_cases c2 : (ret ++ [(c, range)]).length = k
            · rw [if_pos c2] at h ⊢; exact h
            · rw [if_neg c2] at h ⊢; exact rlLoop_mono w a k m _ _ _ h
          · rw [if_neg c4] at h; cases h
        · rw [if_neg c1] at h ⊢
          by_cases c3 : s / w.n < w.h
          · rw [if_pos c3] at h ⊢
            cases e0 : w.rlPush a range s c (!a.asc) q with
            | none => rw [e0] at h; cases h
            | some q0 =>
                rw [e0, Option.bind_some] at h
                rw [Option.bind_some]
                cases e1 : w.rlPush a range s c a.asc q0 with
                | none => rw [e1] at h; cases h
                | some q1 =>
                    rw [e1, Option.bind_some] at h
                    rw [Option.bind_some]
                    exact rlLoop_mono w a k m _ _ _ h
          · rw [if_neg c3] at h; cases h

def rcw (w : WM) (M' : List Nat) (i : Item) : Nat := (M'.filter (pf (w.h - i.2.1 / w.n) i.2.2)).length * (w.h + 1 - i.2.1 / w.n)

/-- A queue item that accounts for an element of `M'`. -/
structure RJ (w : WM) (S M M' : List Nat) (a : RlArgs) (i : Item) : Prop where
  lv : i.2.1 / w.n ≤ w.h
  ri : RI w S M a (i.2.1 / w.n) i
  ac : ∃ v ∈ M', v / 2^(w.h - i.2.1 / w.n) = i.2.2

/-- Every node that is not skipped has an element of `M'`. -/
def Acc (a : RlArgs) (M M' : List Nat) : Prop := ∀ s nc, (∃ v ∈ M, v / 2^s = nc) → a.skip s nc = false → ∃ v ∈ M', v / 2^s = nc

theorem RJ.len {w : WM} {S M M' : List Nat} {a : RlArgs} {i : Item} (h : RJ w S M M' a i) : 0 < (M'.filter (pf (w.h - i.2.1 / w.n) i.2.2)).length := by
  obtain ⟨v, h1, h2⟩ := h.ac
  exact List.length_pos_of_mem (List.mem_filter.mpr ⟨h1, decide_eq_true h2⟩)

theorem RJ.pos {w : WM} {S M M' : List Nat} {a : RlArgs} {i : Item} (h : RJ w S M M' a i) : 0 < rcw w M' i :=
  Nat.mul_pos h.len (by have := h.lv; omega)

theorem rlPush_cost {w : WM} {S M M' : List Nat} (ok : Ok w S) (hne : S ≠ []) {a : RlArgs} (hg : a.Good) (ha : Acc a M M') {range s p : Nat} (ht : s / w.n < w.h)
    (hs : Sg w S (s / w.n) s (s + range) (M.filter (pf (w.h - s / w.n) p))) (b : Bool) (q : List Item) :
    ∃ q', w.rlPush a range s p b q = some (q ++ q') ∧ (∀ i ∈ q', RJ w S M M' a i) ∧
      (q'.map (rcw w M')).sum ≤ (M'.filter (pf (w.h - (s / w.n + 1)) (2 * p + b.toNat))).length * (w.h - s / w.n) := by
  unfold WM.rlPush
  by_cases c : a.skip (w.h - 1 - s / w.n) (2 * p + b.toNat) = true
  · rw [if_pos c]
    exact ⟨[], by simp, by simp, by simp⟩
  · rw [if_neg c]
    obtain ⟨l', r', e, h'⟩ := pf_child ok hne ht hs b
    rw [e, Option.bind_some]
    dsimp only
    have hle := h'.le
    by_cases c2 : l' = r'
    · rw [if_neg (by simpa using c2)]
      exact ⟨[], by simp, by simp, by simp⟩
    · rw [if_pos c2, h'.usub]
      have hlev : l' / w.n = s / w.n + 1 := h'.level ok (by omega)
      refine ⟨[((M.filter (pf (w.h - (s / w.n + 1)) (2 * p + b.toNat))).length, l', 2 * p + b.toNat)], rfl, ?_, ?_⟩
      · intro i hi
        rw [List.mem_singleton] at hi
        subst hi
        refine ⟨by dsimp only; omega, ⟨?_, ?_, ?_⟩, ?_⟩
        · dsimp only
          rw [hlev, show l' + (M.filter (pf (w.h - (s / w.n + 1)) (2 * p + b.toNat))).length = r' by omega]
          exact h'
        · dsimp only; omega
        · dsimp only
          rw [hlev]
          intro hh
          apply skip_leaf hg
          rw [show w.h - 1 - s / w.n = 0 by omega] at c
          simpa using c
        · dsimp only
          rw [hlev, show w.h - (s / w.n + 1) = w.h - 1 - s / w.n by omega]
          refine ha _ _ ?_ (by simpa using c)
          have h1 : 0 < (M.filter (pf (w.h - (s / w.n + 1)) (2 * p + b.toNat))).length := by omega
          obtain ⟨v, hv⟩ := List.exists_mem_of_length_pos h1
          rw [List.mem_filter, pf, decide_eq_true_eq, show w.h - (s / w.n + 1) = w.h - 1 - s / w.n by omega] at hv
          exact ⟨v, hv⟩
      · simp only [List.map_cons, List.map_nil, List.sum_cons, List.sum_nil, rcw, Nat.add_zero]
        rw [hlev, show w.h + 1 - (s / w.n + 1) = w.h - s / w.n by omega]

theorem rlLoop_cost {w : WM} {S M M' : List Nat} (ok : Ok w S) (hne : S ≠ []) {a : RlArgs} (hg : a.Good) (ha : Acc a M M') (k : Nat) :
    ∀ (fuel : Nat) (q : List Item) (ret : List (Nat × Nat)), (∀ i ∈ q, RJ w S M M' a i) → (q.map (rcw w M')).sum ≤ fuel → ∃ x, w.rlLoop a k fuel q ret = some x
  | fuel, [], ret, _, _ => ⟨ret, by cases fuel <;> rw [WM.rlLoop]⟩
  | 0, i :: q, ret, hq, hf => by
      have := (hq i List.mem_cons_self).pos
      rw [List.map_cons, List.sum_cons] at hf
      omega
  | fuel+1, (range, s, p) :: q, ret, hq, hf => by
      have hn0 : w.n ≠ 0 := by rw [ok.n]; intro hh; exact hne (List.length_eq_zero_iff.mp hh)
      have hi := hq _ List.mem_cons_self
      have hpos := hi.pos
      have hlv : s / w.n ≤ w.h := hi.lv
      have hq' : ∀ j ∈ q, RJ w S M M' a j := fun j hj => hq j (List.mem_cons_of_mem _ hj)
      rw [List.map_cons, List.sum_cons] at hf
      rw [WM.rlLoop, if_neg hn0]
      by_cases c : s / w.n = w.h
      · rw [if_pos c]
        have hwant := hi.ri.leaf c
        dsimp only at hwant
        have hgd : a.vr = false ∨ (a.x ≤ (p : Int) ∧ (p : Int) < a.y) := by
          unfold RlArgs.want at hwant
          cases e : a.vr
          · left; rfl
          · right
            rw [e] at hwant
            simpa using hwant
        rw [if_pos hgd]
        by_cases c2 : (ret ++ [(p, range)]).length = k
        · rw [if_pos c2]; exact ⟨_, rfl⟩
        · rw [if_neg c2]
          exact rlLoop_cost ok hne hg ha k fuel q _ hq' (by omega)
      · have ht : s / w.n < w.h := by omega
        rw [if_neg c, if_pos ht]
        have hsg : Sg w S (s / w.n) s (s + range) (M.filter (pf (w.h - s / w.n) p)) := hi.ri.sg
        obtain ⟨q0, e0, v0, g0⟩ := rlPush_cost (M' := M') ok hne hg ha ht hsg (!a.asc) q
        obtain ⟨q1, e1, v1, g1⟩ := rlPush_cost (M' := M') ok hne hg ha ht hsg a.asc (q ++ q0)
        rw [e0, Option.bind_some, e1, Option.bind_some]
        have hsp := rl_split a M' (w.h - (s / w.n + 1)) p
        rw [show w.h - (s / w.n + 1) + 1 = w.h - s / w.n by omega] at hsp
        have hwt : rcw w M' (range, s, p) = (M'.filter (pf (w.h - (s / w.n + 1)) (2 * p + (!a.asc).toNat))).length * (w.h - s / w.n) +
            (M'.filter (pf (w.h - (s / w.n + 1)) (2 * p + a.asc.toNat))).length * (w.h - s / w.n) + (M'.filter (pf (w.h - s / w.n) p)).length := by
          unfold rcw
          dsimp only
          rw [← Nat.add_mul, hsp, show w.h + 1 - s / w.n = w.h - s / w.n + 1 by omega, Nat.mul_add, Nat.mul_one]
        have hlen : 0 < (M'.filter (pf (w.h - s / w.n) p)).length := hi.len
        refine rlLoop_cost ok hne hg ha k fuel _ ret ?_ ?_
        · intro j hj
          rcases List.mem_append.mp hj with hj | hj
          · rcases List.mem_append.mp hj with hj | hj
            · exact hq' j hj
            · exact v0 j hj
          · exact v1 j hj
        · rw [List.map_append, List.map_append, List.sum_append, List.sum_append]
          omega

/-! ### The rounds before the first value is listed -/

/-- The inner nodes below a prefix. -/
def inner (M : List Nat) : Nat → Nat → Nat
  | 0, _ => 0
  | d+1, p => if M.filter (pf (d+1) p) = [] then 0 else inner M d (2 * p) + inner M d (2 * p + 1) + 1

theorem inner_nil {M : List Nat} {d p : Nat} (h : M.filter (pf d p) = []) : inner M d p = 0 := by
  cases d with
  | zero => rfl
  | succ d => rw [inner, if_pos h]

theorem inner_full {M : List Nat} : ∀ (d p : Nat), (∀ v, v / 2^d = p → v ∈ M) → inner M d p + 1 = 2^d
  | 0, p, _ => rfl
  | d+1, p, h => by
      have hne : M.filter (pf (d+1) p) ≠ [] := by
        intro hc
        rw [List.filter_eq_nil_iff] at hc
        have e : p * 2^(d+1) / 2^(d+1) = p := Nat.mul_div_cancel _ (Nat.two_pow_pos _)
        exact hc _ (h _ e) (decide_eq_true e)
      have h0 := inner_full d (2 * p) (fun v hv => h v ((half_iff (v := v) (d := d) (p := p) true).mpr (Or.inl hv)))
      have h1 := inner_full d (2 * p + 1) (fun v hv => h v ((half_iff (v := v) (d := d) (p := p) true).mpr (Or.inr hv)))
      rw [inner, if_neg hne, Nat.pow_succ]
      omega

theorem rlPush_all {w : WM} {S M : List Nat} (ok : Ok w S) (hne : S ≠ []) {a : RlArgs} (hv : a.vr = false) {t range s p : Nat} (ht : t < w.h) (hl : s / w.n = t)
    (hs : Sg w S t s (s + range) (M.filter (pf (w.h - t) p))) (b : Bool) (q : List Item) :
    ∃ q', w.rlPush a range s p b q = some (q ++ q') ∧ (∀ i ∈ q', RI w S M a (t + 1) i) ∧
      (q'.map (fun i => inner M (w.h - (t + 1)) i.2.2)).sum = inner M (w.h - (t + 1)) (2 * p + b.toNat) ∧
      (q' = [] → M.filter (pf (w.h - (t + 1)) (2 * p + b.toNat)) = []) := by
  unfold WM.rlPush
  rw [hl]
  have c : ¬ a.skip (w.h - 1 - t) (2 * p + b.toNat) = true := by unfold RlArgs.skip; rw [hv]; simp
  rw [if_neg c]
  obtain ⟨l', r', e, h'⟩ := pf_child ok hne ht hs b
  rw [e, Option.bind_some]
  dsimp only
  have hle := h'.le
  by_cases c2 : l' = r'
  · rw [if_neg (by simpa using c2)]
    have hz : M.filter (pf (w.h - (t + 1)) (2 * p + b.toNat)) = [] := List.length_eq_zero_iff.mp (by omega)
    exact ⟨[], by simp, by simp, by rw [inner_nil hz]; rfl, fun _ => hz⟩
  · rw [if_pos c2, h'.usub]
    refine ⟨[((M.filter (pf (w.h - (t + 1)) (2 * p + b.toNat))).length, l', 2 * p + b.toNat)], rfl, ?_, by simp, fun h => by cases h⟩
    intro i hi
    rw [List.mem_singleton] at hi
    subst hi
    refine ⟨?_, ?_, ?_⟩
    · dsimp only
      rw [show l' + (M.filter (pf (w.h - (t + 1)) (2 * p + b.toNat))).length = r' by omega]
      exact h'
    · dsimp only; omega
    · intro _
      unfold RlArgs.want
      rw [hv]; rfl

theorem rlLoop_slow {w : WM} {S M : List Nat} (ok : Ok w S) (hne : S ≠ []) {a : RlArgs} (hv : a.vr = false) (k : Nat) : ∀ (fuel t : Nat) (A B : List Item) (ret : List (Nat × Nat)),
    t < w.h → (∀ i ∈ A, RI w S M a t i) → (∀ i ∈ B, RI w S M a (t + 1) i) → A ++ B ≠ [] →
    fuel ≤ (A.map (fun i => inner M (w.h - t) i.2.2)).sum + (B.map (fun i => inner M (w.h - (t + 1)) i.2.2)).sum →
    w.rlLoop a k fuel (A ++ B) ret = none := by
  have hn0 : w.n ≠ 0 := by rw [ok.n]; intro hh; exact hne (List.length_eq_zero_iff.mp hh)
  intro fuel
  induction fuel with
  | zero =>
      intro t A B ret _ _ _ hq _
      cases e : A ++ B with
      | nil => exact absurd e hq
      | cons i q => rw [WM.rlLoop]
  | succ fuel ih =>
    have main : ∀ (t : Nat) (i : Item) (A B : List Item) (ret : List (Nat × Nat)), t < w.h → (∀ j ∈ i :: A, RI w S M a t j) → (∀ i ∈ B, RI w S M a (t + 1) i) →
        fuel + 1 ≤ ((i :: A).map (fun i => inner M (w.h - t) i.2.2)).sum + (B.map (fun i => inner M (w.h - (t + 1)) i.2.2)).sum →
        w.rlLoop a k (fuel + 1) (i :: A ++ B) ret = none := by
      intro t i A B ret ht hA hB hf
      obtain ⟨range, s, p⟩ := i
      have hi := hA _ List.mem_cons_self
      have hpos : 0 < range := hi.pos
      have hsg : Sg w S t s (s + range) (M.filter (pf (w.h - t) p)) := hi.sg
      have hlev : s / w.n = t := hsg.level ok (by omega)
      have hlen : range = (M.filter (pf (w.h - t) p)).length := by have := hsg.le; omega
      have hA' : ∀ j ∈ A, RI w S M a t j := fun j hj => hA j (List.mem_cons_of_mem _ hj)
      rw [List.map_cons, List.sum_cons] at hf
      dsimp only at hf
      rw [List.cons_append, WM.rlLoop, if_neg hn0, hlev, if_neg (by omega), if_pos ht]
      obtain ⟨q0, e0, v0, g0, z0⟩ := rlPush_all ok hne hv ht hlev hsg (!a.asc) (A ++ B)
      obtain ⟨q1, e1, v1, g1, z1⟩ := rlPush_all ok hne hv ht hlev hsg a.asc (A ++ B ++ q0)
      rw [e0, Option.bind_some, e1, Option.bind_some]
      have hsp := rl_split a M (w.h - (t + 1)) p
      rw [show w.h - (t + 1) + 1 = w.h - t by omega] at hsp
      have hin : inner M (w.h - t) p = inner M (w.h - (t + 1)) (2 * p + (!a.asc).toNat) + inner M (w.h - (t + 1)) (2 * p + a.asc.toNat) + 1 := by
        have hz : M.filter (pf (w.h - (t + 1) + 1) p) ≠ [] := by
          intro hc
          rw [show w.h - (t + 1) + 1 = w.h - t by omega] at hc
          rw [hc] at hlen
          simp at hlen; omega
        rw [show w.h - t = w.h - (t + 1) + 1 by omega, inner, if_neg hz]
        cases a.asc
        · simp only [Bool.not_false, Bool.toNat_true, Bool.toNat_false, Nat.add_zero]; omega
        · simp only [Bool.not_true, Bool.toNat_true, Bool.toNat_false, Nat.add_zero]
      rw [show A ++ B ++ q0 ++ q1 = A ++ (B ++ q0 ++ q1) by simp only [List.append_assoc]]
      refine ih t A (B ++ q0 ++ q1) ret ht hA' ?_ ?_ ?_
      · intro j hj
        rcases List.mem_append.mp hj with hj | hj
        · rcases List.mem_append.mp hj with hj | hj
          · exact hB j hj
          · exact v0 j hj
        · exact v1 j hj
      · intro hc
        simp only [List.append_eq_nil_iff] at hc
        rw [z0 hc.2.1.2, z1 hc.2.2] at hsp
        simp at hsp
        omega
      · rw [List.map_append, List.map_append, List.sum_append, List.sum_append, g0, g1]
        omega
    intro t A B ret ht hA hB hq hf
    cases A with
    | cons i A => exact main t i A B ret ht hA hB hf
    | nil =>
        cases B with
        | nil => exact absurd rfl hq
        | cons i B =>
            by_cases c : t + 1 = w.h
            · have hz : ∀ L : List Item, (L.map (fun i => inner M (w.h - (t + 1)) i.2.2)).sum = 0 := by
                intro L
                rw [c, Nat.sub_self]
                induction L with
                | nil => rfl
                | cons j L ihL => rw [List.map_cons, List.sum_cons, ihL, inner]
              rw [hz] at hf
              simp at hf
            · have := main (t + 1) i B [] ret (by omega) hB (by simp) (by simp at hf ⊢; omega)
              rw [List.append_nil] at this
              rw [List.nil_append]
              exact this

end Verif.Wavelet
