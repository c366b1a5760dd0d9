import Verif.Skew.Canon
/-!
C136: every operation of `PersistentSkewbinaryList` takes logarithmic time, in every version.
-/
namespace Verif.Skew

variable {T : Type}

/-! ### Costs inside a tree -/

theorem inner {v : T} {e j : Nat} {l r : Tree T} (hw : WF e (.node v e l r)) (hj0 : j ≠ 0) (hj : j < 2^e - 1) (hl : ¬ (decide (e > 1) && l.isNil) = true) :
    1 < e ∧ WF (e-1) l ∧ WF (e-1) r ∧ l.size = some (2^(e-1) - 1) ∧ 2^e = 2 * 2^(e-1) := by
  have h1 := hw.size.2.2.2
  have hd : 1 < e := by
    by_contra hd
    have : e = 1 := by omega
    subst this
    omega
  obtain ⟨_, wl, wr⟩ := elems_inner hw hl hd
  exact ⟨hd, wl, wr, wl.size.1, two_pow_split hd⟩

theorem getTreeC_cost : ∀ (t : Tree T) (d j : Nat) (r : T × Nat), WF d t → j < 2^d - 1 → getTreeC t j = some r → r.2 + 1 ≤ d
  | .nil, d, j, r, h, _, _ => absurd h (by simp [WF])
  | .node v e l r, d, j, q, h, hj, h' => by
    have hw := h
    obtain ⟨rfl, h1, _⟩ := h
    rw [getTreeC] at h'
    by_cases hj0 : j = 0
    · rw [if_pos hj0] at h'
      cases h'
      exact h1
    · rw [if_neg hj0] at h'
      by_cases hl : (decide (e > 1) && l.isNil) = true
      · rw [if_pos hl] at h'
        cases h'
        rw [Bool.and_eq_true, decide_eq_true_eq] at hl
        dsimp only
        omega
      · rw [if_neg hl] at h'
        obtain ⟨hd, wl, wr, es, hp⟩ := inner hw hj0 hj hl
        rw [es, Option.bind_some] at h'
        obtain ⟨q', eq', rfl⟩ := Option.map_eq_some_iff.mp h'
        dsimp only
        by_cases hs : j - 1 < 2^(e-1) - 1
        · rw [if_pos hs] at eq'
          have := getTreeC_cost l (e-1) _ q' wl hs eq'
          omega
        · rw [if_neg hs] at eq'
          have := getTreeC_cost r (e-1) _ q' wr (by omega) eq'
          omega

theorem lumpUpdC_cost (v x : T) : ∀ (D s j : Nat) (r : Tree T × Nat), lumpUpdC v x D s j = some r → r.2 + 1 ≤ D := by
  intro D
  induction D with
  | zero => intro s j r h; cases h
  | succ D ih =>
    intro s j r h
    rw [lumpUpdC] at h
    split_ifs at h
    · cases h; dsimp only; omega
    · obtain ⟨t', e, rfl⟩ := Option.map_eq_some_iff.mp h
      have := ih _ _ _ e
      dsimp only; omega
    · obtain ⟨t', e, rfl⟩ := Option.map_eq_some_iff.mp h
      have := ih _ _ _ e
      dsimp only; omega

theorem updTreeC_cost (x : T) : ∀ (t : Tree T) (d j : Nat) (r : Tree T × Nat), WF d t → j < 2^d - 1 → updTreeC x t j = some r → r.2 + 1 ≤ d
  | .nil, d, j, r, h, _, _ => absurd h (by simp [WF])
  | .node v e l r, d, j, q, h, hj, h' => by
    have hw := h
    obtain ⟨rfl, h1, _⟩ := h
    rw [updTreeC] at h'
    by_cases hl : (decide (e > 1) && l.isNil) = true
    · rw [if_pos hl] at h'
      exact lumpUpdC_cost _ _ _ _ _ _ h'
    · rw [if_neg hl] at h'
      by_cases hj0 : j = 0
      · rw [if_pos hj0] at h'
        cases h'
        exact h1
      · rw [if_neg hj0] at h'
        obtain ⟨hd, wl, wr, es, hp⟩ := inner hw hj0 hj hl
        rw [es, Option.bind_some] at h'
        by_cases hs : j - 1 < 2^(e-1) - 1
        · rw [if_pos hs] at h'
          obtain ⟨q', eq', rfl⟩ := Option.map_eq_some_iff.mp h'
          have := updTreeC_cost x l (e-1) _ q' wl hs eq'
          dsimp only; omega
        · rw [if_neg hs] at h'
          obtain ⟨q', eq', rfl⟩ := Option.map_eq_some_iff.mp h'
          have := updTreeC_cost x r (e-1) _ q' wr (by omega) eq'
          dsimp only; omega

theorem dropTreeC_cost : ∀ (t : Tree T) (d j : Nat) (dst : List (Tree T)) (r : List (Tree T) × Nat), WF d t → j < 2^d - 1 → dropTreeC t j dst = some r → r.2 + 1 ≤ d
  | .nil, d, j, _, r, h, _, _ => absurd h (by simp [WF])
  | .node v e l r, d, j, dst, q, h, hj, h' => by
    have hw := h
    obtain ⟨rfl, h1, _⟩ := h
    rw [dropTreeC] at h'
    by_cases hj0 : j = 0
    · rw [if_pos hj0] at h'
      cases h'
      exact h1
    · rw [if_neg hj0] at h'
      have hl : ¬ (decide (e > 1) && l.isNil) = true := by
        intro h
        rw [Bool.and_eq_true] at h
        cases l with
        | nil => cases h'
        | node => cases h.2
      obtain ⟨hd, wl, wr, es, hp⟩ := inner hw hj0 hj hl
      rw [es, Option.bind_some] at h'
      obtain ⟨q', eq', rfl⟩ := Option.map_eq_some_iff.mp h'
      dsimp only
      by_cases hs : j - 1 < 2^(e-1) - 1
      · rw [if_pos hs] at eq'
        obtain ⟨_, _, eq'⟩ := Option.bind_eq_some_iff.mp eq'
        have := dropTreeC_cost l (e-1) _ _ q' wl hs eq'
        omega
      · rw [if_neg hs] at eq'
        have := dropTreeC_cost r (e-1) _ _ q' wr (by omega) eq'
        omega

/-! ### Costs over the digits -/

/-- Skipping `p` digits and working in a tree with digit `d`. -/
def At (ds : List (Tree T)) (c : Nat) : Prop := ∃ p d, (ds.map dg)[p]? = some d ∧ c + 1 ≤ p + d

theorem At.here {t : Tree T} {ds : List (Tree T)} {c : Nat} (h : c + 1 ≤ dg t) : At (t :: ds) c := ⟨0, dg t, rfl, by omega⟩

theorem At.next {t : Tree T} {ds : List (Tree T)} {c : Nat} (h : At ds c) : At (t :: ds) (c + 1) := by
  obtain ⟨p, d, h1, h2⟩ := h
  exact ⟨p + 1, d, by rw [List.map_cons, List.getElem?_cons_succ]; exact h1, by omega⟩

theorem getDsC_cost : ∀ (ds : List (Tree T)) (j : Nat) (r : T × Nat), (∀ t ∈ ds, WF (dg t) t) → getDsC ds j = some r → At ds r.2 := by
  intro ds
  induction ds with
  | nil => intro j r _ h; cases h
  | cons c rest ih =>
    intro j r hw h
    have hc := hw c (List.mem_cons_self ..)
    rw [getDsC, hc.size.1, Option.bind_some] at h
    by_cases hs : 2 ^ dg c - 1 ≤ j
    · rw [if_pos hs] at h
      obtain ⟨r', e, rfl⟩ := Option.map_eq_some_iff.mp h
      exact (ih _ r' (fun t ht => hw t (List.mem_cons_of_mem _ ht)) e).next
    · rw [if_neg hs] at h
      exact At.here (getTreeC_cost c _ j r hc (by omega) h)

theorem updDsC_cost (x : T) : ∀ (ds : List (Tree T)) (j : Nat) (r : List (Tree T) × Nat), (∀ t ∈ ds, WF (dg t) t) → updDsC x ds j = some r → At ds r.2 := by
  intro ds
  induction ds with
  | nil => intro j r _ h; cases h
  | cons c rest ih =>
    intro j r hw h
    have hc := hw c (List.mem_cons_self ..)
    rw [updDsC, hc.size.1, Option.bind_some] at h
    by_cases hs : 2 ^ dg c - 1 ≤ j
    · rw [if_pos hs] at h
      obtain ⟨r', e, rfl⟩ := Option.map_eq_some_iff.mp h
      exact (ih _ r' (fun t ht => hw t (List.mem_cons_of_mem _ ht)) e).next
    · rw [if_neg hs] at h
      obtain ⟨r', e, rfl⟩ := Option.map_eq_some_iff.mp h
      exact At.here (updTreeC_cost x c _ j r' hc (by omega) e)

theorem dropDsC_cost : ∀ (ds : List (Tree T)) (j : Nat) (r : List (Tree T) × Nat), (∀ t ∈ ds, WF (dg t) t) → dropDsC ds j = some r → r.2 = ds.length ∨ At ds r.2 := by
  intro ds
  induction ds with
  | nil => intro j r _ h; cases h; exact Or.inl rfl
  | cons c rest ih =>
    intro j r hw h
    have hc := hw c (List.mem_cons_self ..)
    rw [dropDsC, hc.size.1, Option.bind_some] at h
    by_cases hs : 2 ^ dg c - 1 ≤ j
    · rw [if_pos hs] at h
      obtain ⟨r', e, rfl⟩ := Option.map_eq_some_iff.mp h
      rcases ih _ r' (fun t ht => hw t (List.mem_cons_of_mem _ ht)) e with h | h
      · exact Or.inl (by rw [List.length_cons, ← h])
      · exact Or.inr h.next
    · rw [if_neg hs] at h
      exact Or.inr (At.here (dropTreeC_cost c _ j rest r hc (by omega) h))

/-! ### Sizes -/

theorem dg_le_log : ∀ (ds : List (Tree T)), (∀ t ∈ ds, WF (dg t) t) → ∀ d ∈ ds.map dg, 2 ^ d ≤ (toList ds).length + 1 := by
  intro ds
  induction ds with
  | nil => intro _ d h; cases h
  | cons c rest ih =>
    intro hw d hd
    have hc := elems_length (hw c (List.mem_cons_self ..))
    rw [toList_cons, List.length_append, hc]
    rcases List.mem_cons.1 hd with rfl | hd
    · have : 1 ≤ 2 ^ dg c := Nat.one_le_two_pow
      omega
    · have := ih (fun t ht => hw t (List.mem_cons_of_mem _ ht)) d hd
      omega

theorem Cn.le_log {ds : List (Tree T)} (h : Cn ds) {d n : Nat} (hd : d ∈ ds.map Skew.dg) (hn : (toList ds).length ≤ n) : d ≤ (n + 1).log2 := by
  have := dg_le_log ds h.wf d hd
  exact (Nat.le_log2 (by omega)).2 (by omega)

theorem Cn.at_le {ds : List (Tree T)} (h : Cn ds) {c : Nat} (ha : At ds c) : c + 1 ≤ 2 * ((toList ds).length + 1).log2 := by
  obtain ⟨p, d, h1, h2⟩ := ha
  have h3 := h.can.ge h1
  have h4 := h.le_log (List.mem_of_getElem? h1) (Nat.le_refl _)
  omega

theorem Cn.length_le {ds : List (Tree T)} (h : Cn ds) : ds.length ≤ ((toList ds).length + 1).log2 + 1 := by
  by_cases h0 : ds.length = 0
  · omega
  · have e : (ds.map Skew.dg)[ds.length - 1]? = some ((ds.map Skew.dg)[ds.length - 1]'(by rw [List.length_map]; omega)) := List.getElem?_eq_getElem _
    have h3 := h.can.ge e
    have h4 := h.le_log (List.mem_of_getElem? e) (Nat.le_refl _)
    omega

theorem Cn.allWF {ds : List (Tree T)} (h : Cn ds) : AllWF ds := fun t ht => ⟨_, h.wf t ht⟩

theorem extendedC_cost {s : SL T} (h : Cn s.ds) {m : Nat} {v : T} {r : SL T × Nat} (e : extendedC s m v = some r) : Cn r.1.ds ∧ r.2 ≤ 3 * ((toList s.ds).length + m + 1).log2 + 1 := by
  unfold extendedC at e
  obtain ⟨r1, e1, e⟩ := Option.bind_eq_some_iff.mp e
  obtain ⟨r2, e2, e⟩ := Option.bind_eq_some_iff.mp e
  split_ifs at e
  cases e
  obtain ⟨a1, a2, a3⟩ := ext1C_cn v _ _ _ _ r1 h e1
  obtain ⟨b1, _, b3, _⟩ := ext2C_cn v _ _ _ _ r2 a1 e2
  refine ⟨b1, ?_⟩
  dsimp only
  have hne : s.ds ≠ [] ∨ m = 0 := by
    by_cases hm : m = 0
    · exact Or.inr hm
    · refine Or.inl (fun h0 => ?_)
      rw [h0] at e1
      obtain ⟨f, rfl⟩ : ∃ f, m = f + 1 := ⟨m - 1, by omega⟩
      rw [ext1C, if_neg hm] at e1
      cases e1
  obtain ⟨ds1, k, f1, hk, w1, el⟩ := ext1_spec v m s.ds s.size m (Nat.le_refl _) hne h.allWF
  have f2 := ext1C_fst v m s.ds s.size m
  rw [e1, f1, Option.map_some, Option.some.injEq] at f2
  rw [f2] at a1 a2 b3
  dsimp only at a1 a2 b3
  have hmono : (m - k + 1).log2 ≤ ((toList s.ds).length + m + 1).log2 := by
    refine (Nat.le_log2 (by omega)).2 ?_
    have := Nat.log2_self_le (n := m - k + 1) (by omega)
    omega
  have hlen : (toList ds1).length ≤ (toList s.ds).length + m := by rw [el, List.length_append, List.length_replicate]; omega
  have h1 : r1.2 ≤ 2 * ((toList s.ds).length + m + 1).log2 := by
    rcases hne with hne | hm
    · match hd : s.ds, hne with
      | a :: rest, _ =>
        rw [hd] at a2
        have l1 := (lead_le (a := a) (rest := rest)).1
        have l2 := (hd ▸ h : Cn (a :: rest)).head.size.2.2.2
        match ds1, a1 with
        | [], _ => have : lead ([] : List (Tree T)) = 0 := rfl; omega
        | b :: r', a1 =>
          have l3 := (lead_le (a := b) (rest := r')).2
          have l4 := a1.cn.le_log (d := dg b) (List.mem_cons_self ..) hlen
          rw [hd] at l4
          omega
    · have := a3 hm
      omega
  omega

/-! ### Versions -/

theorem step_cn {ws ws' : List (SL T)} (h : ∀ s ∈ ws, Cn s.ds) (o : Op T) (e : step ws o = some ws') : ∀ s ∈ ws', Cn s.ds := by
  have app : ∀ s', Cn s'.ds → ∀ s ∈ ws ++ [s'], Cn s.ds := by
    intro s' h' s hs
    rcases List.mem_append.1 hs with hs | hs
    · exact h s hs
    · rw [List.mem_singleton] at hs; subst hs; exact h'
  cases o with
  | push k v =>
    obtain ⟨s, es, e⟩ := Option.bind_eq_some_iff.mp e
    obtain ⟨s', e', rfl⟩ := Option.map_eq_some_iff.mp e
    obtain ⟨ds, ed, rfl⟩ := Option.map_eq_some_iff.mp e'
    exact app _ ((h s (List.mem_of_getElem? es)).pushDs v ed)
  | pop k =>
    obtain ⟨s, es, e⟩ := Option.bind_eq_some_iff.mp e
    obtain ⟨s', e', rfl⟩ := Option.map_eq_some_iff.mp e
    obtain ⟨ds, ed, rfl⟩ := Option.map_eq_some_iff.mp e'
    exact app _ ((h s (List.mem_of_getElem? es)).popDs ed)
  | upd k i v =>
    obtain ⟨s, es, e⟩ := Option.bind_eq_some_iff.mp e
    obtain ⟨s', e', rfl⟩ := Option.map_eq_some_iff.mp e
    obtain ⟨ds, ed, rfl⟩ := Option.map_eq_some_iff.mp e'
    exact app _ ((h s (List.mem_of_getElem? es)).updDs ed)
  | drop k i =>
    obtain ⟨s, es, e⟩ := Option.bind_eq_some_iff.mp e
    obtain ⟨s', e', rfl⟩ := Option.map_eq_some_iff.mp e
    obtain ⟨ds, ed, rfl⟩ := Option.map_eq_some_iff.mp e'
    have := (h s (List.mem_of_getElem? es)).dropDs ed
    refine app _ ?_
    split_ifs
    · exact ⟨fun t ht => (List.not_mem_nil ht).elim, trivial⟩
    · exact this
  | ext k n v =>
    obtain ⟨s, es, e⟩ := Option.bind_eq_some_iff.mp e
    obtain ⟨s', e', rfl⟩ := Option.map_eq_some_iff.mp e
    rw [← extendedC_fst] at e'
    obtain ⟨r, er, rfl⟩ := Option.map_eq_some_iff.mp e'
    exact app _ (extendedC_cost (h s (List.mem_of_getElem? es)) er).1

theorem run_cn : ∀ (os : List (Op T)) (ws ws' : List (SL T)), (∀ s ∈ ws, Cn s.ds) → run ws os = some ws' → ∀ s ∈ ws', Cn s.ds
  | [], ws, ws', h, e => by cases e; exact h
  | o :: os, ws, ws', h, e => by
    obtain ⟨ws1, e1, e2⟩ := Option.bind_eq_some_iff.mp e
    exact run_cn os ws1 ws' (step_cn h o e1) e2

/-- **C136.** After every history that C16 covers, in every version of length `n` (with `L = ⌊log₂(n+1)⌋`): there are at most `L + 1` digits; `get_at` and `updated_at` run their loops less than `2 L` times,
`dropped` at most `2 L + 1` times; and `extended(m, v)` at most `3 ⌊log₂(n+m+1)⌋ + 1` times, however large `m` is. -/
theorem C136_logarithmic (os : List (Op T)) (hok : Ok [([], true)] os) :
    ∃ ws vs, run [empty] os = some ws ∧ spec [[]] os = some vs ∧ ws.length = vs.length ∧ ∀ (k : Nat) (s : SL T) (xs : List T), ws[k]? = some s → vs[k]? = some xs →
      s.ds.length ≤ (xs.length + 1).log2 + 1 ∧
      (∀ i, (getAtC s i).map (fun r => r.1) = getAt s i ∧ ∀ r, getAtC s i = some r → r.2 < 2 * (xs.length + 1).log2) ∧
      (∀ i x, (updatedAtC s i x).map (fun r => r.1) = updatedAt s i x ∧ ∀ r, updatedAtC s i x = some r → r.2 < 2 * (xs.length + 1).log2) ∧
      (∀ i, (droppedC s i).map (fun r => r.1) = dropped s i ∧ ∀ r, droppedC s i = some r → r.2 ≤ 2 * (xs.length + 1).log2 + 1) ∧
      (∀ m v, (extendedC s m v).map (fun r => r.1) = extended s m v ∧ ∀ r, extendedC s m v = some r → r.2 ≤ 3 * (xs.length + m + 1).log2 + 1) := by
  obtain ⟨ws, vs, h1, h2, hl, hd⟩ := run_good os [empty] [([], true)] ⟨rfl, by
    intro k s x e1 e2
    cases k with
    | succ k => simp at e1
    | zero =>
      simp at e1 e2
      subst e1 e2
      exact ⟨fun t ht => by simp [empty] at ht, rfl, rfl, fun _ t ht => by simp [empty] at ht⟩⟩ hok
  refine ⟨ws, vs.map Prod.fst, h1, h2, by simp [hl], fun k s xs e1 e2 => ?_⟩
  rw [List.getElem?_map, Option.map_eq_some_iff] at e2
  obtain ⟨x, ex, rfl⟩ := e2
  have hx : (toList s.ds).length = x.1.length := by rw [(hd k s x e1 ex).cont]
  have hc : Cn s.ds := run_cn os _ _ (fun s hs => by
    rw [List.mem_singleton] at hs
    subst hs
    exact ⟨fun t ht => (List.not_mem_nil ht).elim, trivial⟩) h1 s (List.mem_of_getElem? e1)
  rw [← hx]
  refine ⟨hc.length_le, fun i => ⟨getAtC_fst s i, fun r h => hc.at_le (getDsC_cost _ _ r hc.wf h)⟩, fun i y => ⟨updatedAtC_fst s i y, fun r h => ?_⟩,
    fun i => ⟨droppedC_fst s i, fun r h => ?_⟩, fun m v => ⟨extendedC_fst s m v, fun r h => (extendedC_cost hc h).2⟩⟩
  · obtain ⟨r', e, rfl⟩ := Option.map_eq_some_iff.mp h
    exact hc.at_le (updDsC_cost y _ _ r' hc.wf e)
  · obtain ⟨r', e, rfl⟩ := Option.map_eq_some_iff.mp h
    rcases dropDsC_cost _ _ r' hc.wf e with h | h
    · have := hc.length_le
      dsimp only
      omega
    · have := hc.at_le h
      dsimp only
      omega

/-- Four elements, extended by forty. -/
def longOps : List (Op Nat) := [.push 0 1, .push 1 2, .push 2 3, .push 3 4, .ext 4 40 7]
example : Ok [([], true)] longOps := by simp [longOps, Ok, okStep, specStep', opSpec, cleanAfter, Op.on]
example : (run [(empty : SL Nat)] longOps).map (fun ws => (ws[5]?).map (fun s => (s.ds.map dg, (getAtC s 30).map (fun r => r.2), (getAtC s 43).map (fun r => r.2), (extendedC s 1000 9).map (fun r => r.2))))
    = some (some ([2, 2, 3, 5], some 5, some 7, some 17)) := by decide +kernel

end Verif.Skew
