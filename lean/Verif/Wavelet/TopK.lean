import Verif.Wavelet.ListsProofs
import Mathlib.Algebra.BigOperators.Group.Finset.Basic
import Mathlib.Algebra.BigOperators.Group.List.Basic
/-!
Proofs about `top_k` and `sum`.
-/
namespace Verif.Wavelet

theorem pqTop_none : ∀ {q : List Item}, pqTop q = none → q = []
  | [], _ => rfl
  | a :: q, h => by
      rw [pqTop] at h
      cases e : pqTop q <;> rw [e] at h <;> simp at h

theorem itemLt_le {a b : Item} : (itemLt a b = true → a.1 ≤ b.1) ∧ (¬ itemLt a b = true → b.1 ≤ a.1) := by
  unfold itemLt
  constructor
  · intro h
    simp at h
    omega
  · intro h
    simp at h
    omega

theorem pqTop_some : ∀ {q : List Item} {m : Item}, pqTop q = some m → m ∈ q ∧ ∀ i ∈ q, i.1 ≤ m.1
  | [], m, h => by simp [pqTop] at h
  | a :: q, m, h => by
      rw [pqTop] at h
      cases e : pqTop q with
      | none =>
          rw [e] at h
          have := pqTop_none e
          subst this
          have := Option.some.inj h
          subst this
          simp
      | some b =>
          rw [e] at h
          have h := Option.some.inj h
          obtain ⟨h1, h2⟩ := pqTop_some e
          have hl := @itemLt_le a b
          by_cases c : itemLt a b = true
          · rw [if_pos c] at h
            subst h
            refine ⟨List.mem_cons_of_mem _ h1, ?_⟩
            intro i hi
            rcases List.mem_cons.mp hi with rfl | hi
            · exact hl.1 c
            · exact h2 i hi
          · rw [if_neg c] at h
            subst h
            refine ⟨List.mem_cons_self, ?_⟩
            intro i hi
            rcases List.mem_cons.mp hi with rfl | hi
            · exact Nat.le_refl _
            · exact Nat.le_trans (h2 i hi) (hl.2 c)

/-- The elements below an item. -/
def vals (w : WM) (M : List Nat) (i : Item) : List Nat := M.filter (pf (w.h - i.2.1 / w.n) (i.2.2 / 2^(w.h - i.2.1 / w.n)))

structure TI (w : WM) (S M : List Nat) (i : Item) : Prop where
  lv : i.2.1 / w.n ≤ w.h
  c0 : 2^(w.h - i.2.1 / w.n) ∣ i.2.2
  sg : Sg w S (i.2.1 / w.n) i.2.1 (i.2.1 + i.1) (vals w M i)
  pos : 0 < i.1

theorem TI.len {w : WM} {S M : List Nat} {i : Item} (h : TI w S M i) : i.1 = (vals w M i).length := by
  have := h.sg.le; omega

def twt (w : WM) (i : Item) : Nat := i.1 * (w.h + 1 - i.2.1 / w.n)

theorem TI.wt {w : WM} {S M : List Nat} {i : Item} (h : TI w S M i) : 0 < twt w i := Nat.mul_pos h.pos (by have := h.lv; omega)

theorem TI.count_le {w : WM} {S M : List Nat} {i : Item} (h : TI w S M i) {v : Nat} (hv : v ∈ vals w M i) : M.count v ≤ i.1 := by
  rw [h.len]
  have : M.count v = (vals w M i).count v := by
    unfold vals at hv ⊢
    rw [List.count_filter (List.mem_filter.mp hv).2]
  rw [this]
  exact List.count_le_length

/-- Different items cover different values. -/
def Dj (w : WM) (M : List Nat) (i j : Item) : Prop := ∀ v, v ∈ vals w M i → v ∉ vals w M j

theorem Dj.symm {w : WM} {M : List Nat} : ∀ {i j : Item}, Dj w M i j → Dj w M j i := fun h v h1 h2 => h v h2 h1

theorem tkPush_ok {w : WM} {S M : List Nat} (ok : Ok w S) (hne : S ≠ []) {range s c : Nat} (hi : TI w S M (range, s, c)) (ht : s / w.n < w.h) (b : Bool) (q : List Item) :
    ∃ q', w.tkPush range s c b q = some (q ++ q') ∧ q'.length ≤ 1 ∧ (∀ i ∈ q', TI w S M i) ∧
      (∀ v, (∃ i ∈ q', v ∈ vals w M i) ↔ (v ∈ vals w M (range, s, c) ∧ v.testBit (w.h - 1 - s / w.n) = b)) ∧
      (q'.map (twt w)).sum ≤ ((vals w M (range, s, c)).filter (hb (w.h - 1 - s / w.n) b)).length * (w.h - s / w.n) := by
  obtain ⟨p, hp⟩ := hi.c0
  dsimp only at hp
  have hpos := Nat.two_pow_pos (w.h - s / w.n)
  have hval : vals w M (range, s, c) = M.filter (pf (w.h - s / w.n) p) := by
    unfold vals
    dsimp only
    rw [hp, Nat.mul_div_cancel_left _ hpos]
  have hsg := hi.sg
  rw [hval] at hsg
  dsimp only at hsg
  obtain ⟨l', r', e, h'⟩ := pf_child ok hne ht hsg b
  have hf : (vals w M (range, s, c)).filter (hb (w.h - 1 - s / w.n) b) = M.filter (pf (w.h - (s / w.n + 1)) (2 * p + b.toNat)) := by
    rw [hval, show w.h - s / w.n = w.h - 1 - s / w.n + 1 by omega, pf_succ, show w.h - 1 - s / w.n = w.h - (s / w.n + 1) by omega]
  have hmem : ∀ v, (v ∈ vals w M (range, s, c) ∧ v.testBit (w.h - 1 - s / w.n) = b) ↔ v ∈ M.filter (pf (w.h - (s / w.n + 1)) (2 * p + b.toNat)) := by
    intro v
    rw [← hf, List.mem_filter]
    simp [hb]
  have hc : c ||| (b.toNat * 2^(w.h - 1 - s / w.n)) = 2^(w.h - (s / w.n + 1)) * (2 * p + b.toNat) := by
    have h1 : w.h - s / w.n = w.h - 1 - s / w.n + 1 := by omega
    have h2 : w.h - (s / w.n + 1) = w.h - 1 - s / w.n := by omega
    rw [h2]
    rw [h1] at hp
    rw [Nat.pow_succ] at hp
    cases b
    · simp [hp, Nat.mul_assoc]
    · have := or_bit (c := c) (d := w.h - 1 - s / w.n) (by rw [hp, ← Nat.pow_succ, Nat.mul_mod_right])
      simp only [Bool.toNat_true, Nat.one_mul]
      rw [this, hp]
      ring
  have hpos2 := Nat.two_pow_pos (w.h - (s / w.n + 1))
  unfold WM.tkPush
  rw [e, Option.bind_some]
  dsimp only
  have hle := h'.le
  by_cases c2 : l' = r'
  · rw [if_neg (by simpa using c2)]
    have hz : M.filter (pf (w.h - (s / w.n + 1)) (2 * p + b.toNat)) = [] := List.length_eq_zero_iff.mp (by omega)
    refine ⟨[], by simp, by simp, by simp, ?_, by simp⟩
    intro v
    rw [hmem v, hz]; simp
  · rw [if_pos c2, h'.usub]
    have hlev : l' / w.n = s / w.n + 1 := h'.level ok (by omega)
    have hv : vals w M ((M.filter (pf (w.h - (s / w.n + 1)) (2 * p + b.toNat))).length, l', c ||| (b.toNat * 2^(w.h - 1 - s / w.n))) =
        M.filter (pf (w.h - (s / w.n + 1)) (2 * p + b.toNat)) := by
      unfold vals
      dsimp only
      rw [hlev, hc, Nat.mul_div_cancel_left _ hpos2]
    refine ⟨[((M.filter (pf (w.h - (s / w.n + 1)) (2 * p + b.toNat))).length, l', c ||| (b.toNat * 2^(w.h - 1 - s / w.n)))], rfl, by simp, ?_, ?_, ?_⟩
    · intro i hi
      rw [List.mem_singleton] at hi
      subst hi
      refine ⟨?_, ?_, ?_, ?_⟩
      · dsimp only; omega
      · dsimp only; rw [hlev, hc]; exact Nat.dvd_mul_right _ _
      · rw [hv]; dsimp only
        rw [hlev, show l' + (M.filter (pf (w.h - (s / w.n + 1)) (2 * p + b.toNat))).length = r' by omega]
        exact h'
      · dsimp only; omega
    · intro v
      rw [hmem v]
      constructor
      · rintro ⟨i, hi, hvi⟩
        rw [List.mem_singleton] at hi
        subst hi
        rw [hv] at hvi; exact hvi
      · intro hvi
        exact ⟨_, List.mem_singleton.mpr rfl, by rw [hv]; exact hvi⟩
    · rw [hf]
      simp only [List.map_cons, List.map_nil, List.sum_cons, List.sum_nil, twt, Nat.add_zero]
      rw [hlev, show w.h + 1 - (s / w.n + 1) = w.h - s / w.n by omega]

/-- What the items in the queue still contribute. -/
structure Res (w : WM) (M : List Nat) (q : List Item) (rest : List (Nat × Nat)) : Prop where
  ord : rest.Pairwise (fun a b => a.1 ≠ b.1 ∧ b.2 ≤ a.2)
  mem : ∀ v f, (v, f) ∈ rest ↔ ((∃ i ∈ q, v ∈ vals w M i) ∧ f = M.count v)

theorem pairwise_short {α : Type} {R : α → α → Prop} {l : List α} (h : l.length ≤ 1) : l.Pairwise R := by
  match l, h with
  | [], _ => exact List.Pairwise.nil
  | [a], _ => simp

theorem tkLoop_ok {w : WM} {S M : List Nat} (ok : Ok w S) (hne : S ≠ []) (k : Nat) : ∀ (fuel : Nat) (q : List Item) (ret : List (Nat × Nat)),
    (∀ i ∈ q, TI w S M i) → q.Pairwise (Dj w M) → (ret.length < k ∨ k = 0) → (q.map (twt w)).sum ≤ fuel →
    ∃ rest, Res w M q rest ∧ w.tkLoop k fuel q ret = some (cut k (ret ++ rest))
  | 0, q, ret, hq, _, hk, hf => by
      have hq0 : q = [] := by
        cases q with
        | nil => rfl
        | cons i q =>
            have := (hq i List.mem_cons_self).wt
            rw [List.map_cons, List.sum_cons] at hf
            omega
      subst hq0
      refine ⟨[], ⟨by simp, by simp⟩, ?_⟩
      rw [WM.tkLoop, if_pos rfl, List.append_nil, cut_le (by omega)]
  | fuel+1, q, ret, hq, hd, hk, hf => by
      have hn0 : w.n ≠ 0 := by rw [ok.n]; intro hh; exact hne (List.length_eq_zero_iff.mp hh)
      rw [WM.tkLoop]
      cases e : pqTop q with
      | none =>
          have := pqTop_none e
          subst this
          refine ⟨[], ⟨by simp, by simp⟩, ?_⟩
          dsimp only
          rw [List.append_nil, cut_le (by omega)]
      | some m =>
          obtain ⟨range, s, c⟩ := m
          obtain ⟨hm, hmax⟩ := pqTop_some e
          have hperm := List.perm_cons_erase hm
          have hd2 := (hperm.pairwise_iff (fun h => Dj.symm h)).mp hd
          rw [List.pairwise_cons] at hd2
          have hq' : ∀ i ∈ q.erase (range, s, c), TI w S M i := fun i hi => hq i (List.mem_of_mem_erase hi)
          have hsum : (q.map (twt w)).sum = twt w (range, s, c) + ((q.erase (range, s, c)).map (twt w)).sum := by
            rw [(hperm.map (twt w)).sum_eq, List.map_cons, List.sum_cons]
          have hex : ∀ v, (∃ i ∈ q, v ∈ vals w M i) ↔ (v ∈ vals w M (range, s, c) ∨ ∃ i ∈ q.erase (range, s, c), v ∈ vals w M i) := by
            intro v
            constructor
            · rintro ⟨i, hi, hv⟩
              rcases List.mem_cons.mp (hperm.mem_iff.mp hi) with rfl | hi
              · exact Or.inl hv
              · exact Or.inr ⟨i, hi, hv⟩
            · rintro (hv | ⟨i, hi, hv⟩)
              · exact ⟨_, hm, hv⟩
              · exact ⟨i, List.mem_of_mem_erase hi, hv⟩
          have hti := hq _ hm
          have hw := hti.wt
          have hlv : s / w.n ≤ w.h := hti.lv
          dsimp only
          rw [if_neg hn0]
          by_cases c1 : s / w.n = w.h
          · rw [if_pos c1]
            have hv0 : vals w M (range, s, c) = M.filter (pf 0 c) := by
              unfold vals
              dsimp only
              rw [c1, Nat.sub_self, Nat.pow_zero, Nat.div_one]
            have hcnt : range = M.count c := by rw [← pf_zero, ← hv0]; exact hti.len
            have hvm : ∀ v, v ∈ vals w M (range, s, c) ↔ v = c := by
              intro v
              rw [hv0, List.mem_filter]
              unfold pf
              simp only [Nat.pow_zero, Nat.div_one, decide_eq_true_eq]
              constructor
              · exact fun h => h.2
              · rintro rfl
                have := hti.pos
                dsimp only at this
                exact ⟨List.count_pos_iff.mp (by omega), rfl⟩
            -- the listing of the remaining items
            have hres : ∀ rest, Res w M (q.erase (range, s, c)) rest → Res w M q ((c, range) :: rest) := by
              intro rest hr
              refine ⟨?_, ?_⟩
              · rw [List.pairwise_cons]
                refine ⟨?_, hr.ord⟩
                rintro ⟨v, f⟩ hvf
                obtain ⟨⟨i, hi, hvi⟩, rfl⟩ := (hr.mem v f).mp hvf
                refine ⟨?_, ?_⟩
                · rintro rfl
                  exact hd2.1 i hi c ((hvm c).mpr rfl) hvi
                · exact Nat.le_trans ((hq' i hi).count_le hvi) (hmax i (List.mem_of_mem_erase hi))
              · intro v f
                rw [List.mem_cons, hr.mem, hex v, hvm v, Prod.mk.injEq]
                constructor
                · rintro (⟨rfl, rfl⟩ | ⟨h1, h2⟩)
                  · exact ⟨Or.inl rfl, hcnt⟩
                  · exact ⟨Or.inr h1, h2⟩
                · rintro ⟨rfl | h1, h2⟩
                  · exact Or.inl ⟨rfl, by rw [h2, hcnt]⟩
                  · exact Or.inr ⟨h1, h2⟩
            have hb : ∀ R ret', ret' = ret ++ [(c, range)] → ∀ rest, R = some (cut k (ret' ++ rest)) → R = some (cut k (ret ++ (c, range) :: rest)) := by
              intro R ret' h1 rest h2
              rw [h2, h1, List.append_assoc]; rfl
            by_cases c2 : (ret ++ [(c, range)]).length = k
            · rw [if_pos c2]
              obtain ⟨rest, hr, _⟩ := tkLoop_ok ok hne 0 fuel (q.erase (range, s, c)) [] hq' hd2.2 (Or.inr rfl) (by omega)
              refine ⟨_, hres rest hr, hb _ _ rfl rest ?_⟩
              rw [cut_hit c2 (by simp)]
            · rw [if_neg c2]
              obtain ⟨rest, hr, er⟩ := tkLoop_ok ok hne k fuel (q.erase (range, s, c)) (ret ++ [(c, range)]) hq' hd2.2 (by
                rw [List.length_append, List.length_singleton] at *
                omega) (by omega)
              exact ⟨_, hres rest hr, hb _ _ rfl rest er⟩
          · have ht : s / w.n < w.h := by omega
            rw [if_neg c1, if_pos ht]
            obtain ⟨q0, e0, l0, t0, m0, s0⟩ := tkPush_ok ok hne hti ht false (q.erase (range, s, c))
            obtain ⟨q1, e1, l1, t1, m1, s1⟩ := tkPush_ok ok hne hti ht true (q.erase (range, s, c) ++ q0)
            rw [e0, Option.bind_some, e1, Option.bind_some]
            have hsp := filter_split_length (w.h - 1 - s / w.n) (vals w M (range, s, c))
            have hwt : twt w (range, s, c) = ((vals w M (range, s, c)).filter (hb (w.h - 1 - s / w.n) false)).length * (w.h - s / w.n) +
                ((vals w M (range, s, c)).filter (hb (w.h - 1 - s / w.n) true)).length * (w.h - s / w.n) + range := by
              unfold twt
              dsimp only
              rw [← Nat.add_mul, hsp, ← hti.len, show w.h + 1 - s / w.n = w.h - s / w.n + 1 by omega, Nat.mul_add, Nat.mul_one]
            have hpos : 0 < range := hti.pos
            obtain ⟨rest, hr, er⟩ := tkLoop_ok ok hne k fuel (q.erase (range, s, c) ++ q0 ++ q1) ret (by
                intro i hi
                rcases List.mem_append.mp hi with hi | hi
                · rcases List.mem_append.mp hi with hi | hi
                  · exact hq' i hi
                  · exact t0 i hi
                · exact t1 i hi) (by
                rw [List.pairwise_append, List.pairwise_append]
                refine ⟨⟨hd2.2, pairwise_short l0, ?_⟩, pairwise_short l1, ?_⟩
                · intro i hi j hj v h1 h2
                  exact hd2.1 i hi v ((m0 v).mp ⟨j, hj, h2⟩).1 h1
                · intro i hi j hj v h1 h2
                  have a2 := (m1 v).mp ⟨j, hj, h2⟩
                  rcases List.mem_append.mp hi with hi | hi
                  · exact hd2.1 i hi v a2.1 h1
                  · have a1 := (m0 v).mp ⟨i, hi, h1⟩
                    rw [a1.2] at a2
                    exact Bool.false_ne_true a2.2) hk (by
                rw [List.map_append, List.map_append, List.sum_append, List.sum_append]
                omega)
            refine ⟨rest, ⟨hr.ord, ?_⟩, er⟩
            intro v f
            rw [hr.mem, hex v]
            have hiff : (∃ i ∈ q.erase (range, s, c) ++ q0 ++ q1, v ∈ vals w M i) ↔ (v ∈ vals w M (range, s, c) ∨ ∃ i ∈ q.erase (range, s, c), v ∈ vals w M i) := by
              constructor
              · rintro ⟨i, hi, hv⟩
                rcases List.mem_append.mp hi with hi | hi
                · rcases List.mem_append.mp hi with hi | hi
                  · exact Or.inr ⟨i, hi, hv⟩
                  · exact Or.inl ((m0 v).mp ⟨i, hi, hv⟩).1
                · exact Or.inl ((m1 v).mp ⟨i, hi, hv⟩).1
              · rintro (hv | ⟨i, hi, hv⟩)
                · cases hbit : v.testBit (w.h - 1 - s / w.n)
                  · obtain ⟨i, hi, h2⟩ := (m0 v).mpr ⟨hv, hbit⟩
                    exact ⟨i, by simp [hi], h2⟩
                  · obtain ⟨i, hi, h2⟩ := (m1 v).mpr ⟨hv, hbit⟩
                    exact ⟨i, by simp [hi], h2⟩
                · exact ⟨i, by simp [hi], hv⟩
            rw [hiff]

/-- `L` lists the distinct elements of `M` with their frequencies, the most frequent first. -/
structure ByFreq (M : List Nat) (L : List (Nat × Nat)) : Prop where
  mem : ∀ v f, (v, f) ∈ L ↔ (v ∈ M ∧ f = M.count v)
  distinct : L.Pairwise (fun a b => a.1 ≠ b.1)
  ord : L.Pairwise (fun a b => b.2 ≤ a.2)

theorem topK_ok {w : WM} {S : List Nat} (ok : Ok w S) {l r : Nat} (h1 : l < r) (h2 : r ≤ S.length) (k : Nat) :
    ∃ L, ByFreq (slice S l r) L ∧ w.topK l r k = some (cut k L) := by
  have hne : S ≠ [] := by intro h; rw [h] at h2; simp at h2; omega
  have hn : w.n = S.length := ok.n
  have hs := Sg.start (w := w) (Nat.le_of_lt h1) h2
  unfold WM.topK usub
  rw [if_pos (Nat.le_of_lt h1), Option.bind_some]
  have hlev : l / w.n = 0 := by rw [hn]; exact Nat.div_eq_of_lt (by omega)
  have hv : vals w (slice S l r) (r - l, l, 0) = slice S l r := by
    unfold vals
    dsimp only
    rw [hlev, Nat.sub_zero, Nat.zero_div, pf_top (fun x hx => ok.lt x (slice_mem hx))]
  obtain ⟨rest, hr, er⟩ := tkLoop_ok (M := slice S l r) ok hne k ((r - l) * (w.h + 1) + 2) [(r - l, l, 0)] [] (by
    intro i hi
    rw [List.mem_singleton] at hi
    subst hi
    refine ⟨by dsimp only; omega, by dsimp only; exact Nat.dvd_zero _, ?_, by dsimp only; omega⟩
    rw [hv]
    dsimp only
    rw [hlev, show l + (r - l) = r by omega]
    exact hs) (by simp) (by simp only [List.length_nil]; omega) (by simp [twt, hlev])
  refine ⟨rest, ⟨?_, hr.ord.imp (fun h => h.1), hr.ord.imp (fun h => h.2)⟩, by rw [er, List.nil_append]⟩
  intro v f
  rw [hr.mem]
  simp only [List.mem_singleton, exists_eq_left, hv]

/-- The result for an empty range. -/
theorem topK_empty {w : WM} {S : List Nat} (ok : Ok w S) (hh : 1 ≤ w.h) (hne : S ≠ []) {l : Nat} (h : l ≤ S.length) (k : Nat) :
    w.topK l l k = some (if l = S.length ∧ w.h = 1 then [(0, 0)] else []) := by
  have hn0 : 0 < S.length := List.length_pos_iff.mpr hne
  have hn : w.n = S.length := ok.n
  unfold WM.topK usub
  rw [if_pos (Nat.le_refl _), Option.bind_some, Nat.sub_self, Nat.zero_mul]
  have e1 : pqTop [(0, l, 0)] = some (0, l, 0) := rfl
  have e2 : List.erase [((0, l, 0) : Item)] (0, l, 0) = [] := by simp
  have key : ∀ t, t < w.h → l / w.n = t → Sg w S t l (l + 0) (([] : List Nat).filter (pf (w.h - t) 0)) → w.tkLoop k (0 + 2) [(0, l, 0)] [] = some [] := by
    intro t ht hlev hs
    have hp : ∀ b, w.tkPush 0 l 0 b [] = some [] := by
      intro b
      obtain ⟨l', r', e, h'⟩ := pf_child ok hne ht hs b
      have := h'.le
      simp at this
      unfold WM.tkPush
      rw [hlev, e, Option.bind_some, if_neg (by simp; omega)]
    show w.tkLoop k (1 + 1) _ _ = _
    rw [WM.tkLoop, e1]
    dsimp only
    rw [if_neg (by omega), hlev, if_neg (by omega), if_pos ht, e2, hp, Option.bind_some, hp, Option.bind_some]
    rfl
  by_cases h3 : l = S.length ∧ w.h = 1
  · rw [if_pos h3]
    have hlev : l / w.n = w.h := by rw [hn, h3.1, Nat.div_self hn0, h3.2]
    show w.tkLoop k (1 + 1) _ _ = _
    rw [WM.tkLoop, e1]
    dsimp only
    rw [if_neg (by omega), if_pos hlev, e2]
    split
    · rfl
    · rfl
  · rw [if_neg h3]
    by_cases c : l = S.length
    · refine key 1 (by omega) (by rw [hn, c, Nat.div_self hn0]) ?_
      exact ⟨[], lev w.h S 1, by simp, by simp; omega, by simp⟩
    · refine key 0 (by omega) (by rw [hn, Nat.div_eq_of_lt (by omega)]) ?_
      exact ⟨S.take l, S.drop l, by simp [lev], by simp; omega, by simp⟩

/-- A listing has at most as many entries as the sequence. -/
theorem ByFreq.length_le {M : List Nat} {L : List (Nat × Nat)} (h : ByFreq M L) : L.length ≤ M.length := by
  have hn : (L.map Prod.fst).Nodup := List.pairwise_map.mpr h.distinct
  have := hn.subperm (l₂ := M) (by
    intro v hv
    obtain ⟨⟨v', f⟩, hm, rfl⟩ := List.mem_map.mp hv
    exact ((h.mem v' f).mp hm).1)
  have := this.length_le
  rwa [List.length_map] at this

theorem foldl_sum {U : Type} [CommSemiring U] : ∀ (L : List (Nat × Nat)) (z : U),
    L.foldl (fun ret p => ret + (p.1 : U) * (p.2 : U)) z = z + (L.map (fun p => (p.1 : U) * (p.2 : U))).sum
  | [], z => by simp
  | p :: L, z => by rw [List.foldl_cons, foldl_sum L, List.map_cons, List.sum_cons, add_assoc]

theorem ByFreq.sum {U : Type} [CommSemiring U] {M : List Nat} {L : List (Nat × Nat)} (h : ByFreq M L) :
    (L.map (fun p => (p.1 : U) * (p.2 : U))).sum = (M.map (fun (v : Nat) => (v : U))).sum := by
  classical
  have hn : (L.map Prod.fst).Nodup := List.pairwise_map.mpr h.distinct
  have e1 : L.map (fun p => (p.1 : U) * (p.2 : U)) = (L.map Prod.fst).map (fun (v : Nat) => (v : U) * ((M.count v : Nat) : U)) := by
    rw [List.map_map]
    apply List.map_congr_left
    rintro ⟨v, f⟩ hm
    have := ((h.mem v f).mp hm).2
    simp [this]
  rw [e1, ← List.sum_toFinset _ hn, Finset.sum_list_map_count]
  have e2 : (L.map Prod.fst).toFinset = M.toFinset := by
    ext v
    rw [List.mem_toFinset, List.mem_toFinset, List.mem_map]
    constructor
    · rintro ⟨⟨v', f⟩, hm, rfl⟩; exact ((h.mem v' f).mp hm).1
    · intro hv; exact ⟨(v, M.count v), (h.mem v _).mpr ⟨hv, rfl⟩, rfl⟩
  rw [e2]
  apply Finset.sum_congr rfl
  intro v _
  rw [nsmul_eq_mul, mul_comm]

theorem sum_ok {U : Type} [CommSemiring U] {w : WM} {S : List Nat} (ok : Ok w S) (hh : 1 ≤ w.h) (hne : S ≠ []) {l r : Nat} (h1 : l ≤ r) (h2 : r ≤ S.length) :
    w.sum (U := U) l r = some (((slice S l r).map (fun (v : Nat) => (v : U))).sum) := by
  unfold WM.sum usub
  rw [if_pos h1, Option.bind_some]
  by_cases c : l = r
  · subst c
    rw [topK_empty ok hh hne h2]
    have : slice S l l = [] := by unfold slice; simp
    rw [this]
    split <;> simp
  · obtain ⟨L, hL, e⟩ := topK_ok ok (show l < r by omega) h2 (r - l)
    have hl := (slice_split h1 h2).2
    have := hL.length_le
    rw [e, cut_le (Or.inl (by omega)), Option.map_some, foldl_sum, zero_add, hL.sum]

end Verif.Wavelet
