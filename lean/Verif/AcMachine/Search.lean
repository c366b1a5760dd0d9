import Verif.AcMachine.Fail
import Mathlib.Data.List.Infix
/-!
Searching a text.
-/
namespace Verif.AcMachine

variable {α T : Type} [DecidableEq α]

/-- Specification: the entries of `C` whose key ends the string `w`, the longest first. -/
def occ (C : List (List α × T)) (w : List α) : List (List α × T) := w.tails.filterMap (fun x => C.find? (fun p => decide (p.1 = x)))

/-- A machine after `build`. -/
structure Built (s : Ac α T) (N : Nat) (g : Nat → Nd α) (lab : Nat → List α) : Prop where
  keys : Keys s N g lab
  fail : ∀ v, v < N → v ≠ 0 → OKF N lab (g v).fail v

theorem Built.lt {s : Ac α T} {N : Nat} {g : Nat → Nd α} {lab : Nat → List α} (B : Built s N g lab) {v : Nat} (hv : v < N) : (lab v).length < N := by
  have := B.keys.tr.depth v hv; omega

theorem Built.link {s : Ac α T} {N : Nat} {g : Nat → Nd α} {lab : Nat → List α} (B : Built s N g lab) {v : Nat} (hv : v < N) (h0 : v ≠ 0) :
    ∃ f, (g v).fail = some f ∧ IsLong N lab (lab v).tail f ∧ (lab f).length < (lab v).length := by
  obtain ⟨f, f1, f2, f3, f4⟩ := B.fail v hv h0
  refine ⟨f, f1, ⟨f2, f3, f4⟩, ?_⟩
  have := f3.length_le
  rw [List.length_tail] at this
  have : 0 < (lab v).length := List.length_pos_iff.2 (B.keys.tr.ne_nil hv h0)
  omega

theorem push_ok {s : Ac α T} {N : Nat} {g : Nat → Nd α} {lab : Nat → List α} (B : Built s N g lab) {w : List α} {u : Nat} (h : IsLong N lab w u) (c : α) :
    ∃ v, push s u c = some v ∧ IsLong N lab (w ++ [c]) v := by
  have t := B.keys.tr
  have R : Rep s.nodes N (wf g (fun v => (g v).fail)) := B.keys.rep.congr (fun i hi => rfl)
  unfold push
  rw [R.len]
  refine chase_ok t R c w N (fun v hv h0 _ => B.fail v hv h0) N u (B.lt h.1) h.1 (Nat.le_of_lt (B.lt h.1)) h.2.1 (fun v hv x hx hxw => ?_)
  obtain ⟨y, y1, y2⟩ := t.init hv hx
  rw [← y2]
  exact h.2.2 y y1 (by rw [y2]; exact hxw)

theorem toExact_ok {s : Ac α T} {N : Nat} {g : Nat → Nd α} {lab : Nat → List α} (B : Built s N g lab) : ∀ n u, (lab u).length < n → u < N →
    ∃ x, toExact s.nodes n u = some x ∧ x < N ∧ (x = 0 ∨ (g x).id ≠ none) ∧ lab x <:+ lab u ∧ ∀ v, v < N → (g v).id ≠ none → lab v <:+ lab u → (lab v).length ≤ (lab x).length := by
  intro n
  induction n with
  | zero => intro u h; omega
  | succ n ih =>
    intro u hn hu
    unfold toExact
    by_cases h0 : u = 0
    · rw [if_pos h0]
      subst h0
      exact ⟨0, rfl, hu, Or.inl rfl, List.suffix_refl _, fun v hv _ hs => hs.length_le⟩
    · rw [if_neg h0, B.keys.rep.val u hu, Option.bind_some]
      by_cases hid : (g u).id = none
      · rw [if_pos hid]
        obtain ⟨f, f1, ⟨f2, f3, f4⟩, f5⟩ := B.link hu h0
        obtain ⟨x, x1, x2, x3, x4, x5⟩ := ih f (by omega) f2
        refine ⟨x, by rw [f1]; exact x1, x2, x3, x4.trans (tail_suffix f3), fun v hv hvi hvs => ?_⟩
        have hne : v ≠ u := by rintro rfl; exact hvi hid
        have hlt : (lab v).length < (lab u).length := by
          have h1 := hvs.length_le
          have h2 : (lab v).length ≠ (lab u).length := fun h => hne (B.keys.tr.inj v u hv hu (hvs.eq_of_length h))
          omega
        have ht := suffix_tail hvs hlt
        exact x5 v hv hvi (suffix_of_len ht f3 (f4 v hv ht))
      · rw [if_neg hid]
        exact ⟨u, rfl, hu, Or.inr hid, List.suffix_refl _, fun v hv _ hs => hs.length_le⟩

/-- Suffixes that are no keys may be dropped. -/
theorem occ_skip (C : List (List α × T)) (y : List α) : ∀ w, y <:+ w → (∀ p ∈ C, p.1 <:+ w → p.1.length ≤ y.length) → occ C w = occ C y := by
  intro w
  induction w with
  | nil => intro h _; rw [List.suffix_nil.1 h]
  | cons a w ih =>
    intro h hC
    rcases List.suffix_cons_iff.1 h with h1 | h1
    · rw [h1]
    · have hnone : C.find? (fun p => decide (p.1 = a :: w)) = none := by
        rw [List.find?_eq_none]
        intro p hp hpe
        have hpe := of_decide_eq_true hpe
        have h2 := hC p hp (by rw [hpe])
        have h3 := h1.length_le
        rw [hpe, List.length_cons] at h2
        omega
      have : occ C (a :: w) = occ C w := by
        unfold occ
        rw [List.tails_cons, List.filterMap_cons, hnone]
      rw [this]
      exact ih h1 (fun p hp hpw => hC p hp (hpw.trans (List.suffix_cons a w)))

/-- The entry of a node. -/
theorem entry {s : Ac α T} {N : Nat} {g : Nat → Nd α} {lab : Nat → List α} (K : Keys s N g lab) {x : Nat} (hx : x < N) (hid : (g x).id ≠ none) :
    ∃ p, deref s x = some p ∧ s.cont.find? (fun p => decide (p.1 = lab x)) = some p := by
  cases hk : (g x).id with
  | none => exact absurd hk hid
  | some k =>
    obtain ⟨t, ht⟩ := K.idc x hx k hk
    refine ⟨(lab x, t), ?_, ?_⟩
    · unfold deref
      rw [K.rep.val x hx, Option.bind_some, hk, Option.bind_some, ht]
    · rw [List.find?_eq_some_iff_getElem]
      obtain ⟨h1, h2⟩ := List.getElem?_eq_some_iff.1 ht
      refine ⟨by simp, k, h1, h2, fun j hj => ?_⟩
      rw [Bool.not_eq_true', decide_eq_false_iff_not]
      intro he
      have hj' : s.cont[j]? = some (lab x, s.cont[j].2) := by
        rw [List.getElem?_eq_getElem (by omega), ← he]
      obtain ⟨u, u1, u2, u3⟩ := K.cid j _ _ hj'
      have := K.tr.inj u x u1 hx u2
      subst this
      rw [hk] at u3
      have := Option.some.inj u3
      omega

theorem has_node {s : Ac α T} {N : Nat} {g : Nat → Nd α} {lab : Nat → List α} (K : Keys s N g lab) {p : List α × T} (hp : p ∈ s.cont) : ∃ v, v < N ∧ lab v = p.1 ∧ (g v).id ≠ none := by
  obtain ⟨k, hk⟩ := List.mem_iff_getElem?.1 hp
  obtain ⟨u, u1, u2, u3⟩ := K.cid k p.1 p.2 hk
  exact ⟨u, u1, u2, by rw [u3]; simp⟩

theorem occ_nil {s : Ac α T} {N : Nat} {g : Nat → Nd α} {lab : Nat → List α} (K : Keys s N g lab) : occ s.cont [] = [] := by
  have : s.cont.find? (fun p => decide (p.1 = [])) = none := by
    rw [List.find?_eq_none]
    intro p hp hpe
    exact K.ne p hp (of_decide_eq_true hpe)
  unfold occ
  rw [show ([] : List α).tails = [[]] by simp, List.filterMap_cons, this]
  rfl

theorem collect_ok {s : Ac α T} {N : Nat} {g : Nat → Nd α} {lab : Nat → List α} (B : Built s N g lab) : ∀ n x, (lab x).length < n → x < N → (x = 0 ∨ (g x).id ≠ none) →
    collect s n x = some (occ s.cont (lab x)) := by
  intro n
  induction n with
  | zero => intro x h; omega
  | succ n ih =>
    intro x hn hx hid
    have K := B.keys
    unfold collect
    by_cases h0 : x = 0
    · rw [if_pos h0]
      subst h0
      rw [K.tr.root, occ_nil K]
    · rw [if_neg h0]
      have hid' : (g x).id ≠ none := by
        rcases hid with h | h
        · exact absurd h h0
        · exact h
      obtain ⟨p, p1, p2⟩ := entry K hx hid'
      obtain ⟨f, f1, ⟨f2, f3, f4⟩, f5⟩ := B.link hx h0
      obtain ⟨y, y1, y2, y3, y4, y5⟩ := toExact_ok B N f (B.lt f2) f2
      have hy := y4.length_le
      have hnext : next s x = some y := by
        unfold next
        rw [K.rep.val x hx, Option.bind_some, f1, Option.bind_some, K.rep.len, y1]
      rw [p1, Option.bind_some, hnext, Option.bind_some, ih y (by omega) y2 y3]
      have hocc : occ s.cont (lab x) = p :: occ s.cont (lab x).tail := by
        obtain ⟨a, l, hl⟩ : ∃ a l, lab x = a :: l := List.exists_cons_of_ne_nil (K.tr.ne_nil hx h0)
        rw [hl] at p2
        rw [hl]
        unfold occ
        rw [List.tails_cons, List.filterMap_cons, p2]; rfl
      rw [hocc, occ_skip s.cont (lab y) (lab x).tail (y4.trans f3) (fun q hq hqs => by
        obtain ⟨v, v1, v2, v3⟩ := has_node K hq
        rw [← v2] at hqs ⊢
        exact y5 v v1 v3 (suffix_of_len hqs f3 (f4 v v1 hqs)))]
      rfl

/-- From a node of the text the iterator gives all keys ending there. -/
theorem report {s : Ac α T} {N : Nat} {g : Nat → Nd α} {lab : Nat → List α} (B : Built s N g lab) {w : List α} {u : Nat} (h : IsLong N lab w u) :
    ∃ x, toExact s.nodes s.nodes.length u = some x ∧ collect s s.nodes.length x = some (occ s.cont w) ∧ (x = 0 ↔ occ s.cont w = []) := by
  have K := B.keys
  obtain ⟨x, x1, x2, x3, x4, x5⟩ := toExact_ok B N u (B.lt h.1) h.1
  have hocc : occ s.cont w = occ s.cont (lab x) := occ_skip s.cont (lab x) w (x4.trans h.2.1) (fun q hq hqs => by
    obtain ⟨v, v1, v2, v3⟩ := has_node K hq
    rw [← v2] at hqs ⊢
    exact x5 v v1 v3 (suffix_of_len hqs h.2.1 (h.2.2 v v1 hqs)))
  rw [hocc, K.rep.len]
  refine ⟨x, x1, collect_ok B N x (B.lt x2) x2 x3, fun h0 => ?_, fun he => ?_⟩
  · rw [h0, K.tr.root, occ_nil K]
  · rcases x3 with h0 | hid
    · exact h0
    · exfalso
      obtain ⟨p, p1, p2⟩ := entry K x2 hid
      cases hl : lab x with
      | nil =>
        rw [hl] at p2
        exact K.ne p (List.mem_of_find?_eq_some p2) (of_decide_eq_true (List.find?_some (p := fun p : List α × T => decide (p.1 = [])) p2))
      | cons a l =>
        rw [hl] at p2 he
        unfold occ at he
        rw [List.tails_cons, List.filterMap_cons, p2] at he
        cases he

end Verif.AcMachine
