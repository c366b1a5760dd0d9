import Verif.DynAc.EraseRun
import Verif.DynAc.Props
/-!
Searching after insertions and erasures.
-/
namespace Verif.DynAc
open Verif.AcMachine

variable {α T : Type} [DecidableEq α] {b : Prop} {m : Dyn α T} {Lv : List (List α × T)} {N : Nat} {A : Nat → Prop} {g : Nat → Nd α} {lab : Nat → List α} {I : Nat → List Nat}

theorem Gd.short (G : Gd b m Lv N A g lab I) {v : Nat} (hv : A v) : (lab v).length < N := by
  have h1 := G.al.lt v hv
  have h2 := G.fo.dep v h1
  omega

theorem Gd.rep (G : Gd b m Lv N A g lab I) : Rep m.ac.nodes N g := G.li.rep.congr (fun _ _ => rfl)

theorem Gd.fail (G : Gd b m Lv N A g lab I) {v : Nat} (hv : A v) (h0 : v ≠ 0) : ∃ f, (g v).fail = some f ∧ A f ∧ lab f <:+ (lab v).tail := by
  obtain ⟨f, f1, f2, f3, f4, -⟩ := G.li.link v (G.al.lt v hv) h0
  exact ⟨f, f1, (f4 hv).resolve_right id, f3⟩

theorem Gd.link (G : Gd b m Lv N A g lab I) {v : Nat} (hv : A v) (h0 : v ≠ 0) : ∃ f, (g v).fail = some f ∧ A f ∧ lab f <:+ (lab v).tail ∧ (lab f).length < (lab v).length := by
  obtain ⟨f, f1, f2, f3⟩ := G.fail hv h0
  refine ⟨f, f1, f2, f3, ?_⟩
  have := f3.length_le
  rw [List.length_tail] at this
  have : 0 < (lab v).length := List.length_pos_iff.2 (G.fo.ne v (G.al.lt v hv) h0)
  omega

theorem Gd.long (G : Gd b m Lv N A g lab I) (hb : b) {v : Nat} (hv : A v) (h0 : v ≠ 0) : ∃ f, (g v).fail = some f ∧ Lg A lab (lab v).tail f := by
  obtain ⟨f, f1, f2, f3, -, f5⟩ := G.li.link v (G.al.lt v hv) h0
  exact ⟨f, f1, (f5 hb hv).resolve_left id⟩

theorem Gd.entry (G : Gd b m Lv N A g lab I) {x : Nat} (hx : A x) (hid : (g x).id ≠ none) :
    ∃ p, deref m.ac x = some p ∧ Lv.find? (fun p => decide (p.1 = lab x)) = some p := by
  cases hk : (g x).id with
  | none => exact absurd hk hid
  | some k =>
    obtain ⟨t, t1, t2⟩ := G.idc x hx k hk
    refine ⟨(lab x, t), ?_, ?_⟩
    · unfold deref
      rw [G.rep.val x (G.al.lt x hx), Option.bind_some, hk, Option.bind_some, t1]
    · cases hf : Lv.find? (fun p => decide (p.1 = lab x)) with
      | none =>
        rw [List.find?_eq_none] at hf
        exact absurd (decide_eq_true rfl) (hf _ t2)
      | some q =>
        have q1 := List.mem_of_find?_eq_some hf
        have q2 : q.1 = lab x := of_decide_eq_true (List.find?_some (p := fun p : List α × T => decide (p.1 = lab x)) hf)
        obtain ⟨u, k', u1, u2, u3, u4⟩ := G.cid q q1
        have := G.al.inj G.fo _ u x rfl u1 hx (by rw [u2, q2])
        subst this
        rw [hk] at u3
        have := Option.some.inj u3
        subst this
        rw [t1] at u4
        exact u4.symm

theorem Gd.occ_nil (G : Gd b m Lv N A g lab I) : occ Lv [] = [] := by
  have : Lv.find? (fun p => decide (p.1 = [])) = none := by
    rw [List.find?_eq_none]
    intro p hp hpe
    exact G.ne p hp (of_decide_eq_true hpe)
  unfold occ
  rw [show ([] : List α).tails = [[]] by simp, List.filterMap_cons, this]
  rfl

theorem Gd.toExact (G : Gd b m Lv N A g lab I) : ∀ n u, (lab u).length < n → A u →
    ∃ x, toExact m.ac.nodes n u = some x ∧ A x ∧ (x = 0 ∨ (g x).id ≠ none) ∧ lab x <:+ lab u ∧ (b → ∀ v, A v → (g v).id ≠ none → lab v <:+ lab u → (lab v).length ≤ (lab x).length) := by
  intro n
  induction n with
  | zero => intro u h; omega
  | succ n ih =>
    intro u hn hu
    unfold AcMachine.toExact
    by_cases h0 : u = 0
    · rw [if_pos h0]
      subst h0
      exact ⟨0, rfl, hu, Or.inl rfl, List.suffix_refl _, fun _ v hv _ hs => hs.length_le⟩
    · rw [if_neg h0, G.rep.val u (G.al.lt u hu), Option.bind_some]
      by_cases hid : (g u).id = none
      · rw [if_pos hid]
        obtain ⟨f, f1, f2, f3, f5⟩ := G.link hu h0
        obtain ⟨x, x1, x2, x3, x4, x5⟩ := ih f (by omega) f2
        refine ⟨x, by rw [f1]; exact x1, x2, x3, x4.trans (tail_suffix f3), fun hb v hv hvi hvs => ?_⟩
        obtain ⟨f', e1, e2, e3, e4⟩ := G.long hb hu h0
        rw [f1] at e1
        have := Option.some.inj e1
        subst this
        have hne : v ≠ u := by rintro rfl; exact hvi hid
        have hlt : (lab v).length < (lab u).length := by
          have h1 := hvs.length_le
          have h2 : (lab v).length ≠ (lab u).length := fun h => hne (G.al.inj G.fo _ v u rfl hv hu (hvs.eq_of_length h))
          omega
        have ht := suffix_tail hvs hlt
        exact x5 hb v hv hvi (suffix_of_len ht f3 (e4 v hv ht))
      · rw [if_neg hid]
        exact ⟨u, rfl, hu, Or.inr hid, List.suffix_refl _, fun _ v hv _ hs => hs.length_le⟩

theorem Gd.collect (G : Gd b m Lv N A g lab I) : ∀ n x, (lab x).length < n → A x → (x = 0 ∨ (g x).id ≠ none) →
    ∃ L, collect m.ac n x = some L ∧ L.Sublist (occ Lv (lab x)) ∧ (x ≠ 0 → L ≠ []) ∧ (b → L = occ Lv (lab x)) := by
  intro n
  induction n with
  | zero => intro x h; omega
  | succ n ih =>
    intro x hn hx hid
    unfold AcMachine.collect
    by_cases h0 : x = 0
    · rw [if_pos h0]
      refine ⟨[], rfl, List.nil_sublist _, fun h => absurd h0 h, fun _ => ?_⟩
      rw [h0, G.fo.root, G.occ_nil]
    · rw [if_neg h0]
      have hid' : (g x).id ≠ none := hid.resolve_left h0
      obtain ⟨p, p1, p2⟩ := G.entry hx hid'
      obtain ⟨f, f1, f2, f3, f5⟩ := G.link hx h0
      obtain ⟨y, y1, y2, y3, y4, y5⟩ := G.toExact N f (G.short f2) f2
      have hy := y4.length_le
      have hnext : next m.ac x = some y := by
        unfold next
        rw [G.rep.val x (G.al.lt x hx), Option.bind_some, f1, Option.bind_some, G.rep.len, y1]
      obtain ⟨L, l1, l2, -, l4⟩ := ih y (by omega) y2 y3
      have hocc : occ Lv (lab x) = p :: occ Lv (lab x).tail := by
        obtain ⟨a, l, hl⟩ : ∃ a l, lab x = a :: l := List.exists_cons_of_ne_nil (G.fo.ne x (G.al.lt x hx) h0)
        rw [hl] at p2
        rw [hl]
        unfold occ
        rw [List.tails_cons, List.filterMap_cons, p2]; rfl
      refine ⟨p :: L, by rw [p1, Option.bind_some, hnext, Option.bind_some, l1]; rfl, ?_, fun _ => by simp, fun hb => ?_⟩
      · rw [hocc]
        exact (l2.trans (occ_mono Lv (y4.trans f3))).cons_cons p
      · obtain ⟨f', e1, e2, e3, e4⟩ := G.long hb hx h0
        rw [f1] at e1
        have := Option.some.inj e1
        subst this
        rw [hocc, l4 hb, occ_skip Lv (lab y) (lab x).tail (y4.trans f3) (fun q hq hqs => by
          obtain ⟨v, k, v1, v2, v3, -⟩ := G.cid q hq
          rw [← v2] at hqs ⊢
          exact y5 hb v v1 (by rw [v3]; simp) (suffix_of_len hqs f3 (e4 v v1 hqs)))]

theorem Gd.find (G : Gd b m Lv N A g lab I) : ∀ (t w : List α) (u : Nat), A u → lab u <:+ w →
    ∃ L R, findAllFrom m.ac w.length u t = some L ∧ gather m.ac L = some R ∧ (R.map Prod.fst).Pairwise (· < ·) ∧
      ∀ p ∈ R, w.length < p.1 ∧ p.1 ≤ w.length + t.length ∧ p.2 ≠ [] ∧ p.2.Sublist (occ Lv ((w ++ t).take p.1)) := by
  intro t
  induction t with
  | nil => intro w u _ _; exact ⟨[], [], rfl, rfl, List.Pairwise.nil, fun p hp => by cases hp⟩
  | cons c t ih =>
    intro w u hu hw
    have hpush : ∃ v, push m.ac u c = some v ∧ A v ∧ lab v <:+ w ++ [c] := by
      unfold push
      rw [G.rep.len]
      exact chase_al G.fo G.al G.li.rep c w N (fun v hv h0 _ => G.fail hv h0) N u (G.short hu) hu (Nat.le_of_lt (G.short hu)) hw
    obtain ⟨v, v1, v2, v3⟩ := hpush
    obtain ⟨x, x1, x2, x3, x4, -⟩ := G.toExact N v (G.short v2) v2
    obtain ⟨L, R, l1, l2, l3, l4⟩ := ih (w ++ [c]) v v2 v3
    rw [List.length_append, List.length_singleton] at l1
    have l4' : ∀ p ∈ R, w.length + 1 < p.1 ∧ p.1 ≤ w.length + (c :: t).length ∧ p.2 ≠ [] ∧ p.2.Sublist (occ Lv ((w ++ c :: t).take p.1)) := by
      intro p hp
      obtain ⟨a1, a2, a3, a4⟩ := l4 p hp
      rw [List.length_append, List.length_singleton] at a1 a2
      rw [List.append_assoc] at a4
      exact ⟨a1, by rw [List.length_cons]; omega, a3, a4⟩
    unfold findAllFrom
    rw [v1, Option.bind_some, G.rep.len, x1, Option.bind_some, l1, Option.map_some]
    by_cases h0 : x = 0
    · refine ⟨L, R, by rw [if_neg (by simpa using h0)], l2, l3, fun p hp => ?_⟩
      obtain ⟨a1, a2⟩ := l4' p hp
      exact ⟨by omega, a2⟩
    · obtain ⟨o, o1, o2, o3, -⟩ := G.collect N x (G.short x2) x2 x3
      refine ⟨(w.length + 1, x) :: L, (w.length + 1, o) :: R, by rw [if_pos h0], ?_, ?_, ?_⟩
      · unfold gather
        dsimp only
        rw [G.rep.len, o1, Option.bind_some, l2, Option.map_some]
      · rw [List.map_cons, List.pairwise_cons]
        refine ⟨fun i hi => ?_, l3⟩
        obtain ⟨p, p1, rfl⟩ := List.mem_map.1 hi
        exact (l4' p p1).1
      · intro p hp
        rcases List.mem_cons.1 hp with h | h
        · subst h
          refine ⟨by dsimp only; omega, by dsimp only; rw [List.length_cons]; omega, o3 h0, ?_⟩
          have : (w ++ c :: t).take (w.length + 1) = w ++ [c] := by
            rw [List.take_append, List.take_of_length_le (by omega)]
            simp
          dsimp only
          rw [this]
          exact o2.trans (occ_mono Lv (x4.trans v3))
        · obtain ⟨a1, a2⟩ := l4' p h
          exact ⟨by omega, a2⟩

theorem Gd.find_exact (G : Gd b m Lv N A g lab I) (hb : b) : ∀ (t w : List α) (u : Nat), Lg A lab w u →
    ∃ L, findAllFrom m.ac w.length u t = some L ∧ gather m.ac L = some ((List.range t.length).filterMap (fun i => repAt Lv (w ++ t.take (i+1)))) := by
  intro t
  induction t with
  | nil => intro w u _; exact ⟨[], rfl, rfl⟩
  | cons c t ih =>
    intro w u hu
    have hpush : ∃ v, push m.ac u c = some v ∧ Lg A lab (w ++ [c]) v := by
      unfold push
      rw [G.rep.len]
      refine chase_lg G.fo G.al G.li.rep c w N (fun v hv h0 _ => G.long hb hv h0) N u (G.short hu.1) hu.1 (Nat.le_of_lt (G.short hu.1)) hu.2.1 (fun v hv x hx hxw => ?_)
      obtain ⟨y, y1, y2⟩ := G.al.pre G.fo hv (x := x) (by rw [hx]; exact List.prefix_append ..)
      rw [← y2]
      exact hu.2.2 y y1 (by rw [y2]; exact hxw)
    obtain ⟨v, v1, v2⟩ := hpush
    have hrep : ∃ x, AcMachine.toExact m.ac.nodes m.ac.nodes.length v = some x ∧ AcMachine.collect m.ac m.ac.nodes.length x = some (occ Lv (w ++ [c])) ∧ (x = 0 ↔ occ Lv (w ++ [c]) = []) := by
      obtain ⟨x, x1, x2, x3, x4, x5⟩ := G.toExact N v (G.short v2.1) v2.1
      have hocc : occ Lv (w ++ [c]) = occ Lv (lab x) := occ_skip Lv (lab x) (w ++ [c]) (x4.trans v2.2.1) (fun q hq hqs => by
        obtain ⟨z, k, z1, z2, z3, -⟩ := G.cid q hq
        rw [← z2] at hqs ⊢
        exact x5 hb z z1 (by rw [z3]; simp) (suffix_of_len hqs v2.2.1 (v2.2.2 z z1 hqs)))
      obtain ⟨L, l1, -, l3, l4⟩ := G.collect N x (G.short x2) x2 x3
      rw [hocc, G.rep.len]
      refine ⟨x, x1, by rw [l1, l4 hb], fun h0 => by rw [h0, G.fo.root, G.occ_nil], fun he => ?_⟩
      by_contra h0
      exact l3 h0 (by rw [l4 hb, he])
    obtain ⟨x, x1, x2, x3⟩ := hrep
    obtain ⟨L, l1, l2⟩ := ih (w ++ [c]) v v2
    rw [show (w ++ [c]).length = w.length + 1 by simp] at l1
    have hrest : (List.range (c :: t).length).filterMap (fun i => repAt Lv (w ++ (c :: t).take (i+1))) =
        (repAt Lv (w ++ [c])).toList ++ (List.range t.length).filterMap (fun i => repAt Lv (w ++ [c] ++ t.take (i+1))) := by
      rw [List.length_cons, List.range_succ_eq_map, List.filterMap_cons, List.filterMap_map]
      have : (fun i => repAt Lv (w ++ (c :: t).take (i+1))) ∘ Nat.succ = fun i => repAt Lv (w ++ [c] ++ t.take (i+1)) := by
        funext i
        simp [Function.comp]
      rw [this]
      have h0 : w ++ (c :: t).take (0+1) = w ++ [c] := by simp
      rw [h0]
      cases repAt Lv (w ++ [c]) <;> rfl
    rw [hrest]
    unfold findAllFrom
    rw [v1, Option.bind_some, x1, Option.bind_some, l1]
    by_cases h0 : x = 0
    · refine ⟨L, by simp [h0], ?_⟩
      have : repAt Lv (w ++ [c]) = none := by
        unfold repAt
        rw [x3.1 h0]; rfl
      rw [this, l2]; rfl
    · refine ⟨(w.length + 1, x) :: L, by simp [h0], ?_⟩
      have : repAt Lv (w ++ [c]) = some (w.length + 1, occ Lv (w ++ [c])) := by
        unfold repAt
        rw [if_neg, List.length_append, List.length_singleton]
        intro h
        exact h0 (x3.2 (List.isEmpty_iff.1 h))
      rw [this]
      unfold gather
      rw [x2, Option.bind_some, l2]; rfl

end Verif.DynAc
