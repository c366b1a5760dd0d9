import Verif.Graph.Basic
import Mathlib.Algebra.Order.BigOperators.Group.Finset
import Mathlib.Data.Fintype.Pigeonhole
import Mathlib.Algebra.BigOperators.Group.Finset.Piecewise
/-!
# C35: topological sort
-/
namespace Verif.Graph
open Finset

/-! ### Counting edges -/

theorem indeg_sum {n : Nat} {E : List (Nat × Nat)} (hE : InRange n E) (t : Nat) : indeg E t = ∑ u ∈ range n, (outs E u).count t := by
  induction E with
  | nil => simp [indeg, outs]
  | cons e E ih =>
    have ih := ih (fun x hx => hE x (List.mem_cons_of_mem e hx))
    have he := hE e List.mem_cons_self
    have h1 : indeg (e :: E) t = indeg E t + if e.2 = t then 1 else 0 := by
      unfold indeg; rw [List.countP_cons]; simp
    have h2 : ∀ u ∈ range n, (outs (e :: E) u).count t = (outs E u).count t + if e.1 = u then (if e.2 = t then 1 else 0) else 0 := by
      intro u _
      unfold outs
      by_cases hu : e.1 = u
      · rw [List.filter_cons_of_pos (by simpa using hu), List.map_cons, List.count_cons, if_pos hu]; simp
      · rw [List.filter_cons_of_neg (by simpa using hu), if_neg hu, Nat.add_zero]
    rw [h1, ih, Finset.sum_congr rfl h2, Finset.sum_add_distrib, Finset.sum_ite_eq, if_pos (Finset.mem_range.2 he.1)]

/-- Edges into `t` already scanned, when `pos u` entries of each adjacency list are. -/
def scanned (n : Nat) (E : List (Nat × Nat)) (pos : Nat → Nat) (t : Nat) : Nat := ∑ u ∈ range n, ((outs E u).take (pos u)).count t

theorem take_count_le (l : List Nat) (k t : Nat) : (l.take k).count t ≤ l.count t := (List.take_sublist k l).count_le t

theorem scanned_le {n : Nat} {E : List (Nat × Nat)} (hE : InRange n E) (pos : Nat → Nat) (t : Nat) : scanned n E pos t ≤ indeg E t := by
  rw [indeg_sum hE]
  exact Finset.sum_le_sum (fun u _ => take_count_le _ _ _)

theorem scanned_all {n : Nat} {E : List (Nat × Nat)} (hE : InRange n E) {pos : Nat → Nat} {t : Nat} (h : scanned n E pos t = indeg E t) {u : Nat}
    (hu : (u, t) ∈ E) : 0 < pos u := by
  rw [indeg_sum hE, scanned] at h
  have := (Finset.sum_eq_sum_iff_of_le (fun u _ => take_count_le _ _ _)).1 h u (Finset.mem_range.2 (hE _ hu).1)
  rcases Nat.eq_zero_or_pos (pos u) with h0 | h0
  · exfalso
    rw [h0, List.take_zero, List.count_nil] at this
    exact (List.count_pos_iff.2 (mem_outs.2 hu)).ne this
  · exact h0

theorem scanned_lt {n : Nat} {E : List (Nat × Nat)} (hE : InRange n E) {pos : Nat → Nat} {s t : Nat} (hs : s < n) {done ts : List Nat}
    (ho : outs E s = done ++ t :: ts) (hp : pos s = done.length) : scanned n E pos t < indeg E t := by
  rw [indeg_sum hE, scanned]
  apply Finset.sum_lt_sum (fun u _ => take_count_le _ _ _)
  refine ⟨s, Finset.mem_range.2 hs, ?_⟩
  rw [hp, ho, List.take_left, List.count_append, List.count_cons_self]
  omega

theorem scanned_step {n : Nat} {E : List (Nat × Nat)} {pos : Nat → Nat} {s t : Nat} (hs : s < n) {done ts : List Nat}
    (ho : outs E s = done ++ t :: ts) (hp : pos s = done.length) (x : Nat) :
    scanned n E (upd pos s (pos s + 1)) x = scanned n E pos x + if t = x then 1 else 0 := by
  unfold scanned
  have h : ∀ u ∈ range n, ((outs E u).take (upd pos s (pos s + 1) u)).count x =
      ((outs E u).take (pos u)).count x + if s = u then (if t = x then 1 else 0) else 0 := by
    intro u _
    by_cases hu : u = s
    · subst hu
      rw [upd_same, if_pos rfl, hp, ho, List.take_left, show done ++ t :: ts = (done ++ [t]) ++ ts by simp,
        show done.length + 1 = (done ++ [t]).length by simp, List.take_left, List.count_append]
      simp [List.count_singleton]
    · rw [upd_ne _ _ hu, if_neg (fun h => hu h.symm), Nat.add_zero]
  rw [Finset.sum_congr rfl h, Finset.sum_add_distrib, Finset.sum_ite_eq, if_pos (Finset.mem_range.2 hs)]

theorem nodup_length_le {n : Nat} {l : List Nat} (hn : l.Nodup) (hl : ∀ x ∈ l, x < n) : l.length ≤ n := by
  have h1 : l.toFinset ⊆ range n := fun x hx => Finset.mem_range.2 (hl x (List.mem_toFinset.1 hx))
  have h2 := Finset.card_le_card h1
  rwa [List.toFinset_card_of_nodup hn, Finset.card_range] at h2

/-! ### Invariant -/

structure TInv (n : Nat) (E : List (Nat × Nat)) (ord : List Nat) (cnt pos : Nat → Nat) (ex : Nat → Prop) : Prop where
  nodup : ord.Nodup
  lt : ∀ v ∈ ord, v < n
  cnt_eq : ∀ t, t < n → cnt t = scanned n E pos t
  pos0 : ∀ u, u ∉ ord → pos u = 0
  ready : ∀ t ∈ ord, cnt t = indeg E t
  wait : ∀ t, t < n → t ∉ ord → ¬ ex t → 0 < indeg E t → cnt t < indeg E t
  fwd : ∀ l1 v l2, ord = l1 ++ v :: l2 → ∀ u, (u, v) ∈ E → u ∈ l1

/-- What a call extends. -/
structure Ext (E : List (Nat × Nat)) (ord ord' : List Nat) (pos pos' : Nat → Nat) (skip : Nat → Prop) : Prop where
  app : ∃ new, ord' = ord ++ new
  old : ∀ u ∈ ord, ¬ skip u → pos' u = pos u
  full : ∀ u ∈ ord', u ∉ ord → pos' u = (outs E u).length

/-- Specification of the recursive call. -/
def DfsOk (n : Nat) (E : List (Nat × Nat)) (rec : Nat → TS → Option TS) (f : Nat) : Prop :=
  ∀ (s : Nat) (ord L : List Nat) (cnt pos : Nat → Nat), Rep L n cnt → TInv n E ord cnt pos (· = s) → s < n → s ∉ ord → cnt s = indeg E s →
    n ≤ ord.length + f → ∃ ord' L' cnt' pos', rec s (ord, L) = some (ord', L') ∧ Rep L' n cnt' ∧ TInv n E ord' cnt' pos' (fun _ => False) ∧
      Ext E ord ord' pos pos' (fun _ => False) ∧ s ∈ ord' ∧ ∀ u ∈ ord', u ∉ ord → u ≠ s → 0 < indeg E u

theorem tsLoop_ok {n : Nat} {E : List (Nat × Nat)} (hE : InRange n E) {G : Graph} (hG : Built n E G) {rec : Nat → TS → Option TS} {f : Nat}
    (hrec : DfsOk n E rec f) {s : Nat} (hs : s < n) :
    ∀ (ts dn ord L : List Nat) (cnt pos : Nat → Nat), outs E s = dn ++ ts → Rep L n cnt → TInv n E ord cnt pos (fun _ => False) → s ∈ ord →
      pos s = dn.length → n ≤ ord.length + f → ∃ ord' L' cnt' pos', tsLoop G rec ts (ord, L) = some (ord', L') ∧ Rep L' n cnt' ∧
        TInv n E ord' cnt' pos' (fun _ => False) ∧ Ext E ord ord' pos pos' (· = s) ∧ pos' s = (outs E s).length ∧
        ∀ u ∈ ord', u ∉ ord → 0 < indeg E u := by
  intro ts
  induction ts with
  | nil =>
    intro dn ord L cnt pos ho hL hI hso hp _
    refine ⟨ord, L, cnt, pos, rfl, hL, hI, ⟨⟨[], by simp⟩, fun _ _ _ => rfl, fun u h1 h2 => absurd h1 h2⟩, ?_, fun u h1 h2 => absurd h1 h2⟩
    rw [ho, List.append_nil, hp]
  | cons t ts ih =>
    intro dn ord L cnt pos ho hL hI hso hp hf
    have hedge : (s, t) ∈ E := mem_outs.1 (by rw [ho]; simp)
    have htn : t < n := (hE _ hedge).2
    have hlt := scanned_lt hE hs ho hp
    rw [← hI.cnt_eq t htn] at hlt
    have hto : t ∉ ord := fun h => by have := hI.ready t h; omega
    obtain ⟨L1, e1, h1⟩ := hL.wr htn (cnt t + 1)
    have hI1 : TInv n E ord (upd cnt t (cnt t + 1)) (upd pos s (pos s + 1)) (fun x => x = t) := by
      refine ⟨hI.nodup, hI.lt, ?_, ?_, ?_, ?_, hI.fwd⟩
      · intro x hx
        rw [scanned_step hs ho hp x, ← hI.cnt_eq x hx]
        by_cases hxt : x = t
        · subst hxt; rw [upd_same, if_pos rfl]
        · rw [upd_ne _ _ hxt, if_neg (fun h => hxt h.symm), Nat.add_zero]
      · intro u hu
        rw [upd_ne _ _ (by rintro rfl; exact hu hso)]
        exact hI.pos0 u hu
      · intro x hx
        rw [upd_ne _ _ (by rintro rfl; exact hto hx)]
        exact hI.ready x hx
      · intro x hx hxo hxt
        rw [upd_ne _ _ hxt]
        exact hI.wait x hx hxo (fun h => h)
    have ho' : outs E s = (dn ++ [t]) ++ ts := by rw [ho]; simp
    have hb : bump G t (ord, L) = some ((ord, L1), cnt t + 1 == indeg E t) := by
      rw [bump, hL.val t htn, Option.bind_some, e1, Option.bind_some, hG.inn.val t htn]; rfl
    rw [tsLoop, hb, Option.bind_some]
    dsimp only
    by_cases heq : cnt t + 1 = indeg E t
    · rw [if_pos (by simpa using heq)]
      obtain ⟨o2, L2, c2, p2, e2, r2, i2, x2, m2, z2⟩ := hrec t ord L1 _ _ h1 hI1 htn hto (by rw [upd_same]; exact heq) hf
      obtain ⟨new2, hnew2⟩ := x2.app
      have hso2 : s ∈ o2 := by rw [hnew2]; exact List.mem_append_left _ hso
      obtain ⟨o3, L3, c3, p3, e3, r3, i3, x3, q3, z3⟩ := ih (dn ++ [t]) o2 L2 c2 p2 ho' r2 i2 hso2
        (by rw [x2.old s hso (fun h => h), upd_same, hp]; simp) (by rw [hnew2, List.length_append]; omega)
      obtain ⟨new3, hnew3⟩ := x3.app
      refine ⟨o3, L3, c3, p3, by rw [e2, Option.bind_some, e3], r3, i3, ⟨⟨new2 ++ new3, by rw [hnew3, hnew2, List.append_assoc]⟩, ?_, ?_⟩, q3, ?_⟩
      · intro u hu hus
        rw [x3.old u (by rw [hnew2]; exact List.mem_append_left _ hu) hus, x2.old u hu (fun h => h), upd_ne _ _ hus]
      · intro u hu3 hu
        by_cases hu2 : u ∈ o2
        · have hus : u ≠ s := by rintro rfl; exact hu hso
          rw [x3.old u hu2 hus]
          exact x2.full u hu2 hu
        · exact x3.full u hu3 hu2
      · intro u hu3 hu
        by_cases hu2 : u ∈ o2
        · by_cases hut : u = t
          · subst hut; omega
          · exact z2 u hu2 hu hut
        · exact z3 u hu3 hu2
    · rw [if_neg (by simpa using heq), Option.bind_some]
      have hI2 : TInv n E ord (upd cnt t (cnt t + 1)) (upd pos s (pos s + 1)) (fun _ => False) := by
        refine ⟨hI1.nodup, hI1.lt, hI1.cnt_eq, hI1.pos0, hI1.ready, ?_, hI1.fwd⟩
        intro x hx hxo _ hpos
        by_cases hxt : x = t
        · subst hxt; rw [upd_same]; omega
        · exact hI1.wait x hx hxo hxt hpos
      obtain ⟨o3, L3, c3, p3, e3, r3, i3, x3, q3, z3⟩ := ih (dn ++ [t]) ord L1 _ _ ho' h1 hI2 hso (by rw [upd_same, hp]; simp) hf
      refine ⟨o3, L3, c3, p3, e3, r3, i3, ⟨x3.app, ?_, x3.full⟩, q3, z3⟩
      intro u hu hus
      rw [x3.old u hu hus, upd_ne _ _ hus]

theorem tsDfs_ok {n : Nat} {E : List (Nat × Nat)} (hE : InRange n E) {G : Graph} (hG : Built n E G) : ∀ f, DfsOk n E (tsDfs G f) f := by
  intro f
  induction f with
  | zero =>
    intro s ord L cnt pos _ hI hs hso _ hf
    have := nodup_length_le (n := n) (l := s :: ord) (List.nodup_cons.2 ⟨hso, hI.nodup⟩) (fun x hx => by
      rw [List.mem_cons] at hx
      rcases hx with rfl | hx
      · exact hs
      · exact hI.lt x hx)
    rw [List.length_cons] at this
    omega
  | succ f ih =>
    intro s ord L cnt pos hL hI hs hso hc hf
    have hall : scanned n E pos s = indeg E s := by rw [← hI.cnt_eq s hs]; exact hc
    have hpred : ∀ u, (u, s) ∈ E → u ∈ ord := by
      intro u hu
      by_contra h
      have := scanned_all hE hall hu
      rw [hI.pos0 u h] at this
      omega
    have hI1 : TInv n E (ord ++ [s]) cnt pos (fun _ => False) := by
      refine ⟨?_, ?_, hI.cnt_eq, ?_, ?_, ?_, ?_⟩
      · rw [List.nodup_append]
        refine ⟨hI.nodup, List.nodup_singleton s, ?_⟩
        intro a ha b hb
        rw [List.mem_singleton] at hb
        subst hb; rintro rfl; exact hso ha
      · intro v hv
        rw [List.mem_append, List.mem_singleton] at hv
        rcases hv with hv | rfl
        · exact hI.lt v hv
        · exact hs
      · intro u hu
        exact hI.pos0 u (fun h => hu (List.mem_append_left _ h))
      · intro t ht
        rw [List.mem_append, List.mem_singleton] at ht
        rcases ht with ht | rfl
        · exact hI.ready t ht
        · exact hc
      · intro t ht hto _
        rw [List.mem_append, List.mem_singleton, not_or] at hto
        exact hI.wait t ht hto.1 hto.2
      · intro l1 v l2 hl u hu
        rcases List.eq_nil_or_concat l2 with rfl | ⟨l3, y, rfl⟩
        · have := List.append_inj' hl (by simp)
          obtain ⟨h1, h2⟩ := this
          cases h2
          rw [← h1]; exact hpred u hu
        · have hl' : ord ++ [s] = (l1 ++ v :: l3) ++ [y] := by rw [hl]; simp
          obtain ⟨h1, _⟩ := List.append_inj' hl' (by simp)
          exact hI.fwd l1 v l3 h1 u hu
    obtain ⟨o, L', c, p, e, r, i, x, q, z⟩ := tsLoop_ok hE hG ih hs (outs E s) [] (ord ++ [s]) L cnt pos rfl hL hI1 (by simp)
      (hI.pos0 s hso) (by rw [List.length_append, List.length_singleton]; omega)
    obtain ⟨new, hnew⟩ := x.app
    refine ⟨o, L', c, p, by rw [tsDfs, hG.adj.val s hs, Option.bind_some]; exact e, r, i, ⟨⟨[s] ++ new, by rw [hnew, List.append_assoc]⟩, ?_, ?_⟩, ?_, ?_⟩
    · intro u hu _
      exact x.old u (List.mem_append_left _ hu) (by rintro rfl; exact hso hu)
    · intro u hu hno
      by_cases hus : u = s
      · subst hus; exact q
      · refine x.full u hu ?_
        rw [List.mem_append, List.mem_singleton, not_or]; exact ⟨hno, hus⟩
    · rw [hnew]; simp
    · intro u hu hno hus
      refine z u hu ?_
      rw [List.mem_append, List.mem_singleton, not_or]; exact ⟨hno, hus⟩

/-! ### The claim -/

/-- No closed walk. -/
def Acyclic (E : List (Nat × Nat)) : Prop := ∀ v k, 0 < k → ¬ Walk E v v k

theorem cycle_of_pred {n : Nat} {E : List (Nat × Nat)} {U : Nat → Prop} (hU : ∀ v, U v → v < n) (hp : ∀ v, U v → ∃ u, U u ∧ (u, v) ∈ E) {v0 : Nat}
    (h0 : U v0) : ∃ v k, 0 < k ∧ Walk E v v k := by
  choose p hp1 hp2 using hp
  let q : {v // U v} → {v // U v} := fun v => ⟨p v.1 v.2, hp1 v.1 v.2⟩
  let seq : Nat → {v // U v} := fun i => q^[i] ⟨v0, h0⟩
  have hseq : ∀ i, seq (i+1) = q (seq i) := fun i => Function.iterate_succ_apply' q i _
  have hw : ∀ i k, Walk E (seq (i+k)).1 (seq i).1 k := by
    intro i k
    induction k generalizing i with
    | zero => exact Walk.nil _
    | succ k ih =>
      have h1 := ih (i+1)
      rw [show i + 1 + k = i + (k+1) by omega] at h1
      refine Walk.snoc h1 ?_
      rw [hseq]
      exact hp2 (seq i).1 (seq i).2
  have : Finite {v // U v} := Finite.of_injective (fun v : {v // U v} => (⟨v.1, hU v.1 v.2⟩ : Fin n)) (fun a b h => by
    have := congrArg Fin.val h
    exact Subtype.ext this)
  obtain ⟨i, j, hij, he⟩ := Finite.exists_ne_map_eq_of_infinite seq
  rcases Nat.lt_or_gt_of_ne hij with h | h
  · have h1 := hw i (j - i)
    rw [show i + (j - i) = j by omega, ← he] at h1
    exact ⟨_, j - i, by omega, h1⟩
  · have h1 := hw j (i - j)
    rw [show j + (i - j) = i by omega, he] at h1
    exact ⟨_, i - j, by omega, h1⟩

theorem idx_lt {l1 l2 : List Nat} {u v : Nat} (hn : (l1 ++ v :: l2).Nodup) (hu : u ∈ l1) : (l1 ++ v :: l2).idxOf u < (l1 ++ v :: l2).idxOf v := by
  rw [List.nodup_append] at hn
  have hv : v ∉ l1 := fun h => hn.2.2 v h v List.mem_cons_self rfl
  rw [List.idxOf_append_of_mem hu, List.idxOf_append_of_notMem hv, List.idxOf_cons_self]
  exact List.idxOf_lt_length_of_mem hu

/-- **C35.** For every graph built from an edge list (loops and parallel edges allowed): the return value is `true` exactly if the graph is
acyclic, and then `order` lists every vertex exactly once and every edge goes forwards. -/
theorem C35_topological_sort {n : Nat} {E : List (Nat × Nat)} (hE : InRange n E) :
    ∃ G ord ok, build n E = some G ∧ G.topologicalSort = some (ord, ok) ∧ (ok = true ↔ Acyclic E) ∧
      (ok = true → ord.Perm (List.range n) ∧ ∀ u v, (u, v) ∈ E → ord.idxOf u < ord.idxOf v) := by
  obtain ⟨G, e, hG⟩ := build_ok hE
  obtain ⟨⟨ord, L⟩, e1, cnt, pos, hL, hI, hfull, hroot, _⟩ := forRange_inv (body := tsRoot G) (s := ([], List.replicate n 0))
    (fun i st => ∃ cnt pos : Nat → Nat, Rep st.2 n cnt ∧ TInv n E st.1 cnt pos (fun _ => False) ∧ (∀ u ∈ st.1, pos u = (outs E u).length) ∧
      (∀ j, j < i → indeg E j = 0 → j ∈ st.1) ∧ ∀ u ∈ st.1, indeg E u = 0 → u < i) (Nat.zero_le n)
    ⟨fun _ => 0, fun _ => 0, Rep.replicate n 0, by
      refine ⟨List.nodup_nil, by simp, ?_, fun _ _ => rfl, by simp, fun t _ _ _ h => h, by simp⟩
      intro t _; unfold scanned; simp, by simp, by omega, by simp⟩
    (by
      rintro i ⟨ord, L⟩ _ hi ⟨cnt, pos, hL, hI, hfull, hroot, hlow⟩
      rw [tsRoot, hG.inn.val i hi, Option.bind_some]
      by_cases h0 : indeg E i = 0
      · rw [if_pos h0]
        have hio : i ∉ ord := fun h => by have := hlow i h h0; omega
        have hcnt : cnt i = indeg E i := by
          have := scanned_le hE pos i
          rw [← hI.cnt_eq i hi] at this; omega
        obtain ⟨o, L', c, p, e, r, i', x, m, z⟩ := tsDfs_ok hE hG n i ord L cnt pos hL
          ⟨hI.nodup, hI.lt, hI.cnt_eq, hI.pos0, hI.ready, fun t h1 h2 _ h4 => hI.wait t h1 h2 (fun h => h) h4, hI.fwd⟩ hi hio hcnt (by omega)
        obtain ⟨new, hnew⟩ := x.app
        refine ⟨(o, L'), by rw [hG.size]; exact e, c, p, r, i', ?_, ?_, ?_⟩
        · intro u hu
          by_cases huo : u ∈ ord
          · rw [x.old u huo (fun h => h)]; exact hfull u huo
          · exact x.full u hu huo
        · intro j hj hj0
          by_cases hji : j = i
          · subst hji; exact m
          · show j ∈ o
            rw [hnew]
            exact List.mem_append_left _ (hroot j (by omega) hj0)
        · intro u hu hu0
          by_cases huo : u ∈ ord
          · have := hlow u huo hu0; omega
          · by_cases hui : u = i
            · omega
            · have := z u hu huo hui; omega
      · rw [if_neg h0]
        refine ⟨(ord, L), rfl, cnt, pos, hL, hI, hfull, ?_, ?_⟩
        · intro j hj hj0
          have : j ≠ i := by rintro rfl; exact h0 hj0
          exact hroot j (by omega) hj0
        · intro u hu hu0
          have := hlow u hu hu0; omega)
  dsimp only at hL hI hfull hroot
  have hfwd : ∀ u v, v ∈ ord → (u, v) ∈ E → ord.idxOf u < ord.idxOf v := by
    intro u v hv huv
    obtain ⟨l1, l2, hl⟩ := List.append_of_mem hv
    have hn := hI.nodup
    rw [hl] at hn ⊢
    exact idx_lt hn (hI.fwd l1 v l2 hl u huv)
  have hperm : ord.length = n → ord.Perm (List.range n) := by
    intro hlen
    have hsub : ord.Subperm (List.range n) := List.subperm_of_subset hI.nodup (fun x hx => List.mem_range.2 (hI.lt x hx))
    exact hsub.perm_of_length_le (by rw [List.length_range, hlen])
  refine ⟨G, ord, ord.length == n, e, ?_, ?_, ?_⟩
  · rw [Graph.topologicalSort, hG.size, e1]; rfl
  · rw [beq_iff_eq]
    constructor
    · intro hlen v k hk hw
      have hp := hperm hlen
      have key : ∀ u k w, Walk E u w k → 0 < k → ord.idxOf u < ord.idxOf w := by
        intro u k w h
        induction h with
        | nil => intro h; omega
        | @snoc v w k hw he ih =>
          intro _
          have h1 := hfwd v w (hp.mem_iff.2 (List.mem_range.2 (hE _ he).2)) he
          rcases Nat.eq_zero_or_pos k with h0 | h0
          · subst h0
            cases hw
            exact h1
          · exact Nat.lt_trans (ih h0) h1
      exact Nat.lt_irrefl _ (key v k v hw hk)
    · intro hac
      by_contra hlen
      have hle := nodup_length_le hI.nodup hI.lt
      have hex : ∃ v, v < n ∧ v ∉ ord := by
        by_contra hno
        have hsub : (List.range n).Subperm ord := List.subperm_of_subset List.nodup_range (fun x hx => by
          by_contra hxo
          exact hno ⟨x, List.mem_range.1 hx, hxo⟩)
        have := hsub.length_le
        rw [List.length_range] at this
        omega
      obtain ⟨v0, hv0⟩ := hex
      obtain ⟨v, k, hk, hw⟩ := cycle_of_pred (n := n) (E := E) (U := fun v => v < n ∧ v ∉ ord) (fun v h => h.1) (by
        rintro v ⟨hv, hvo⟩
        have hpos : 0 < indeg E v := Nat.pos_of_ne_zero (fun h => hvo (hroot v hv h))
        have hlt := hI.wait v hv hvo (fun h => h) hpos
        rw [hI.cnt_eq v hv, indeg_sum hE, scanned] at hlt
        obtain ⟨u, hu, hlt⟩ := Finset.exists_lt_of_sum_lt hlt
        refine ⟨u, ⟨Finset.mem_range.1 hu, fun huo => ?_⟩, ?_⟩
        · rw [hfull u huo, List.take_length] at hlt; omega
        · exact mem_outs.1 (List.count_pos_iff.1 (by omega))) hv0
      exact hac v k hk hw
  · intro hlen
    rw [beq_iff_eq] at hlen
    have hp := hperm hlen
    exact ⟨hp, fun u v huv => hfwd u v (hp.mem_iff.2 (List.mem_range.2 (hE _ huv).2)) huv⟩

example : ((build 4 [(3, 1), (1, 0), (3, 0), (3, 1), (2, 0)]).bind (fun G => G.topologicalSort)) = some ([2, 3, 1, 0], true) := by decide
example : ((build 4 [(3, 1), (1, 0), (0, 3)]).bind (fun G => G.topologicalSort)) = some ([2], false) := by decide
example : ((build 1 [(0, 0)]).bind (fun G => G.topologicalSort)) = some ([], false) := by decide
example : ¬ Acyclic [(0, 0)] := fun h => h 0 1 (by omega) (Walk.single (by simp))

end Verif.Graph
