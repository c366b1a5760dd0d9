import Verif.Skip.Set
import Verif.Skip.Props
/-! C104: `SkiplistSet` is an ordered set. -/
namespace Verif.Skip
open Verif

variable {T : Type} [LinearOrder T]

/-- The calls that change a `SkiplistSet`; `d` is the random draw of `pick_height`. -/
inductive SOp (T : Type) where
  | insert (v : T) (d : Nat)
  | eraseAt (i : Nat)
  | erase (v : T)

/-- The call; it returns an iterator and (for `insert`) whether the value was new. -/
def sstep (s : SetSt T) : SOp T → Option (SetSt T × (Option Nat × Bool))
  | .insert v d => (emplace s v d).map fun p => (p.1, (some p.2.1, p.2.2))
  | .eraseAt i => (eraseAt s.b i).map fun p => ({ s with b := p.1 }, (p.2, false))
  | .erase v => (erase s v).map fun p => (p.1, (p.2, false))

def srun (s : SetSt T) : List (SOp T) → Option (SetSt T)
  | [] => some s
  | o :: os => (sstep s o).bind fun p => srun p.1 os

/-- What the call does to the values, in ascending order, with the heights of their nodes. -/
def SOp.spec : SOp T → List (T × Nat) → List (T × Nat)
  | .insert v d, xs => if v ∈ xs.map (·.1) then xs else xs.filter (fun x => decide (x.1 < v)) ++ (v, pickHeight d) :: xs.filter (fun x => decide (v < x.1))
  | .eraseAt i, xs => xs.eraseIdx i
  | .erase v, xs => xs.filter (fun x => decide (x.1 ≠ v))

/-- What the returned iterator sees, in terms of the values after the call; and the flag. -/
def SOp.ret : SOp T → List T → List T → List T × Bool
  | .insert v _, xs, ys => (ys.filter (fun x => decide (v ≤ x)), decide (v ∉ xs))
  | .eraseAt i, xs, ys => (if i < xs.length then ys.drop i else [], false)
  | .erase v, _, ys => (ys.filter (fun x => decide (v < x)), false)

/-- The draw is not 0; and `erase(v)` is called only if the node before `v` is at least as high as that of `v` (or `v` is the least value, or not there). -/
def SOp.Allowed : SOp T → List (T × Nat) → Prop
  | .insert _ d, _ => d ≠ 0 ∧ d < 2^32
  | .eraseAt _, _ => True
  | .erase v, xs => ∀ pre p x post, xs = pre ++ p :: x :: post → x.1 = v → x.2 ≤ p.2

def Allowed : List (T × Nat) → List (SOp T) → Prop
  | _, [] => True
  | xs, o :: os => o.Allowed xs ∧ Allowed (o.spec xs) os

def sspecRun (xs : List (T × Nat)) : List (SOp T) → List (T × Nat)
  | [] => xs
  | o :: os => sspecRun (o.spec xs) os

/-- Everything that can be asked of a set holding the values `xs` (in ascending order). -/
structure SBehaves (s : SetSt T) (xs : List T) : Prop where
  sorted : xs.Pairwise (· < ·)
  size : s.b.size = xs.length
  all : (begin s.b).bind (valuesFrom s.b) = some xs
  get : ∀ i, ∃ it, getAt s.b i = some it ∧ valuesFrom s.b it = some (xs.drop i)
  find : ∀ v, ∃ it, find s.b v = some it ∧ (it = none ↔ v ∉ xs) ∧ (v ∈ xs → valuesFrom s.b it = some (xs.filter (fun x => decide (v ≤ x))))
  count : ∀ v, count s.b v = some (if v ∈ xs then 1 else 0)
  lower : ∀ v, ∃ it, lowerBound s.b v = some it ∧ valuesFrom s.b it = some (xs.filter (fun x => decide (v ≤ x)))
  upper : ∀ v, ∃ it, upperBound s.b v = some it ∧ valuesFrom s.b it = some (xs.filter (fun x => decide (v < x)))
  pred : ∀ v, ∃ it, predecessor s.b v = some it ∧ (it = none ↔ ∀ x ∈ xs, v ≤ x) ∧
    ∀ u, it = some u → ∃ p, s.b.val u = some p ∧ p ∈ xs ∧ p < v ∧ ∀ x ∈ xs, x < v → x ≤ p

/-! ### The cut at a value -/

abbrev Srt (xs : List (T × Nat)) : Prop := xs.Pairwise (fun a b => a.1 < b.1)

theorem sorted_split {xs : List (T × Nat)} (h : Srt xs) {p : T → Bool} (hp : ∀ a b, a < b → p b = true → p a = true) :
    xs = xs.filter (fun x => p x.1) ++ xs.filter (fun x => !p x.1) := by
  induction xs with
  | nil => rfl
  | cons a xs ih =>
    obtain ⟨h1, h2⟩ := List.pairwise_cons.1 h
    by_cases c : p a.1 = true
    · rw [List.filter_cons_of_pos (p := fun x : T × Nat => p x.1) c, List.filter_cons_of_neg (by simp [c]), List.cons_append, ← ih h2]
    · have hall : ∀ x ∈ xs, p x.1 = false := fun x hx => by
        by_contra c2
        exact c (hp a.1 x.1 (h1 x hx) (by simpa using c2))
      rw [List.filter_cons_of_neg (p := fun x : T × Nat => p x.1) c, List.filter_cons_of_pos (by simp [c]), List.filter_eq_nil_iff.2 (fun x hx => by simp [hall x hx]),
        List.filter_eq_self.2 (fun x hx => by simp [hall x hx])]
      rfl

theorem holds_append {s : St T} {L : List Nat} {x1 x2 : List (T × Nat)} (h : Holds s L (x1 ++ x2)) : ∃ b1 b2, L = b1 ++ b2 ∧ Holds s b1 x1 ∧ Holds s b2 x2 := by
  have hl := h.len
  rw [List.length_append] at hl
  refine ⟨L.take x1.length, L.drop x1.length, (List.take_append_drop _ _).symm, ⟨?_, ?_⟩, ⟨?_, ?_⟩⟩
  · rw [List.map_take, h.1, ← List.map_take]; simp
  · rw [List.map_take, h.2, ← List.map_take]; simp
  · rw [List.map_drop, h.1, ← List.map_drop]; simp
  · rw [List.map_drop, h.2, ← List.map_drop]; simp

theorem holds_mem {s : St T} {L : List Nat} {xs : List (T × Nat)} (h : Holds s L xs) {a : Nat} (ha : a ∈ L) : ∃ x ∈ xs, s.val a = some x.1 := by
  have : s.val a ∈ L.map s.val := List.mem_map.2 ⟨a, ha, rfl⟩
  rw [h.1] at this
  obtain ⟨x, hx, e⟩ := List.mem_map.1 this
  exact ⟨x, hx, e.symm⟩

theorem cut_of {b : St T} {L : List Nat} {xs : List (T × Nat)} (hg : Good b L) (hx : Holds b L xs) (hs : Srt xs) {less : T → Bool} (hp : ∀ a b, a < b → less b = true → less a = true) :
    ∃ b1 b2, L = b1 ++ b2 ∧ Holds b b1 (xs.filter (fun x => less x.1)) ∧ Holds b b2 (xs.filter (fun x => !less x.1)) ∧ Cut b (0 :: b1) b2 less := by
  have hx' := hx
  rw [sorted_split hs hp] at hx'
  obtain ⟨b1, b2, e, h1, h2⟩ := holds_append hx'
  subst e
  refine ⟨b1, b2, rfl, h1, h2, hg.lvl, ⟨b1, rfl, fun x hx => ?_⟩, fun x hx => ?_, by rw [hg.size]; simp⟩
  · obtain ⟨y, hy, e⟩ := holds_mem h1 hx
    exact ⟨y.1, e, (List.mem_filter.1 hy).2⟩
  · obtain ⟨y, hy, e⟩ := holds_mem h2 hx
    exact ⟨y.1, e, by simpa using (List.mem_filter.1 hy).2⟩

theorem lt_down (v : T) : ∀ a b : T, a < b → decide (b < v) = true → decide (a < v) = true := fun a b h1 h2 => by
  simp only [decide_eq_true_eq] at *; exact lt_trans h1 h2

theorem le_down (v : T) : ∀ a b : T, a < b → decide (b ≤ v) = true → decide (a ≤ v) = true := fun a b h1 h2 => by
  simp only [decide_eq_true_eq] at *; exact le_of_lt (lt_of_lt_of_le h1 h2)

/-- The values from the cut on. -/
theorem cut_from {b : St T} {L b1 b2 : List Nat} {xs : List (T × Nat)} (hg : Good b L) (hx : Holds b L xs) (hs : Srt xs) {less : T → Bool} (hp : ∀ a b, a < b → less b = true → less a = true)
    (e : L = b1 ++ b2) (h1 : Holds b b1 (xs.filter (fun x => less x.1))) : valuesFrom b b2.head? = some ((xs.map (·.1)).filter (fun x => !less x)) := by
  have h := from_ok hg hx b1.length
  rw [e, List.getElem?_append_right (Nat.le_refl _), Nat.sub_self, ← List.head?_eq_getElem?] at h
  rw [h]
  congr 1
  conv_lhs => rw [sorted_split hs hp]
  rw [List.map_append, List.drop_append_of_le_length (by rw [List.length_map, h1.len]), List.drop_of_length_le (by rw [List.length_map, h1.len]),
    List.nil_append, List.filter_map]
  rfl

theorem not_lt_dec (v : T) : (fun x : T => !decide (x < v)) = fun x => decide (v ≤ x) := by
  funext x
  by_cases c : x < v
  · simp [c, not_le.2 c]
  · simp [c, not_lt.1 c]

theorem not_le_dec (v : T) : (fun x : T => !decide (x ≤ v)) = fun x => decide (v < x) := by
  funext x
  by_cases c : x ≤ v
  · simp [c, not_lt.2 c]
  · simp [c, not_le.1 c]

/-- Either the value is not there, or it is the first after the cut. -/
theorem cut_cases {b : St T} {b1 b2 : List Nat} {xs : List (T × Nat)} (hs : Srt xs) {v : T} (h2 : Holds b b2 (xs.filter (fun x => !decide (x.1 < v)))) :
    (v ∉ xs.map (·.1) ∧ ∀ x ∈ b2, b.val x ≠ some v) ∨
    (v ∈ xs.map (·.1) ∧ ∃ w b3 x x3, b2 = w :: b3 ∧ xs.filter (fun x => !decide (x.1 < v)) = x :: x3 ∧ x.1 = v ∧ Holds b b3 x3 ∧ b.val w = some v ∧ b.ht w = x.2 ∧ ∀ y ∈ b3, b.val y ≠ some v) := by
  by_cases c : v ∈ xs.map (·.1)
  · right
    refine ⟨c, ?_⟩
    obtain ⟨x, hx, rfl⟩ := List.mem_map.1 c
    have hm : x ∈ xs.filter (fun y => !decide (y.1 < x.1)) := List.mem_filter.2 ⟨hx, by simp⟩
    have hs2 : Srt (xs.filter (fun y => !decide (y.1 < x.1))) := hs.filter _
    have hle : ∀ y ∈ xs.filter (fun y => !decide (y.1 < x.1)), x.1 ≤ y.1 := fun y hy => by
      have := (List.mem_filter.1 hy).2
      simpa using this
    generalize xs.filter (fun y => !decide (y.1 < x.1)) = zs at *
    cases zs with
    | nil => simp at hm
    | cons z zs =>
      have hz : z = x := by
        rcases List.mem_cons.1 hm with h | h
        · exact h.symm
        · have h3 := (List.pairwise_cons.1 hs2).1 x h
          exact absurd (hle z (by simp)) (not_le.2 h3)
      subst hz
      cases b2 with
      | nil => have := h2.len; simp at this
      | cons w b3 =>
        obtain ⟨g1, g2⟩ := h2
        rw [List.map_cons, List.map_cons] at g1 g2
        injection g1 with g1 g3
        injection g2 with g2 g4
        refine ⟨w, b3, z, zs, rfl, rfl, rfl, ⟨g3, g4⟩, g1, g2, fun y hy e => ?_⟩
        obtain ⟨q, hq, e2⟩ := holds_mem (s := b) (L := b3) ⟨g3, g4⟩ hy
        have h3 := (List.pairwise_cons.1 hs2).1 q hq
        rw [e] at e2
        injection e2 with e2
        rw [e2] at h3
        exact lt_irrefl _ h3
  · left
    refine ⟨c, fun x hx e => c ?_⟩
    obtain ⟨y, hy, e2⟩ := holds_mem h2 hx
    rw [e] at e2
    injection e2 with e2
    exact List.mem_map.2 ⟨y, (List.mem_filter.1 hy).1, e2.symm⟩

theorem levels {b : St T} {L : List Nat} (hg : Good b L) : ∀ r, r < b.height + 1 → r ≤ b.ht 0 := fun r hr => by
  rw [hg.h0]; have := hg.hmax; omega

theorem head_next {b : St T} {b1 b2 pre : List Nat} {u : Nat} (h : ∀ r, Lvl b (0 :: b1 ++ b2) r) (e : 0 :: b1 = pre ++ [u]) : rdNext b u 0 = some b2.head? :=
  next_zero (h 0) (pre := pre) (u := u) (post := b2) (by rw [e]; simp)

/-- The set is in the state `xs`. -/
structure SIs (s : SetSt T) (xs : List (T × Nat)) : Prop where
  is : Is s.b xs
  srt : Srt xs
  stk : ∀ r, s.b.height < r → s.stack r = 0 ∧ s.idx r = 0

theorem sis_init : SIs (setInit : SetSt T) [] := ⟨is_init, List.Pairwise.nil, fun _ _ => ⟨rfl, rfl⟩⟩

theorem srt_vals {xs : List (T × Nat)} (h : Srt xs) : (xs.map (·.1)).Pairwise (· < ·) := List.pairwise_map.2 h

theorem find_ok {b : St T} {L : List Nat} {xs : List (T × Nat)} (hg : Good b L) (hx : Holds b L xs) (hs : Srt xs) (v : T) :
    ∃ it, find b v = some it ∧ (it = none ↔ v ∉ xs.map (·.1)) ∧ (v ∈ xs.map (·.1) → valuesFrom b it = some ((xs.map (·.1)).filter (fun x => decide (v ≤ x)))) := by
  obtain ⟨b1, b2, e, h1, h2, hc⟩ := cut_of hg hx hs (lt_down v)
  have hfr := cut_from hg hx hs (lt_down v) e h1
  rw [not_lt_dec] at hfr
  rcases cut_cases (b1 := b1) hs h2 with ⟨c, c2⟩ | ⟨c, w, b3, x, x3, e3, _, _, _, hw, _, hv⟩
  · obtain ⟨pre, u, e2, _⟩ := findLoop_absent hc c2 (b.height + 1) [] b1 0 rfl (levels hg) (by omega)
    exact ⟨none, by unfold find; rw [e2]; rfl, by simp [c], fun h => absurd h c⟩
  · subst e3
    have e2 := findLoop_present hc hw hv (b.height + 1) [] b1 0 (by omega) rfl (levels hg)
    exact ⟨some w, by unfold find; rw [e2]; rfl, by simp [c], fun _ => hfr⟩

theorem lower_ok {b : St T} {L : List Nat} {xs : List (T × Nat)} (hg : Good b L) (hx : Holds b L xs) (hs : Srt xs) (v : T) :
    ∃ it, lowerBound b v = some it ∧ valuesFrom b it = some ((xs.map (·.1)).filter (fun x => decide (v ≤ x))) := by
  obtain ⟨b1, b2, e, h1, h2, hc⟩ := cut_of hg hx hs (lt_down v)
  have hfr := cut_from hg hx hs (lt_down v) e h1
  rw [not_lt_dec] at hfr
  rcases cut_cases (b1 := b1) hs h2 with ⟨c, c2⟩ | ⟨c, w, b3, x, x3, e3, _, _, _, hw, _, hv⟩
  · obtain ⟨pre, u, e2, e4⟩ := findLoop_absent hc c2 (b.height + 1) [] b1 0 rfl (levels hg) (by omega)
    exact ⟨b2.head?, by unfold lowerBound; rw [e2, Option.bind_some]; exact head_next hc.lvl e4, hfr⟩
  · subst e3
    have e2 := findLoop_present hc hw hv (b.height + 1) [] b1 0 (by omega) rfl (levels hg)
    exact ⟨some w, by unfold lowerBound; rw [e2]; rfl, hfr⟩

theorem upper_ok {b : St T} {L : List Nat} {xs : List (T × Nat)} (hg : Good b L) (hx : Holds b L xs) (hs : Srt xs) (v : T) :
    ∃ it, upperBound b v = some it ∧ valuesFrom b it = some ((xs.map (·.1)).filter (fun x => decide (v < x))) := by
  obtain ⟨b1, b2, e, h1, h2, hc⟩ := cut_of hg hx hs (le_down v)
  have hfr := cut_from hg hx hs (le_down v) e h1
  rw [not_le_dec] at hfr
  obtain ⟨pre, u, e2, e4⟩ := passLoop_ok hc (b.height + 1) [] b1 0 rfl (levels hg) (by omega)
  exact ⟨b2.head?, by unfold upperBound; rw [e2, Option.bind_some]; exact head_next hc.lvl e4, hfr⟩

theorem pred_ok {b : St T} {L : List Nat} {xs : List (T × Nat)} (hg : Good b L) (hx : Holds b L xs) (hs : Srt xs) (v : T) :
    ∃ it, predecessor b v = some it ∧ (it = none ↔ ∀ x ∈ xs.map (·.1), v ≤ x) ∧
    ∀ u, it = some u → ∃ p, b.val u = some p ∧ p ∈ xs.map (·.1) ∧ p < v ∧ ∀ x ∈ xs.map (·.1), x < v → x ≤ p := by
  obtain ⟨b1, b2, e, h1, h2, hc⟩ := cut_of hg hx hs (lt_down v)
  obtain ⟨pre, u, e2, e4⟩ := passLoop_ok hc (b.height + 1) [] b1 0 rfl (levels hg) (by omega)
  refine ⟨_, by unfold predecessor; rw [e2]; rfl, ?_⟩
  rcases List.eq_nil_or_concat b1 with rfl | ⟨c1, z, rfl⟩
  · have hu : u = 0 := by
      cases pre with
      | nil => injection e4 with h _; exact h.symm
      | cons a pre => injection e4 with _ h; simp at h
    subst hu
    have hnil : xs.filter (fun x => decide (x.1 < v)) = [] := by
      have := h1.len
      exact List.length_eq_zero_iff.1 this.symm
    refine ⟨by
      simp only [ne_eq, not_true_eq_false, if_false, true_iff]
      intro y hy
      obtain ⟨x, hx, rfl⟩ := List.mem_map.1 hy
      have := List.filter_eq_nil_iff.1 hnil x hx
      simpa using this, fun u h => by simp at h⟩
  · have hu : u = z := by
      rw [List.concat_eq_append, ← List.cons_append] at e4
      exact (List.append_inj' e4 rfl).2 |> fun h => by injection h with h _; exact h.symm
    subst hu
    have hu0 : u ≠ 0 := fun c => by
      have := (List.nodup_cons.1 hg.nodup).1
      apply this
      rw [e, ← c]; simp
    rcases List.eq_nil_or_concat (xs.filter (fun x : T × Nat => decide (x.1 < v))) with hnil | ⟨f1, q, hq⟩
    · have := h1.len
      rw [hnil] at this; simp at this
    · rw [hq] at h1
      have hv := h1.1
      rw [List.concat_eq_append, List.concat_eq_append, List.map_append, List.map_append] at hv
      have hvu := (List.append_inj' hv rfl).2
      simp only [List.map_cons, List.map_nil, List.cons.injEq, and_true] at hvu
      have hqm : q ∈ xs.filter (fun x => decide (x.1 < v)) := by rw [hq]; simp
      obtain ⟨hqx, hqv⟩ := List.mem_filter.1 hqm
      have hqv : q.1 < v := by simpa using hqv
      refine ⟨?_, ?_⟩
      · simp only [ne_eq, hu0, not_false_eq_true, if_true]
        constructor
        · intro h; cases h
        · intro h
          exact absurd (h q.1 (List.mem_map.2 ⟨q, hqx, rfl⟩)) (not_le.2 hqv)
      · intro u2 h
        simp only [ne_eq, hu0, not_false_eq_true, if_true] at h
        injection h with h
        subst h
        refine ⟨q.1, hvu, List.mem_map.2 ⟨q, hqx, rfl⟩, hqv, fun y hy hyv => ?_⟩
        obtain ⟨x, hx, rfl⟩ := List.mem_map.1 hy
        have hxm : x ∈ xs.filter (fun x => decide (x.1 < v)) := List.mem_filter.2 ⟨hx, by simpa using hyv⟩
        have hsf : Srt (xs.filter (fun x => decide (x.1 < v))) := hs.filter _
        rw [hq, List.concat_eq_append] at hxm hsf
        rcases List.mem_append.1 hxm with h | h
        · exact le_of_lt ((List.pairwise_append.1 hsf).2.2 x h q (by simp))
        · rw [List.mem_singleton.1 h]

theorem sbehaves_of {s : SetSt T} {xs : List (T × Nat)} (h : SIs s xs) : SBehaves s (xs.map (·.1)) := by
  obtain ⟨⟨L, hg, hx⟩, hs, _⟩ := h
  have hb := behaves_of ⟨L, hg, hx⟩
  refine ⟨srt_vals hs, hb.size, hb.all, fun i => ?_, find_ok hg hx hs, fun v => ?_, lower_ok hg hx hs, upper_ok hg hx hs, pred_ok hg hx hs⟩
  · obtain ⟨it, e1, e2, _⟩ := hb.get i
    exact ⟨it, e1, e2⟩
  · obtain ⟨it, e1, e2, _⟩ := find_ok hg hx hs v
    unfold count
    rw [e1, Option.map_some]
    congr 1
    cases it with
    | none => rw [if_neg (e2.1 rfl)]; rfl
    | some w =>
      have : v ∈ xs.map (·.1) := by
        by_contra c
        cases e2.2 c
      rw [if_pos this]; rfl

/-! ### The calls -/

theorem stk_high {s : SetSt T} {L : List Nat} {b1 b2 : List Nat} (hg : Good s.b L) (e : L = b1 ++ b2) (hst : ∀ r, s.b.height < r → s.stack r = 0 ∧ s.idx r = 0) {r : Nat} (hr : s.b.height < r) (h32 : r ≤ 32) :
    Stk s (0 :: b1) r := by
  obtain ⟨q1, q2⟩ := hst r hr
  refine ⟨[], b1, by rw [q1]; rfl, by rw [q2]; rfl, by rw [q1, hg.h0]; exact h32, fun x hx => ?_⟩
  have := hg.hh x (by rw [e]; simp [hx])
  omega

theorem emplace_ok {s : SetSt T} {xs : List (T × Nat)} (h : SIs s xs) (v : T) {d : Nat} (h0 : d ≠ 0) (hd : d < 2^32) :
    ∃ t w, emplace s v d = some (t, (w, decide (v ∉ xs.map (·.1)))) ∧ SIs t ((SOp.insert v d).spec xs) ∧
      valuesFrom t.b (some w) = some ((((SOp.insert v d).spec xs).map (·.1)).filter (fun x => decide (v ≤ x))) := by
  obtain ⟨⟨L, hg, hx⟩, hs, hst⟩ := h
  have hp := pick_le h0 hd
  obtain ⟨b1, b2, e, h1, h2, hc⟩ := cut_of hg hx hs (lt_down v)
  have hmax := hg.hmax
  rcases cut_cases (b1 := b1) hs h2 with ⟨c, c2⟩ | ⟨c, w, b3, x, x3, e3, _, _, _, hw, _, hv⟩
  · obtain ⟨t1, e1, hb1, hfr, hsk⟩ := empFind_absent hc c2 (s.b.height + 1) s [] b1 0 rfl rfl (levels hg) (by omega) (by omega)
    have hlt := sorted_split hs (lt_down v)
    have hgt : xs.filter (fun x => !decide (x.1 < v)) = xs.filter (fun x => decide (v < x.1)) := by
      apply List.filter_congr
      intro x hx
      have : x.1 ≠ v := fun e => c (List.mem_map.2 ⟨x, hx, e⟩)
      by_cases c3 : x.1 < v
      · simp [c3, not_lt.2 (le_of_lt c3)]
      · simp [c3, lt_of_le_of_ne (not_lt.1 c3) (Ne.symm this)]
    have hgL := hg
    rw [e] at hg hx
    obtain ⟨a1, a2, a3, a4, a5, a6, a7, a8, a9, a10, a11, a12⟩ := alloc_ok hg hx v (hw := pickHeight d) (by omega) rfl
    have hn : ((0 :: b1) ++ s.b.fresh :: b2).Nodup := by
      rw [(List.perm_middle (a := s.b.fresh) (l₁ := 0 :: b1) (l₂ := b2)).nodup_iff, List.nodup_cons]
      exact ⟨a1, hg.nodup⟩
    have hhtL : ∀ y, y ∈ 0 :: (b1 ++ b2) → (alloc s.b v (pickHeight d)).ht y = s.b.ht y := fun y hy => by
      have : y ≠ s.b.fresh := fun c => a1 (c ▸ hy)
      simp [alloc, this]
    obtain ⟨t2, e2, s2, st2, ix2, l2⟩ := empLoop_ok hn ((alloc s.b v (pickHeight d)).height + 1) { t1 with b := alloc s.b v (pickHeight d) } a2 (by omega) (fun r hr => by
        have hk : Stk t1 (0 :: b1) r := by
          by_cases c3 : r < s.b.height + 1
          · exact hsk r c3
          · refine stk_high (s := t1) (L := L) (by rw [hb1]; exact hgL) e (fun q hq => ?_) (by rw [hb1]; omega) (by omega)
            rw [hb1] at hq
            have := hfr q (by omega)
            rw [this.1, this.2]; exact hst q hq
        obtain ⟨p, m, e5, e6, e7, e8⟩ := hk
        have hin : ∀ y ∈ 0 :: b1, y ∈ 0 :: (b1 ++ b2) := fun y hy => by
          rcases List.mem_cons.1 hy with h | h <;> simp [h]
        refine ⟨p, m, e5, e6, ?_, fun y hy => ?_⟩
        · show r ≤ (alloc s.b v (pickHeight d)).ht (t1.stack r)
          rw [hhtL _ (hin _ (by rw [e5]; simp)), ← hb1]; exact e7
        · show (alloc s.b v (pickHeight d)).ht y < r
          rw [hhtL _ (hin _ (by rw [e5]; simp [hy])), ← hb1]; exact e8 y hy)
      (fun r _ => a11 r) (fun r hr => a12 r (by omega))
    have hres := good_inserted hg hx (v := v) (hw := pickHeight d) (by omega) s2 l2
    have hspec : (SOp.insert v d).spec xs = xs.take b1.length ++ (v, pickHeight d) :: xs.drop b1.length := by
      rw [SOp.spec, if_neg c, h1.len]
      conv_rhs => rw [hlt]
      rw [List.take_append_of_le_length (by rw [← hlt]), List.drop_append_of_le_length (by rw [← hlt])]
      rw [← hlt, List.take_length, List.drop_length, hgt]; rfl
    rw [← hspec] at hres
    have hsrt : Srt ((SOp.insert v d).spec xs) := by
      rw [SOp.spec, if_neg c]
      refine List.pairwise_append.2 ⟨hs.filter _, List.pairwise_cons.2 ⟨fun y hy => by simpa using (List.mem_filter.1 hy).2, hs.filter _⟩, fun y hy z hz => ?_⟩
      have hy := (List.mem_filter.1 hy).2
      rcases List.mem_cons.1 hz with rfl | hz
      · simpa using hy
      · have hz := (List.mem_filter.1 hz).2
        simp only [decide_eq_true_eq] at hy hz
        exact lt_trans hy hz
    refine ⟨{ t2 with b := { t2.b with size := t2.b.size + 1 } }, s.b.fresh, ?_, ⟨⟨_, hres⟩, hsrt, fun r hr => ?_⟩, ?_⟩
    · unfold emplace
      rw [show ((1 : Int)) = ((([] : List Nat).length : Nat) : Int) + 1 by simp, e1, Option.bind_some]
      simp only [hb1]
      rw [e2]
      simp [c]
    · show t2.stack r = 0 ∧ t2.idx r = 0
      rw [st2, ix2]
      have hr : t2.b.height < r := hr
      rw [s2.height] at hr
      have hr : (alloc s.b v (pickHeight d)).height < r := hr
      have := hfr r (by omega)
      show t1.stack r = 0 ∧ t1.idx r = 0
      rw [this.1, this.2]
      exact hst r (by omega)
    · have h9 := from_ok hres.1 hres.2 b1.length
      rw [List.getElem?_append_right (Nat.le_refl _), Nat.sub_self] at h9
      show valuesFrom { t2.b with size := t2.b.size + 1 } (some s.b.fresh) = _
      rw [show (s.b.fresh :: b2)[0]? = some s.b.fresh from rfl] at h9
      rw [h9]
      congr 1
      rw [SOp.spec, if_neg c, h1.len, List.map_append, List.map_cons, List.drop_append_of_le_length (by rw [List.length_map]), List.drop_of_length_le (by rw [List.length_map]),
        List.nil_append, List.filter_append, List.filter_cons_of_pos (by simp)]
      have q1 : ((xs.filter (fun x => decide (x.1 < v))).map (·.1)).filter (fun x => decide (v ≤ x)) = [] := List.filter_eq_nil_iff.2 (fun y hy => ?_)
      · have q2 : ((xs.filter (fun x => decide (v < x.1))).map (·.1)).filter (fun x => decide (v ≤ x)) = (xs.filter (fun x => decide (v < x.1))).map (·.1) := List.filter_eq_self.2 (fun y hy => ?_)
        · rw [q1, q2]; rfl
        · obtain ⟨x, hx, rfl⟩ := List.mem_map.1 hy
          have := (List.mem_filter.1 hx).2
          simp only [decide_eq_true_eq] at this ⊢
          exact le_of_lt this
      · obtain ⟨x, hx, rfl⟩ := List.mem_map.1 hy
        have := (List.mem_filter.1 hx).2
        simpa using this
  · subst e3
    have hfrom := cut_from hg hx hs (lt_down v) e h1
    rw [not_lt_dec] at hfrom
    obtain ⟨t1, e1, hb1, hfr⟩ := empFind_present hc hw hv (s.b.height + 1) s [] b1 0 rfl (by omega) rfl (levels hg) (by omega)
    have hspec : (SOp.insert v d).spec xs = xs := by rw [SOp.spec, if_pos c]
    rw [hspec]
    refine ⟨t1, w, ?_, ⟨⟨L, by rw [hb1]; exact ⟨hg, hx⟩⟩, hs, fun r hr => ?_⟩, by rw [hb1]; exact hfrom⟩
    · unfold emplace
      rw [show ((1 : Int)) = ((([] : List Nat).length : Nat) : Int) + 1 by simp, e1, Option.bind_some]
      simp [c]
    · rw [hb1] at hr
      have := hfr r (by omega)
      rw [this.1, this.2]; exact hst r hr

theorem filter_gt {xs : List (T × Nat)} (hs : Srt xs) {v : T} {x : T × Nat} {x3 : List (T × Nat)} (e : xs.filter (fun x => !decide (x.1 < v)) = x :: x3) (hx : x.1 = v) :
    xs.filter (fun x => decide (x.1 ≠ v)) = xs.filter (fun x => decide (x.1 < v)) ++ x3 ∧ ∀ y ∈ x3, v < y.1 := by
  have hsplit := sorted_split hs (lt_down v)
  have hs2 : Srt (x :: x3) := by rw [← e]; exact hs.filter _
  have h3 : ∀ y ∈ x3, v < y.1 := fun y hy => by have := (List.pairwise_cons.1 hs2).1 y hy; rwa [hx] at this
  refine ⟨?_, h3⟩
  have q1 : (xs.filter (fun x => decide (x.1 < v))).filter (fun x => decide (x.1 ≠ v)) = xs.filter (fun x => decide (x.1 < v)) := List.filter_eq_self.2 (fun y hy => by
    have := (List.mem_filter.1 hy).2
    simp only [decide_eq_true_eq] at this
    simp [ne_of_lt this])
  have q2 : x3.filter (fun x => decide (x.1 ≠ v)) = x3 := List.filter_eq_self.2 (fun y hy => by simp [(ne_of_lt (h3 y hy)).symm])
  rw [e] at hsplit
  conv_lhs => rw [hsplit]
  rw [List.filter_append, q1, List.filter_cons_of_neg (by simp [hx]), q2]

theorem erase_ok {s : SetSt T} {xs : List (T × Nat)} (h : SIs s xs) (v : T) (ha : (SOp.erase v).Allowed xs) :
    ∃ t it, erase s v = some (t, it) ∧ SIs t ((SOp.erase v).spec xs) ∧ valuesFrom t.b it = some ((((SOp.erase v).spec xs).map (·.1)).filter (fun x => decide (v < x))) := by
  obtain ⟨⟨L, hg, hx⟩, hs, hst⟩ := h
  obtain ⟨b1, b2, e, h1, h2, hc⟩ := cut_of hg hx hs (lt_down v)
  have hmax := hg.hmax
  have hfrom := cut_from hg hx hs (lt_down v) e h1
  rcases cut_cases (b1 := b1) hs h2 with ⟨c, c2⟩ | ⟨c, w, b3, x, x3, e3, ef, exv, h3, hw, hwx, hv⟩
  · obtain ⟨t1, pre, u, e1, e4, hb1, hfr⟩ := eraFind_absent hc c2 (s.b.height + 1) s [] b1 0 rfl rfl (levels hg) (by omega) (by omega)
    have hspec : (SOp.erase v).spec xs = xs := by
      rw [SOp.spec, List.filter_eq_self.2 (fun x hx => ?_)]
      have : x.1 ≠ v := fun e => c (List.mem_map.2 ⟨x, hx, e⟩)
      simp [this]
    rw [hspec]
    refine ⟨t1, b2.head?, ?_, ⟨⟨L, by rw [hb1]; exact ⟨hg, hx⟩⟩, hs, fun r hr => ?_⟩, ?_⟩
    · unfold erase
      rw [e1, Option.bind_some]
      simp only [hb1]
      rw [head_next hc.lvl e4]; rfl
    · rw [hb1] at hr
      have := hfr r (by omega)
      rw [this.1, this.2]; exact hst r hr
    · rw [hb1, hfrom]
      congr 1
      apply List.filter_congr
      intro y hy
      have : y ≠ v := fun e => c (e ▸ hy)
      by_cases c3 : y < v
      · simp [c3, not_lt.2 (le_of_lt c3)]
      · simp [c3, lt_of_le_of_ne (not_lt.1 c3) (Ne.symm this)]
  · subst e3
    obtain ⟨hne, hgt⟩ := filter_gt hs ef exv
    have hwL : w ∈ L := by rw [e]; simp
    have hwh := hg.hh w hwL
    obtain ⟨t1, pre, mid, u, e1, e4, hu, hm, hb1, hfr, hsk⟩ := eraFind_present hc hw hv (s.b.height + 1) s [] b1 0 rfl (by omega) rfl (levels hg) (by omega)
    -- the node before is `u`
    have hmid : mid = [] := by
      rcases List.eq_nil_or_concat mid with rfl | ⟨m2, z, rfl⟩
      · rfl
      · exfalso
        rw [List.concat_eq_append] at e4 hm
        have hz := hm z (by simp)
        -- `z` is the last node of `b1`
        obtain ⟨c1, hb1'⟩ : ∃ c1, b1 = c1 ++ [z] := by
          cases pre with
          | nil => injection e4 with _ h5; exact ⟨m2, h5⟩
          | cons a p => injection e4 with _ h5; exact ⟨p ++ u :: m2, by rw [h5]; simp⟩
        rcases List.eq_nil_or_concat (xs.filter (fun x : T × Nat => decide (x.1 < v))) with hnil | ⟨f1, q, hq⟩
        · have := h1.len
          rw [hnil, hb1'] at this; simp at this
        · have hv1 := h1.2
          rw [hq, hb1', List.concat_eq_append, List.map_append, List.map_append] at hv1
          have hvu := (List.append_inj' hv1 rfl).2
          simp only [List.map_cons, List.map_nil, List.cons.injEq, and_true] at hvu
          have := ha f1 q x x3 (by
            conv_lhs => rw [sorted_split hs (lt_down v)]
            rw [ef, hq, List.concat_eq_append]; simp) exv
          omega
    subst hmid
    rw [e] at hg hx
    have hn : ((0 :: b1) ++ w :: b3).Nodup := hg.nodup
    have hwu : w ∉ 0 :: b1 := fun c3 => (List.nodup_append.1 hn).2.2 w c3 w (by simp) rfl
    obtain ⟨t2, e2, s2, st2, ix2, l2, l3⟩ := decLoop_ok hn (s.b.ht w) (s.b.height - s.b.ht w) { t1 with b := { s.b with size := s.b.size - 1 } } rfl (by omega)
      (fun q h5 h6 => by
        obtain ⟨p, m, e5, e6, e7⟩ := hsk q h5 (by omega)
        rw [hb1] at e6 e7
        exact ⟨p, m, e5, e6, e7⟩)
      (fun q _ => hg.lvl q) (fun q hq => by
        refine lvl_high (L := b1 ++ b3) (fun y hy => ?_) (fun h32 => fld_high hg (by omega) (by have h32 : q ≤ s.b.ht 0 := h32; rw [hg.h0] at h32; exact h32))
        have : y ∈ b1 ++ w :: b3 := by rcases List.mem_append.1 hy with h | h <;> simp [h]
        have := hg.hh y this
        show s.b.ht y < q
        omega)
    obtain ⟨t3, e5, s5, l5⟩ := unlinkLoop_ok hn e4 (s.b.ht w + 1) t2.b (by rw [s2.val]; exact hw) (fun r hr => by rw [s2.ht]; show r ≤ s.b.ht w; omega) (fun r hr => by rw [s2.ht]; show r ≤ s.b.ht u; omega)
      (fun q hq => l2 q (by omega)) (fun q hq => l3 q (by omega))
    have s25 : Same { s.b with size := s.b.size - 1 } t3 := s2.trans s5
    have s6 : Same s.b { t3 with size := s.b.size } := ⟨s25.ht, s25.val, s25.fresh, s25.height, rfl⟩
    have hres := good_erased hg hx s6 (fun r => l5 r)
    have ht3 : ({ ({ t3 with size := s.b.size } : St T) with size := ({ t3 with size := s.b.size } : St T).size - 1 } : St T) = t3 := by
      have hsz := s25.size
      cases t3
      simp only at hsz ⊢
      rw [hsz]
    rw [ht3] at hres
    have hspec : (SOp.erase v).spec xs = xs.eraseIdx b1.length := by
      rw [SOp.spec, hne, h1.len]
      have hsp := sorted_split hs (lt_down v)
      rw [ef] at hsp
      generalize xs.filter (fun x => decide (x.1 < v)) = f at *
      rw [hsp, List.eraseIdx_append_of_length_le (Nat.le_refl _)]; simp
    rw [← hspec] at hres
    refine ⟨{ t2 with b := t3 }, b3.head?, ?_, ⟨⟨_, hres⟩, ?_, fun r hr => ?_⟩, ?_⟩
    · unfold erase
      rw [e1, Option.bind_some]
      simp only [hb1]
      rw [e2, Option.bind_some, e5, Option.bind_some, head_next l5 e4]; rfl
    · rw [SOp.spec]; exact hs.filter _
    · show t2.stack r = 0 ∧ t2.idx r = 0
      have hr : t3.height < r := hr
      rw [s25.height] at hr
      have hr : s.b.height < r := hr
      rw [st2, ix2]
      have := hfr r (by omega)
      show t1.stack r = 0 ∧ t1.idx r = 0
      rw [this.1, this.2]; exact hst r hr
    · have h9 := from_ok hres.1 hres.2 b1.length
      rw [List.getElem?_append_right (Nat.le_refl _), Nat.sub_self, ← List.head?_eq_getElem?] at h9
      show valuesFrom t3 _ = _
      rw [h9]
      congr 1
      rw [SOp.spec, hne, h1.len, List.map_append, List.drop_append_of_le_length (by rw [List.length_map]), List.drop_of_length_le (by rw [List.length_map]), List.nil_append, List.filter_append,
        List.filter_eq_nil_iff.2 (fun y hy => ?_), List.nil_append, List.filter_eq_self.2 (fun y hy => ?_)]
      · obtain ⟨x, hx, rfl⟩ := List.mem_map.1 hy
        simpa using hgt x hx
      · obtain ⟨x, hx, rfl⟩ := List.mem_map.1 hy
        have := (List.mem_filter.1 hx).2
        simp only [decide_eq_true_eq] at this ⊢
        exact not_lt.2 (le_of_lt this)

theorem eraseAt_height {s t : St T} {i : Nat} {it : Option Nat} {L : List Nat} {xs : List (T × Nat)} (hg : Good s L) (hx : Holds s L xs) (hi : i < xs.length) (e : eraseAt s i = some (t, it)) : t.height = s.height := by
  have hlen := hx.len
  obtain ⟨b1, w, b2, rfl, hb⟩ : ∃ b1 w b2, L = b1 ++ w :: b2 ∧ b1.length = i :=
    ⟨L.take i, L[i]'(by omega), L.drop (i+1), by rw [← List.drop_eq_getElem_cons (by omega), List.take_append_drop], by rw [List.length_take]; omega⟩
  have hl1 : b1.length + 1 ≤ (b1 ++ w :: b2).length := by simp
  obtain ⟨t1, pre', u', mid', e1, hs, hl, _, _⟩ := eraLoop_ok (a1 := 0 :: b1) hg.nodup (s.height + 1) s [] b1 0 rfl (levels hg)
    (by rw [hg.size]; omega) (by rw [hg.size, List.length_cons]; omega) (fun r _ => hg.lvl r) (fun r hr => by
      refine lvl_high (L := b1 ++ b2) (fun x hx => ?_) (fun h32 => fld_high hg (by omega) (by rw [hg.h0] at h32; exact h32))
      have : x ∈ b1 ++ w :: b2 := by rcases List.mem_append.1 hx with h | h <;> simp [h]
      have := hg.hh x this
      omega)
  unfold eraseAt at e
  rw [if_neg (by rw [hg.size]; omega), ← hb, e1, Option.bind_some] at e
  obtain ⟨x, _, e⟩ := Option.map_eq_some_iff.1 e
  injection e with e _
  rw [← e]
  exact hs.height

theorem sstep_ok {s : SetSt T} {xs : List (T × Nat)} (h : SIs s xs) (o : SOp T) (ho : o.Allowed xs) :
    ∃ t it, sstep s o = some (t, (it, (o.ret (xs.map (·.1)) ((o.spec xs).map (·.1))).2)) ∧ SIs t (o.spec xs) ∧
      valuesFrom t.b it = some (o.ret (xs.map (·.1)) ((o.spec xs).map (·.1))).1 := by
  cases o with
  | insert v d =>
    obtain ⟨t, w, e, h2, h3⟩ := emplace_ok h v ho.1 ho.2
    exact ⟨t, some w, by rw [sstep, e]; rfl, h2, h3⟩
  | erase v =>
    obtain ⟨t, it, e, h2, h3⟩ := erase_ok h v ho
    exact ⟨t, it, by rw [sstep, e]; rfl, h2, h3⟩
  | eraseAt i =>
    obtain ⟨⟨L, hg, hx⟩, hs, hst⟩ := h
    by_cases c : i < xs.length
    · obtain ⟨t, L', e, g, hh⟩ := eraseAt_ok hg hx i c
      refine ⟨{ s with b := t }, L'[i]?, by rw [sstep, e]; rfl, ⟨⟨L', g, hh⟩, hs.sublist (List.eraseIdx_sublist _ _), fun r hr => ?_⟩, ?_⟩
      · exact hst r (by have hr : t.height < r := hr; rw [eraseAt_height hg hx c e] at hr; exact hr)
      · have := from_ok g hh i
        rw [SOp.ret, if_pos (by simpa using c)]
        exact this
    · have e : eraseAt s.b i = some (s.b, none) := by
        unfold eraseAt
        rw [if_pos (by rw [hg.size, hx.len]; omega)]
      have hspec : (SOp.eraseAt i : SOp T).spec xs = xs := List.eraseIdx_of_length_le (by omega)
      rw [hspec]
      refine ⟨s, none, by rw [sstep, e]; rfl, ⟨⟨L, hg, hx⟩, hs, hst⟩, ?_⟩
      rw [SOp.ret, if_neg (by simpa using c), values_none]

theorem srun_ok : ∀ (ops : List (SOp T)) (s : SetSt T) (xs : List (T × Nat)), SIs s xs → Allowed xs ops → ∃ t, srun s ops = some t ∧ SIs t (sspecRun xs ops) := by
  intro ops
  induction ops with
  | nil => intro s xs h _; exact ⟨s, rfl, h⟩
  | cons o os ih =>
    intro s xs h ho
    obtain ⟨t, it, e, h2, _⟩ := sstep_ok h o ho.1
    obtain ⟨u, e3, h3⟩ := ih t _ h2 ho.2
    exact ⟨u, by rw [srun, e, Option.bind_some]; exact e3, h3⟩

/-- **C104** (partial: no draw is 0, and `erase(v)` of a value that is there only when the node before it is at least as high; else the property fails, see below).
After any allowed calls, the set holds the values that the calls describe: iteration, `size`, `get_at`, `find`, `count`, `lower_bound`, `upper_bound`, `predecessor` and what
the next allowed call returns. -/
theorem C104_set_partial (ops : List (SOp T)) (h : Allowed [] ops) :
    ∃ s, srun setInit ops = some s ∧ SBehaves s ((sspecRun [] ops).map (·.1)) ∧
      ∀ o : SOp T, o.Allowed (sspecRun [] ops) → ∃ t it, sstep s o = some (t, (it, (o.ret ((sspecRun [] ops).map (·.1)) ((o.spec (sspecRun [] ops)).map (·.1))).2)) ∧
        valuesFrom t.b it = some (o.ret ((sspecRun [] ops).map (·.1)) ((o.spec (sspecRun [] ops)).map (·.1))).1 := by
  obtain ⟨t, e, h2⟩ := srun_ok ops setInit [] sis_init h
  refine ⟨t, e, sbehaves_of h2, fun o ho => ?_⟩
  obtain ⟨u, it, e3, _, h4⟩ := sstep_ok h2 o ho
  exact ⟨u, it, e3, h4⟩

/-- Insertions of 10, 30, 20 with the heights 0, 3, 1; then 30 is erased by index and 10 by value. -/
def ssample : List (SOp Nat) := [.insert 10 1, .insert 30 8, .insert 20 2, .insert 30 1, .eraseAt 2, .erase 10, .insert 40 16]

example : sspecRun [] ssample = [(20, 1), (40, 4)] := by decide +kernel

example : Allowed [] ssample := by
  have hp : pickHeight 1 = 0 ∧ pickHeight 8 = 3 ∧ pickHeight 2 = 1 := by decide +kernel
  obtain ⟨p1, p2, p3⟩ := hp
  simp only [ssample, Allowed, SOp.Allowed, SOp.spec, p1, p2, p3]
  refine ⟨by decide, by decide, by decide, by decide, trivial, ?_, by decide, trivial⟩
  intro pre p x post e hx
  have e2 : ([(10, 0), (20, 1)] : List (Nat × Nat)) = pre ++ p :: x :: post := e
  rcases pre with _ | ⟨a, _ | ⟨b, _ | ⟨c, pre⟩⟩⟩
  · simp at e2
    rw [← e2.2.1] at hx; simp at hx
  all_goals simp at e2

example : (srun setInit ssample).bind (fun s => (begin s.b).bind (valuesFrom s.b)) = some [20, 40] := by decide +kernel

/-- C104 is violated: insert 1 (height 0) and 2 (height 1), then erase 2: the size is 1, but 2 is still found, and iteration still shows it. -/
theorem C104_violated : (srun setInit [.insert 1 1, .insert 2 2, .erase 2]).map (fun s => (s.b.size, count s.b 2, (begin s.b).bind (seen s.b 5))) = some (1, some 1, some [1, 2]) := by decide +kernel

end Verif.Skip
