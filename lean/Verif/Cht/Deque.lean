import Verif.Bisect.Bisect
import Mathlib.Tactic.Linarith
import Mathlib.Tactic.Ring
import Mathlib.Data.List.Induction
/-!
C47: `ConvexHullTrickDeque`, `/repo/include/mtl/convex_hull_trick.hpp:15-82`.

Values are exact integers (no overflow of `T`).  `up = true` is `C = std::less` (maximum), `up = false` is `C = std::greater` (minimum).
`none` is a failed `assert` or an access out of range.
-/
namespace Verif.Cht
open Verif.Bisect

abbrev Line := Int × Int

/-- `cmp`. -/
def lt (up : Bool) (a b : Int) : Prop := if up then a < b else b < a

instance (up : Bool) (a b : Int) : Decidable (lt up a b) := by unfold lt; infer_instance

/-- convex_hull_trick.hpp:55: the value of a line. -/
def val (l : Line) (x : Int) : Int := l.1 * x + l.2

/-- convex_hull_trick.hpp:22-31 (`intersect_less`). -/
def isl (g h i : Line) : Option Bool :=
  if g.1 ≠ h.1 ∧ h.1 ≠ i.1 then some (decide ((h.2 - g.2) * (h.1 - i.1) < (i.2 - h.2) * (g.1 - h.1))) else none

/-- convex_hull_trick.hpp:40-41: the loop of `push_back`; the list is given from the back. -/
def pruneBack (l : Line) : List Line → Option (List Line)
  | h :: g :: r => (isl g h l).bind (fun b => if b then some (h :: g :: r) else pruneBack l (g :: r))
  | L => some L

/-- convex_hull_trick.hpp:47-48: the loop of `push_front`. -/
def pruneFront (l : Line) : List Line → Option (List Line)
  | h :: i :: r => (isl l h i).bind (fun b => if b then some (h :: i :: r) else pruneFront l (i :: r))
  | L => some L

/-- `assert(L.empty() or cmp(...))`. -/
def slopeOk (o : Option Line) (p : Int → Bool) : Bool :=
  match o with
  | none => true
  | some l => p l.1

/-- convex_hull_trick.hpp:37-43. -/
def pushBack (up : Bool) (a b : Int) (L : List Line) : Option (List Line) :=
  if slopeOk L.getLast? (fun s => decide (lt up s a)) then (pruneBack (a, b) L.reverse).map (fun R => R.reverse ++ [(a, b)]) else none

/-- convex_hull_trick.hpp:44-50. -/
def pushFront (up : Bool) (a b : Int) (L : List Line) : Option (List Line) :=
  if slopeOk L.head? (fun s => decide (lt up a s)) then (pruneFront (a, b) L).map (fun R => (a, b) :: R) else none

/-- convex_hull_trick.hpp:53-58: the predicate of the bisection. -/
def getPred (up : Bool) (L : List Line) (x : Int) (c : Int) : Option Bool :=
  if c = -1 then some true else
    (L[c.toNat]?).bind (fun l => (L[c.toNat + 1]?).map (fun r => decide (lt up (val l x) (val r x))))

/-- convex_hull_trick.hpp:52-61. -/
def get (up : Bool) (L : List Line) (x : Int) : Option Int :=
  (bisectInt (2^31 - 1) (getPred up L x) L.length (-1) ((L.length : Int) - 1)).bind (fun i => (L[(i + 1).toNat]?).map (fun l => val l x))

/-- convex_hull_trick.hpp:66-69. -/
def incLoop (up : Bool) (x : Int) : List Line → Int → List Line × Int
  | g :: h :: r, ret => if lt up ret (val h x) then incLoop up x (h :: r) (val h x) else (g :: h :: r, ret)
  | L, ret => (L, ret)

/-- convex_hull_trick.hpp:63-71: the deque afterwards and the value. -/
def getInc (up : Bool) (x : Int) (L : List Line) : Option (List Line × Int) := (L.head?).map (fun l => incLoop up x L (val l x))

/-- convex_hull_trick.hpp:73-81: the same from the back (lines 76-79 mirror 66-69). -/
def getDec (up : Bool) (x : Int) (L : List Line) : Option (List Line × Int) :=
  (L.getLast?).map (fun l => ((incLoop up x L.reverse (val l x)).1.reverse, (incLoop up x L.reverse (val l x)).2))

/-! ### Arithmetic -/

theorem lt_trans {up : Bool} {a b c : Int} (h1 : lt up a b) (h2 : lt up b c) : lt up a c := by
  cases up <;> simp only [lt, if_true, Bool.false_eq_true, if_false] at * <;> omega

theorem lt_asymm {up : Bool} {a b : Int} (h1 : lt up a b) : ¬ lt up b a := by
  cases up <;> simp only [lt, if_true, Bool.false_eq_true, if_false] at * <;> omega

theorem lt_irrefl {up : Bool} {a : Int} : ¬ lt up a a := fun h => lt_asymm h h

theorem lt_ne {up : Bool} {a b : Int} (h : lt up a b) : a ≠ b := by
  rintro rfl; exact lt_irrefl h

theorem le_trans {up : Bool} {a b c : Int} (h1 : ¬ lt up b a) (h2 : ¬ lt up c b) : ¬ lt up c a := by
  cases up <;> simp only [lt, if_true, Bool.false_eq_true, if_false] at * <;> omega

theorem lt_of_lt_of_le {up : Bool} {a b c : Int} (h1 : lt up a b) (h2 : ¬ lt up c b) : lt up a c := by
  cases up <;> simp only [lt, if_true, Bool.false_eq_true, if_false] at * <;> omega

theorem isl_some {up : Bool} {g h i : Line} (h1 : lt up g.1 h.1) (h2 : lt up h.1 i.1) :
    isl g h i = some (decide ((h.2 - g.2) * (h.1 - i.1) < (i.2 - h.2) * (g.1 - h.1))) := by
  rw [isl, if_pos ⟨lt_ne h1, lt_ne h2⟩]

/-- A pruned line is nowhere better than both its neighbours. -/
theorem core_drop {up : Bool} {g h i : Line} (h1 : lt up g.1 h.1) (h2 : lt up h.1 i.1) (hi : isl g h i = some false) (x : Int) :
    ¬ lt up (val g x) (val h x) ∨ ¬ lt up (val i x) (val h x) := by
  rw [isl_some h1 h2] at hi
  have hi : ¬ (h.2 - g.2) * (h.1 - i.1) < (i.2 - h.2) * (g.1 - h.1) := by simpa using hi
  rw [← not_and_or]
  rintro ⟨h3, h4⟩
  apply hi
  obtain ⟨a, b⟩ := g
  obtain ⟨c, d⟩ := h
  obtain ⟨e, f⟩ := i
  cases up <;> simp only [lt, if_true, Bool.false_eq_true, if_false, val] at *
  · have p1 : 0 < (c - e) * ((a * x + b) - (c * x + d)) := mul_pos (by omega) (by omega)
    have p2 : 0 < (a - c) * ((e * x + f) - (c * x + d)) := mul_pos (by omega) (by omega)
    nlinarith
  · have p1 : 0 < (e - c) * ((c * x + d) - (a * x + b)) := mul_pos (by omega) (by omega)
    have p2 : 0 < (c - a) * ((c * x + d) - (e * x + f)) := mul_pos (by omega) (by omega)
    nlinarith

/-- Along a hull, being worse than the next line carries over to the left. -/
theorem core_mono {up : Bool} {g h i : Line} (h1 : lt up g.1 h.1) (h2 : lt up h.1 i.1) (hi : isl g h i = some true) {x : Int}
    (hx : ¬ lt up (val i x) (val h x)) : lt up (val g x) (val h x) := by
  rw [isl_some h1 h2] at hi
  have hi : (h.2 - g.2) * (h.1 - i.1) < (i.2 - h.2) * (g.1 - h.1) := by simpa using hi
  by_contra h3
  obtain ⟨a, b⟩ := g
  obtain ⟨c, d⟩ := h
  obtain ⟨e, f⟩ := i
  cases up <;> simp only [lt, if_true, Bool.false_eq_true, if_false, val] at *
  · have p1 : 0 ≤ (c - e) * ((c * x + d) - (a * x + b)) := mul_nonneg (by omega) (by omega)
    have p2 : 0 ≤ (a - c) * ((c * x + d) - (e * x + f)) := mul_nonneg (by omega) (by omega)
    nlinarith
  · have p1 : 0 ≤ (e - c) * ((a * x + b) - (c * x + d)) := mul_nonneg (by omega) (by omega)
    have p2 : 0 ≤ (c - a) * ((e * x + f) - (c * x + d)) := mul_nonneg (by omega) (by omega)
    nlinarith

theorem core_right {up : Bool} {g h : Line} (h1 : lt up g.1 h.1) {x y : Int} (hx : lt up (val g x) (val h x)) (hxy : x ≤ y) :
    lt up (val g y) (val h y) := by
  obtain ⟨a, b⟩ := g
  obtain ⟨c, d⟩ := h
  cases up <;> simp only [lt, if_true, Bool.false_eq_true, if_false, val] at *
  · have : 0 ≤ (a - c) * (y - x) := mul_nonneg (by omega) (by omega)
    nlinarith
  · have : 0 ≤ (c - a) * (y - x) := mul_nonneg (by omega) (by omega)
    nlinarith

theorem core_left {up : Bool} {g h : Line} (h1 : lt up g.1 h.1) {x y : Int} (hx : lt up (val h x) (val g x)) (hxy : y ≤ x) :
    lt up (val h y) (val g y) := by
  obtain ⟨a, b⟩ := g
  obtain ⟨c, d⟩ := h
  cases up <;> simp only [lt, if_true, Bool.false_eq_true, if_false, val] at *
  · have : 0 ≤ (a - c) * (x - y) := mul_nonneg (by omega) (by omega)
    nlinarith
  · have : 0 ≤ (c - a) * (x - y) := mul_nonneg (by omega) (by omega)
    nlinarith

/-! ### Hulls -/

structure Hull (up : Bool) (L : List Line) : Prop where
  slope : ∀ A g h B, L = A ++ g :: h :: B → lt up g.1 h.1
  turn : ∀ A g h i B, L = A ++ g :: h :: i :: B → isl g h i = some true

theorem Hull.left {up : Bool} {L M : List Line} (h : Hull up (L ++ M)) : Hull up L :=
  ⟨fun A g k B e => h.slope A g k (B ++ M) (by rw [e]; simp), fun A g k i B e => h.turn A g k i (B ++ M) (by rw [e]; simp)⟩

theorem Hull.right {up : Bool} {L M : List Line} (h : Hull up (L ++ M)) : Hull up M :=
  ⟨fun A g k B e => h.slope (L ++ A) g k B (by rw [e]; simp), fun A g k i B e => h.turn (L ++ A) g k i B (by rw [e]; simp)⟩

theorem Hull.tail {up : Bool} {l : Line} {M : List Line} (h : Hull up (l :: M)) : Hull up M := Hull.right (L := [l]) h

theorem Hull.cons {up : Bool} {l : Line} {M : List Line} (h : Hull up M) (hs : ∀ k r, M = k :: r → lt up l.1 k.1)
    (ht : ∀ k i r, M = k :: i :: r → isl l k i = some true) : Hull up (l :: M) := by
  constructor
  · intro A g k B e
    cases A with
    | nil => injection e with e1 e2; subst e1; exact hs k B e2
    | cons a A => injection e with e1 e2; exact h.slope A g k B e2
  · intro A g k i B e
    cases A with
    | nil => injection e with e1 e2; subst e1; exact ht k i B e2
    | cons a A => injection e with e1 e2; exact h.turn A g k i B e2

theorem Hull.snoc {up : Bool} {l : Line} {M : List Line} (h : Hull up M) (hs : ∀ k r, M = r ++ [k] → lt up k.1 l.1)
    (ht : ∀ k g r, M = r ++ [g, k] → isl g k l = some true) : Hull up (M ++ [l]) := by
  constructor
  · intro A g k B e
    rcases List.eq_nil_or_concat B with rfl | ⟨B, z, rfl⟩
    · have : M ++ [l] = (A ++ [g]) ++ [k] := by rw [e]; simp
      obtain ⟨e1, e2⟩ := List.append_inj' this rfl
      cases e2
      exact hs g A e1
    · have : M ++ [l] = (A ++ g :: k :: B) ++ [z] := by rw [e]; simp
      obtain ⟨e1, _⟩ := List.append_inj' this rfl
      exact h.slope A g k B e1
  · intro A g k i B e
    rcases List.eq_nil_or_concat B with rfl | ⟨B, z, rfl⟩
    · have : M ++ [l] = (A ++ [g, k]) ++ [i] := by rw [e]; simp
      obtain ⟨e1, e2⟩ := List.append_inj' this rfl
      cases e2
      exact ht k g A e1
    · have : M ++ [l] = (A ++ g :: k :: i :: B) ++ [z] := by rw [e]; simp
      obtain ⟨e1, _⟩ := List.append_inj' this rfl
      exact h.turn A g k i B e1

/-- `L` is as good as `M` at `x`. -/
def Dom (up : Bool) (x : Int) (L M : List Line) : Prop := ∀ m ∈ M, ∃ l ∈ L, ¬ lt up (val l x) (val m x)

theorem Dom.trans {up : Bool} {x : Int} {L M N : List Line} (h1 : Dom up x L M) (h2 : Dom up x M N) : Dom up x L N := by
  intro n hn
  obtain ⟨m, hm, h3⟩ := h2 n hn
  obtain ⟨l, hl, h4⟩ := h1 m hm
  exact ⟨l, hl, le_trans h3 h4⟩

theorem Dom.of_subset {up : Bool} {x : Int} {L M : List Line} (h : ∀ m ∈ M, m ∈ L) : Dom up x L M := fun m hm => ⟨m, h m hm, lt_irrefl⟩

/-- Removing a dominated element. -/
theorem Dom.remove {up : Bool} {x : Int} {A B : List Line} {h : Line} (hd : ∃ l ∈ A ++ B, ¬ lt up (val l x) (val h x)) :
    Dom up x (A ++ B) (A ++ h :: B) := by
  intro m hm
  rw [List.mem_append, List.mem_cons] at hm
  rcases hm with hm | rfl | hm
  · exact ⟨m, List.mem_append_left _ hm, lt_irrefl⟩
  · exact hd
  · exact ⟨m, List.mem_append_right _ hm, lt_irrefl⟩

theorem pruneBack_ok {up : Bool} {l : Line} : ∀ R : List Line, Hull up R.reverse → (∀ k ∈ R, lt up k.1 l.1) →
    ∃ R', pruneBack l R = some R' ∧ Hull up (R'.reverse ++ [l]) ∧ (∃ P, R = P ++ R') ∧ ∀ x, Dom up x (R'.reverse ++ [l]) (R.reverse ++ [l]) := by
  intro R
  induction R with
  | nil =>
    intro _ _
    exact ⟨[], rfl, Hull.snoc (M := []) ⟨by simp, by simp⟩ (by simp) (by simp), ⟨[], rfl⟩, fun x => Dom.of_subset (by simp)⟩
  | cons h R ih =>
    intro hH hs
    cases R with
    | nil =>
      refine ⟨[h], rfl, hH.snoc ?_ ?_, ⟨[], rfl⟩, fun x => Dom.of_subset (by simp)⟩
      · intro k r e
        have : [h] = r ++ [k] := e
        cases r with
        | nil => cases this; exact hs h List.mem_cons_self
        | cons a r => simp at this
      · intro k g r e
        have := congrArg List.length e
        simp at this
    | cons g R =>
      have hgh : lt up g.1 h.1 := hH.slope R.reverse g h [] (by simp)
      have hhl : lt up h.1 l.1 := hs h List.mem_cons_self
      have hb := isl_some hgh hhl
      rw [pruneBack]
      by_cases hc : isl g h l = some true
      · rw [hc, Option.bind_some, if_pos rfl]
        refine ⟨h :: g :: R, rfl, hH.snoc ?_ ?_, ⟨[], rfl⟩, fun x => Dom.of_subset (by simp)⟩
        · intro k r e
          exact hs k (by rw [← List.mem_reverse, e]; simp)
        · intro k g' r e
          have e' : (R.reverse ++ [g]) ++ [h] = (r ++ [g']) ++ [k] := by
            have : (h :: g :: R).reverse = (R.reverse ++ [g]) ++ [h] := by simp
            rw [← this, e]; simp
          obtain ⟨e1, e2⟩ := List.append_inj' e' rfl
          obtain ⟨_, e3⟩ := List.append_inj' e1 rfl
          cases e2; cases e3
          exact hc
      · have hc' : isl g h l = some false := by
          rw [hb] at hc ⊢
          simpa using hc
        rw [hc', Option.bind_some, if_neg (by simp)]
        obtain ⟨R', e, h1, ⟨P, hP⟩, h2⟩ := ih (by rw [List.reverse_cons] at hH; exact hH.left) (fun k hk => hs k (List.mem_cons_of_mem h hk))
        refine ⟨R', e, h1, ⟨h :: P, by rw [hP]; rfl⟩, fun x => (h2 x).trans ?_⟩
        have : ((h :: g :: R).reverse ++ [l]) = (g :: R).reverse ++ h :: [l] := by simp
        rw [this]
        apply Dom.remove
        rcases core_drop hgh hhl hc' x with hx | hx
        · exact ⟨g, by simp, hx⟩
        · exact ⟨l, by simp, hx⟩

theorem pruneFront_ok {up : Bool} {l : Line} : ∀ R : List Line, Hull up R → (∀ k ∈ R, lt up l.1 k.1) →
    ∃ R', pruneFront l R = some R' ∧ Hull up (l :: R') ∧ (∃ P, R = P ++ R') ∧ ∀ x, Dom up x (l :: R') (l :: R) := by
  intro R
  induction R with
  | nil =>
    intro _ _
    exact ⟨[], rfl, Hull.cons (M := []) ⟨by simp, by simp⟩ (by simp) (by simp), ⟨[], rfl⟩, fun x => Dom.of_subset (by simp)⟩
  | cons h R ih =>
    intro hH hs
    cases R with
    | nil =>
      refine ⟨[h], rfl, hH.cons ?_ (by simp), ⟨[], rfl⟩, fun x => Dom.of_subset (by simp)⟩
      intro k r e
      injection e with e1 _
      subst e1; exact hs h List.mem_cons_self
    | cons i R =>
      have hhi : lt up h.1 i.1 := hH.slope [] h i R rfl
      have hlh : lt up l.1 h.1 := hs h List.mem_cons_self
      have hb := isl_some hlh hhi
      rw [pruneFront]
      by_cases hc : isl l h i = some true
      · rw [hc, Option.bind_some, if_pos rfl]
        refine ⟨h :: i :: R, rfl, hH.cons ?_ ?_, ⟨[], rfl⟩, fun x => Dom.of_subset (by simp)⟩
        · intro k r e
          injection e with e1 _
          subst e1; exact hlh
        · intro k j r e
          injection e with e1 e2
          injection e2 with e2 _
          subst e1; subst e2; exact hc
      · have hc' : isl l h i = some false := by
          rw [hb] at hc ⊢
          simpa using hc
        rw [hc', Option.bind_some, if_neg (by simp)]
        obtain ⟨R', e, h1, ⟨P, hP⟩, h2⟩ := ih hH.tail (fun k hk => hs k (List.mem_cons_of_mem h hk))
        refine ⟨R', e, h1, ⟨h :: P, by rw [hP]; rfl⟩, fun x => (h2 x).trans ?_⟩
        apply Dom.remove (A := [l])
        rcases core_drop hlh hhi hc' x with hx | hx
        · exact ⟨l, by simp, hx⟩
        · exact ⟨i, by simp, hx⟩

/-! ### The peak of a hull at `x` -/

/-- To the left of a line that is not worse than its left neighbour … everything further left is no better. -/
theorem peak_left {up : Bool} {x : Int} {h : Line} {B : List Line} : ∀ A : List Line, Hull up (A ++ h :: B) →
    (∀ A' g, A = A' ++ [g] → ¬ lt up (val h x) (val g x)) → ∀ m ∈ A, ¬ lt up (val h x) (val m x) := by
  intro A
  induction A using List.reverseRecOn generalizing h B with
  | nil => intro _ _ m hm; simp at hm
  | append_singleton A g ih =>
    intro hH hg m hm
    have hgx := hg A g rfl
    rw [List.mem_append, List.mem_singleton] at hm
    rcases hm with hm | rfl
    · have hH' : Hull up (A ++ g :: (h :: B)) := by rw [List.append_assoc] at hH; exact hH
      refine le_trans (ih hH' ?_ m hm) hgx
      intro A' f e
      subst e
      have hf : lt up f.1 g.1 := hH.slope A' f g (h :: B) (by simp)
      have hgh : lt up g.1 h.1 := hH.slope (A' ++ [f]) g h B (by simp)
      exact lt_asymm (core_mono hf hgh (hH.turn A' f g h B (by simp)) hgx)
    · exact hgx

theorem peak_right {up : Bool} {x : Int} {B : List Line} : ∀ (h : Line), Hull up (h :: B) →
    (∀ i B', B = i :: B' → ¬ lt up (val h x) (val i x)) → ∀ m ∈ B, ¬ lt up (val h x) (val m x) := by
  induction B with
  | nil => intro h _ _ m hm; simp at hm
  | cons i B ih =>
    intro h hH hi m hm
    have hix := hi i B rfl
    rw [List.mem_cons] at hm
    rcases hm with rfl | hm
    · exact hix
    · refine le_trans (ih i hH.tail ?_ m hm) hix
      intro j B' e
      subst e
      intro hlt
      have h1 : lt up h.1 i.1 := hH.slope [] h i (j :: B') rfl
      have h2 : lt up i.1 j.1 := hH.slope [h] i j B' rfl
      exact hix (core_mono h1 h2 (hH.turn [] h i j B' rfl) (lt_asymm hlt))

theorem split_at {L : List Line} {c : Nat} (hc : c < L.length) : L = L.take c ++ L[c] :: L.drop (c+1) := by
  rw [← List.drop_eq_getElem_cons hc, List.take_append_drop]

theorem get_ok {up : Bool} {L : List Line} (hH : Hull up L) (hne : L ≠ []) (hlen : L.length < 2^31) (x : Int) :
    ∃ l ∈ L, get up L x = some (val l x) ∧ ∀ m ∈ L, ¬ lt up (val l x) (val m x) := by
  have hpos : 0 < L.length := List.length_pos_iff.2 hne
  have habs : ((L.length : Int) - 1 - (-1)).natAbs = L.length := by omega
  have hdef : ∀ c : Int, 0 ≤ c → c < (L.length : Int) - 1 → ∃ (h1 : c.toNat < L.length) (h2 : c.toNat + 1 < L.length),
      getPred up L x c = some (decide (lt up (val L[c.toNat] x) (val L[c.toNat + 1] x))) := by
    intro c h0 h1
    refine ⟨by omega, by omega, ?_⟩
    rw [getPred, if_neg (by omega), List.getElem?_eq_getElem (by omega), Option.bind_some, List.getElem?_eq_getElem (by omega)]
    rfl
  obtain ⟨i, e, h1, h2⟩ := C18_bisect_int (2^31 - 1) (getPred up L x) (-1) ((L.length : Int) - 1) (by omega) (by omega) (by
    intro c hc
    unfold Between at hc
    obtain ⟨_, _, e⟩ := hdef c (by omega) (by omega)
    rw [e]; simp)
  have hsign : ((L.length : Int) - 1 - (-1)).sign = 1 := Int.sign_eq_one_of_pos (by omega)
  rw [hsign] at h2
  have hi1 : -1 ≤ i := by
    rcases h1 with rfl | ⟨hb, _⟩
    · omega
    · unfold Between at hb; omega
  have hi2 : i + 1 < L.length := by
    rcases h2 with h | ⟨hb, _⟩
    · omega
    · unfold Between at hb; omega
  have hr : (i + 1).toNat < L.length := by omega
  refine ⟨L[(i+1).toNat], List.getElem_mem hr, ?_, ?_⟩
  · rw [get, e L.length (by omega), Option.bind_some, List.getElem?_eq_getElem hr]; rfl
  · have hsp := split_at hr
    generalize hln : L[(i+1).toNat] = l at *
    have hH' := hH
    rw [hsp] at hH'
    have hleft := peak_left (x := x) _ hH' (by
      intro A' g hA
      rcases h1 with h1 | ⟨hb, hp⟩
      · subst h1
        have := congrArg List.length hA
        simp at this
      · unfold Between at hb
        obtain ⟨a1, a2, e2⟩ := hdef i (by omega) (by omega)
        rw [e2] at hp
        have hp : lt up (val L[i.toNat] x) (val L[i.toNat + 1] x) := by simpa using hp
        have hi3 : (i+1).toNat = i.toNat + 1 := by omega
        have e4 : L[i.toNat + 1] = l := by rw [← hln]; congr 1; omega
        have e5 : L[i.toNat] = g := by
          rw [hi3, List.take_succ_eq_append_getElem a1] at hA
          have := (List.append_inj' hA rfl).2
          simpa using this
        rw [e4, e5] at hp
        exact lt_asymm hp)
    have hright := peak_right (x := x) l hH'.right (by
      intro k B' hB
      rcases h2 with h2 | ⟨hb, hp⟩
      · have := congrArg List.length hB
        simp at this
        omega
      · unfold Between at hb
        obtain ⟨a1, a2, e2⟩ := hdef (i+1) (by omega) (by omega)
        rw [e2] at hp
        have hp : ¬ lt up (val L[(i+1).toNat] x) (val L[(i+1).toNat + 1] x) := by simpa using hp
        rw [hln] at hp
        rw [List.drop_eq_getElem_cons a2] at hB
        injection hB with hB _
        rw [hB] at hp
        exact hp)
    intro m hm
    rw [hsp, List.mem_append, List.mem_cons] at hm
    rcases hm with hm | rfl | hm
    · exact hleft m hm
    · exact lt_irrefl
    · exact hright m hm

theorem incLoop_ok {up : Bool} {x : Int} : ∀ (L : List Line) (g : Line) (L1 : List Line), L = g :: L1 → Hull up L →
    ∃ (k : Line) (R P : List Line), incLoop up x L (val g x) = (k :: R, val k x) ∧ L = P ++ k :: R ∧ (∀ m ∈ L, ¬ lt up (val k x) (val m x)) ∧
      ∀ y, x ≤ y → Dom up y (k :: R) L := by
  intro L
  induction L with
  | nil => intro g L1 h; cases h
  | cons g' L ih =>
    intro g L1 he hH
    injection he with he1 he2
    subst he1
    cases L with
    | nil =>
      refine ⟨g', [], [], rfl, rfl, ?_, fun y _ => Dom.of_subset (by simp)⟩
      intro m hm
      rw [List.mem_singleton] at hm
      subst hm; exact lt_irrefl
    | cons h R =>
      rw [incLoop]
      by_cases hlt : lt up (val g' x) (val h x)
      · rw [if_pos hlt]
        obtain ⟨k, R', P, e, hP, hmax, hdom⟩ := ih h R rfl hH.tail
        refine ⟨k, R', g' :: P, e, by rw [hP]; rfl, ?_, ?_⟩
        · intro m hm
          rw [List.mem_cons] at hm
          rcases hm with rfl | hm
          · exact le_trans (lt_asymm hlt) (hmax h List.mem_cons_self)
          · exact hmax m hm
        · intro y hy
          refine (hdom y hy).trans ?_
          apply Dom.remove (A := [])
          exact ⟨h, by simp, lt_asymm (core_right (hH.slope [] g' h R rfl) hlt hy)⟩
      · rw [if_neg hlt]
        refine ⟨g', h :: R, [], rfl, rfl, ?_, fun y _ => Dom.of_subset (by simp)⟩
        intro m hm
        rw [List.mem_cons] at hm
        rcases hm with rfl | hm
        · exact lt_irrefl
        · refine peak_right g' hH ?_ m hm
          intro i B' e
          injection e with e1 _
          subst e1; exact hlt

theorem decLoop_ok {up : Bool} {x : Int} : ∀ (L : List Line) (g : Line) (L1 : List Line), L = g :: L1 → Hull up L.reverse →
    ∃ (k : Line) (R P : List Line), incLoop up x L (val g x) = (k :: R, val k x) ∧ L = P ++ k :: R ∧ (∀ m ∈ L, ¬ lt up (val k x) (val m x)) ∧
      ∀ y, y ≤ x → Dom up y (k :: R) L := by
  intro L
  induction L with
  | nil => intro g L1 h; cases h
  | cons g' L ih =>
    intro g L1 he hH
    injection he with he1 he2
    subst he1
    cases L with
    | nil =>
      refine ⟨g', [], [], rfl, rfl, ?_, fun y _ => Dom.of_subset (by simp)⟩
      intro m hm
      rw [List.mem_singleton] at hm
      subst hm; exact lt_irrefl
    | cons h R =>
      rw [incLoop]
      have hH2 : Hull up ((h :: R).reverse ++ [g']) := by rw [List.reverse_cons] at hH; exact hH
      by_cases hlt : lt up (val g' x) (val h x)
      · rw [if_pos hlt]
        obtain ⟨k, R', P, e, hP, hmax, hdom⟩ := ih h R rfl hH2.left
        refine ⟨k, R', g' :: P, e, by rw [hP]; rfl, ?_, ?_⟩
        · intro m hm
          rw [List.mem_cons] at hm
          rcases hm with rfl | hm
          · exact le_trans (lt_asymm hlt) (hmax h List.mem_cons_self)
          · exact hmax m hm
        · intro y hy
          refine (hdom y hy).trans ?_
          apply Dom.remove (A := [])
          exact ⟨h, by simp, lt_asymm (core_left (hH.slope R.reverse h g' [] (by simp)) hlt hy)⟩
      · rw [if_neg hlt]
        refine ⟨g', h :: R, [], rfl, rfl, ?_, fun y _ => Dom.of_subset (by simp)⟩
        intro m hm
        rw [List.mem_cons] at hm
        rcases hm with rfl | hm
        · exact lt_irrefl
        · refine peak_left (h := g') (B := []) (h :: R).reverse hH2 ?_ m (List.mem_reverse.2 hm)
          intro A' i e
          rw [List.reverse_cons] at e
          have := (List.append_inj' e rfl).2
          cases this
          exact hlt

/-! ### Histories -/

inductive Op
  | pushBack (a b : Int)
  | pushFront (a b : Int)
  | get (x : Int)
  | getInc (x : Int)
  | getDec (x : Int)

/-- One operation: the deque afterwards and the answer of a query. -/
def step (up : Bool) : Op → List Line → Option (List Line × Option Int)
  | .pushBack a b, L => (pushBack up a b L).map (fun L => (L, none))
  | .pushFront a b, L => (pushFront up a b L).map (fun L => (L, none))
  | .get x, L => (get up L x).map (fun v => (L, some v))
  | .getInc x, L => (getInc up x L).map (fun r => (r.1, some r.2))
  | .getDec x, L => (getDec up x L).map (fun r => (r.1, some r.2))

/-- The answers of a history. -/
def run (up : Bool) : List Op → List Line → Option (List (Option Int))
  | [], _ => some []
  | o :: os, L => (step up o L).bind (fun r => (run up os r.1).map (fun as => r.2 :: as))

/-- `v` is the best value at `x` over the lines `S`. -/
def Best (up : Bool) (S : List Line) (x v : Int) : Prop := (∃ l ∈ S, v = val l x) ∧ ∀ l ∈ S, ¬ lt up v (val l x)

/-- What a user must observe and may rely on: `S` are the lines pushed so far, `D` the arguments still allowed (`get_incremental(x)` gives up
smaller arguments, `get_decremental(x)` larger ones).  Slopes must be pushed outwards, queries need a line. -/
def Valid (up : Bool) : List Op → List Line → (Int → Prop) → Prop
  | [], _, _ => True
  | .pushBack a b :: os, S, D => (∀ l ∈ S, lt up l.1 a) ∧ Valid up os ((a, b) :: S) D
  | .pushFront a b :: os, S, D => (∀ l ∈ S, lt up a l.1) ∧ Valid up os ((a, b) :: S) D
  | .get x :: os, S, D => S ≠ [] ∧ D x ∧ Valid up os S D
  | .getInc x :: os, S, D => S ≠ [] ∧ D x ∧ Valid up os S (fun y => D y ∧ x ≤ y)
  | .getDec x :: os, S, D => S ≠ [] ∧ D x ∧ Valid up os S (fun y => D y ∧ y ≤ x)

/-- The answers are the best values over all lines pushed before. -/
def Answers (up : Bool) : List Op → List Line → List (Option Int) → Prop
  | [], _, as => as = []
  | .pushBack a b :: os, S, as => ∃ as', as = none :: as' ∧ Answers up os ((a, b) :: S) as'
  | .pushFront a b :: os, S, as => ∃ as', as = none :: as' ∧ Answers up os ((a, b) :: S) as'
  | .get x :: os, S, as => ∃ v as', as = some v :: as' ∧ Best up S x v ∧ Answers up os S as'
  | .getInc x :: os, S, as => ∃ v as', as = some v :: as' ∧ Best up S x v ∧ Answers up os S as'
  | .getDec x :: os, S, as => ∃ v as', as = some v :: as' ∧ Best up S x v ∧ Answers up os S as'

/-- Invariant. -/
structure Inv (up : Bool) (S : List Line) (D : Int → Prop) (L : List Line) : Prop where
  hull : Hull up L
  sub : ∀ l ∈ L, l ∈ S
  len : L.length ≤ S.length
  ne : S ≠ [] → L ≠ []
  dom : ∀ x, D x → Dom up x L S

theorem Inv.best {up : Bool} {S : List Line} {D : Int → Prop} {L : List Line} (h : Inv up S D L) {x : Int} (hx : D x) {l : Line} (hl : l ∈ L)
    (hmax : ∀ m ∈ L, ¬ lt up (val l x) (val m x)) : Best up S x (val l x) := by
  refine ⟨⟨l, h.sub l hl, rfl⟩, fun s hs => ?_⟩
  obtain ⟨m, hm, hms⟩ := h.dom x hx s hs
  exact le_trans hms (hmax m hm)

theorem Inv.pushBack {up : Bool} {S : List Line} {D : Int → Prop} {L : List Line} (h : Inv up S D L) {a b : Int} (ha : ∀ l ∈ S, lt up l.1 a) :
    ∃ L', pushBack up a b L = some L' ∧ Inv up ((a, b) :: S) D L' := by
  have hL : ∀ k ∈ L, lt up k.1 a := fun k hk => ha k (h.sub k hk)
  obtain ⟨R, e, h1, ⟨P, hP⟩, h2⟩ := pruneBack_ok (l := (a, b)) L.reverse (by rw [List.reverse_reverse]; exact h.hull)
    (fun k hk => hL k (List.mem_reverse.1 hk))
  refine ⟨R.reverse ++ [(a, b)], ?_, h1, ?_, ?_, fun _ => by simp, ?_⟩
  · rw [Verif.Cht.pushBack, if_pos, e]
    · rfl
    · cases hl : L.getLast? with
      | none => rfl
      | some l =>
        have := List.mem_of_mem_getLast? hl
        simpa [slopeOk] using hL l this
  · intro l hl
    rw [List.mem_append, List.mem_reverse, List.mem_singleton] at hl
    rcases hl with hl | rfl
    · exact List.mem_cons_of_mem _ (h.sub l (by rw [← List.mem_reverse, hP]; exact List.mem_append_right _ hl))
    · exact List.mem_cons_self
  · have := congrArg List.length hP
    have hl := h.len
    simp at this ⊢
    omega
  · intro x hx m hm
    rw [List.reverse_reverse] at h2
    rw [List.mem_cons] at hm
    rcases hm with rfl | hm
    · exact ⟨(a, b), by simp, lt_irrefl⟩
    · obtain ⟨l, hl, hlm⟩ := h.dom x hx m hm
      obtain ⟨k, hk, hkl⟩ := h2 x l (List.mem_append_left _ hl)
      exact ⟨k, hk, le_trans hlm hkl⟩

theorem Inv.pushFront {up : Bool} {S : List Line} {D : Int → Prop} {L : List Line} (h : Inv up S D L) {a b : Int} (ha : ∀ l ∈ S, lt up a l.1) :
    ∃ L', pushFront up a b L = some L' ∧ Inv up ((a, b) :: S) D L' := by
  have hL : ∀ k ∈ L, lt up a k.1 := fun k hk => ha k (h.sub k hk)
  obtain ⟨R, e, h1, ⟨P, hP⟩, h2⟩ := pruneFront_ok (l := (a, b)) L h.hull hL
  refine ⟨(a, b) :: R, ?_, h1, ?_, ?_, fun _ => by simp, ?_⟩
  · rw [Verif.Cht.pushFront, if_pos, e]
    · rfl
    · cases hl : L.head? with
      | none => rfl
      | some l =>
        have := List.mem_of_mem_head? hl
        simpa [slopeOk] using hL l this
  · intro l hl
    rw [List.mem_cons] at hl
    rcases hl with rfl | hl
    · exact List.mem_cons_self
    · exact List.mem_cons_of_mem _ (h.sub l (by rw [hP]; exact List.mem_append_right _ hl))
  · have := congrArg List.length hP
    have hl := h.len
    simp at this ⊢
    omega
  · intro x hx m hm
    rw [List.mem_cons] at hm
    rcases hm with rfl | hm
    · exact ⟨(a, b), by simp, lt_irrefl⟩
    · obtain ⟨l, hl, hlm⟩ := h.dom x hx m hm
      obtain ⟨k, hk, hkl⟩ := h2 x l (List.mem_cons_of_mem _ hl)
      exact ⟨k, hk, le_trans hlm hkl⟩

theorem Inv.getInc {up : Bool} {S : List Line} {D : Int → Prop} {L : List Line} (h : Inv up S D L) (hS : S ≠ []) {x : Int} (hx : D x) :
    ∃ L' v, getInc up x L = some (L', v) ∧ Best up S x v ∧ Inv up S (fun y => D y ∧ x ≤ y) L' := by
  obtain ⟨g, L1, hL⟩ := List.exists_cons_of_ne_nil (h.ne hS)
  obtain ⟨k, R, P, e, hP, hmax, hdom⟩ := incLoop_ok (up := up) (x := x) L g L1 hL h.hull
  refine ⟨k :: R, val k x, ?_, h.best hx (by rw [hP]; simp) hmax, ?_, ?_, ?_, fun _ => by simp, ?_⟩
  · rw [Verif.Cht.getInc]
    rw [show L.head? = some g by rw [hL]; rfl, Option.map_some, e]
  · have := h.hull; rw [hP] at this; exact this.right
  · intro l hl; exact h.sub l (by rw [hP]; exact List.mem_append_right _ hl)
  · have := congrArg List.length hP
    have hl := h.len
    simp at this ⊢
    omega
  · intro y hy
    exact (hdom y hy.2).trans (h.dom y hy.1)

theorem Inv.getDec {up : Bool} {S : List Line} {D : Int → Prop} {L : List Line} (h : Inv up S D L) (hS : S ≠ []) {x : Int} (hx : D x) :
    ∃ L' v, getDec up x L = some (L', v) ∧ Best up S x v ∧ Inv up S (fun y => D y ∧ y ≤ x) L' := by
  obtain ⟨g, L1, hL⟩ := List.exists_cons_of_ne_nil (l := L.reverse) (by simpa using h.ne hS)
  obtain ⟨k, R, P, e, hP, hmax, hdom⟩ := decLoop_ok (up := up) (x := x) L.reverse g L1 hL (by rw [List.reverse_reverse]; exact h.hull)
  have hP' : L = (k :: R).reverse ++ P.reverse := by rw [← List.reverse_append, ← hP, List.reverse_reverse]
  refine ⟨(k :: R).reverse, val k x, ?_, h.best hx (by rw [hP']; simp) (fun m hm => hmax m (List.mem_reverse.2 hm)), ?_, ?_, ?_, fun _ => by simp, ?_⟩
  · rw [Verif.Cht.getDec]
    rw [show L.getLast? = some g by rw [← List.head?_reverse, hL]; rfl, Option.map_some, e]
  · have := h.hull; rw [hP'] at this; exact this.left
  · intro l hl; exact h.sub l (by rw [hP']; exact List.mem_append_left _ hl)
  · have := congrArg List.length hP
    have hl := h.len
    simp at this ⊢
    omega
  · intro y hy m hm
    obtain ⟨l, hl, h1⟩ := h.dom y hy.1 m hm
    obtain ⟨q, hq, h2⟩ := hdom y hy.2 l (List.mem_reverse.2 hl)
    exact ⟨q, List.mem_reverse.2 hq, le_trans h1 h2⟩

theorem history {up : Bool} : ∀ (os : List Op) (S : List Line) (D : Int → Prop) (L : List Line), Inv up S D L → Valid up os S D →
    S.length + os.length < 2^31 → ∃ as, run up os L = some as ∧ Answers up os S as := by
  intro os
  induction os with
  | nil => intro S D L _ _ _; exact ⟨[], rfl, rfl⟩
  | cons o os ih =>
    intro S D L hI hv hlen
    rw [List.length_cons] at hlen
    cases o with
    | pushBack a b =>
      obtain ⟨L', e, hI'⟩ := hI.pushBack (b := b) hv.1
      obtain ⟨as, e2, ha⟩ := ih _ D L' hI' hv.2 (by rw [List.length_cons]; omega)
      exact ⟨none :: as, by rw [run, step, e, Option.map_some, Option.bind_some, e2, Option.map_some], as, rfl, ha⟩
    | pushFront a b =>
      obtain ⟨L', e, hI'⟩ := hI.pushFront (b := b) hv.1
      obtain ⟨as, e2, ha⟩ := ih _ D L' hI' hv.2 (by rw [List.length_cons]; omega)
      exact ⟨none :: as, by rw [run, step, e, Option.map_some, Option.bind_some, e2, Option.map_some], as, rfl, ha⟩
    | get x =>
      obtain ⟨hS, hx, hv⟩ := hv
      obtain ⟨l, hl, e, hmax⟩ := get_ok hI.hull (hI.ne hS) (by have := hI.len; omega) x
      obtain ⟨as, e2, ha⟩ := ih S D L hI hv (by omega)
      exact ⟨some (val l x) :: as, by rw [run, step, e, Option.map_some, Option.bind_some, e2, Option.map_some], _, as, rfl, hI.best hx hl hmax, ha⟩
    | getInc x =>
      obtain ⟨hS, hx, hv⟩ := hv
      obtain ⟨L', v, e, hb, hI'⟩ := hI.getInc hS hx
      obtain ⟨as, e2, ha⟩ := ih S _ L' hI' hv (by omega)
      exact ⟨some v :: as, by rw [run, step, e, Option.map_some, Option.bind_some, e2, Option.map_some], _, as, rfl, hb, ha⟩
    | getDec x =>
      obtain ⟨hS, hx, hv⟩ := hv
      obtain ⟨L', v, e, hb, hI'⟩ := hI.getDec hS hx
      obtain ⟨as, e2, ha⟩ := ih S _ L' hI' hv (by omega)
      exact ⟨some v :: as, by rw [run, step, e, Option.map_some, Option.bind_some, e2, Option.map_some], _, as, rfl, hb, ha⟩

/-- **C47.** In every history in which slopes are pushed outwards and queries are made on a nonempty set (with arguments not given up by an
earlier `get_incremental` / `get_decremental`), no assertion fails and every query returns the best value over all lines pushed so far. -/
theorem C47_deque (up : Bool) (os : List Op) (hv : Valid up os [] (fun _ => True)) (hlen : os.length < 2^31) :
    ∃ as, run up os [] = some as ∧ Answers up os [] as :=
  history os [] _ [] ⟨⟨by simp, by simp⟩, by simp, Nat.le_refl _, fun h => absurd rfl h, fun _ _ => by intro m hm; simp at hm⟩ hv (by simpa using hlen)

/-- A query without lines is undefined. -/
theorem C47_empty (up : Bool) (x : Int) : run up [.get x] [] = none := by
  cases up <;> rfl

/-- The restriction on later arguments is needed: after `get_incremental(5)` a smaller argument is answered wrongly. -/
theorem C47_inc_needed : run true [.pushBack 0 0, .pushBack 1 0, .getInc 5, .get (-5)] [] = some [none, none, some 5, some (-5)] ∧
    ¬ Best true [(1, 0), (0, 0)] (-5) (-5) := by
  refine ⟨by decide, fun h => ?_⟩
  exact absurd (h.2 (0, 0) (by simp)) (by decide)

example : run true [.pushBack 0 0, .pushBack 1 (-3), .pushBack 3 (-20), .pushFront (-2) 1, .get 4, .get (-7), .get 100, .getInc 3, .getDec 50, .get 10] []
    = some [none, none, none, none, some 1, some 15, some 280, some 0, some 130, some 10] := by decide
example : run false [.pushBack 3 (-20), .pushBack 1 (-3), .pushBack 0 0, .get 4, .get (-7), .get 100] []
    = some [none, none, none, some (-8), some (-41), some 0] := by decide
example : Valid true [.pushBack 0 0, .pushBack 1 (-3), .pushFront (-2) 1, .get 4, .getInc 3, .getDec 50, .get 10] [] (fun _ => True) := by
  simp [Valid, lt]

end Verif.Cht
