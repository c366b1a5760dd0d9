import Verif.ChtMap.Ops
/-!
C98: `ConvexHullTrick` (`/repo/include/mtl/convex_hull_trick.hpp:85-245`).

Specification: the list of all lines added so far and the range of abscissas in which queries are still allowed (`get_incremental(x)` gives up everything
left of `x`, `get_decremental(x)` everything right of it).  Every answer is the optimum over all added lines.
-/
namespace Verif.ChtMap
open Verif

inductive Op
  | add (a b : Int)
  | get (x : Int)
  | inc (x : Int)
  | dec (x : Int)

/-- `y` is attained by a line at `x`, and no line is better there (larger for `std::less`, smaller for `std::greater`). -/
def Optimum (up : Bool) (lines : List (Int × Int)) (x y : Int) : Prop :=
  (∃ l ∈ lines, l.1 * x + l.2 = y) ∧ ∀ l ∈ lines, if up then l.1 * x + l.2 ≤ y else y ≤ l.1 * x + l.2

/-- The calls a user may make: coefficients and abscissas within `[-M, M]`, a line before the first query, abscissas in the range that is left. -/
def Allowed (M : Int) : List (Int × Int) → Int → Int → List Op → Prop
  | _, _, _, [] => True
  | ls, lo, hi, .add a b :: r => (-M ≤ a ∧ a ≤ M ∧ -M ≤ b ∧ b ≤ M) ∧ Allowed M ((a, b) :: ls) lo hi r
  | ls, lo, hi, .get x :: r => ls ≠ [] ∧ (lo ≤ x ∧ x ≤ hi) ∧ Allowed M ls lo hi r
  | ls, lo, hi, .inc x :: r => ls ≠ [] ∧ (lo ≤ x ∧ x ≤ hi) ∧ Allowed M ls x hi r
  | ls, lo, hi, .dec x :: r => ls ≠ [] ∧ (lo ≤ x ∧ x ≤ hi) ∧ Allowed M ls lo x r

/-- The answers to the queries, in order. -/
def Correct (up : Bool) : List (Int × Int) → List Op → List Int → Prop
  | _, [], outs => outs = []
  | ls, .add a b :: r, outs => Correct up ((a, b) :: ls) r outs
  | _, _ :: _, [] => False
  | ls, .get x :: r, y :: outs => Optimum up ls x y ∧ Correct up ls r outs
  | ls, .inc x :: r, y :: outs => Optimum up ls x y ∧ Correct up ls r outs
  | ls, .dec x :: r, y :: outs => Optimum up ls x y ∧ Correct up ls r outs

/-- Runs the calls on the model. -/
def run (up : Bool) (I : Int) : Cht → List Op → Option (List Int)
  | _, [] => some []
  | s, .add a b :: r => (add up I s a b).bind fun s' => run up I s' r
  | s, .get x :: r => (get I s x).bind fun y => (run up I s r).map (y :: ·)
  | s, .inc x :: r => (getInc up I s x).bind fun p => (run up I p.1 r).map (p.2 :: ·)
  | s, .dec x :: r => (getDec up I s x).bind fun p => (run up I p.1 r).map (p.2 :: ·)

/-- The hull stands for the lines `ls` between `lo` and `hi`. -/
structure Stands (up : Bool) (M : Int) (m : Nat) (f : Nat → Line) (ls : List (Int × Int)) (lo hi : Int) : Prop where
  mem : ∀ i, 1 ≤ i → i ≤ m → f i ∈ ls
  dom : ∀ l ∈ ls, ∀ x, lo ≤ x → x ≤ hi → ∃ i, 1 ≤ i ∧ i ≤ m ∧ ev up l x ≤ ev up (f i) x
  rng : -M ≤ lo ∧ hi ≤ M
  ne : ls ≠ [] → 1 ≤ m

theorem optimum_of {up : Bool} {M : Int} {m : Nat} {f : Nat → Line} {ls : List (Int × Int)} {lo hi : Int} (h : Stands up M m f ls lo hi) {x : Int}
    (hx : lo ≤ x ∧ x ≤ hi) {i : Nat} (hb : Best up m f x i) : Optimum up ls x ((f i).1 * x + (f i).2) := by
  refine ⟨⟨f i, h.mem i hb.1 hb.2.1, rfl⟩, ?_⟩
  intro l hl
  obtain ⟨k, k1, k2, hk⟩ := h.dom l hl x hx.1 hx.2
  have := le_trans hk (hb.2.2 k k1 k2)
  cases up <;> simp only [ev, na, nb, sg, if_true, Bool.false_eq_true, if_false] at * <;> nlinarith

theorem run_ok {up : Bool} {I M : Int} (hM : 1 ≤ M) (hI : 4*M*M < I) : ∀ (ops : List Op) (s : Cht) (m : Nat) (f : Nat → Line) (ls : List (Int × Int)) (lo hi : Int),
    St up I M s m f → Stands up M m f ls lo hi → Allowed M ls lo hi ops → ∃ outs, run up I s ops = some outs ∧ Correct up ls ops outs := by
  intro ops
  induction ops with
  | nil => intro s m f ls lo hi _ _ _; exact ⟨[], rfl, rfl⟩
  | cons op ops ih =>
    intro s m f ls lo hi hs hd ha
    have hr := hd.rng
    cases op with
    | add a b =>
      obtain ⟨h1, h2⟩ := ha
      obtain ⟨s', m', f', e, hs', g1, g2, g3⟩ := add_ok hM hI hs (a := a) (b := b) h1
      have hd' : Stands up M m' f' ((a, b) :: ls) lo hi := by
        refine ⟨?_, ?_, hr, ?_⟩
        · intro i i1 i2
          rcases g1 i i1 i2 with h | ⟨j, j1, j2, h⟩
          · rw [h]; simp
          · rw [h]; exact List.mem_cons_of_mem _ (hd.mem j j1 j2)
        · intro l hl x x1 x2
          rcases List.mem_cons.1 hl with rfl | hl
          · exact g3 x
          · obtain ⟨i, i1, i2, hi⟩ := hd.dom l hl x x1 x2
            obtain ⟨k, k1, k2, hk⟩ := g2 i i1 i2 x
            exact ⟨k, k1, k2, le_trans hi hk⟩
        · intro _
          obtain ⟨i, i1, i2, _⟩ := g3 0
          omega
      obtain ⟨outs, o1, o2⟩ := ih s' m' f' _ lo hi hs' hd' h2
      exact ⟨outs, by rw [run, e]; exact o1, o2⟩
    | get x =>
      obtain ⟨h1, h2, h3⟩ := ha
      obtain ⟨i, hb, e⟩ := get_ok hM hI hs (hd.ne h1) (x := x) (by omega)
      obtain ⟨outs, o1, o2⟩ := ih s m f ls lo hi hs hd h3
      exact ⟨_ :: outs, by rw [run, e, Option.bind_some, o1]; rfl, optimum_of hd h2 hb, o2⟩
    | inc x =>
      obtain ⟨h1, h2, h3⟩ := ha
      obtain ⟨i, s', m', f', hb, e, hs', q1, q2, q3⟩ := getInc_ok hM hI hs (hd.ne h1) (x := x) (by omega)
      have hd' : Stands up M m' f' ls x hi := by
        refine ⟨?_, ?_, by omega, fun _ => q1⟩
        · intro j j1 j2
          obtain ⟨k, k1, k2, hk⟩ := q2 j j1 j2
          rw [hk]; exact hd.mem k k1 k2
        · intro l hl y y1 y2
          obtain ⟨j, j1, j2, hj⟩ := hd.dom l hl y (by omega) y2
          obtain ⟨k, k1, k2, hk⟩ := q3 j j1 j2 y y1
          exact ⟨k, k1, k2, le_trans hj hk⟩
      obtain ⟨outs, o1, o2⟩ := ih s' m' f' ls x hi hs' hd' h3
      exact ⟨_ :: outs, by rw [run, e, Option.bind_some, o1]; rfl, optimum_of hd h2 hb, o2⟩
    | dec x =>
      obtain ⟨h1, h2, h3⟩ := ha
      obtain ⟨i, s', m', f', hb, e, hs', q1, q2, q3⟩ := getDec_ok hM hI hs (hd.ne h1) (x := x) (by omega)
      have hd' : Stands up M m' f' ls lo x := by
        refine ⟨?_, ?_, by omega, fun _ => q1⟩
        · intro j j1 j2
          obtain ⟨k, k1, k2, hk⟩ := q2 j j1 j2
          rw [hk]; exact hd.mem k k1 k2
        · intro l hl y y1 y2
          obtain ⟨j, j1, j2, hj⟩ := hd.dom l hl y y1 (by omega)
          obtain ⟨k, k1, k2, hk⟩ := q3 j j1 j2 y y2
          exact ⟨k, k1, k2, le_trans hj hk⟩
      obtain ⟨outs, o1, o2⟩ := ih s' m' f' ls lo x hs' hd' h3
      exact ⟨_ :: outs, by rw [run, e, Option.bind_some, o1]; rfl, optimum_of hd h2 hb, o2⟩

/-- **C98.**  With coefficients and abscissas of absolute value at most `M`, `4 M² < max`, every allowed sequence of `add`, `get`, `get_incremental` and
`get_decremental` runs without overflow, failed assert or bad iterator, and every query answers the optimum over all lines added before it. -/
theorem C98_history (up : Bool) {I M : Int} (hM : 1 ≤ M) (hI : 4*M*M < I) (ops : List Op) (ha : Allowed M [] (-M) M ops) :
    ∃ outs, (init up I).bind (fun s => run up I s ops) = some outs ∧ Correct up [] ops outs := by
  obtain ⟨s, f, e, hs⟩ := init_ok (up := up) hM hI
  rw [e]
  exact run_ok hM hI ops s 0 f [] (-M) M hs ⟨fun i h1 h2 => by omega, fun l hl => by simp at hl, ⟨le_rfl, le_rfl⟩, fun h => absurd rfl h⟩ ha

/-- An instance: `T = long long` and values up to `10^9`; a line is replaced by one of the same slope, one is redundant, two are removed by the last one. -/
def sample : List Op :=
  [.add 0 0, .add 1 (-5), .add (-1) (-5), .get 3, .add 1 (-4), .add 0 (-1), .get 7, .get (-9), .inc (-4), .add 2 (-30), .get 40, .dec 27, .add 0 100, .get 10]

example : Allowed (10^9) [] (-(10^9)) (10^9) sample := by simp [sample, Allowed]
example : (init true (2^63-1)).bind (fun s => run true (2^63-1) s sample) = some [0, 3, 4, 0, 50, 24, 100] := by decide +kernel
example : (init false (2^63-1)).bind (fun s => run false (2^63-1) s [.add 0 0, .add 1 (-5), .add (-1) (-5), .get 3, .inc 4, .dec 6]) = some [-8, -9, -11] := by
  decide +kernel

/-- A line is needed before the first query: without one `get` fails its assert and the two other queries dereference the end of a map. -/
theorem C98_nonempty_needed : (init true (2^63-1)).bind (fun s => get (2^63-1) s 0) = none ∧
    (init true (2^63-1)).bind (fun s => getInc true (2^63-1) s 0) = none ∧ (init true (2^63-1)).bind (fun s => getDec true (2^63-1) s 0) = none := by
  decide +kernel

/-- The order of abscissas is needed: after `get_incremental(7)` the answer at `0` is wrong. -/
theorem C98_order_needed :
    (init true (2^63-1)).bind (fun s => run true (2^63-1) s [.add 0 0, .add 1 (-5), .inc 7, .get 0]) = some [2, -5] ∧
      ¬ Optimum true [(1, -5), (0, 0)] 0 (-5) := by
  refine ⟨by decide +kernel, ?_⟩
  rintro ⟨_, h⟩
  have := h (0, 0) (by simp)
  simp at this

/-- The limit on the coefficients is needed: with `T = int` the third line makes the product of differences leave the type although all values fit. -/
theorem C98_limit_needed :
    (init true (2^31-1)).bind (fun s => run true (2^31-1) s [.add (-30000) 0, .add 30000 0, .add 0 80000, .get 1]) = none := by
  decide +kernel

end Verif.ChtMap
