import Verif.Skip.Ops
/-! C103: `Skiplist` is a sequence with insertion, removal and access by index. -/
namespace Verif.Skip
open Verif

variable {T : Type}

/-- The calls that change a `Skiplist`; `d` is the random draw of `pick_height`. -/
inductive Op (T : Type) where
  | insertAt (i : Nat) (v : T) (d : Nat)
  | eraseAt (i : Nat)

/-- The draw is not 0 (and below `2^32`, the range of `dist`). -/
def Op.Drawn : Op T → Prop
  | .insertAt _ _ d => d ≠ 0 ∧ d < 2^32
  | .eraseAt _ => True

/-- The call and the iterator it returns. -/
def step (s : St T) : Op T → Option (St T × Option Nat)
  | .insertAt i v d => insertAt s i v d
  | .eraseAt i => eraseAt s i

def run (s : St T) : List (Op T) → Option (St T)
  | [] => some s
  | o :: os => (step s o).bind fun p => run p.1 os

/-- What the call does to the sequence. -/
def Op.spec : Op T → List T → List T
  | .insertAt i v _, xs => if i ≤ xs.length then xs.take i ++ v :: xs.drop i else xs
  | .eraseAt i, xs => xs.eraseIdx i

/-- The values seen through the iterator that the call returns. -/
def Op.ret : Op T → List T → List T
  | .insertAt i v d, xs => if i ≤ xs.length then ((Op.insertAt i v d).spec xs).drop i else []
  | .eraseAt i, xs => if i < xs.length then ((Op.eraseAt i : Op T).spec xs).drop i else []

def specRun (xs : List T) : List (Op T) → List T
  | [] => xs
  | o :: os => specRun (o.spec xs) os

/-- Everything that can be asked of a list in state `xs`, with any next call. -/
structure Behaves (s : St T) (xs : List T) : Prop where
  size : s.size = xs.length
  all : (begin s).bind (valuesFrom s) = some xs
  get : ∀ i, ∃ it, getAt s i = some it ∧ valuesFrom s it = some (xs.drop i) ∧ (it = none ↔ xs.length ≤ i)
  ret : ∀ o : Op T, o.Drawn → ∃ t it, step s o = some (t, it) ∧ valuesFrom t it = some (o.ret xs)

theorem values_none (s : St T) : valuesFrom s none = some [] := by
  unfold valuesFrom; cases s.size <;> rfl

theorem step_ok {s : St T} {xs : List (T × Nat)} (h : Is s xs) (o : Op T) (ho : o.Drawn) :
    ∃ t it ys, step s o = some (t, it) ∧ Is t ys ∧ ys.map (·.1) = o.spec (xs.map (·.1)) ∧ valuesFrom t it = some (o.ret (xs.map (·.1))) := by
  obtain ⟨L, hg, hx⟩ := h
  cases o with
  | insertAt i v d =>
    by_cases c : i ≤ xs.length
    · obtain ⟨t, b1, b2, e, hb, g, hh⟩ := insertAt_ok hg hx i v ho.1 ho.2 c
      have e1 : (xs.take i ++ (v, pickHeight d) :: xs.drop i).map (·.1) = (Op.insertAt i v d).spec (xs.map (·.1)) := by
        rw [Op.spec, if_pos (by simpa using c)]; simp
      refine ⟨t, some s.fresh, _, e, ⟨_, g, hh⟩, e1, ?_⟩
      have := from_ok g hh i
      rw [e1, show (b1 ++ s.fresh :: b2)[i]? = some s.fresh by rw [← hb]; simp] at this
      rw [this, Op.ret, if_pos (by simpa using c)]
    · refine ⟨s, none, xs, ?_, ⟨L, hg, hx⟩, ?_, ?_⟩
      · show insertAt s i v d = _
        unfold insertAt
        rw [if_pos (by rw [hg.size, hx.len]; omega)]
      · rw [Op.spec, if_neg (by simpa using c)]
      · rw [values_none, Op.ret, if_neg (by simpa using c)]
  | eraseAt i =>
    by_cases c : i < xs.length
    · obtain ⟨t, L', e, g, hh⟩ := eraseAt_ok hg hx i c
      have e1 : (xs.eraseIdx i).map (·.1) = (Op.eraseAt i : Op T).spec (xs.map (·.1)) := by
        rw [Op.spec, List.eraseIdx_eq_take_drop_succ, List.eraseIdx_eq_take_drop_succ]; simp
      refine ⟨t, _, _, e, ⟨_, g, hh⟩, e1, ?_⟩
      rw [from_ok g hh i, e1, Op.ret, if_pos (by simpa using c)]
    · refine ⟨s, none, xs, ?_, ⟨L, hg, hx⟩, ?_, ?_⟩
      · show eraseAt s i = _
        unfold eraseAt
        rw [if_pos (by rw [hg.size, hx.len]; omega)]
      · rw [Op.spec, List.eraseIdx_of_length_le (by simp; omega)]
      · rw [values_none, Op.ret, if_neg (by simpa using c)]

theorem behaves_of {s : St T} {xs : List (T × Nat)} (h : Is s xs) : Behaves s (xs.map (·.1)) := by
  obtain ⟨L, hg, hx⟩ := h
  refine ⟨by rw [hg.size, hx.len]; simp, ?_, fun i => ⟨L[i]?, getAt_ok hg i, from_ok hg hx i, by simp [hx.len]⟩, fun o ho => ?_⟩
  · rw [begin_ok hg, Option.bind_some, from_ok hg hx 0]; simp
  · obtain ⟨t, it, ys, e, _, _, hr⟩ := step_ok ⟨L, hg, hx⟩ o ho
    exact ⟨t, it, e, hr⟩

theorem run_ok : ∀ (ops : List (Op T)) (s : St T) (xs : List (T × Nat)), Is s xs → (∀ o ∈ ops, o.Drawn) → ∃ t ys, run s ops = some t ∧ Is t ys ∧ ys.map (·.1) = specRun (xs.map (·.1)) ops := by
  intro ops
  induction ops with
  | nil => intro s xs h _; exact ⟨s, xs, rfl, h, rfl⟩
  | cons o os ih =>
    intro s xs h ho
    obtain ⟨t, it, ys, e, h2, e2, _⟩ := step_ok h o (ho o (by simp))
    obtain ⟨u, zs, e3, h3, e4⟩ := ih t ys h2 (fun q hq => ho q (by simp [hq]))
    refine ⟨u, zs, ?_, h3, ?_⟩
    · rw [run, e, Option.bind_some]; exact e3
    · rw [e4, e2, specRun]

/-- **C103** (partial: no draw of `pick_height` is 0; with a draw of 0 the code writes past the end of an array, see below).  After any calls of `insert_at` and `erase_at`
with any draws, the list behaves as the sequence that the calls describe: `size()`, iteration from `begin()`, `get_at(i)` and the iterators returned by the next call. -/
theorem C103_skiplist_partial (ops : List (Op T)) (h : ∀ o ∈ ops, o.Drawn) : ∃ s, run init ops = some s ∧ Behaves s (specRun [] ops) := by
  obtain ⟨t, ys, e, h2, e2⟩ := run_ok ops init [] is_init h
  refine ⟨t, e, ?_⟩
  rw [show ([] : List (T × Nat)).map (·.1) = [] from rfl] at e2
  rw [← e2]
  exact behaves_of h2

/-- Draws with heights 0, 3, 1, 0. -/
def sample : List (Op Nat) := [.insertAt 0 10 1, .insertAt 1 30 8, .insertAt 1 20 2, .insertAt 9 5 1, .eraseAt 1, .insertAt 0 40 4000000001]

example : (∀ o ∈ sample, o.Drawn) ∧ specRun [] sample = [40, 10, 30] := by
  refine ⟨?_, by decide⟩
  intro o ho
  simp only [sample, List.mem_cons, List.not_mem_nil, or_false] at ho
  rcases ho with rfl | rfl | rfl | rfl | rfl | rfl <;> simp [Op.Drawn]

example : (run init sample).bind (fun s => (begin s).bind (valuesFrom s)) = some [40, 10, 30] := by decide +kernel

/-- C103 is violated: the draw 0 gives the height 64, and `insert_at` reads link 64 of the sentinel, which has the links 0 to 32. -/
theorem C103_violated : step (init : St Nat) (.insertAt 0 7 0) = none := by decide +kernel

end Verif.Skip
