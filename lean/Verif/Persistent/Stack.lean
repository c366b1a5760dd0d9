/-!
C14: `PersistentStack<T>`, `/repo/include/mtl/persistent_stack.hpp`.  Heap of immutable cons nodes shared by all versions.
`none` = null dereference.  `size_` wraps below zero in C++; `pop` of an empty stack dereferences null first.
-/
namespace Verif.Persistent.Stack

variable {T : Type}

/-- persistent_stack.hpp:14-20. -/
structure Node (T : Type) where
  v : T
  next : Option Nat

abbrev Heap (T : Type) := List (Node T)

/-- persistent_stack.hpp:22-23. -/
structure Stk where
  top : Option Nat
  size : Nat

/-- persistent_stack.hpp:26. -/
def empty : Stk := ⟨none, 0⟩

/-- Dereference `top_`. -/
def deref (h : Heap T) (s : Stk) : Option (Node T) := s.top.bind (fun p => h[p]?)

/-- persistent_stack.hpp:29. -/
def top (h : Heap T) (s : Stk) : Option T := (deref h s).map (·.v)

/-- persistent_stack.hpp:31-35. -/
def push (h : Heap T) (s : Stk) (x : T) : Heap T × Stk := (h ++ [⟨x, s.top⟩], ⟨some h.length, s.size + 1⟩)

/-- persistent_stack.hpp:52-54. -/
def pop (h : Heap T) (s : Stk) : Option Stk := (deref h s).map (fun nd => ⟨nd.next, s.size - 1⟩)

/-- persistent_stack.hpp:55-60; the recursion counts `size_` down (`fuel` is `size_`). -/
def concatF : Nat → Heap T → Stk → Stk → Option (Heap T × Stk)
  | 0, h, _, o => some (h, o)
  | n+1, h, s, o => (pop h s).bind (fun s' => (concatF n h s' o).bind (fun r => (top h s).map (fun x => push r.1 r.2 x)))

/-- persistent_stack.hpp:55-60. -/
def concat (h : Heap T) (s o : Stk) : Option (Heap T × Stk) := concatF s.size h s o

/-- persistent_stack.hpp:63-64. -/
def reverseF : Nat → Heap T → Stk → Stk → Option (Heap T × Stk)
  | 0, h, _, r => some (h, r)
  | n+1, h, t, r => (top h t).bind (fun x => (pop h t).bind (fun t' => reverseF n (push h r x).1 t' (push h r x).2))

/-- persistent_stack.hpp:61-66. -/
def reverse (h : Heap T) (s : Stk) : Option (Heap T × Stk) := reverseF s.size h s empty

/-- `u` points to the list `xs`. -/
def Pts (h : Heap T) : Option Nat → List T → Prop
  | u, [] => u = none
  | u, x :: xs => ∃ p nd, u = some p ∧ h[p]? = some nd ∧ nd.v = x ∧ Pts h nd.next xs

def Den (h : Heap T) (s : Stk) (xs : List T) : Prop := Pts h s.top xs ∧ s.size = xs.length

/-- The heap only grew. -/
def Grow (h h' : Heap T) : Prop := ∀ (p : Nat) (nd : Node T), h[p]? = some nd → h'[p]? = some nd

theorem Pts.grow {h h' : Heap T} (hg : Grow h h') : ∀ {xs : List T} {u : Option Nat}, Pts h u xs → Pts h' u xs
  | [], _, hp => hp
  | _ :: _, _, ⟨p, nd, a, b, c, d⟩ => ⟨p, nd, a, hg p nd b, c, Pts.grow hg d⟩

theorem Den.grow {h h' : Heap T} (hg : Grow h h') {s : Stk} {xs : List T} (hd : Den h s xs) : Den h' s xs := ⟨hd.1.grow hg, hd.2⟩

theorem push_grow (h : Heap T) (s : Stk) (x : T) : Grow h (push h s x).1 := by
  intro p nd e
  show (h ++ _)[p]? = _
  rw [List.getElem?_append_left (List.getElem?_eq_some_iff.1 e).1]; exact e

theorem push_den {h : Heap T} {s : Stk} {xs : List T} (hd : Den h s xs) (x : T) : Den (push h s x).1 (push h s x).2 (x :: xs) := by
  refine ⟨⟨h.length, ⟨x, s.top⟩, rfl, by simp [push], rfl, hd.1.grow (push_grow h s x)⟩, by simp [push, hd.2]⟩

theorem pop_den {h : Heap T} {s : Stk} {x : T} {xs : List T} (hd : Den h s (x :: xs)) :
    ∃ s', pop h s = some s' ∧ top h s = some x ∧ Den h s' xs := by
  obtain ⟨⟨p, nd, a, b, c, d⟩, hs⟩ := hd
  exact ⟨⟨nd.next, s.size - 1⟩, by simp [pop, deref, a, b], by simp [top, deref, a, b, c], d, by simp [hs]⟩

theorem concat_den : ∀ (xs : List T) {h : Heap T} {s o : Stk} {ys : List T}, Den h s xs → Den h o ys →
    ∃ h' r, concatF xs.length h s o = some (h', r) ∧ Grow h h' ∧ Den h' r (xs ++ ys)
  | [], h, s, o, ys, _, ho => ⟨h, o, rfl, fun _ _ e => e, ho⟩
  | x :: xs, h, s, o, ys, hs, ho => by
    obtain ⟨s', e1, e2, d⟩ := pop_den hs
    obtain ⟨h', r, e3, g, d'⟩ := concat_den xs d ho
    refine ⟨(push h' r x).1, (push h' r x).2, ?_, fun p nd e => push_grow h' r x p nd (g p nd e), push_den d' x⟩
    simp [concatF, e1, e2, e3]

theorem reverse_den : ∀ (xs : List T) {h : Heap T} {t r : Stk} {ys : List T}, Den h t xs → Den h r ys →
    ∃ h' r', reverseF xs.length h t r = some (h', r') ∧ Grow h h' ∧ Den h' r' (xs.reverse ++ ys)
  | [], h, t, r, ys, _, hr => ⟨h, r, rfl, fun _ _ e => e, by simpa using hr⟩
  | x :: xs, h, t, r, ys, ht, hr => by
    obtain ⟨t', e1, e2, d⟩ := pop_den ht
    obtain ⟨h', r', e3, g, d'⟩ := reverse_den xs (d.grow (push_grow h r x)) (push_den hr x)
    refine ⟨h', r', ?_, fun p nd e => g p nd (push_grow h r x p nd e), by simpa using d'⟩
    simp [reverseF, e1, e2, e3]

/-! ### Histories -/

inductive Op (T : Type)
  | push (k : Nat) (x : T)
  | pop (k : Nat)
  | concat (k l : Nat)
  | reverse (k : Nat)

structure World (T : Type) where
  heap : Heap T
  vers : List Stk

def init : World T := ⟨[], [empty]⟩

def step (w : World T) : Op T → Option (World T)
  | .push k x => (w.vers[k]?).map (fun s => ⟨(push w.heap s x).1, w.vers ++ [(push w.heap s x).2]⟩)
  | .pop k => (w.vers[k]?).bind (fun s => (pop w.heap s).map (fun s' => ⟨w.heap, w.vers ++ [s']⟩))
  | .concat k l => (w.vers[k]?).bind (fun s => (w.vers[l]?).bind (fun o => (concat w.heap s o).map (fun r => ⟨r.1, w.vers ++ [r.2]⟩)))
  | .reverse k => (w.vers[k]?).bind (fun s => (reverse w.heap s).map (fun r => ⟨r.1, w.vers ++ [r.2]⟩))

def run : World T → List (Op T) → Option (World T)
  | w, [] => some w
  | w, o :: os => (step w o).bind (fun w' => run w' os)

/-- Specification on lists (top first); `none`: unknown version or `pop` of an empty one. -/
def specStep (vs : List (List T)) : Op T → Option (List (List T))
  | .push k x => (vs[k]?).map (fun xs => vs ++ [x :: xs])
  | .pop k => match vs[k]? with
    | some (_ :: xs) => some (vs ++ [xs])
    | _ => none
  | .concat k l => (vs[k]?).bind (fun xs => (vs[l]?).map (fun ys => vs ++ [xs ++ ys]))
  | .reverse k => (vs[k]?).map (fun xs => vs ++ [xs.reverse])

def spec : List (List T) → List (Op T) → Option (List (List T))
  | vs, [] => some vs
  | vs, o :: os => (specStep vs o).bind (fun vs' => spec vs' os)

def Good (w : World T) (vs : List (List T)) : Prop := w.vers.length = vs.length ∧
  ∀ (k : Nat) (s : Stk) (xs : List T), w.vers[k]? = some s → vs[k]? = some xs → Den w.heap s xs

theorem Good.append {w : World T} {vs : List (List T)} (hg : Good w vs) {h' : Heap T} {s' : Stk} {xs' : List T} (g : Grow w.heap h')
    (hd : Den h' s' xs') : Good ⟨h', w.vers ++ [s']⟩ (vs ++ [xs']) := by
  refine ⟨by simp [hg.1], fun k s xs e1 e2 => ?_⟩
  simp only at e1
  by_cases hk : k < vs.length
  · rw [List.getElem?_append_left (by rw [hg.1]; exact hk)] at e1
    rw [List.getElem?_append_left hk] at e2
    exact (hg.2 k s xs e1 e2).grow g
  · have := (List.getElem?_eq_some_iff.1 e2).1
    simp at this
    have hk' : k = vs.length := by omega
    subst hk'
    rw [← hg.1] at e1
    simp at e1 e2
    subst e1 e2
    exact hd

theorem step_good {w : World T} {vs vs' : List (List T)} (hg : Good w vs) (o : Op T) (hs : specStep vs o = some vs') :
    ∃ w', step w o = some w' ∧ Good w' vs' := by
  have hv : ∀ (k : Nat) (xs : List T), vs[k]? = some xs → ∃ s, w.vers[k]? = some s ∧ Den w.heap s xs := by
    intro k xs e
    have hk : k < w.vers.length := by rw [hg.1]; exact (List.getElem?_eq_some_iff.1 e).1
    exact ⟨_, List.getElem?_eq_getElem hk, hg.2 k _ xs (List.getElem?_eq_getElem hk) e⟩
  cases o with
  | push k x =>
    simp only [specStep, Option.map_eq_some_iff] at hs
    obtain ⟨xs, e, rfl⟩ := hs
    obtain ⟨s, es, d⟩ := hv k xs e
    exact ⟨_, by simp only [step, es, Option.map_some], hg.append (push_grow _ s x) (push_den d x)⟩
  | pop k =>
    simp only [specStep] at hs
    cases e : vs[k]? with
    | none => simp [e] at hs
    | some ys =>
      cases ys with
      | nil => simp [e] at hs
      | cons x xs =>
        simp only [e, Option.some.injEq] at hs
        subst hs
        obtain ⟨s, es, d⟩ := hv k _ e
        obtain ⟨s', e1, _, d'⟩ := pop_den d
        exact ⟨_, by simp only [step, es, Option.bind_some, e1, Option.map_some], hg.append (fun _ _ e => e) d'⟩
  | concat k l =>
    simp only [specStep, Option.bind_eq_some_iff, Option.map_eq_some_iff] at hs
    obtain ⟨xs, e, ys, e', rfl⟩ := hs
    obtain ⟨s, es, d⟩ := hv k xs e
    obtain ⟨o, eo, d'⟩ := hv l ys e'
    obtain ⟨h', r, e1, g, d2⟩ := concat_den xs d d'
    refine ⟨⟨h', w.vers ++ [r]⟩, by simp only [step, es, eo, Option.bind_some, concat, d.2, e1, Option.map_some], hg.append g d2⟩
  | reverse k =>
    simp only [specStep, Option.map_eq_some_iff] at hs
    obtain ⟨xs, e, rfl⟩ := hs
    obtain ⟨s, es, d⟩ := hv k xs e
    obtain ⟨h', r, e1, g, d2⟩ := reverse_den xs d (r := empty) (ys := []) ⟨rfl, rfl⟩
    refine ⟨⟨h', w.vers ++ [r]⟩, by simp only [step, es, Option.bind_some, reverse, d.2, e1, Option.map_some], hg.append g ?_⟩
    simpa using d2

theorem run_good : ∀ (os : List (Op T)) (w : World T) (vs vs' : List (List T)), Good w vs → spec vs os = some vs' →
    ∃ w', run w os = some w' ∧ Good w' vs'
  | [], w, vs, vs', hg, hs => by simp only [spec, Option.some.injEq] at hs; subst hs; exact ⟨w, rfl, hg⟩
  | o :: os, w, vs, vs', hg, hs => by
    simp only [spec, Option.bind_eq_some_iff] at hs
    obtain ⟨v1, e1, e2⟩ := hs
    obtain ⟨w1, a1, a2⟩ := step_good hg o e1
    obtain ⟨w', b1, b2⟩ := run_good os w1 v1 vs' a2 e2
    exact ⟨w', by simp [run, a1, b1], b2⟩

/-- Reading a version completely by `top`/`pop`. -/
def drain : Nat → Heap T → Stk → Option (List T)
  | 0, _, _ => some []
  | n+1, h, s => (top h s).bind (fun x => (pop h s).bind (fun s' => (drain n h s').map (x :: ·)))

/-- **C14.** Any branching history of `push`, `pop` (of non-empty versions), `concat` and `reverse` runs without
undefined behaviour, and afterwards every version has the size of its own list, its top, and is read out by `top`/`pop`
as exactly that list. -/
theorem C14_versions (os : List (Op T)) (vs : List (List T)) (hs : spec [[]] os = some vs) :
    ∃ w, run init os = some w ∧ w.vers.length = vs.length ∧
      ∀ (k : Nat) (s : Stk) (xs : List T), w.vers[k]? = some s → vs[k]? = some xs →
        s.size = xs.length ∧ (xs ≠ [] → top w.heap s = xs.head?) ∧ drain s.size w.heap s = some xs := by
  obtain ⟨w, h1, hl, hd⟩ := run_good os init [[]] vs ⟨rfl, by
    intro k s xs e1 e2
    cases k with
    | succ k => simp [init] at e1
    | zero => simp [init] at e1 e2; subst e1 e2; exact ⟨rfl, rfl⟩⟩ hs
  refine ⟨w, h1, hl, fun k s xs e1 e2 => ?_⟩
  have key : ∀ (xs : List T) (s : Stk), Den w.heap s xs → drain xs.length w.heap s = some xs := by
    intro xs
    induction xs with
    | nil => intros; rfl
    | cons x xs ih =>
      intro s d
      obtain ⟨s', a, b, c⟩ := pop_den d
      simp [drain, a, b, ih s' c]
  have d := hd k s xs e1 e2
  refine ⟨d.2, fun hne => ?_, by rw [d.2]; exact key xs s d⟩
  cases xs with
  | nil => exact absurd rfl hne
  | cons x xs =>
    obtain ⟨_, _, b, _⟩ := pop_den d
    simpa using b

def sample : List (Op Nat) := [.push 0 1, .push 1 2, .push 1 3, .concat 2 3, .reverse 4, .pop 4]
example : spec [[]] sample = some [[], [1], [2,1], [3,1], [2,1,3,1], [1,3,1,2], [1,3,1]] := by decide
example : ((run init sample).bind (fun w => w.vers[5]?.bind (fun s => drain s.size w.heap s))) = some [1,3,1,2] := by decide

end Verif.Persistent.Stack
