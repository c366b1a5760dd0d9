import Verif.Common.Vec
/-!
Model of `/repo/include/mtl/double_ended_priority_queue.hpp`.  The vector is a list; `none` is an out-of-range access, a failed assertion, or exhausted
fuel (shown not to happen).  `T` is linearly ordered; `size_t` indices do not overflow.
-/
namespace Verif.Depq

variable {α : Type} [LT α] [DecidableLT α]

/-- :21 `parent` -/
def parent (i : Nat) : Nat := 2 * ((i / 2 - 1) / 2) + i % 2
/-- :22 `left` -/
def left (i : Nat) : Nat := 2 * (i / 2 * 2 + 1) + i % 2
/-- :23 `right` -/
def right (i : Nat) : Nat := 2 * (i / 2 * 2 + 2) + i % 2

/-- `std::swap(arr[i], arr[j])` -/
def swap (a : List α) (i j : Nat) : Option (List α) :=
  (a[i]?).bind (fun x => (a[j]?).bind (fun y => (wr a i y).bind (fun a => wr a j x)))

/-- `comp`: `std::less` for the max heap, `std::greater` for the min heap (:60-67). -/
def comp (mx : Bool) (x y : α) : Bool := if mx then decide (x < y) else decide (y < x)

/-- :51-52: the adjusted right child. -/
def right' (n i : Nat) : Nat := if right i % 2 = 1 ∧ right i = n then right i - 1 else right i

/-- :53: the child to compare with. -/
def pick (mx : Bool) (a : List α) (k r : Nat) : Option Nat :=
  if r < a.length then (a[k]?).bind (fun x => (a[r]?).map (fun y => if comp mx x y then r else k)) else some k

/-- `comp(arr[i], arr[k])` -/
def cmpAt (mx : Bool) (a : List α) (i k : Nat) : Option Bool := (a[i]?).bind (fun x => (a[k]?).map (fun y => comp mx x y))

/-- :46-59 (`heap_down`): the vector and the final position. -/
def heapDown (mx : Bool) : Nat → List α → Nat → Option (List α × Nat)
  | 0, _, _ => none
  | f+1, a, i =>
    if left i < a.length then
      (pick mx a (left i) (right' a.length i)).bind (fun k => (cmpAt mx a i k).bind (fun c =>
        if c then (swap a i k).bind (fun a => heapDown mx f a k) else some (a, i)))
    else some (a, i)

/-- :69-75 (`heap_leaf`). -/
def heapLeaf (a : List α) (i : Nat) : Option (List α × Nat) :=
  if i / 2 * 2 + 1 < a.length then
    (cmpAt true a (i / 2 * 2) (i / 2 * 2 + 1)).bind (fun c =>
      if c then (swap a i (if i % 2 = 0 then i + 1 else i - 1)).map (fun a => (a, if i % 2 = 0 then i + 1 else i - 1)) else some (a, i))
  else some (a, i)

/-- :77-92 (`max_heap_up`, `min_heap_up`); the target position is `parent(i) & ~1` or `parent(i) | 1`. -/
def upTarget (mx : Bool) (i : Nat) : Nat := if mx then parent i / 2 * 2 else parent i / 2 * 2 + 1

def heapUp (mx : Bool) (root : Nat) : Nat → List α → Nat → Option (List α)
  | 0, _, _ => none
  | f+1, a, i =>
    if root / 2 < i / 2 ∧ root ≤ upTarget mx i then
      (cmpAt mx a (upTarget mx i) i).bind (fun c => if c then (swap a (upTarget mx i) i).bind (fun a => heapUp mx root f a (upTarget mx i)) else some a)
    else some a

/-- :94-100 (`heapify`). -/
def heapify (a : List α) (i : Nat) (limited : Bool) : Option (List α) :=
  (heapDown (decide (i % 2 = 0)) (a.length + 1) a i).bind (fun j => (heapLeaf j.1 j.2).bind (fun k =>
    (heapUp true (if limited then i else 0) (k.2 + 1) k.1 k.2).bind (fun b => heapUp false (if limited then i else 0) (k.2 + 1) b k.2)))

/-- :39-43: the loop body of the constructor. -/
def buildStep (a : List α) (i : Nat) : Option (List α) :=
  (if i % 2 = 1 then (cmpAt true a (i - 1) i).bind (fun c => if c then swap a (i - 1) i else some a) else some a).bind (fun a => heapify a i true)

/-- :39-43: `for (i = n-1; i >= 0; i--)`. -/
def buildLoop : Nat → List α → Option (List α)
  | 0, a => some a
  | i+1, a => (buildStep a i).bind (fun a => buildLoop i a)

/-- :28-44: the constructor from a range. -/
def build (a : List α) : Option (List α) :=
  if a.length ≤ 1 then some a
  else if a.length = 2 then (cmpAt true a 0 1).bind (fun c => if c then swap a 0 1 else some a)
  else buildLoop a.length a

/-- :102-108 -/
def push (a : List α) (x : α) : Option (List α) := heapify (a ++ [x]) a.length false

/-- :109-115 -/
def popMax (a : List α) : Option (List α) :=
  if a.length = 0 then none else (swap a 0 (a.length - 1)).bind (fun a => if 0 < a.dropLast.length then heapify a.dropLast 0 false else some a.dropLast)

/-- :116-126 -/
def popMin (a : List α) : Option (List α) :=
  if a.length = 0 then none else if a.length = 1 then some a.dropLast
  else (swap a 1 (a.length - 1)).bind (fun a => if 1 < a.dropLast.length then heapify a.dropLast 1 false else some a.dropLast)

/-- :128-131 -/
def getMax (a : List α) : Option α := a[0]?

/-- :132-135 -/
def getMin (a : List α) : Option α := if a.length = 0 then none else a[if 1 < a.length then 1 else 0]?

end Verif.Depq
