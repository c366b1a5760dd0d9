import Mathlib.Order.Defs.LinearOrder
import Verif.BitManip.Model
/-!
Model of `/repo/include/mtl/skiplist.hpp`: `Skiplist` (a sequence with access by index) and `SkiplistSet`.

The heap is a set of numbered nodes (0 is the sentinel, numbers are never reused; shared pointers never dangle).  A node of height `h` has the `h+1` links and lengths
number 0..h; reading or writing another one is undefined behaviour, `none`.  Lengths and indices are unbounded integers (the code has `int`).  The random draws are arguments.
`set_at` does not compile and is left out.
-/
namespace Verif.Skip
open Verif

variable {T : Type}

/-- skiplist.hpp:11-24, 63-65: the nodes (height, value, `next`, `length`), `height_` and `size_`. -/
structure St (T : Type) where
  ht : Nat → Nat
  val : Nat → Option T
  next : Nat → Nat → Option Nat
  len : Nat → Nat → Int
  fresh : Nat
  height : Nat
  size : Nat

/-- :71-76 -/
def init : St T := ⟨fun _ => 32, fun _ => none, fun _ _ => none, fun _ _ => 0, 1, 0, 0⟩

/-- Read `u->next[r]`. -/
def rdNext (s : St T) (u r : Nat) : Option (Option Nat) := if r ≤ s.ht u then some (s.next u r) else none

/-- Read `u->length[r]`. -/
def rdLen (s : St T) (u r : Nat) : Option Int := if r ≤ s.ht u then some (s.len u r) else none

/-- Write `u->next[r]` and `u->length[r]`. -/
def wrLink (s : St T) (u r : Nat) (x : Option Nat) (l : Int) : Option (St T) :=
  if r ≤ s.ht u then some { s with next := fun a b => if a = u ∧ b = r then x else s.next a b, len := fun a b => if a = u ∧ b = r then l else s.len a b } else none

/-- :102-105, :133-136, :156-159: the inner loop; returns `u` and `i`.  The fuel is above the number of nodes. -/
def walk (s : St T) (r : Nat) : Nat → Nat → Int → Option (Nat × Int)
  | 0, _, _ => none
  | f+1, u, i => (rdNext s u r).bind fun
    | none => some (u, i)
    | some w => (rdLen s u r).bind fun l => if l < i then walk s r f w (i - l) else some (u, i)

/-- :101-108: the levels below `k`; `none` at the failing assertion of line 109. -/
def getLoop (s : St T) : Nat → Nat → Int → Option Nat
  | 0, _, _ => none
  | r+1, u, i => (walk s r (s.size + 1) u i).bind fun p => (rdNext s p.1 r).bind fun
    | none => getLoop s r p.1 p.2
    | some w => (rdLen s p.1 r).bind fun l => if l = p.2 then some w else getLoop s r p.1 p.2

/-- :96-111: `get_at`; the inner option is the iterator, `none` is `end()`. -/
def getAt (s : St T) (i : Nat) : Option (Option Nat) :=
  if s.size ≤ i then some none else (getLoop s (s.height + 1) 0 (i + 1)).map some

/-- :119-121: `pick_height` for the draw `d`. -/
def pickHeight (d : Nat) : Nat := BitManip.ctz d

/-- The allocation of a node (`make_shared<Node>(v, hw)`) and the new `height_`: :129-131, 278-281. -/
def alloc (s : St T) (v : T) (hw : Nat) : St T :=
  { s with
    ht := fun a => if a = s.fresh then hw else s.ht a
    val := fun a => if a = s.fresh then some v else s.val a
    next := fun a b => if a = s.fresh then none else s.next a b
    len := fun a b => if a = s.fresh then 0 else s.len a b
    fresh := s.fresh + 1
    height := if s.height < hw then hw else s.height }

/-- :137-144: at one level, behind `u`, with remaining index `i`. -/
def insStep (s : St T) (w hw r u : Nat) (i : Int) : Option (St T) :=
  (rdNext s u r).bind fun x => (rdLen s u r).bind fun l =>
  if r ≤ hw then (wrLink s w r x (if x.isSome then l - (i - 1) else 0)).bind fun s => wrLink s u r (some w) i
  else if x.isSome then wrLink s u r x (l + 1) else some s

/-- :132-145: the levels below `k`. -/
def insLoop (w hw : Nat) : Nat → St T → Nat → Int → Option (St T)
  | 0, s, _, _ => some s
  | r+1, s, u, i => (walk s r (s.size + 1) u i).bind fun p => (insStep s w hw r p.1 p.2).bind fun s => insLoop w hw r s p.1 p.2

/-- :123-148: `insert_at` with the random draw `d`. -/
def insertAt (s : St T) (i : Nat) (v : T) (d : Nat) : Option (St T × Option Nat) :=
  if s.size < i then some (s, none) else
  (insLoop s.fresh (pickHeight d) ((alloc s v (pickHeight d)).height + 1) (alloc s v (pickHeight d)) 0 (i + 1)).map fun t => ({ t with size := t.size + 1 }, some s.fresh)

/-- :160-169: at one level. -/
def eraStep (s : St T) (r u : Nat) (i : Int) : Option (St T) :=
  (rdNext s u r).bind fun
  | none => some s
  | some x => (rdLen s u r).bind fun l =>
    if l = i then (rdLen s x r).bind fun lx => (rdNext s x r).bind fun nx => wrLink s u r nx (if lx ≠ 0 then l + lx - 1 else 0)
    else wrLink s u r (some x) (l - 1)

/-- :155-170: the levels below `k`; returns the last `u` too. -/
def eraLoop : Nat → St T → Nat → Int → Option (St T × Nat)
  | 0, s, u, _ => some (s, u)
  | r+1, s, u, i => (walk s r (s.size + 1) u i).bind fun p => (eraStep s r p.1 p.2).bind fun s => eraLoop r s p.1 p.2

/-- :150-173: `erase_at`. -/
def eraseAt (s : St T) (i : Nat) : Option (St T × Option Nat) :=
  if s.size ≤ i then some (s, none) else
  (eraLoop (s.height + 1) s 0 (i + 1)).bind fun p => (rdNext p.1 p.2 0).map fun x => ({ p.1 with size := p.1.size - 1 }, x)

/-- :39-46: the values seen from an iterator to the end with `*it` and `++it`. -/
def seen (s : St T) : Nat → Option Nat → Option (List T)
  | _, none => some []
  | 0, some _ => none
  | f+1, some u => (s.val u).bind fun v => (rdNext s u 0).bind fun x => (seen s f x).map (v :: ·)

/-- The values from an iterator to the end. -/
def valuesFrom (s : St T) (it : Option Nat) : Option (List T) := seen s s.size it

/-- `begin()`, :89-91. -/
def begin (s : St T) : Option (Option Nat) := rdNext s 0 0

/-! ### SkiplistSet -/

section Set
variable [LinearOrder T]

/-- :180-190: the object: the base part, `stack_` and `idx_` (33 entries each). -/
structure SetSt (T : Type) where
  b : St T
  stack : Nat → Nat
  idx : Nat → Int

def setInit : SetSt T := ⟨init, fun _ => 0, fun _ => 0⟩

/-- `while (u->next[r] and less(u->next[r]->v)) { j += u->length[r]; u = u->next[r]; }`: :222-223, 235-236, 245-246, 256-257, 268-271, 313-314. -/
def vwalk (s : St T) (less : T → Bool) (r : Nat) : Nat → Nat → Int → Option (Nat × Int)
  | 0, _, _ => none
  | f+1, u, j => (rdNext s u r).bind fun
    | none => some (u, j)
    | some w => (s.val w).bind fun v => if less v then (rdLen s u r).bind fun l => vwalk s less r f w (j + l) else some (u, j)

/-- `u->next[r] and u->next[r]->v == v`; returns the node. -/
def hit (s : St T) (v : T) (u r : Nat) : Option (Option Nat) :=
  (rdNext s u r).bind fun
  | none => some none
  | some w => (s.val w).map fun x => if x = v then some w else none

/-- :221-226, :234-239: the levels below `k`: the first node holding `v` that is met (`inl`), or the last `u` (`inr`). -/
def findLoop (s : St T) (v : T) : Nat → Nat → Option (Nat ⊕ Nat)
  | 0, u => some (.inr u)
  | r+1, u => (vwalk s (fun x => decide (x < v)) r (s.size + 1) u 0).bind fun p => (hit s v p.1 r).bind fun
    | some w => some (.inl w)
    | none => findLoop s v r p.1

/-- :219-228 -/
def find (s : St T) (v : T) : Option (Option Nat) :=
  (findLoop s v (s.height + 1) 0).map fun
  | .inl w => some w
  | .inr _ => none

/-- :229-231 -/
def count (s : St T) (v : T) : Option Nat := (find s v).map fun x => if x.isSome then 1 else 0

/-- :232-241 -/
def lowerBound (s : St T) (v : T) : Option (Option Nat) :=
  (findLoop s v (s.height + 1) 0).bind fun
  | .inl w => some (some w)
  | .inr u => rdNext s u 0

/-- :244-247, :255-258: the levels below `k` without a test. -/
def passLoop (s : St T) (less : T → Bool) : Nat → Nat → Option Nat
  | 0, u => some u
  | r+1, u => (vwalk s less r (s.size + 1) u 0).bind fun p => passLoop s less r p.1

/-- :242-249, :250-252 (`successor`) -/
def upperBound (s : St T) (v : T) : Option (Option Nat) := (passLoop s (fun x => decide (x ≤ v)) (s.height + 1) 0).bind fun u => rdNext s u 0

/-- :253-260 -/
def predecessor (s : St T) (v : T) : Option (Option Nat) :=
  (passLoop s (fun x => decide (x < v)) (s.height + 1) 0).map fun u => if u ≠ 0 then some u else none

/-- Write `stack_[r]` and `idx_[r]`. -/
def push (s : SetSt T) (r u : Nat) (i : Int) : Option (SetSt T) :=
  if r ≤ 32 then some { s with stack := fun a => if a = r then u else s.stack a, idx := fun a => if a = r then i else s.idx a } else none

/-- :267-276: the levels below `k`; `inl` if the value is there, else the last `j`. -/
def empFind (v : T) : Nat → SetSt T → Nat → Int → Option (SetSt T × (Nat ⊕ Int))
  | 0, s, _, j => some (s, .inr j)
  | r+1, s, u, j => (vwalk s.b (fun x => decide (x < v)) r (s.b.size + 1) u j).bind fun p => (hit s.b v p.1 r).bind fun
    | some w => some (s, .inl w)
    | none => (push s r p.1 (p.2 - 1)).bind fun s => empFind v r s p.1 p.2

/-- :283-296: at one level. -/
def empStep (s : SetSt T) (w hw : Nat) (j : Int) (r : Nat) : Option (SetSt T) :=
  if r ≤ 32 then
    (rdNext s.b (s.stack r) r).bind fun x => (rdLen s.b (s.stack r) r).bind fun l =>
    if r ≤ hw then
      if s.idx r < j then
        ((wrLink s.b w r x (if x.isSome then l - (j - s.idx r) + 1 else 0)).bind fun b => wrLink b (s.stack r) r (some w) (j - s.idx r)).map fun b => { s with b := b }
      else none
    else if x.isSome then (wrLink s.b (s.stack r) r x (l + 1)).map fun b => { s with b := b } else some s
  else none

/-- :282-297: the levels below `k`. -/
def empLoop (w hw : Nat) (j : Int) : Nat → SetSt T → Option (SetSt T)
  | 0, s => some s
  | r+1, s => (empStep s w hw j r).bind fun s => empLoop w hw j r s

/-- :262-300, :301-306 (`insert`): `emplace` with the draw `d` (used only if the value is new).  An assertion that fails is `none`. -/
def emplace (s : SetSt T) (v : T) (d : Nat) : Option (SetSt T × (Nat × Bool)) :=
  (empFind v (s.b.height + 1) s 0 1).bind fun p => match p.2 with
  | .inl w => some (p.1, (w, false))
  | .inr j =>
    (empLoop p.1.b.fresh (pickHeight d) j ((alloc p.1.b v (pickHeight d)).height + 1) { p.1 with b := alloc p.1.b v (pickHeight d) }).map fun t =>
      ({ t with b := { t.b with size := t.b.size + 1 } }, (p.1.b.fresh, true))

/-- :312-320: the levels below `k`: the level where the value is met (if any) and `u`. -/
def eraFind (v : T) : Nat → SetSt T → Nat → Option (SetSt T × (Option Nat × Nat))
  | 0, s, u => some (s, (none, u))
  | r+1, s, u => (vwalk s.b (fun x => decide (x < v)) r (s.b.size + 1) u 0).bind fun p => (hit s.b v p.1 r).bind fun
    | some _ => some (s, (some r, p.1))
    | none => (push s r p.1 (s.idx r)).bind fun s => eraFind v r s p.1

/-- :323-325: the levels `r+1 ≤ i < r+1+k`, downwards. -/
def decLoop (r : Nat) : Nat → SetSt T → Option (SetSt T)
  | 0, s => some s
  | k+1, s => if r+1+k ≤ 32 then
      (rdNext s.b (s.stack (r+1+k)) (r+1+k)).bind fun x => (rdLen s.b (s.stack (r+1+k)) (r+1+k)).bind fun l =>
      if x.isSome then (wrLink s.b (s.stack (r+1+k)) (r+1+k) x (l - 1)).bind fun b => decLoop r k { s with b := b } else decLoop r k s
    else none

/-- :326-335: the levels below `k`; `u` does not move. -/
def unlinkLoop (v : T) (u : Nat) : Nat → St T → Option (St T)
  | 0, s => some s
  | r+1, s => (hit s v u r).bind fun
    | none => unlinkLoop v u r s
    | some x => (rdLen s u r).bind fun l => (rdNext s x r).bind fun nx => (rdLen s x r).bind fun lx =>
      (wrLink s u r nx (if nx.isSome then l + lx - 1 else 0)).bind fun s => unlinkLoop v u r s

/-- :308-338: `erase`. -/
def erase (s : SetSt T) (v : T) : Option (SetSt T × Option Nat) :=
  (eraFind v (s.b.height + 1) s 0).bind fun p => match p.2.1 with
  | none => (rdNext p.1.b p.2.2 0).map fun x => (p.1, x)
  | some r => (decLoop r (p.1.b.height - r) { p.1 with b := { p.1.b with size := p.1.b.size - 1 } }).bind fun s =>
    (unlinkLoop v p.2.2 (r + 1) s.b).bind fun b => (rdNext b p.2.2 0).map fun x => ({ s with b := b }, x)

end Set
end Verif.Skip
