import Verif.Trie.Model
/-!
Model of `_XFastTrie` of `/repo/include/mtl/integer_set.hpp` (lines 11-343), the trie with threads: a child pointer that leads to no child points to a leaf instead.

Keys are natural numbers below `2 ^ W`.  As in `Verif/Trie/Model.lean` an inner node is written as its place, the depth `i` and the prefix `x >> (W-i)`; the parent is one level up.
A leaf pointer is `some key`, `none` is `sentinel_`.  A leaf is a node with `child[0]`, `child[1]` its neighbours and `*vptr` its element.
`xmap_` is the set of places stored.  A node lives as long as some pointer to it, so an erased leaf keeps its links, but its element is gone (`v = none`).
Access to a node that was never made, to a null pointer, or to the element of `sentinel_` or of an erased leaf, a null pointer as result, and a failed `assert`, give `none` for the whole call.
Not modelled: the element that `emplace` of a stored key allocates and never frees; exhaustion of memory; the `size_t` counter wrapping round.
-/
namespace Verif.IntSet
open Verif
open Verif.Trie (Lf bit pre)

/-- A child pointer of an inner node: null, the child one level deeper, or a thread to a leaf. -/
inductive Ch where
  | null
  | down
  | thr (a : Option Nat)
  deriving DecidableEq

/-- Lines 25-39, an inner node: `cmask` bit by bit, `child`. -/
structure Nd where
  mask : Nat → Bool
  ch : Nat → Ch

/-- Lines 42-44. -/
structure St (V : Type) where
  node : Nat → Nat → Option Nd
  leaf : Option Nat → Option (Lf V)
  size : Nat
  tb : Nat → Nat → Bool

variable {V : Type}

def modNode (s : St V) (i p : Nat) (f : Nd → Nd) : Option (St V) := (s.node i p).map (fun u => { s with node := upd2 s.node i p (some (f u)) })

def modLeaf (s : St V) (a : Option Nat) (f : Lf V → Lf V) : Option (St V) :=
  (s.leaf a).map (fun l => { s with leaf := fun b => if b = a then some (f l) else s.leaf b })

/-- Lines 47-52, the constructor. -/
def init : St V :=
  { node := fun i p => if i = 0 ∧ p = 0 then some ⟨fun _ => false, fun _ => .thr none⟩ else none
    leaf := fun a => if a = none then some ⟨none, none, none⟩ else none
    size := 0
    tb := fun i p => (i == 0) && (p == 0) }

/-- The leaf a child pointer leads to.  Using a child of a reachable state that is no thread as one does not happen, and is `none`. -/
def thread : Ch → Option (Option Nat)
  | .thr a => some a
  | _ => none

/-- Lines 112-115 (`find`). -/
def find (W : Nat) (s : St V) (x : Nat) : Option Nat := if s.tb W x then some x else none

/-- Lines 121-130: binary search for the deepest stored prefix; `q` is the place of `u`. -/
def search (W : Nat) (s : St V) (x : Nat) : Nat → Nat → Nat → Nat × Nat → Option (Nat × (Nat × Nat))
  | 0, _, _, _ => none
  | f+1, l, r, q =>
    if l + 1 < r then
      if s.tb ((l + r) / 2) (pre W x ((l + r) / 2)) then search W s x f ((l + r) / 2) r ((l + r) / 2, pre W x ((l + r) / 2))
      else search W s x f l ((l + r) / 2) q
    else some (l, q)

/-- Lines 118-134 (`lower_bound`). -/
def lowerBound (W : Nat) (s : St V) (x : Nat) : Option (Option Nat) :=
  (search W s x (W + 2) 0 (W + 1) (0, 0)).bind (fun a =>
    if a.1 = W then some (some a.2.2)
    else (s.node a.2.1 a.2.2).bind (fun u =>
      if bit W x a.1 = 0 then thread (u.ch 0) else (thread (u.ch 1)).bind (fun j => (s.leaf j).map (fun l => l.next))))

/-- `key()` of a leaf (lines 33-38, `_key_of` of lines 154-156). -/
def keyOf (s : St V) (a : Option Nat) : Option Nat := a.bind (fun y => (s.leaf (some y)).bind (fun l => l.v.map (fun _ => y)))

/-- Lines 135-138 (`upper_bound`), 139-141 (`successor`). -/
def upperBound (W : Nat) (s : St V) (x : Nat) : Option (Option Nat) :=
  (lowerBound W s x).bind (fun a =>
    if a ≠ none then (keyOf s a).bind (fun y => if y = x then (s.leaf a).map (fun l => l.next) else some a) else some a)

/-- Line 333 (`begin`). -/
def begin (s : St V) : Option (Option Nat) := (s.leaf none).map (fun l => l.next)

/-- Lines 142-145 (`predecessor`). -/
def predecessor (W : Nat) (s : St V) (x : Nat) : Option (Option Nat) :=
  (lowerBound W s x).bind (fun a => (begin s).bind (fun b => if a ≠ b then (s.leaf a).map (fun l => l.prev) else some none))

/-- Lines 164-171: the new path from place `(i, p)`; `k` levels are left.  A place that is stored already would keep its entry: not modelled, hence `none`. -/
def growPath (W x : Nat) : Nat → Nat → Nat → St V → Option (St V)
  | 0, _, _, s => some s
  | k+1, i, p, s =>
    (modNode s i p (fun u => ⟨upd u.mask (bit W x i) true, upd u.ch (bit W x i) .down⟩)).bind (fun s =>
      if s.tb (i+1) (2 * p + bit W x i) then none
      else growPath W x k (i+1) (2 * p + bit W x i) { s with
        node := if k = 0 then s.node else upd2 s.node (i+1) (2 * p + bit W x i) (some ⟨fun _ => false, fun _ => .null⟩)
        tb := upd2 s.tb (i+1) (2 * p + bit W x i) true })

/-- Lines 172-176: the leaf and its links. -/
def link (s : St V) (x : Nat) (v : V) (pred : Option Nat) : Option (St V) :=
  (s.leaf pred).bind (fun pl =>
    (modLeaf { s with leaf := fun b => if b = some x then some ⟨pred, pl.next, some v⟩ else s.leaf b } pl.next (fun l => { l with prev := some x })).bind (fun s =>
      modLeaf s pred (fun l => { l with next := some x })))

/-- Lines 182-185: whether the pointer on the other side shall become a thread to the new leaf. -/
def wants (s : St V) (x ic : Nat) (v : Nd) : Option Bool :=
  if v.mask ic then some false
  else match v.ch ic with
    | .null => some true
    | .thr none => some true
    | .thr (some y) => (keyOf s (some y)).map (fun y => if ic = 0 then decide (x < y) else decide (y < x))
    | .down => none

/-- Lines 177-189: up from the parent of the leaf; `i + 1` levels are left. -/
def climbIns (W x : Nat) : Nat → St V → Option (St V)
  | 0, s => some s
  | i+1, s => (s.node i (pre W x i)).bind (fun v => (wants s x (1 - bit W x i) v).bind (fun b =>
      (modNode s i (pre W x i) (fun v => if b then ⟨v.mask, upd v.ch (1 - bit W x i) (.thr (some x))⟩ else v)).bind (fun s =>
        (s.node i (pre W x i)).bind (fun v => if v.ch 0 = .null ∨ v.ch 1 = .null then none else climbIns W x i s))))

/-- Lines 159-192 (`_insert_subtree`) at place `(h, p)`; the result is also the iterator `some x`. -/
def insertSubtree (W : Nat) (s : St V) (h p x : Nat) (v : V) : Option (St V) :=
  (s.node h p).bind (fun u =>
    (if bit W x h = 1 then thread (u.ch 1) else (thread (u.ch 0)).bind (fun j => (s.leaf j).map (fun l => l.prev))).bind (fun pred =>
      (growPath W x (W - h) h p s).bind (fun s => (link s x v pred).bind (fun s => (climbIns W x W s).map (fun s => { s with size := s.size + 1 })))))

/-- Lines 194-200: down along the children; `k` levels are left. -/
def descend (W : Nat) (s : St V) (x : Nat) : Nat → Nat → Nat → Option (Nat × Nat)
  | 0, i, p => some (i, p)
  | k+1, i, p => (s.node i p).bind (fun u => if u.mask (bit W x i) then descend W s x k (i+1) (2 * p + bit W x i) else some (i, p))

/-- Lines 193-203 (`_insert`), 229-232 (`emplace`): the state and the iterator. -/
def emplace (W : Nat) (s : St V) (x : Nat) (v : V) : Option (St V × Option Nat) :=
  (descend W s x W 0 0).bind (fun a => if a.1 = W then some (s, some a.2) else (insertSubtree W s a.1 a.2 x v).map (fun s => (s, some x)))

/-- `bm::clz(a) - (64-W)` for `a < 2 ^ W`. -/
def lead (W a : Nat) : Nat := if a = 0 then W else W - 1 - Nat.log2 a

/-- Lines 204-218 (`_insert_hint`), 234-238 (`emplace_hint`).  `lx` and `rx` are the keys before and at the hint, `none` where the hint is `begin()` or `end()`.
For `d = 0` and `W = 64` line 217 shifts a 64-bit number by 64. -/
def emplaceHint (W : Nat) (s : St V) (hint : Option Nat) (x : Nat) (v : V) : Option (St V × Option Nat) :=
  (begin s).bind (fun b =>
    (if hint ≠ b then (s.leaf hint).bind (fun l => (keyOf s l.prev).map some) else some none).bind (fun lx =>
      if lx.any (fun y => decide (x < y)) then emplace W s x v
      else (if hint ≠ none then (keyOf s hint).map some else some none).bind (fun rx =>
        if rx.any (fun y => decide (y < x)) then emplace W s x v
        else
          let d := max (lx.elim 0 (fun y => lead W (x ^^^ y))) (rx.elim 0 (fun y => lead W (x ^^^ y)))
          if d = W then (if s.tb W x then some (s, some x) else none)
          else if d = 0 ∧ 64 ≤ W then none
          else if s.tb d (pre W x d) then (insertSubtree W s d (pre W x d) x v).map (fun s => (s, some x)) else none)))

/-- Lines 261-271: up from the leaf; `i + 1` levels are left.  Gives the depth of the first node with another child, or nothing past the root. -/
def climbDel (W x : Nat) : Nat → St V → Option (St V × Option Nat)
  | 0, s => some (s, none)
  | i+1, s =>
    if s.tb (i+1) (pre W x (i+1)) then
      (modNode { s with tb := upd2 s.tb (i+1) (pre W x (i+1)) false, node := upd2 s.node (i+1) (pre W x (i+1)) none } i (pre W x i)
          (fun u => ⟨upd u.mask (bit W x i) (!(u.mask (bit W x i))), upd u.ch (bit W x i) .null⟩)).bind (fun s =>
        (s.node i (pre W x i)).bind (fun u => if u.mask (1 - bit W x i) then some (s, some i) else climbDel W x i s))
    else none

/-- Lines 277-284: threads to the erased leaf get its neighbour; `l` is the erased leaf. -/
def rethread (W x : Nat) (l : Lf V) : Nat → St V → Option (St V)
  | 0, s => some s
  | i+1, s =>
    (modNode s i (pre W x i) (fun u => if u.ch (1 - bit W x i) = .thr (some x) then ⟨u.mask, upd u.ch (1 - bit W x i) (.thr (if bit W x i = 0 then l.prev else l.next))⟩ else u)).bind
      (rethread W x l i)

/-- Lines 250-288 (`erase(iterator)`) at a leaf: the state and the iterator returned. -/
def eraseLeaf (W : Nat) (s : St V) (x : Nat) : Option (St V × Option Nat) :=
  (s.leaf (some x)).bind (fun l =>
    (modLeaf s l.prev (fun a => { a with next := l.next })).bind (fun s => (modLeaf s l.next (fun a => { a with prev := l.prev })).bind (fun s =>
      (climbDel W x W s).bind (fun a =>
        (match a.2 with
          | none => some a.1
          | some d => (modNode a.1 d (pre W x d) (fun u => ⟨u.mask, upd u.ch (bit W x d) (.thr (if bit W x d = 0 then l.next else l.prev))⟩)).bind (rethread W x l d)).map (fun s : St V =>
            ({ s with size := s.size - 1, leaf := fun b => if b = some x then some { l with v := none } else s.leaf b }, l.prev))))))

/-- Lines 250-252. -/
def eraseAt (W : Nat) (s : St V) : Option Nat → Option (St V × Option Nat)
  | none => some (s, none)
  | some x => eraseLeaf W s x

/-- Lines 289-294 (`erase(U)`): `it.key()` has no value at `end()`. -/
def erase (W : Nat) (s : St V) (x : Nat) : Option (St V × Option Nat) :=
  (lowerBound W s x).bind (fun a => (keyOf s a).bind (fun y => if y ≠ x then some (s, a) else eraseAt W s a))

/-- Walk from `begin()` to `end()` with `++it` (lines 313-316). -/
def walk (s : St V) : Nat → Option Nat → Option (List (Nat × V))
  | 0, _ => none
  | f+1, a => match a with
    | none => some []
    | some x => (s.leaf (some x)).bind (fun l => l.v.bind (fun v => (walk s f l.next).map (fun r => (x, v) :: r)))

def elements (s : St V) : Option (List (Nat × V)) := (begin s).bind (fun a => walk s (s.size + 1) a)

end Verif.IntSet
