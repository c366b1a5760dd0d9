import Verif.IntSet.Run
import Verif.Yft.Ops
/-!
Model of `YFastTrie` of `/repo/include/mtl/integer_set.hpp` (lines 346-609), on top of the models of its two parts: `xft_` is the threaded X-fast trie of `Verif.IntSet`
whose values are the treaps of `Verif.Treap`.  No call is replaced by its specification.

Simplifications.  Keys are natural numbers below `2 ^ W`.  The draws of the random engines are arguments: `pr` is the priority of a new treap node, `coin` the outcome of
`_pibot_selected()` (lines 363-365).  An iterator (lines 543-592) is the key of the leaf `xit_` points to and the treap iterator `sit_`, the key of a node or `none` for the sentinel of
the treap in that leaf (`Yft.It`); `operator==` compares `sit_`, which for such iterators is the same as comparing both.  `none` is a failed `assert`, an access outside the structure, or
the key of a sentinel, which is never initialised.  `YFastTrieSet` is the case `V = Unit`; with a mapped type `_insert_before` does not compile (line 446 assigns a `Treap` to a `TreapMap`),
nor do copying (`_XFastTrie` has no copy that compiles) and postfix `++`, `--` (lines 575, 589).
-/
namespace Verif.IntSetY
open Verif
open Verif.Yft (kmax It)

variable {V : Type}

abbrev X (V : Type) := IntSet.St (Treap.Treap Nat V)

/-- Lines 360-361. -/
structure Y (V : Type) where
  xft : X V
  size : Nat

/-- `xit->second`. -/
def bucket (s : X V) (p : Nat) : Option (Treap.Treap Nat V) := (s.leaf (some p)).bind (fun l => l.v)

/-- The treap in a leaf after a call on it. -/
def setBucket (s : X V) (p : Nat) (T : Treap.Treap Nat V) : Option (X V) := IntSet.modLeaf s (some p) (fun l => { l with v := some T })

/-- `std::next` / `std::prev` of an iterator of `xft_`. -/
def nextLeaf (s : X V) (a : Option Nat) : Option (Option Nat) := (s.leaf a).map (fun l => l.next)
def prevLeaf (s : X V) (a : Option Nat) : Option (Option Nat) := (s.leaf a).map (fun l => l.prev)

/-- Lines 390-392, and 401-403 (`clear`), where the new object is moved over the old one. -/
def create (W : Nat) : Option (Y V) := (IntSet.emplace W IntSet.init (kmax W) Treap.empty).map (fun a => ⟨a.1, 0⟩)

/-- Lines 597-600. -/
def end_ (s : Y V) : Option It := (prevLeaf s.xft none).bind (fun a => a.map (fun p => ⟨p, none⟩))

/-- Lines 593-596. -/
def begin_ (s : Y V) : Option It := (nextLeaf s.xft none).bind (fun a => a.bind (fun p => (bucket s.xft p).map (fun T => ⟨p, Treap.begin_ T.root⟩)))

/-- Lines 559-560: `*it`. -/
def deref (s : Y V) (it : It) : Option (Nat × V) := (bucket s.xft it.x).bind (fun T => Treap.deref T.root it.t)

/-- Lines 563-572. -/
def next (s : Y V) (it : It) : Option It :=
  (bucket s.xft it.x).bind (fun T => (Treap.next T.root it.t).bind (fun t => match t with
    | some k => some ⟨it.x, some k⟩
    | none => (nextLeaf s.xft (some it.x)).bind (fun nx => match nx with
      | none => some ⟨it.x, none⟩
      | some q => (bucket s.xft q).map (fun R => ⟨q, Treap.begin_ R.root⟩))))

/-- Lines 578-586. -/
def prev (s : Y V) (it : It) : Option It :=
  (bucket s.xft it.x).bind (fun T =>
    if it.t = Treap.begin_ T.root then
      (prevLeaf s.xft (some it.x)).bind (fun pv => pv.bind (fun q => (bucket s.xft q).bind (fun R => (Treap.prev R.root none).map (fun t => ⟨q, t⟩))))
    else (Treap.prev T.root it.t).map (fun t => ⟨it.x, t⟩))

/-- Lines 405-411. -/
def find (W : Nat) (s : Y V) (x : Nat) : Option It :=
  (IntSet.lowerBound W s.xft x).bind (fun a => a.bind (fun p => (bucket s.xft p).bind (fun T => match Treap.findT x T.root with
    | none => end_ s
    | some y => some ⟨p, some y⟩)))

/-- Lines 414-424 with the assertion of line 420. -/
def lowerBound (W : Nat) (s : Y V) (x : Nat) : Option It :=
  (IntSet.lowerBound W s.xft x).bind (fun a => a.bind (fun p => (bucket s.xft p).bind (fun T => match Treap.lowerT x T.root none with
    | some y => some ⟨p, some y⟩
    | none => (nextLeaf s.xft (some p)).bind (fun nx => if nx = none then end_ s else none))))

/-- Lines 425-431 (`upper_bound`, `successor`). -/
def upperBound (W : Nat) (s : Y V) (x : Nat) : Option It :=
  (lowerBound W s x).bind (fun i => (end_ s).bind (fun e => if i ≠ e then (deref s i).bind (fun h => if h.1 = x then next s i else some i) else some i))

/-- Lines 432-435. -/
def predecessor (W : Nat) (s : Y V) (x : Nat) : Option It :=
  (lowerBound W s x).bind (fun i => (begin_ s).bind (fun b => if i ≠ b then prev s i else end_ s))

/-- Lines 438-449 (`_insert_before`).  `s` in line 446 is the treap of leaf `p`, also when the new leaf is `p` itself. -/
def insertBefore (W : Nat) (s : Y V) (p : Nat) (sit : Option Nat) (pr : Nat) (coin : Bool) (x : Nat) (v : V) : Option (Y V × It) :=
  (bucket s.xft p).bind (fun T => (Treap.insertHint T sit pr x v).bind (fun q => (setBucket s.xft p q.1).bind (fun xf =>
    if coin then
      (IntSet.emplaceHint W xf (some p) x Treap.empty).bind (fun a => a.2.bind (fun y =>
        (bucket a.1 p).bind (fun T => (Treap.next T.root q.2).bind (fun n => (Treap.split T n).bind (fun c =>
          (setBucket a.1 p c.1).bind (fun xf => (setBucket xf y c.2).map (fun xf => (⟨xf, s.size + 1⟩, ⟨y, q.2⟩))))))))
    else some (⟨xf, s.size + 1⟩, ⟨p, q.2⟩))))

/-- Lines 450-460 (`_insert`), 475-494 (`insert`, `emplace`). -/
def insert (W : Nat) (s : Y V) (pr : Nat) (coin : Bool) (x : Nat) (v : V) : Option (Y V × It) :=
  (IntSet.lowerBound W s.xft x).bind (fun a => a.bind (fun p => (bucket s.xft p).bind (fun T => match Treap.lowerT x T.root none with
    | none => insertBefore W s p none pr coin x v
    | some y => if x < y then insertBefore W s p (some y) pr coin x v else some (s, ⟨p, some y⟩))))

/-- Lines 464-465: whether the hint is refused. -/
def malicious (s : Y V) (hint : It) (x : Nat) : Option Bool :=
  (begin_ s).bind (fun b => (if hint ≠ b then (prev s hint).bind (fun i => (deref s i).map (fun h => decide (x ≤ h.1))) else some false).bind (fun c =>
    if c then some true
    else (end_ s).bind (fun e => if hint ≠ e then (deref s hint).map (fun h => decide (h.1 ≤ x)) else some false)))

/-- Lines 461-473 (`_insert_hint`), 495-502 (`emplace_hint`); the assertion of line 471. -/
def emplaceHint (W : Nat) (s : Y V) (hint : It) (pr : Nat) (coin : Bool) (x : Nat) (v : V) : Option (Y V × It) :=
  (malicious s hint x).bind (fun c =>
    if c then insert W s pr coin x v
    else if hint.t.any (fun y => decide (y ≤ x)) then none else insertBefore W s hint.x hint.t pr coin x v)

/-- What `erase` returns: the leaf of `xit_` (`none` for the sentinel of `xft_`), the leaf in whose treap the node of `sit_` is (`none` if that treap is gone), and the node. -/
structure Ret where
  x : Option Nat
  h : Option Nat
  t : Option Nat
deriving DecidableEq

def ofIt (it : It) : Ret := ⟨some it.x, some it.x, it.t⟩

/-- Lines 526-530: the pivot `p` has been erased from its treap `T`, `sit` is the iterator after it.  The next treap takes over what is left, and the leaf is erased. -/
def dropPivot (W : Nat) (s : Y V) (p : Nat) (T : Treap.Treap Nat V) (sit : Option Nat) : Option (Y V × Ret) :=
  match T.root with
  | .nil => (IntSet.eraseAt W s.xft (some p)).map (fun a => (⟨a.1, s.size⟩, ⟨a.2, none, sit⟩))
  | _ => (nextLeaf s.xft (some p)).bind (fun nx => nx.bind (fun q => (bucket s.xft q).bind (fun R => (Treap.absorb R T).bind (fun c =>
      (setBucket s.xft q c.1).bind (fun xf => (setBucket xf p c.2.1).bind (fun xf =>
        (IntSet.eraseAt W xf (some p)).map (fun a => (⟨a.1, s.size⟩, ⟨a.2, some q, c.2.2⟩))))))))

/-- Lines 514-536 (`erase(iterator)`). -/
def eraseIt (W : Nat) (s : Y V) (it : It) : Option (Y V × Ret) :=
  (end_ s).bind (fun e =>
    if it = e then some (s, ofIt it)
    else (deref s it).bind (fun h => (bucket s.xft it.x).bind (fun T => (Treap.eraseIt T it.t).bind (fun q => (setBucket s.xft it.x q.1).bind (fun xf =>
      if h.1 = it.x then
        if h.1 ≠ kmax W then dropPivot W ⟨xf, s.size - 1⟩ it.x q.1 q.2
        else (end_ ⟨xf, s.size - 1⟩).map (fun e => (⟨xf, s.size - 1⟩, ofIt e))
      else some (⟨xf, s.size - 1⟩, ofIt ⟨it.x, q.2⟩))))))

/-- Lines 537-540 (`erase(U)`): the key of `end()` is not initialised. -/
def erase (W : Nat) (s : Y V) (x : Nat) : Option (Y V × Ret) :=
  (lowerBound W s x).bind (fun i => (deref s i).bind (fun h => if h.1 = x then eraseIt W s i else some (s, ofIt i)))

/-- `for (auto& e : m)`: from `begin()` with `++` until `end()`. -/
def walk (s : Y V) (e : It) : Nat → It → Option (List (Nat × V))
  | 0, _ => none
  | f+1, it => if it = e then some [] else (deref s it).bind (fun h => (next s it).bind (fun it => (walk s e f it).map (fun r => h :: r)))

def elements (s : Y V) : Option (List (Nat × V)) := (begin_ s).bind (fun b => (end_ s).bind (fun e => walk s e (s.size + 1) b))

end Verif.IntSetY
