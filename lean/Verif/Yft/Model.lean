import Verif.Trie.Run
import Verif.Treap.Ops
import Mathlib.Order.Nat
/-!
Model of `/repo/include/mtl/yft.hpp` (Y-fast trie), on top of the models of its two parts: `xft_` is the X-fast trie of `Verif.Trie` (with `xf = true`)
whose values are the treaps of `Verif.Treap`.  No call is replaced by its specification.

Simplifications.  Keys are natural numbers below `2 ^ W`.  The draws of the random engines are arguments: `pr` is the priority of a new treap node, `coin` the
outcome of `_pivot_selected()` (line 146-148).  An iterator (lines 219-303) is the key of the leaf `xit_` points to and the treap iterator `tit_`, the key of a node or
`none` for the sentinel of the treap in that leaf.  A treap node can move to another treap; using an iterator whose node is no longer in the treap of its leaf is `none`
here (the code then walks in the other treap).  `none` is also a failed `assert` or an access outside the structure.  `YFastTrieSet` is the case `V = Unit`;
its `_emplace_hint` does not compile (`hint->first`, line 181).
-/
namespace Verif.Yft
open Verif

variable {V : Type}

/-- Lines 37-39; `end_` is computed. -/
structure Y (V : Type) where
  xft : Trie.St (Treap.Treap Nat V)
  size : Nat

/-- Line 29. -/
def kmax (W : Nat) : Nat := 2 ^ W - 1

/-- Lines 232-234. -/
structure It where
  x : Nat
  t : Option Nat
deriving DecidableEq

/-- `xit->second`. -/
def bucket (s : Trie.St (Treap.Treap Nat V)) (p : Nat) : Option (Treap.Treap Nat V) := Trie.valueAt s (some p)

/-- The treap in a leaf after a call on it. -/
def setBucket (s : Trie.St (Treap.Treap Nat V)) (p : Nat) (T : Treap.Treap Nat V) : Option (Trie.St (Treap.Treap Nat V)) :=
  Trie.modLeaf s (some p) (fun l => { l with v := some T })

/-- `std::next` / `std::prev` of an iterator of `xft_`. -/
def nextLeaf (s : Trie.St (Treap.Treap Nat V)) (a : Option Nat) : Option (Option Nat) := (s.leaf a).map (fun l => l.next)
def prevLeaf (s : Trie.St (Treap.Treap Nat V)) (a : Option Nat) : Option (Option Nat) := (s.leaf a).map (fun l => l.prev)

/-- Lines 48-52: `xft_` from an initializer list. -/
def create (W : Nat) : Option (Y V) := (Trie.ofRange true W [(kmax W, Treap.empty)]).map (fun x => ⟨x, 0⟩)

/-- Lines 41-46, 107-109 (`clear`). -/
def clear (W : Nat) (s : Y V) : Option (Y V) :=
  (Trie.clear (some s.xft)).bind (fun a => a.bind (fun x => (Trie.add true W x (kmax W) Treap.empty).map (fun b => ⟨b.1, 0⟩)))

/-- Lines 113-115 with 50: `end_` is the sentinel of the treap in the last leaf. -/
def end_ (s : Y V) : Option It := (prevLeaf s.xft none).bind (fun a => a.map (fun p => ⟨p, none⟩))

/-- Lines 110-112. -/
def begin_ (s : Y V) : Option It := (nextLeaf s.xft none).bind (fun a => a.bind (fun p => (bucket s.xft p).map (fun T => ⟨p, Treap.begin_ T.root⟩)))

/-- Lines 118-124. -/
def lowerBound (W : Nat) (s : Y V) (x : Nat) : Option It :=
  (Trie.lowerBound true W s.xft x).bind (fun a => a.bind (fun p => (bucket s.xft p).map (fun T => ⟨p, Treap.lowerT x T.root none⟩)))

/-- Lines 126-134. -/
def upperBound (W : Nat) (s : Y V) (x : Nat) : Option It :=
  (Trie.upperBound true W s.xft x).bind (fun a => match a with
    | none => end_ s
    | some p => (bucket s.xft p).map (fun T => ⟨p, Treap.upperT x T.root none⟩))

/-- Lines 136-145. -/
def find (W : Nat) (s : Y V) (x : Nat) : Option It :=
  (Trie.lowerBound true W s.xft x).bind (fun a => a.bind (fun p => (bucket s.xft p).bind (fun T => match Treap.findT x T.root with
    | none => end_ s
    | some y => some ⟨p, some y⟩)))

/-- Lines 149-158 (`activate_new_treap_node`); line 155 moves the treap `lt` into the new leaf, or drops it when the key of the leaf is already there. -/
def activate (W : Nat) (s : Y V) (coin : Bool) (x p : Nat) (tit : Option Nat) : Option (Y V × It) :=
  if coin then
    (bucket s.xft p).bind (fun T => (Treap.next T.root tit).bind (fun n => (Treap.split T n).bind (fun q =>
      (setBucket s.xft p q.1).bind (fun xf => (Trie.emplaceHint true W xf (some p) x q.2).map (fun xf => (⟨xf, s.size + 1⟩, ⟨x, tit⟩))))))
  else some (⟨s.xft, s.size + 1⟩, ⟨p, tit⟩)

/-- Lines 160-170. -/
def insert (W : Nat) (s : Y V) (pr : Nat) (coin : Bool) (x : Nat) (v : V) : Option (Y V × It × Bool) :=
  (Trie.lowerBound true W s.xft x).bind (fun a => a.bind (fun p => (bucket s.xft p).bind (fun T =>
    (setBucket s.xft p (Treap.insert T pr x v).1).bind (fun xf =>
      if (Treap.insert T pr x v).2.2 then (activate W ⟨xf, s.size⟩ coin x p (Treap.insert T pr x v).2.1).map (fun r => (r.1, r.2, true))
      else some (⟨xf, s.size⟩, ⟨p, (Treap.insert T pr x v).2.1⟩, false)))))

/-- Lines 259-264: `*it`. -/
def deref (s : Y V) (it : It) : Option (Nat × V) := (bucket s.xft it.x).bind (fun T => Treap.deref T.root it.t)

/-- `it->second = v`. -/
def assign (s : Y V) (it : It) (v : V) : Option (Y V) :=
  (bucket s.xft it.x).bind (fun T => (Treap.assign T it.t v).bind (fun T => (setBucket s.xft it.x T).map (fun xf => ⟨xf, s.size⟩)))

/-- Lines 172-177 (`_emplace_hint_unique`) behind the assertion of line 173. -/
def emplaceUnique (W : Nat) (s : Y V) (hint : It) (pr : Nat) (coin : Bool) (x : Nat) (v : V) : Option (Y V × It) :=
  (bucket s.xft hint.x).bind (fun T => (Treap.insertHint T hint.t pr x v).bind (fun q => (setBucket s.xft hint.x q.1).bind (fun xf =>
    q.2.bind (fun y => activate W ⟨xf, s.size⟩ coin y hint.x (some y)))))

/-- Lines 173, 178-185 (`_emplace_hint`). -/
def emplaceHint (W : Nat) (s : Y V) (hint : It) (pr : Nat) (coin : Bool) (x : Nat) (v : V) : Option (Y V × It) :=
  (end_ s).bind (fun e =>
    if hint = e then emplaceUnique W s hint pr coin x v
    else (deref s hint).bind (fun h =>
      if x = h.1 then some (s, hint)
      else if x < h.1 then emplaceUnique W s hint pr coin x v else none))

/-- traits/set_traits.hpp:210-231 (`operator[]`): the state and the iterator the reference is taken from. -/
def ref (W : Nat) (s : Y V) (pr : Nat) (coin : Bool) (x : Nat) (d : V) : Option (Y V × It) :=
  (lowerBound W s x).bind (fun i => (end_ s).bind (fun e =>
    if i = e then emplaceHint W s i pr coin x d
    else (deref s i).bind (fun h => if x < h.1 then emplaceHint W s i pr coin x d else some (s, i))))

/-- Lines 195-196 and 212-214: the treap of leaf `nx` takes over what is left in the treap of leaf `p`, which is erased. -/
def mergeInto (W : Nat) (s : Y V) (p nx : Nat) : Option (Y V) :=
  (bucket s.xft nx).bind (fun R => (bucket s.xft p).bind (fun T => (Treap.absorb R T).bind (fun q =>
    (setBucket s.xft nx q.1).bind (fun xf => (setBucket xf p q.2.1).bind (fun xf => (Trie.eraseAt true W xf (some p)).map (fun b => ⟨b.1, s.size⟩))))))

/-- Lines 186-201 (`_erase(key)`). -/
def erase (W : Nat) (s : Y V) (x : Nat) : Option (Y V × Bool) :=
  (Trie.lowerBound true W s.xft x).bind (fun a => a.bind (fun p => (bucket s.xft p).bind (fun T => (Treap.eraseKey T x).bind (fun q =>
    (setBucket s.xft p q.1).bind (fun xf =>
      if q.2 then
        (nextLeaf xf (some p)).bind (fun nx => match nx with
          | some nx => if p = x then (mergeInto W ⟨xf, s.size - 1⟩ p nx).map (fun s => (s, true)) else some (⟨xf, s.size - 1⟩, true)
          | none => some (⟨xf, s.size - 1⟩, true))
      else some (⟨xf, s.size⟩, false))))))

/-- Lines 273-280. -/
def next (s : Y V) (it : It) : Option It :=
  (bucket s.xft it.x).bind (fun T => (Treap.next T.root it.t).bind (fun t => match t with
    | some k => some ⟨it.x, some k⟩
    | none => (nextLeaf s.xft (some it.x)).bind (fun nx => match nx with
      | none => some ⟨it.x, none⟩
      | some q => (bucket s.xft q).map (fun R => ⟨q, Treap.begin_ R.root⟩))))

/-- Lines 286-295. -/
def prev (s : Y V) (it : It) : Option It :=
  (bucket s.xft it.x).bind (fun T =>
    if it.t = Treap.begin_ T.root then
      (prevLeaf s.xft (some it.x)).bind (fun pv => pv.bind (fun q => (bucket s.xft q).bind (fun R => (Treap.prev R.root none).map (fun t => ⟨q, t⟩))))
    else (Treap.prev T.root it.t).map (fun t => ⟨it.x, t⟩))

/-- Lines 202-217 (`_erase(iterator)`). -/
def eraseIt (W : Nat) (s : Y V) (it : It) : Option (Y V × It) :=
  (end_ s).bind (fun e =>
    if it = e then some (s, it)
    else (next s it).bind (fun nx => (deref s it).bind (fun h => (bucket s.xft it.x).bind (fun T => (Treap.eraseIt T it.t).bind (fun q =>
      (setBucket s.xft it.x q.1).bind (fun xf => (prevLeaf xf none).bind (fun lst =>
        if it.x = h.1 ∧ some it.x ≠ lst then
          (nextLeaf xf (some it.x)).bind (fun a => a.bind (fun b => (mergeInto W ⟨xf, s.size - 1⟩ it.x b).map (fun s => (s, nx))))
        else some (⟨xf, s.size - 1⟩, nx))))))))

/-- `for (auto& e : m)`: from `begin()` with `++` until `end()`. -/
def walk (s : Y V) (e : It) : Nat → It → Option (List (Nat × V))
  | 0, _ => none
  | f+1, it => if it = e then some [] else (deref s it).bind (fun h => (next s it).bind (fun it => (walk s e f it).map (fun r => h :: r)))

def elements (s : Y V) : Option (List (Nat × V)) := (begin_ s).bind (fun b => (end_ s).bind (fun e => walk s e (s.size + 1) b))

/-! ### the range constructor (lines 69-104) -/

/-- Lines 75-76. -/
def insertAll (W : Nat) : List (Nat × Bool × Nat × V) → Y V → Option (Y V)
  | [], s => some s
  | (pr, coin, x, v) :: l, s => (insert W s pr coin x v).bind (fun r => insertAll W l r.1)

/-- treap.hpp:358-365: insertion of a range into a treap; `pr k` is the priority of the node of key `k`. -/
def treapAll (pr : Nat → Nat) : List (Nat × V) → Treap.Treap Nat V → Treap.Treap Nat V
  | [], T => T
  | (k, v) :: l, T => treapAll pr l (Treap.insert T (pr k) k v).1

/-- Lines 83-87: elements taken so far, `px`, elements left, coins left. -/
def inner : Nat → List Bool → List (Nat × V) → List (Nat × V) → Nat → List (Nat × V) × Nat × List (Nat × V) × List Bool
  | 0, coins, r, tk, px => (tk, px, r, coins)
  | _, coins, [], tk, px => (tk, px, [], coins)
  | f+1, coins, (k, v) :: r, tk, px =>
    if coins.headD false then (tk, px, (k, v) :: r, coins.tail)
    else inner f coins.tail (r.dropWhile (fun a => a.1 = k)) (tk ++ (k, v) :: r.takeWhile (fun a => a.1 = k)) k

/-- Lines 88-92. -/
def shift (tk : List (Nat × V)) (px : Nat) : List (Nat × V) → List (Nat × V) × Nat × List (Nat × V)
  | [] => (tk, px, [])
  | (k, v) :: r => (tk ++ (k, v) :: r.takeWhile (fun a => a.1 = k), k, r.dropWhile (fun a => a.1 = k))

/-- Lines 79-102. -/
def outer (W : Nat) (pr : Nat → Nat) : Nat → List Bool → List (Nat × V) → Trie.St (Treap.Treap Nat V) → Option (Trie.St (Treap.Treap Nat V))
  | _, _, [], s => some s
  | 0, _, _, _ => none
  | f+1, coins, a :: r, s =>
    let i := inner r.length coins r [a] a.1
    let j := shift i.1 i.2.1 i.2.2.1
    match j.2.2 with
    | [] => (bucket s (kmax W)).bind (fun T => setBucket s (kmax W) (treapAll pr j.1 T))
    | b :: r' => if j.2.1 < kmax W then (Trie.emplaceHint true W s (some (kmax W)) j.2.1 (treapAll pr j.1 Treap.empty)).bind (outer W pr f i.2.2.2 (b :: r')) else none

/-- Lines 69-104 for a range sorted by key. -/
def ofSorted (W : Nat) (pr : Nat → Nat) (coins : List Bool) (l : List (Nat × V)) : Option (Y V) :=
  (create W).bind (fun s => if l = [] then some s else (outer W pr l.length coins l s.xft).map (fun x => ⟨x, l.length⟩))

/-- Lines 69-104 for a range that is not sorted. -/
def ofUnsorted (W : Nat) (l : List (Nat × Bool × Nat × V)) : Option (Y V) := (create W).bind (insertAll W l)

/-- The draws of the random engines for the elements of a range: the priority of a node by its key, and a coin for each element. -/
def draw (pr : Nat → Nat) : List Bool → List (Nat × V) → List (Nat × Bool × Nat × V)
  | _, [] => []
  | coins, (k, v) :: l => (pr k, coins.headD false, k, v) :: draw pr coins.tail l

/-- Lines 69-104 (`std::is_sorted` in lines 72-74). -/
def ofRange (W : Nat) (pr : Nat → Nat) (coins : List Bool) (l : List (Nat × V)) : Option (Y V) :=
  if l.Pairwise (fun a b => a.1 ≤ b.1) then ofSorted W pr coins l else ofUnsorted W (draw pr coins l)

/-! ### copy and move -/

/-- Lines 53-57: the copy constructor of `xft_`, which copies the treaps (treap.hpp:91-94, `_clone`). -/
def copyOf (W : Nat) (s : Y V) : Option (Y V) :=
  (Trie.elements s.xft).bind (fun l => (Trie.ofRange true W (l.map (fun a => (a.1, ⟨Treap.clone a.2.root, a.2.size⟩)))).map (fun x => ⟨x, s.size⟩))

/-- Lines 58-65: `xft_ = rhs.xft_` runs xft.hpp:48-50. -/
def copyAssign (W : Nat) (s r : Y V) : Option (Y V) :=
  (Trie.copyAssign true W (some s.xft) (some r.xft)).bind (fun a => a.map (fun x => ⟨x, r.size⟩))

/-- Line 66: the move constructor of `xft_` (xft.hpp:51-53).  The new object and the `xft_` left behind. -/
def moveOf (s : Y V) : Option (Y V × Option (Trie.St (Treap.Treap Nat V))) :=
  (Trie.moveOf true (some s.xft)).bind (fun a => a.1.map (fun x => (⟨x, s.size⟩, a.2)))

end Verif.Yft
