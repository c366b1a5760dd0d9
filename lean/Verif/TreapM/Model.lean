import Verif.Treap.Model
import Mathlib.Order.Nat
/-!
Model of `/repo/include/mtl/treap.hpp` with `UniqueKey = false` (`TreapMultiset`, :580-581).

As equal keys occur, an iterator cannot be the key of its node: every node has a number (its address, given out in the order of the allocations), and an iterator is that number (`none` for the sentinel).  The trees, zippers, rotations
(`bubble`, `trickle`, `bubbleForce`), iterator steps (`next`, `prev`, `begin_`, `deref`), `eraseIt` and `split` are those of `Verif.Treap.Model`: none of them compares keys.  They are used with the node number in the place of
the model's key (which they only use to tell nodes apart) and the key of the multiset in the place of the stored value.  The functions below are those that compare keys, now the keys `k` of the nodes.  Other simplifications as there: priorities are
arguments, `Compare` is `<` of a linear order and `==` is equality, `none` is a failed assertion or a bad pointer.  `TreapMultimap` does not compile (its `using _base::mapped_type` at :586-588 names a class that is not a base).
-/
namespace Verif.TreapM

open Verif.Treap (Tree Frame Ctx Loc Iter Treap zip locate bubble trickle size begin_ next prev deref eraseIt bubbleForce split)

variable {K : Type} [LinearOrder K]

/-- treap.hpp:226-237 without :227-228: the descent to a free child pointer. -/
def descend (x : K) : Tree Nat K → Ctx Nat K → Ctx Nat K
  | .nil, c => c
  | .node l p i k r, c => if x < k then descend x l (.fl p i k r :: c) else descend x r (.fr l p i k :: c)

/-- :224-242 (`_insert_node_subtree` from a node with subtree `t`), the new node has number `n`; the returned pair is the iterator `n` and `true`. -/
def insertAt (T : Treap Nat K) (t : Tree Nat K) (c : Ctx Nat K) (p n : Nat) (x : K) : Treap Nat K := ⟨bubble .nil p n x .nil (descend x t c), T.size + 1⟩

/-- :243-245, 336-339 (`emplace`, `insert`) -/
def insert (T : Treap Nat K) (p n : Nat) (x : K) : Treap Nat K := insertAt T T.root [] p n x

/-- :249-262 without :253-254: the check of `_insert_node_hint` against the parent of the hint `u`. -/
def hintFrame (T : Treap Nat K) (u : Loc Nat K) (p n : Nat) (x : K) : Treap Nat K :=
  match u.ctx with
  | [] => insertAt T (.node u.l u.p u.k u.v u.r) u.ctx p n x
  | .fl _ _ xp _ :: _ => if xp < x then insert T p n x else insertAt T (.node u.l u.p u.k u.v u.r) u.ctx p n x
  | .fr _ _ _ xp :: _ => if x < xp then insert T p n x else insertAt T (.node u.l u.p u.k u.v u.r) u.ctx p n x

/-- :246-263, 340-343 (`emplace_hint`); the returned iterator is `n`. -/
def insertHint (T : Treap Nat K) (hint : Iter Nat) (p n : Nat) (x : K) : Option (Treap Nat K) :=
  match hint with
  | none => some (insert T p n x)
  | some h => (locate h T.root []).map (fun u => hintFrame T u p n x)

/-- :273-284 (`find`) -/
def findT (x : K) : Tree Nat K → Iter Nat
  | .nil => none
  | .node l _ i k r => if k = x then some i else if x < k then findT x l else findT x r

/-- :285 (`count`) -/
def count (x : K) (t : Tree Nat K) : Nat := if findT x t = none then 0 else 1

/-- :286-300 (`lower_bound`) -/
def lowerT (x : K) : Tree Nat K → Iter Nat → Iter Nat
  | .nil, lb => lb
  | .node l _ i k r, lb => if k = x then some i else if x < k then lowerT x l (some i) else lowerT x r lb

/-- :301-314 (`upper_bound`, `successor`) -/
def upperT (x : K) : Tree Nat K → Iter Nat → Iter Nat
  | .nil, ub => ub
  | .node l _ i k r, ub => if x < k then upperT x l (some i) else upperT x r ub

/-- :315-327 (`predecessor`) -/
def predT (x : K) : Tree Nat K → Iter Nat → Iter Nat
  | .nil, pr => pr
  | .node l _ i k r, pr => if ¬ k < x then predT x l pr else predT x r (some i)

/-- :381-389 (`erase(T)`) -/
def eraseKey (T : Treap Nat K) (x : K) : Option (Treap Nat K × Bool) :=
  match findT x T.root with
  | none => some (T, false)
  | some y => (eraseIt T (some y)).map (fun q => (q.1, true))

/-- The keys at the ends of the spines (`*begin()`, `*--end()`). -/
def leftKey : Tree Nat K → K → K
  | .nil, k => k
  | .node l _ _ k _, _ => leftKey l k

def rightKey : Tree Nat K → K → K
  | .nil, k => k
  | .node _ _ _ k r, _ => rightKey r k

/-- The assertion of line 414. -/
def absorbOk (T S : Treap Nat K) : Bool :=
  match S.root, T.root with
  | .nil, _ => true
  | _, .nil => true
  | .node _ _ _ sk sr, .node tl _ _ tk _ => decide (rightKey sr sk < leftKey tl tk)

/-- :413-438 (`absorb`): this treap, the emptied argument and the returned iterator. -/
def absorb (T S : Treap Nat K) : Option (Treap Nat K × Treap Nat K × Iter Nat) :=
  if absorbOk T S then
    match S.root with
    | .nil => some (T, S, begin_ T.root)
    | .node sl sp si sk sr => match T.root with
      | .nil => some (⟨.node sl sp si sk sr, S.size⟩, ⟨.nil, 0⟩, begin_ (.node sl sp si sk sr))
      | .node tl tp ti tk tr => (trickle (size S.root + size T.root) (.node sl sp si sk sr) (.node tl tp ti tk tr) []).map (fun c =>
          (⟨zip .nil c, T.size + S.size⟩, ⟨.nil, 0⟩, begin_ (.node tl tp ti tk tr)))
  else none

/-- :390-394 (`erase(begin, end)`) -/
def eraseRange (T : Treap Nat K) (b e : Iter Nat) : Option (Treap Nat K × Iter Nat) :=
  (split T b).bind (fun p => (split p.1 e).bind (fun q => (absorb q.1 p.2).map (fun w => (w.1, w.2.2))))

/-- :78-89 (`_clone`): the nodes of the copy are new, numbered from `n` on as they are allocated; also the next free number. -/
def clone : Nat → Tree Nat K → Tree Nat K × Nat
  | n, .nil => (.nil, n)
  | n, .node l p _ k r =>
    let a := clone (n + 1) l
    let b := clone a.2 r
    (.node a.1 p n k b.1, b.2)

/-- Operations on multiset number `i`; `p` is the priority drawn.  `split`, `copy` and `create` add a multiset at the end. -/
inductive Op (K : Type)
  | create
  | insert (i p : Nat) (k : K)
  | insertHint (i : Nat) (h : Iter Nat) (p : Nat) (k : K)
  | eraseKey (i : Nat) (k : K)
  | eraseIt (i : Nat) (it : Iter Nat)
  | eraseRange (i : Nat) (b e : Iter Nat)
  | find (i : Nat) (k : K)
  | count (i : Nat) (k : K)
  | lower (i : Nat) (k : K)
  | upper (i : Nat) (k : K)
  | pred (i : Nat) (k : K)
  | begin_ (i : Nat)
  | next (i : Nat) (it : Iter Nat)
  | prev (i : Nat) (it : Iter Nat)
  | deref (i : Nat) (it : Iter Nat)
  | split (i : Nat) (it : Iter Nat)
  | absorb (i j : Nat)
  | clear (i : Nat)
  | copy (i : Nat)
  | isEmpty (i : Nat)
  | size (i : Nat)

/-- What an operation returns. -/
inductive Out (K : Type)
  | unit
  | it (x : Iter Nat)
  | itb (x : Iter Nat) (b : Bool)
  | b (b : Bool)
  | n (n : Nat)
  | k (k : K)
deriving DecidableEq

/-- The next number of a node and the multisets. -/
structure St (K : Type) where
  n : Nat
  ts : List (Treap Nat K)

def init : St K := ⟨0, []⟩

/-- A call on one multiset that may allocate up to number `n'`. -/
def on1 (s : St K) (i n' : Nat) (f : Treap Nat K → Option (Treap Nat K × Out K)) : Option (St K × Out K) :=
  s.ts[i]?.bind (fun T => (f T).map (fun q => (⟨n', s.ts.set i q.1⟩, q.2)))

def isNil : Tree Nat K → Bool
  | .nil => true
  | _ => false

/-- One call. -/
def step (s : St K) : Op K → Option (St K × Out K)
  | .create => some (⟨s.n, s.ts ++ [⟨.nil, 0⟩]⟩, .unit)
  | .insert i p k => on1 s i (s.n + 1) (fun T => some (insert T p s.n k, .itb (some s.n) true))
  | .insertHint i h p k => on1 s i (s.n + 1) (fun T => (insertHint T h p s.n k).map (fun T' => (T', .it (some s.n))))
  | .eraseKey i k => on1 s i s.n (fun T => (eraseKey T k).map (fun q => (q.1, .b q.2)))
  | .eraseIt i it => on1 s i s.n (fun T => (eraseIt T it).map (fun q => (q.1, .it q.2)))
  | .eraseRange i b e => on1 s i s.n (fun T => (eraseRange T b e).map (fun q => (q.1, .it q.2)))
  | .find i k => on1 s i s.n (fun T => some (T, .it (findT k T.root)))
  | .count i k => on1 s i s.n (fun T => some (T, .n (count k T.root)))
  | .lower i k => on1 s i s.n (fun T => some (T, .it (lowerT k T.root none)))
  | .upper i k => on1 s i s.n (fun T => some (T, .it (upperT k T.root none)))
  | .pred i k => on1 s i s.n (fun T => some (T, .it (predT k T.root none)))
  | .begin_ i => on1 s i s.n (fun T => some (T, .it (Treap.begin_ T.root)))
  | .next i it => on1 s i s.n (fun T => (next T.root it).map (fun x => (T, .it x)))
  | .prev i it => on1 s i s.n (fun T => (prev T.root it).map (fun x => (T, .it x)))
  | .deref i it => on1 s i s.n (fun T => (deref T.root it).map (fun q => (T, .k q.2)))
  | .split i it => s.ts[i]?.bind (fun T => (split T it).map (fun q => (⟨s.n, s.ts.set i q.1 ++ [q.2]⟩, .unit)))
  | .absorb i j => if i = j then none else s.ts[i]?.bind (fun T => s.ts[j]?.bind (fun S => (absorb T S).map (fun q => (⟨s.n, (s.ts.set i q.1).set j q.2.1⟩, .it q.2.2))))
  | .clear i => on1 s i s.n (fun T => some (T.clear, .unit))
  | .copy i => s.ts[i]?.map (fun T => (⟨(clone s.n T.root).2, s.ts ++ [⟨(clone s.n T.root).1, T.size⟩]⟩, .unit))
  | .isEmpty i => on1 s i s.n (fun T => some (T, .b (isNil T.root)))
  | .size i => on1 s i s.n (fun T => some (T, .n T.size))

end Verif.TreapM
