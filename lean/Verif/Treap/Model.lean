import Mathlib.Order.Defs.LinearOrder
import Verif.Common.Vec
/-!
Model of `/repo/include/mtl/treap.hpp` with `UniqueKey = true` (`TreapSet` is the instance `V = Unit`, `TreapMap` stores a value beside the key).

Simplifications.  The pointer structure is a tree; a node pointer is a zipper (the subtree at the node and the list of frames up to the sentinel), so that
`u->parent` is the first frame and the sentinel is the empty list of frames; `left`/`right`/`parent` are thereby consistent by construction.  As keys are unique, an
iterator is the key of the node it points to (`none` for the sentinel); it stays valid while the node is in the tree, as in the code.  Priorities are arguments of the
inserting operations instead of draws of the random engine.  `Compare` is `<` of a linear order, and `==` is equality.  `none` is a failed assertion or a dereferenced
null/dangling pointer.
-/
namespace Verif.Treap

variable {K V : Type} [LinearOrder K]

/-- treap.hpp:39-60 -/
inductive Tree (K V : Type) where
  | nil
  | node (l : Tree K V) (p : Nat) (k : K) (v : V) (r : Tree K V)
deriving DecidableEq

/-- One step from a node to its parent: the node is the left (`fl`) or right (`fr`) child. -/
inductive Frame (K V : Type) where
  | fl (p : Nat) (k : K) (v : V) (r : Tree K V)
  | fr (l : Tree K V) (p : Nat) (k : K) (v : V)

abbrev Ctx (K V : Type) := List (Frame K V)

/-- A pointer to a node. -/
structure Loc (K V : Type) where
  l : Tree K V
  p : Nat
  k : K
  v : V
  r : Tree K V
  ctx : Ctx K V

/-- The whole tree around a subtree. -/
def zip : Tree K V → Ctx K V → Tree K V
  | t, [] => t
  | t, .fl p k v r :: c => zip (.node t p k v r) c
  | t, .fr l p k v :: c => zip (.node l p k v t) c

/-- An iterator: the key of its node, or `none` for `end()`. -/
abbrev Iter (K : Type) := Option K

/-- Following an iterator to its node. -/
def locate (x : K) : Tree K V → Ctx K V → Option (Loc K V)
  | .nil, _ => none
  | .node l p k v r, c => if k = x then some ⟨l, p, k, v, r, c⟩ else (locate x l (.fl p k v r :: c)).orElse (fun _ => locate x r (.fr l p k v :: c))

/-- treap.hpp:61-62 -/
structure Treap (K V : Type) where
  root : Tree K V
  size : Nat

def empty : Treap K V := ⟨.nil, 0⟩

/-- :226-237: the descent; `inl` is an equal key, `inr` the free child pointer. -/
def descend (x : K) : Tree K V → Ctx K V → K ⊕ Ctx K V
  | .nil, c => .inr c
  | .node l p k v r, c => if x = k then .inl k else if x < k then descend x l (.fl p k v r :: c) else descend x r (.fr l p k v :: c)

/-- :170-186 (`_bubble_up`) with the rotations :134-169; the sentinel has priority 0, so the loop stops below it. -/
def bubble (l : Tree K V) (p : Nat) (k : K) (v : V) (r : Tree K V) : Ctx K V → Tree K V
  | [] => .node l p k v r
  | .fl pp pk pv pr :: c => if p < pp then bubble l p k v (.node r pp pk pv pr) c else zip (.node l p k v r) (.fl pp pk pv pr :: c)
  | .fr pl pp pk pv :: c => if p < pp then bubble (.node pl pp pk pv l) p k v r c else zip (.node l p k v r) (.fr pl pp pk pv :: c)

/-- :224-242 (`_insert_node_subtree` from a node with subtree `t`). -/
def insertAt (T : Treap K V) (t : Tree K V) (c : Ctx K V) (p : Nat) (x : K) (v : V) : Treap K V × Iter K × Bool :=
  match descend x t c with
  | .inl k => (T, some k, false)
  | .inr c => (⟨bubble .nil p x v .nil c, T.size + 1⟩, some x, true)

/-- :243-245, 336-339 (`emplace`, `insert`) -/
def insert (T : Treap K V) (p : Nat) (x : K) (v : V) : Treap K V × Iter K × Bool := insertAt T T.root [] p x v

/-- :249-261: the checks of `_insert_node_hint` against the parent of the hint. -/
def hintFrame (T : Treap K V) (u : Loc K V) (t : Tree K V) (p : Nat) (x : K) (v : V) : Ctx K V → Treap K V × Iter K
  | [] => let q := insertAt T t u.ctx p x v; (q.1, q.2.1)
  | .fl _ xp _ _ :: _ => if xp = x then (T, some xp) else if xp < x then let q := insert T p x v; (q.1, q.2.1) else let q := insertAt T t u.ctx p x v; (q.1, q.2.1)
  | .fr _ _ xp _ :: _ => if xp = x then (T, some xp) else if x < xp then let q := insert T p x v; (q.1, q.2.1) else let q := insertAt T t u.ctx p x v; (q.1, q.2.1)

/-- :246-263, 340-343 (`emplace_hint`) -/
def insertHint (T : Treap K V) (hint : Iter K) (p : Nat) (x : K) (v : V) : Option (Treap K V × Iter K) :=
  match hint with
  | none => let q := insert T p x v; some (q.1, q.2.1)
  | some h => (locate h T.root []).map (fun u => hintFrame T u (.node u.l u.p u.k u.v u.r) p x v u.ctx)

/-- :268-271 -/
def Treap.clear (_ : Treap K V) : Treap K V := ⟨.nil, 0⟩

/-- :273-284 (`find`) -/
def findT (x : K) : Tree K V → Iter K
  | .nil => none
  | .node l _ k _ r => if k = x then some k else if x < k then findT x l else findT x r

/-- :286-300 (`lower_bound`) -/
def lowerT (x : K) : Tree K V → Iter K → Iter K
  | .nil, lb => lb
  | .node l _ k _ r, lb => if k = x then some k else if x < k then lowerT x l (some k) else lowerT x r lb

/-- :301-314 (`upper_bound`, `successor`) -/
def upperT (x : K) : Tree K V → Iter K → Iter K
  | .nil, ub => ub
  | .node l _ k _ r, ub => if x < k then upperT x l (some k) else upperT x r ub

/-- :315-327 (`predecessor`) -/
def predT (x : K) : Tree K V → Iter K → Iter K
  | .nil, pr => pr
  | .node l _ k _ r, pr => if ¬ k < x then predT x l pr else predT x r (some k)

/-- :192-204 (`_tricle_down`) with the rotations: the children of the node and its frames; the result is the position where it is a leaf.  Fuel for the loop. -/
def trickle : Nat → Tree K V → Tree K V → Ctx K V → Option (Ctx K V)
  | _, .nil, .nil, c => some c
  | n+1, .node ll p k v lr, .nil, c => trickle n lr .nil (.fr ll p k v :: c)
  | n+1, .nil, .node rl p k v rr, c => trickle n .nil rl (.fl p k v rr :: c)
  | n+1, .node ll p k v lr, .node rl p' k' v' rr, c =>
      if p < p' then trickle n lr (.node rl p' k' v' rr) (.fr ll p k v :: c) else trickle n (.node ll p k v lr) rl (.fl p' k' v' rr :: c)
  | 0, _, _, _ => none

def size : Tree K V → Nat
  | .nil => 0
  | .node l _ _ _ r => size l + 1 + size r

/-- :490-496: climbing while the node is not a left child; the sentinel counts as the parent of the root, whose left child the root is. -/
def nextUp : Ctx K V → Iter K
  | [] => none
  | .fl _ k _ _ :: _ => some k
  | .fr _ _ _ _ :: c => nextUp c

/-- :513-517: climbing while the node is not a right child; beyond the sentinel there is only the null pointer. -/
def prevUp : Ctx K V → Option K
  | [] => none
  | .fl _ _ _ _ :: c => prevUp c
  | .fr _ _ k _ :: _ => some k

/-- The key at the end of the left spine. -/
def leftmost : Tree K V → K → K
  | .nil, k => k
  | .node l _ k _ _, _ => leftmost l k

/-- The key at the end of the right spine. -/
def rightmost : Tree K V → K → K
  | .nil, k => k
  | .node _ _ k _ r, _ => rightmost r k

/-- :528-533 (`begin`) -/
def begin_ : Tree K V → Iter K
  | .nil => none
  | .node l _ k _ _ => some (leftmost l k)

/-- :482-499 (`++`); on the sentinel the assertion of line 494 fails. -/
def next (t : Tree K V) : Iter K → Option (Iter K)
  | none => none
  | some x => (locate x t []).map (fun u => match u.r with
      | .nil => nextUp u.ctx
      | .node l _ k _ _ => some (leftmost l k))

/-- :505-520 (`--`); a null iterator is `none`. -/
def prev (t : Tree K V) : Iter K → Option (Iter K)
  | none => match t with
      | .nil => none
      | .node _ _ k _ r => some (some (rightmost r k))
  | some x => (locate x t []).bind (fun u => match u.l with
      | .nil => (prevUp u.ctx).map some
      | .node _ _ k _ r => some (some (rightmost r k)))

/-- :480-481 (`*it`) -/
def deref (t : Tree K V) : Iter K → Option (K × V)
  | none => none
  | some x => (locate x t []).map (fun u => (u.k, u.v))

/-- `it->second = v` -/
def assign (T : Treap K V) (it : Iter K) (v : V) : Option (Treap K V) :=
  it.bind (fun x => (locate x T.root []).map (fun u => ⟨zip (.node u.l u.p u.k v u.r) u.ctx, T.size⟩))

/-- :370-380 (`erase(iterator)`); `_splice` (:206-217) leaves an empty subtree in place of the leaf. -/
def eraseIt (T : Treap K V) : Iter K → Option (Treap K V × Iter K)
  | none => some (T, none)
  | some x => (locate x T.root []).bind (fun u => (trickle (size u.l + size u.r) u.l u.r u.ctx).map (fun c => (⟨zip .nil c, T.size - 1⟩, nextUp c)))

/-- :381-389 (`erase(T)`) -/
def eraseKey (T : Treap K V) (x : K) : Option (Treap K V × Bool) :=
  match findT x T.root with
  | none => some (T, false)
  | some y => (eraseIt T (some y)).map (fun q => (q.1, true))

/-- :187-191 (`_bubble_up_force`) for the dummy node: its final children. -/
def bubbleForce (l r : Tree K V) : Ctx K V → Tree K V × Tree K V
  | [] => (l, r)
  | .fl pp pk pv pr :: c => bubbleForce l (.node r pp pk pv pr) c
  | .fr pl pp pk pv :: c => bubbleForce (.node pl pp pk pv l) r c

/-- :396-412 (`split`): this treap and the returned one, whose size is 0 by :218-223; the dummy takes the left subtree of the node. -/
def split (T : Treap K V) : Iter K → Option (Treap K V × Treap K V)
  | none => some (⟨.nil, T.size⟩, ⟨T.root, 0⟩)
  | some x => (locate x T.root []).map (fun u =>
      let q := bubbleForce u.l .nil (.fl u.p u.k u.v u.r :: u.ctx)
      (⟨q.2, T.size⟩, ⟨q.1, 0⟩))

/-- The assertion of line 414. -/
def absorbOk (T S : Treap K V) : Bool :=
  match S.root, T.root with
  | .nil, _ => true
  | _, .nil => true
  | .node _ _ sk _ sr, .node tl _ tk _ _ => decide (rightmost sr sk < leftmost tl tk)

/-- :413-438 (`absorb`): this treap, the emptied argument and the returned iterator. -/
def absorb (T S : Treap K V) : Option (Treap K V × Treap K V × Iter K) :=
  if absorbOk T S then
    match S.root with
    | .nil => some (T, S, begin_ T.root)
    | .node sl sp sk sv sr => match T.root with
      | .nil => some (⟨.node sl sp sk sv sr, S.size⟩, ⟨.nil, 0⟩, begin_ (.node sl sp sk sv sr))
      | .node tl tp tk tv tr => (trickle (size S.root + size T.root) (.node sl sp sk sv sr) (.node tl tp tk tv tr) []).map (fun c =>
          (⟨zip .nil c, T.size + S.size⟩, ⟨.nil, 0⟩, begin_ (.node tl tp tk tv tr)))
  else none

/-- :390-394 (`erase(begin, end)`) -/
def eraseRange (T : Treap K V) (b e : Iter K) : Option (Treap K V × Iter K) :=
  (split T b).bind (fun p => (split p.1 e).bind (fun q => (absorb q.1 p.2).map (fun w => (w.1, w.2.2))))

/-- :78-89 (`_clone`) -/
def clone : Tree K V → Tree K V
  | .nil => .nil
  | .node l p k v r => .node (clone l) p k v (clone r)

end Verif.Treap
