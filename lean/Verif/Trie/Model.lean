import Verif.Common.Vec
/-!
Model of `/repo/include/mtl/binary_trie.hpp` and `/repo/include/mtl/xft.hpp`.

Keys are natural numbers below `2 ^ W` (the precondition of the code: `x >> (W-i-1)` looks at `W` bits).  An inner node is created at
one place of the trie and never moved, so a pointer to an inner node is written as its place: the depth `i` and the prefix `x >> (W-i)` of
the keys below it.  A child pointer is then a flag (null or the node one level deeper), `parent` is one level up.  A leaf pointer is
`some key`, and `none` is the pointer to `dummy_`; `jump` can moreover be null, so it has type `Option (Option Nat)`.
Memory that has been released, or never allocated, is `none`; every access to it gives `none` for the whole call.

The same functions are used for the X-fast trie: `tb_` (xft.hpp:35) is the set of places stored in the hash tables.  The plain trie
never reads it.
-/
namespace Verif.Trie
open Verif

/-- Inner node (lines 26-33). -/
structure Nd where
  c0 : Bool
  c1 : Bool
  jump : Option (Option Nat)

/-- Leaf (lines 34-55): `c[0]` and `c[1]` are the links to the neighbours; the value of `dummy_` is absent here. -/
structure Lf (V : Type) where
  prev : Option Nat
  next : Option Nat
  v : Option V

/-- Lines 57-59 and xft.hpp:35. -/
structure St (V : Type) where
  node : Nat → Nat → Option Nd
  leaf : Option Nat → Option (Lf V)
  size : Nat
  tb : Nat → Nat → Bool

variable {V : Type}

def child (u : Nd) (c : Nat) : Bool := if c = 0 then u.c0 else u.c1

def setChild (u : Nd) (c : Nat) (b : Bool) : Nd := if c = 0 then { u with c0 := b } else { u with c1 := b }

/-- `(x >> (W-i-1)) & 1`. -/
def bit (W x i : Nat) : Nat := x / 2 ^ (W - i - 1) % 2

/-- `x >> (W-i)` (0 for a shift by the width of the type). -/
def pre (W x i : Nat) : Nat := x / 2 ^ (W - i)

def modNode (s : St V) (i p : Nat) (f : Nd → Nd) : Option (St V) := (s.node i p).map (fun u => { s with node := upd2 s.node i p (some (f u)) })

def setLeaf (s : St V) (a : Option Nat) (l : Option (Lf V)) : St V := { s with leaf := fun b => if b = a then l else s.leaf b }

def modLeaf (s : St V) (a : Option Nat) (f : Lf V → Lf V) : Option (St V) := (s.leaf a).map (fun l => setLeaf s a (some (f l)))

/-- Lines 60-67 (`_init`).  `rt` tells whether the root gets stored in `tb_[0]`: not so when `_init` runs inside the constructor of the base class
(lines 82-84 under xft.hpp:44), where the virtual functions of the derived class are not yet in place. -/
def init (rt : Bool) : St V :=
  { node := fun i p => if i = 0 ∧ p = 0 then some ⟨false, false, some none⟩ else none
    leaf := fun a => if a = none then some ⟨none, none, none⟩ else none
    size := 0
    tb := fun i p => rt && (i == 0) && (p == 0) }

/-- Lines 207-219 (`_traverse`); `k` is the number of levels left. -/
def descend (W : Nat) (s : St V) (x : Nat) : Nat → Nat → Nat → Option (Nat × Nat)
  | 0, i, p => some (i, p)
  | k+1, i, p => (s.node i p).bind (fun u => if child u (bit W x i) then descend W s x k (i+1) (2 * p + bit W x i) else some (i, p))

/-- xft.hpp:87-104 (`_traverse`): binary search for the deepest stored prefix.  `q` is the node found last, a place. -/
def search (W : Nat) (s : St V) (x : Nat) : Nat → Nat → Nat → Nat × Nat → Option (Nat × (Nat × Nat))
  | 0, _, _, _ => none
  | f+1, l, h, q =>
    if l + 1 < h then
      if s.tb (l + (h - l) / 2) (pre W x (l + (h - l) / 2)) then search W s x f (l + (h - l) / 2) h (l + (h - l) / 2, pre W x (l + (h - l) / 2))
      else search W s x f l (l + (h - l) / 2) q
    else some (l, q)

/-- `_traverse(x, depth, root)` for both classes. -/
def traverse (xf : Bool) (W : Nat) (s : St V) (x i p : Nat) : Option (Nat × Nat) :=
  if xf then (search W s x (W + 2) i (W + 1) (i, p)).map (fun a => (a.1, a.2.2)) else descend W s x (W - i) i p

/-- Lines 220-227 (`_lower_bound`); the result is an iterator, i.e. a leaf pointer. -/
def lowerBound (xf : Bool) (W : Nat) (s : St V) (x : Nat) : Option (Option Nat) :=
  (traverse xf W s x 0 0).bind (fun a =>
    if a.1 = W then some (some a.2)
    else (s.node a.1 a.2).bind (fun u => u.jump.bind (fun j => if bit W x a.1 = 0 then some j else (s.leaf j).map (fun l => l.next))))

/-- `key_of(*it)`; the value of `dummy_` is zero-initialised by `make_shared<Leaf>()`. -/
def keyOf (a : Option Nat) : Nat := a.getD 0

/-- Lines 228-233 (`_upper_bound`). -/
def upperBound (xf : Bool) (W : Nat) (s : St V) (x : Nat) : Option (Option Nat) :=
  (lowerBound xf W s x).bind (fun a => if keyOf a = x then (s.leaf a).map (fun l => l.next) else some a)

/-- Lines 234-242 (`_find`), xft.hpp:105-111. -/
def find (xf : Bool) (W : Nat) (s : St V) (x : Nat) : Option (Option Nat) :=
  if xf then some (if s.tb W x then some x else none)
  else (traverse false W s x 0 0).map (fun a => if a.1 = W then some a.2 else none)

/-- `create_node_at` (line 243, xft.hpp:64-68) with `jump = l`.  A place already stored would keep the old entry (`emplace`): not modelled, hence `none`. -/
def createNode (s : St V) (i p x : Nat) : Option (St V) :=
  if s.tb i p then none else some { s with node := upd2 s.node i p (some ⟨false, false, some (some x)⟩), tb := upd2 s.tb i p true }

/-- `create_leaf_at` (lines 246-251, xft.hpp:69-78) with its links. -/
def createLeaf (W : Nat) (s : St V) (x : Nat) (l : Lf V) : Option (St V) :=
  if s.tb W x then none else some { setLeaf s (some x) (some l) with tb := upd2 s.tb W x true }

/-- Lines 268-280: the path of new nodes below the fork; `k` is the number of levels left. -/
def growPath (W x : Nat) : Nat → Nat → Nat → St V → Option (St V)
  | 0, i, p, s => modNode s i p (fun u => setChild u (bit W x i) true)
  | k+1, i, p, s => (s.node i p).bind (fun u => if child u (bit W x i) then none else
      (createNode s (i+1) (2 * p + bit W x i) x).bind (fun s => (modNode s i p (fun u => setChild u (bit W x i) true)).bind (fun s =>
        growPath W x k (i+1) (2 * p + bit W x i) s)))

/-- Lines 283-295: up from the parent of the fork (`fi + 1` levels left; the root has no parent). -/
def climbIns (W x fc : Nat) : Nat → Nat → St V → Option (St V)
  | 0, _, s => some s
  | fi+1, p, s => (s.node fi p).bind (fun v =>
      if bit W x fi ≠ fc ∧ v.jump = none then some s
      else (if child v fc then some s else modNode s fi p (fun v => { v with jump := some (some x) })).bind (climbIns W x fc fi (p / 2)))

/-- Lines 253-298 (`_emplace_impl`); the result is also the iterator `some x`. -/
def emplace (W : Nat) (s : St V) (x h p : Nat) (v : V) : Option (St V) :=
  if h < W then
    (s.node h p).bind (fun u => u.jump.bind (fun j =>
      (if bit W x h = 1 then some j else (s.leaf j).map (fun l => l.prev)).bind (fun pred =>
        (modNode s h p (fun u => { u with jump := none })).bind (fun s =>
          (s.leaf pred).bind (fun pl =>
            (createLeaf W s x ⟨pred, pl.next, some v⟩).bind (fun s =>
              (modLeaf s pred (fun l => { l with next := some x })).bind (fun s => (modLeaf s pl.next (fun l => { l with prev := some x })).bind (fun s =>
                (growPath W x (W - 1 - h) h p s).bind (fun s =>
                  (if h = 0 then modNode s h p (fun u => { u with jump := some (some x) }) else climbIns W x (bit W x h) h (p / 2) s).map (fun s =>
                    { s with size := s.size + 1 }))))))))))
  else none

/-- Lines 299-309 (`_insert`): the iterator and whether the key was new. -/
def add (xf : Bool) (W : Nat) (s : St V) (x : Nat) (v : V) : Option (St V × Bool) :=
  (traverse xf W s x 0 0).bind (fun a => if a.1 = W then some (s, false) else (emplace W s x a.1 a.2 v).map (fun s => (s, true)))

/-- Lines 310-319, xft.hpp:113-122 (`climb_to_lca`), for the leaf of key `y`.  `clz(m) - (64 - W)` is `W - 1 - log2 m`. -/
def lca (xf : Bool) (W : Nat) (s : St V) (y x : Nat) : Option (Nat × Nat) :=
  if x ^^^ y = 0 then some (W, y)
  else if xf && !(s.tb (W - 1 - Nat.log2 (x ^^^ y)) (pre W x (W - 1 - Nat.log2 (x ^^^ y)))) then none
  else some (W - 1 - Nat.log2 (x ^^^ y), if xf then pre W x (W - 1 - Nat.log2 (x ^^^ y)) else pre W y (W - 1 - Nat.log2 (x ^^^ y)))

/-- Lines 325-326. -/
def hintLeaf (s : St V) : Option Nat → Option (Option Nat)
  | none => (s.leaf none).map (fun l => l.prev)
  | some y => some (some y)

/-- Lines 320-334 (`_emplace_hint`); the result is also the iterator `some x`. -/
def emplaceHint (xf : Bool) (W : Nat) (s : St V) (hint : Option Nat) (x : Nat) (v : V) : Option (St V) :=
  if s.size = 0 then emplace W s x 0 0 v
  else (hintLeaf s hint).bind (fun y => y.bind (fun y =>
      (lca xf W s y x).bind (fun a => (traverse xf W s x a.1 a.2).bind (fun a => if a.1 = W then some s else emplace W s x a.1 a.2 v))))

/-- Lines 355-361: up from the leaf, releasing nodes without a child (`i + 1` levels left).  Gives the depth of the first node that keeps a child, or of the root. -/
def climbDel (xf : Bool) (W x : Nat) : Nat → St V → Option (St V × Nat)
  | 0, _ => none
  | i+1, s =>
    if xf && !(s.tb (i+1) (pre W x (i+1))) then none
    else
      (modNode { s with tb := upd2 s.tb (i+1) (pre W x (i+1)) false, node := upd2 s.node (i+1) (pre W x (i+1)) none } i (pre W x i) (fun v => setChild v (bit W x i) false)).bind (fun s =>
        (s.node i (pre W x i)).bind (fun v => if child v (1 - bit W x i) then some (s, i) else if i = 0 then some (s, 0) else climbDel xf W x i s))

/-- Lines 365-375. -/
def climbJump (W x fc : Nat) (nj : Option Nat) : Nat → St V → Option (St V)
  | 0, s => some s
  | i+1, s => (s.node i (pre W x i)).bind (fun v =>
      if bit W x i ≠ fc then
        if v.jump = none then some s
        else (modNode s i (pre W x i) (fun v => { v with jump := some nj })).bind (climbJump W x fc nj i)
      else climbJump W x fc nj i s)

/-- Lines 346-378 (`_erase_from_leaf`): the state and the iterator behind the erased element. -/
def eraseLeaf (xf : Bool) (W : Nat) (s : St V) (x : Nat) : Option (St V × Option Nat) :=
  (s.leaf (some x)).bind (fun l =>
    (modLeaf s l.prev (fun a => { a with next := l.next })).bind (fun s => (modLeaf s l.next (fun a => { a with prev := l.prev })).bind (fun s =>
      (climbDel xf W x W s).bind (fun a =>
        (modNode a.1 a.2 (pre W x a.2) (fun v => { v with jump := some (if bit W x a.2 = 1 then l.prev else l.next) })).bind (fun s =>
          (climbJump W x (bit W x a.2) (if bit W x a.2 = 1 then l.prev else l.next) a.2 s).map (fun s =>
            ({ setLeaf s (some x) none with size := s.size - 1 }, l.next)))))))

/-- Lines 337-345, xft.hpp:125-133 (`_erase(key)`): whether the key was there. -/
def erase (xf : Bool) (W : Nat) (s : St V) (x : Nat) : Option (St V × Bool) :=
  (find xf W s x).bind (fun a => match a with
    | none => some (s, false)
    | some y => (eraseLeaf xf W s y).map (fun b => (b.1, true)))

/-- Lines 385-388 (`_erase(iterator)`). -/
def eraseAt (xf : Bool) (W : Nat) (s : St V) (a : Option Nat) : Option (St V × Option Nat) :=
  match a with
  | none => some (s, none)
  | some x => eraseLeaf xf W s x

/-! ### construction from a range (lines 105-164) -/

/-- Lines 117-123 (`push_link`) with the creation of the leaf. -/
def pushLink (W : Nat) (s : St V) (x : Nat) (v : V) : Option (St V) :=
  (s.leaf none).bind (fun d => (createLeaf W s x ⟨d.prev, none, some v⟩).bind (fun s =>
    (modLeaf s d.prev (fun l => { l with next := some x })).bind (fun s => modLeaf s none (fun l => { l with prev := some x }))))

/-- Lines 125-136 (`grow`); `us i` is the prefix of the node `us[i]`, `k` the number of levels left. -/
def grow (W x : Nat) : Nat → Nat → (Nat → Nat) → St V → Option (St V × (Nat → Nat))
  | 0, i, us, s => (modNode s i (us i) (fun u => setChild u (bit W x i) true)).map (fun s => (s, us))
  | k+1, i, us, s =>
    (createNode s (i+1) (pre W x (i+1)) x).bind (fun s => (modNode s i (us i) (fun u => setChild u (bit W x i) true)).bind (fun s =>
      grow W x k (i+1) (upd us (i+1) (pre W x (i+1))) s))

/-- Lines 157-158. -/
def rejump (us : Nat → Nat) (x : Nat) : Nat → St V → Option (St V)
  | 0, s => some s
  | k+1, s => (rejump us x k s).bind (fun s => (s.node k (us k)).bind (fun u => if u.c1 then some s else modNode s k (us k) (fun u => { u with jump := some (some x) })))

/-- Lines 144-162. -/
def pushAll (W : Nat) : List (Nat × V) → Nat → (Nat → Nat) → Nat → St V → Option (St V × Nat)
  | [], _, _, sz, s => some (s, sz)
  | (x, v) :: l, px, us, sz, s =>
    if x ^^^ px = 0 then pushAll W l x us sz s
    else
      (pushLink W s x v).bind (fun s => (rejump us x (W - 1 - Nat.log2 (x ^^^ px)) s).bind (fun s =>
        (modNode s (W - 1 - Nat.log2 (x ^^^ px)) (us (W - 1 - Nat.log2 (x ^^^ px))) (fun u => { u with jump := none })).bind (fun s =>
          (grow W x (W - 1 - (W - 1 - Nat.log2 (x ^^^ px))) (W - 1 - Nat.log2 (x ^^^ px)) us s).bind (fun a => pushAll W l x a.2 (sz + 1) a.1))))

/-- Lines 113-114. -/
def addAll (xf : Bool) (W : Nat) : List (Nat × V) → St V → Option (St V)
  | [], s => some s
  | (x, v) :: l, s => (add xf W s x v).bind (fun a => addAll xf W l a.1)

/-- Lines 105-164 (`_insert_init`), the constructor from a range. -/
def ofRange (xf : Bool) (W : Nat) : List (Nat × V) → Option (St V)
  | [] => some (init true)
  | (x, v) :: l =>
    if (((x, v) :: l).map Prod.fst).Pairwise (· ≤ ·) then
      (pushLink W (init true) x v).bind (fun s => (modNode s 0 0 (fun u => { u with jump := some (some x) })).bind (fun s =>
        (grow W x (W - 1) 0 (fun _ => 0) s).bind (fun a => (pushAll W l x a.2 1 a.1).map (fun b => { b.1 with size := b.2 }))))
    else addAll xf W ((x, v) :: l) (init true)

/-! ### iteration, maps, client-driven descent -/

/-- Walk from `begin()` to `end()` with `++it` (lines 183-191, 433-436). -/
def walk (s : St V) : Nat → Option Nat → Option (List (Nat × V))
  | 0, _ => none
  | f+1, a => match a with
    | none => some []
    | some x => (s.leaf (some x)).bind (fun l => l.v.bind (fun v => (walk s f l.next).map (fun r => (x, v) :: r)))

/-- All elements in iteration order. -/
def elements (s : St V) : Option (List (Nat × V)) := (s.leaf none).bind (fun d => walk s (s.size + 1) d.next)

/-- `it->second` / `*it`. -/
def valueAt (s : St V) (a : Option Nat) : Option V := (s.leaf a).bind (fun l => l.v)

/-- traits/set_traits.hpp:210-231 (`operator[]`): the reference is to the value of key `x`. -/
def ref (xf : Bool) (W : Nat) (s : St V) (x : Nat) (d : V) : Option (St V) :=
  (lowerBound xf W s x).bind (fun i =>
    if i = none ∨ x < keyOf i then emplaceHint xf W s i x d else some s)

/-- `m[x] = v`. -/
def assign (xf : Bool) (W : Nat) (s : St V) (x : Nat) (d v : V) : Option (St V) :=
  (ref xf W s x d).bind (fun s => modLeaf s (some x) (fun l => { l with v := some v }))

/-- Lines 195-205 (`traverse(rule)`); `k` is the number of levels left. -/
def follow (W : Nat) (s : St V) (rule : Nat → Bool → Bool → Nat) : Nat → Nat → Nat → Option Nat
  | 0, _, p => some p
  | k+1, i, p => (s.node i p).bind (fun u =>
      if child u (rule (W - 1 - i) u.c0 u.c1) then follow W s rule k (i+1) (2 * p + rule (W - 1 - i) u.c0 u.c1) else none)

/-! ### copying, moving and destroying (lines 68-103, 174-177) -/

/-- The loop of `_deinit` (lines 73-78).  The `next` of a leaf is read before it is cleared, so the walk is over the old links.  Freeing is not modelled. -/
def unlink (s : St V) : Nat → Option Nat → Option Unit
  | 0, _ => none
  | f+1, a => match a with
    | none => some ()
    | some x => (s.leaf (some x)).bind (fun l => unlink s f l.next)

/-- Lines 68-80 (`_deinit`).  An object is `none` when its `root_` and `dummy_` are null: line 70 dereferences `dummy_`. -/
def deinit : Option (St V) → Option Unit
  | none => none
  | some s => (s.leaf none).bind (fun d => unlink s (s.size + 1) d.next)

/-- Lines 174-177 (`clear`); `_init` is called through the complete object, so an X-fast trie stores its root. -/
def clear (a : Option (St V)) : Option (Option (St V)) := (deinit a).map (fun _ => some (init true))

/-- Lines 85-87 and xft.hpp:45-47 (copy construction): the elements of `b` in iteration order. -/
def copyOf (xf : Bool) (W : Nat) : Option (St V) → Option (Option (St V))
  | none => none
  | some b => (elements b).bind (fun l => (ofRange xf W l).map some)

/-- Lines 88-92 (copy assignment) of different objects, and xft.hpp:48-50, which ends without a `return`. -/
def copyAssign (xf : Bool) (W : Nat) (a b : Option (St V)) : Option (Option (St V)) :=
  (deinit a).bind (fun _ => if xf then none else copyOf xf W b)

/-- Lines 88-92 when both sides are the same object: `rhs.begin()` reads the `dummy_` that `_deinit` has just cleared (line 80). -/
def selfAssign (xf : Bool) (W : Nat) (a : Option (St V)) : Option (Option (St V)) :=
  (deinit a).bind (fun _ => copyOf xf W none)

/-- Line 93 (move construction, defaulted) of a plain trie: new object and source.  For an X-fast trie (xft.hpp:51-53) the base moves into a default-constructed object,
whose table `tb_` is empty and stays so. -/
def moveOf (xf : Bool) (a : Option (St V)) : Option (Option (St V) × Option (St V)) :=
  if xf then (deinit (some (init false : St V))).map (fun _ => (a.map (fun s => { s with tb := fun _ _ => false }), none)) else some (a, none)

/-- Lines 94-100 (move assignment) of different objects of the plain trie: new left and right sides. -/
def moveAssign (a b : Option (St V)) : Option (Option (St V) × Option (St V)) := (deinit a).map (fun _ => (b, none))

/-- Lines 101-103. -/
def destroy (a : Option (St V)) : Option Unit := deinit a

end Verif.Trie
