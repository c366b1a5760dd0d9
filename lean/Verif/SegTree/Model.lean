/-!
Model of `/repo/include/mtl/segment_tree.hpp` (class `SegmentTree<M>`).

`M` is any type with a default value (`1`, the default constructor) and `*`.  `tree_` is a `List M`.
`none` = out-of-range access, failing `assert`, or a loop not stopping within its round budget.
-/
namespace Verif.SegTree

variable {M : Type} [One M] [Mul M]

structure Tree (M : Type) where
  size : Nat
  tree : List M

/-- segment_tree.hpp:28. -/
def ofSize (n : Nat) : Tree M := ⟨n, List.replicate (n*2) 1⟩

/-- segment_tree.hpp:35 and 52, `tree_[i] = tree_[i<<1] * tree_[(i<<1)+1]`. -/
def pull (tree : List M) (i : Nat) : Option (List M) := do
  let a ← tree[2*i]?
  let b ← tree[2*i+1]?
  if i < tree.length then some (tree.set i (a * b)) else none

/-- segment_tree.hpp:34-35, `for (i = size_-1; i > 0; i--)`. -/
def buildLoop : Nat → List M → Option (List M)
  | 0, tree => some tree
  | i+1, tree => do
    let t ← pull tree (i+1)
    buildLoop i t

/-- segment_tree.hpp:30-36 (the copy fills the second half of the array). -/
def ofRange (xs : List M) : Option (Tree M) :=
  if xs.length = 0 then some (ofSize 0) else do
    let t ← buildLoop (xs.length - 1) (List.replicate xs.length 1 ++ xs)
    some ⟨xs.length, t⟩

/-- segment_tree.hpp:38-40. -/
def get (t : Tree M) (index : Nat) : Option M := t.tree[t.size + index]?

/-- segment_tree.hpp:51-54. -/
def setLoop : Nat → List M → Nat → Option (List M)
  | 0, _, _ => none
  | k+1, tree, i =>
    if i > 0 then do
      let t ← pull tree i
      setLoop k t (i / 2)
    else some tree

/-- segment_tree.hpp:46-55 (`_set`, reached from every overload of `set`). -/
def set (t : Tree M) (index : Nat) (val : M) : Option (Tree M) :=
  let i := t.size + index
  if i < t.tree.length then do
    let tr ← setLoop (i + 1) (t.tree.set i val) (i / 2)
    some ⟨t.size, tr⟩
  else none

/-- segment_tree.hpp:71. -/
def takeL (tree : List M) (lhs : M) (l : Nat) : Option (M × Nat) :=
  if l % 2 = 1 then (tree[l]?).bind (fun x => some (lhs * x, l + 1)) else some (lhs, l)

/-- segment_tree.hpp:72. -/
def takeR (tree : List M) (rhs : M) (r : Nat) : Option (M × Nat) :=
  if r % 2 = 1 then (tree[r-1]?).bind (fun x => some (x * rhs, r - 1)) else some (rhs, r)

/-- segment_tree.hpp:70-73. -/
def queryLoop (tree : List M) : Nat → M → M → Nat → Nat → Option M
  | 0, _, _, _, _ => none
  | k+1, lhs, rhs, l, r =>
    if l < r then do
      let (lhs, l) ← takeL tree lhs l
      let (rhs, r) ← takeR tree rhs r
      queryLoop tree k lhs rhs (l / 2) (r / 2)
    else some (lhs * rhs)

/-- segment_tree.hpp:68-75. -/
def query (t : Tree M) (l r : Nat) : Option M :=
  queryLoop t.tree (r + t.size + 1) 1 1 (l + t.size) (r + t.size)

/-- segment_tree.hpp:86-89. -/
def pushR (tree : List M) (rps : List (Nat × M)) (r : Nat) : Option (List (Nat × M) × Nat) :=
  if r % 2 = 1 then (tree[r-1]?).bind (fun y => some ((r, y) :: rps, r - 1)) else some (rps, r)

/-- segment_tree.hpp:84-91, the upward loop of `max_right`; yields `(l, r, p, rps)`. -/
def mrUp (tree : List M) (f : M → Bool) : Nat → Nat → Nat → M → List (Nat × M) →
    Option (Nat × Nat × M × List (Nat × M))
  | 0, _, _, _, _ => none
  | k+1, l, r, p, rps =>
    if l < r then do
      let x ← tree[l]?
      if f (p * x) then do
        let (p', l') ← takeL tree p l
        let (rps', r') ← pushR tree rps r
        mrUp tree f k (l' / 2) (r' / 2) p' rps'
      else some (l, r, p, rps)
    else some (l, r, p, rps)

/-- segment_tree.hpp:93-101, unwinding the stack; yields `(l, p, rps)`. -/
def mrStack (f : M → Bool) : List (Nat × M) → Nat → M → Nat × M × List (Nat × M)
  | [], l, p => (l, p, [])
  | (r, rp) :: rest, l, p =>
    if !f (p * rp) then (r - 1, p, (r, rp) :: rest) else mrStack f rest l (p * rp)

/-- segment_tree.hpp:104-109, the downward loop with its `assert`. -/
def mrDown (n : Nat) (tree : List M) (f : M → Bool) : Nat → Nat → M → Option Nat
  | 0, _, _ => none
  | k+1, l, p =>
    if l < n then do
      let x ← tree[l]?
      if f (p * x) then none else
      let y ← tree[2*l]?
      if f (p * y) then mrDown n tree f k (2*l+1) (p * y) else mrDown n tree f k (2*l) p
    else some l

/-- segment_tree.hpp:77-111. -/
def maxRight (t : Tree M) (f : M → Bool) (b e : Nat) : Option Nat :=
  if b = e then some e else do
    let (l, r, p, rps) ← mrUp t.tree f (t.size + e + 1) (t.size + b) (t.size + e) 1 []
    if l ≥ r then
      let (l, p, rps) := mrStack f rps l p
      if rps.isEmpty then some e else do
        let l ← mrDown t.size t.tree f (t.size + 1) l p
        some (l - t.size)
    else do
      let l ← mrDown t.size t.tree f (t.size + 1) l p
      some (l - t.size)

/-- segment_tree.hpp:121-124. -/
def pushL (tree : List M) (lps : List (Nat × M)) (l : Nat) : Option (List (Nat × M) × Nat) :=
  if l % 2 = 1 then (tree[l]?).bind (fun y => some ((l, y) :: lps, l + 1)) else some (lps, l)

/-- segment_tree.hpp:120-127 (line 125 leaves `r` odd; `r>>=1` drops the consumed node). -/
def mlUp (tree : List M) (f : M → Bool) : Nat → Nat → Nat → M → List (Nat × M) →
    Option (Nat × Nat × M × List (Nat × M))
  | 0, _, _, _, _ => none
  | k+1, l, r, p, lps =>
    if l < r then do
      let x ← tree[r-1]?
      if f (x * p) then do
        let (lps', l') ← pushL tree lps l
        mlUp tree f k (l' / 2) (r / 2) (if r % 2 = 1 then x * p else p) lps'
      else some (l, r, p, lps)
    else some (l, r, p, lps)

/-- segment_tree.hpp:129-137. -/
def mlStack (f : M → Bool) : List (Nat × M) → Nat → M → Nat × M × List (Nat × M)
  | [], r, p => (r, p, [])
  | (l, lp) :: rest, r, p =>
    if !f (lp * p) then (l + 1, p, (l, lp) :: rest) else mlStack f rest r (lp * p)

/-- segment_tree.hpp:140-145. -/
def mlDown (n : Nat) (tree : List M) (f : M → Bool) : Nat → Nat → M → Option Nat
  | 0, _, _ => none
  | k+1, r, p =>
    if r ≤ n then do
      let x ← tree[r-1]?
      if f (x * p) then none else
      let y ← tree[2*r-1]?
      if f (y * p) then mlDown n tree f k (2*r-1) (y * p) else mlDown n tree f k (2*r) p
    else some r

/-- segment_tree.hpp:113-147. -/
def minLeft (t : Tree M) (f : M → Bool) (b e : Nat) : Option Nat :=
  if e = b then some b else do
    let (l, r, p, lps) ← mlUp t.tree f (t.size + e + 1) (t.size + b) (t.size + e) 1 []
    if l ≥ r then
      let (r, p, lps) := mlStack f lps r p
      if lps.isEmpty then some b else do
        let r ← mlDown t.size t.tree f (t.size + 2) r p
        some (r - t.size)
    else do
      let r ← mlDown t.size t.tree f (t.size + 2) r p
      some (r - t.size)

/-- A history of `set` calls. -/
def setAll : Tree M → List (Nat × M) → Option (Tree M)
  | t, [] => some t
  | t, (i, x) :: ops => do
    let t' ← set t i x
    setAll t' ops

end Verif.SegTree
