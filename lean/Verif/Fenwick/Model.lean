/-!
Model of `/repo/include/mtl/fenwick_tree.hpp` (class `FenwickTree<T>`).

`tree_` is a `List T`; `none` = out-of-range access, or a loop that does not stop within the given
number of rounds.  Index arithmetic is on `Nat` except `i & -i`, which is the 64-bit expression.
-/
namespace Verif.Fenwick

variable {T : Type}

/-- `i & (-i)` on `size_t` (fenwick_tree.hpp:22,31,37). -/
def lowbit (i : Nat) : Nat := (BitVec.ofNat 64 i &&& -(BitVec.ofNat 64 i)).toNat

/-- fenwick_tree.hpp:13 `FenwickTree(size_t size) : tree_(size+1)` (value-initialised to 0). -/
def ofSize [Zero T] (n : Nat) : List T := List.replicate (n+1) 0

/-- fenwick_tree.hpp:15. -/
def size (tree : List T) : Nat := tree.length - 1

/-- fenwick_tree.hpp:20-26, the loop of the range constructor. -/
def buildLoop [Add T] : List T → List T → Nat → Option (List T)
  | tree, [], _ => some tree
  | tree, x :: xs, i => do
    let y ← tree[i]?
    let t1 := tree.set i (y + x)
    let j := i + lowbit i
    if j < t1.length then
      let a ← t1[j]?
      let b ← t1[i]?
      buildLoop (t1.set j (a + b)) xs (i+1)
    else
      buildLoop t1 xs (i+1)

/-- fenwick_tree.hpp:18-27. -/
def ofRange [Zero T] [Add T] (xs : List T) : Option (List T) :=
  buildLoop (ofSize xs.length) xs 1

/-- fenwick_tree.hpp:31-32. -/
def addLoop [Add T] : Nat → List T → T → Nat → Option (List T)
  | 0, _, _, _ => none
  | k+1, tree, x, i =>
    if i < tree.length then do
      let y ← tree[i]?
      addLoop k (tree.set i (y + x)) x (i + lowbit i)
    else
      some tree

/-- fenwick_tree.hpp:30-33. -/
def add [Add T] (tree : List T) (index : Nat) (x : T) : Option (List T) :=
  addLoop (tree.length + 1) tree x (index + 1)

/-- fenwick_tree.hpp:37-38. -/
def sumLoop [Add T] (tree : List T) : Nat → T → Nat → Option T
  | 0, _, _ => none
  | k+1, s, i =>
    if i > 0 then do
      let y ← tree[i]?
      sumLoop tree k (s + y) (i - lowbit i)
    else
      some s

/-- fenwick_tree.hpp:35-40. -/
def sum [Zero T] [Add T] (tree : List T) (index : Nat) : Option T :=
  sumLoop tree (index + 2) 0 (index + 1)

/-- fenwick_tree.hpp:43-44, the conditional `k > 0 ? sum(k-1) : 0`. -/
def sumBefore [Zero T] [Add T] (tree : List T) (k : Nat) : Option T :=
  if k > 0 then sum tree (k-1) else some 0

/-- fenwick_tree.hpp:42-46. -/
def rangeSum [Zero T] [Add T] [Sub T] (tree : List T) (l r : Nat) : Option T := do
  let sl ← sumBefore tree l
  let sr ← sumBefore tree r
  some (sr - sl)

/-- fenwick_tree.hpp:56-62; `k` counts down, the body runs with exponent `k`. -/
def lowerLoop [Add T] [LT T] [DecidableLT T] (tree : List T) (x : T) : Nat → Nat → T → Option Nat
  | 0, ret, _ => some ret
  | k+1, ret, s =>
    let j := ret ||| 2^k
    if j < tree.length then do
      let y ← tree[j]?
      if s + y < x then lowerLoop tree x k j (s + y) else lowerLoop tree x k ret s
    else
      lowerLoop tree x k ret s

/-- Number of significant bits, i.e. `64 - clz(n)` for a 64-bit `n`. -/
def bitWidth (n : Nat) : Nat := if n = 0 then 0 else Nat.log2 n + 1

/-- fenwick_tree.hpp:53-64.  The start exponent `63-clz(size())` is `bitWidth (size()) - 1`
(for `size() = 0` the C++ loop variable starts at -1, the loop body is not run). -/
def lowerBound [Zero T] [Add T] [LT T] [DecidableLT T] (tree : List T) (x : T) : Option Nat :=
  lowerLoop tree x (bitWidth (size tree)) 0 0

/-- A history of additions. -/
def addAll [Add T] : List T → List (Nat × T) → Option (List T)
  | tree, [] => some tree
  | tree, (i, x) :: ops => do
    let t ← add tree i x
    addAll t ops

end Verif.Fenwick
