import Verif.Common.SegLoop
import Verif.Common.Vec
import Mathlib.Algebra.Group.Defs
/-!
Model of `/repo/include/mtl/lazy_segment_tree.hpp` (class `SegmentTreebase<M, A>`).

`M` is any type with a default value (`1`) and `*`; `A` is given by its default value `ida`, the composition
`comp` with `a *= b` meaning `a = comp b a` (monoid.hpp, `OperatorMonoid::operator*=`: the right operand acts later)
and the action `act`.  A tree node is the pair `(first, second)`.
`ids_` is a scratch buffer rebuilt by every call of `_set_ids`, so it is not part of the state (range_update reads the
buffer filled by its own call of `_lazy_propagation`).
`none` = out-of-range access, failing `assert`, or a loop not stopping within its round budget.
`int u` in `set` (line 81) is taken to be wide enough.
-/
namespace Verif.LazySegTree
open Verif.SegLoop

variable {M A : Type} [One M] [Mul M]

/-- The operator type: default value, composition (`a *= b` is `comp b a`) and action. -/
structure Acts (M A : Type) where
  ida : A
  comp : A → A → A
  act : A → M → M

structure Tree (M A : Type) where
  size : Nat
  tree : List (M × A)
deriving DecidableEq

/-- `1ull<<(64-bm::clz(size-1))` for `1 ≤ size ≤ 2^63`: the least power of two `≥ size`
(lazy_segment_tree.hpp:35; `size = 0` shifts by 64, undefined). -/
def pow2 (n : Nat) : Nat := if n ≤ 1 then 1 else 2^((n-1).log2 + 1)

/-- lazy_segment_tree.hpp:35-39. -/
def ofSize (S : Acts M A) (n : Nat) : Option (Tree M A) :=
  if n = 0 then none else some ⟨pow2 n, List.replicate (pow2 n * 2) (1, S.ida)⟩

/-- `tree_[i].first = tree_[i*2].first * tree_[i*2+1].first` (lines 49, 70, 86). -/
def pull (tree : List (M × A)) (i : Nat) : Option (List (M × A)) :=
  (tree[i*2]?).bind (fun a => (tree[i*2+1]?).bind (fun b => (tree[i]?).bind (fun p => wr tree i (a.1 * b.1, p.2))))

/-- lazy_segment_tree.hpp:41-51. -/
def ofRange (S : Acts M A) (xs : List M) : Option (Tree M A) :=
  (ofSize S xs.length).bind (fun t =>
    (forRange 0 xs.length (fun i tr => (xs[i]?).bind (fun x => (tr[t.size + i]?).bind (fun p => wr tr (t.size + i) (x, p.2)))) t.tree).bind
      (fun t1 => (forRangeDown 1 t.size (fun i tr => pull tr i) t1).map (fun t2 => ⟨t.size, t2⟩)))

/-- `tree_[i].second *= e`. -/
def compAt (S : Acts M A) (tree : List (M × A)) (i : Nat) (e : A) : Option (List (M × A)) :=
  (tree[i]?).bind (fun p => wr tree i (p.1, S.comp e p.2))

/-- lines 138-141; `e` is a reference to `tree_[id].second`, re-read for each child. -/
def pushKids (S : Acts M A) (n id : Nat) (tree : List (M × A)) : Option (List (M × A)) :=
  if id < n then
    (tree[id]?).bind (fun p => (compAt S tree (id*2) p.2).bind (fun t2 => (t2[id]?).bind (fun q => compAt S t2 (id*2+1) q.2)))
  else some tree

/-- lazy_segment_tree.hpp:135-143 (`_propagate`). -/
def propagate (S : Acts M A) (n id : Nat) (tree : List (M × A)) : Option (List (M × A)) :=
  (tree[id]?).bind (fun p =>
    (wr tree id (S.act p.2 p.1, p.2)).bind (fun t1 =>
      (pushKids S n id t1).bind (fun t2 => (t2[id]?).bind (fun q => wr t2 id (q.1, S.ida)))))

/-- lazy_segment_tree.hpp:145-150 (`_lazy_propagation`). -/
def lazyProp (S : Acts M A) (t : Tree M A) (l r : Nat) : Option (List (M × A)) :=
  if l = r then some t.tree else each (propagate S t.size) (setIds (l + t.size) (r + t.size)).reverse t.tree

/-- lines 66-70, one round. -/
def fixNode (S : Acts M A) (n id : Nat) (tree : List (M × A)) : Option (List (M × A)) :=
  (propagate S n (id*2) tree).bind (fun t1 => (propagate S n (id*2+1) t1).bind (fun t2 => pull t2 id))

/-- lazy_segment_tree.hpp:53-71. -/
def rangeUpdate (S : Acts M A) (t : Tree M A) (l r : Nat) (e : A) : Option (Tree M A) :=
  if l ≤ r ∧ r ≤ t.size then
    if l = r then some t else
      (lazyProp S t l r).bind (fun t1 =>
        (canonLoop (fun i tr => compAt S tr i e) (fun i tr => compAt S tr i e) (r + t.size + 1) (l + t.size) (r + t.size) t1).bind
          (fun t2 => (each (fixNode S t.size) (setIds (l + t.size) (r + t.size)) t2).map (fun t3 => ⟨t.size, t3⟩)))
  else none

/-- lines 84-88. -/
def setLoop : Nat → Nat → List (M × A) → Option (List (M × A))
  | 0, _, _ => none
  | k+1, u, tree => if u > 0 then (pull tree u).bind (setLoop k (u / 2)) else some tree

/-- lazy_segment_tree.hpp:79-89. -/
def set (S : Acts M A) (t : Tree M A) (i : Nat) (e : M) : Option (Tree M A) :=
  (lazyProp S t i (i+1)).bind (fun t1 => (t1[i + t.size]?).bind (fun p =>
    (wr t1 (i + t.size) (e, p.2)).bind (fun t2 =>
      (setLoop (i + t.size + 1) ((i + t.size) / 2) t2).map (fun t3 => ⟨t.size, t3⟩))))

/-- lines 96-100, the left half of a round of `query`; the state is (tree, lhs, rhs). -/
def takeL (S : Acts M A) (n i : Nat) (s : List (M × A) × M × M) : Option (List (M × A) × M × M) :=
  (propagate S n i s.1).bind (fun t1 => (t1[i]?).map (fun p => (t1, s.2.1 * p.1, s.2.2)))

/-- lines 101-105. -/
def takeR (S : Acts M A) (n i : Nat) (s : List (M × A) × M × M) : Option (List (M × A) × M × M) :=
  (propagate S n i s.1).bind (fun t1 => (t1[i]?).map (fun p => (t1, s.2.1, p.1 * s.2.2)))

/-- lazy_segment_tree.hpp:91-108; the new tree is returned as well. -/
def query (S : Acts M A) (t : Tree M A) (l r : Nat) : Option (Tree M A × M) :=
  (lazyProp S t l r).bind (fun t1 =>
    (canonLoop (takeL S t.size) (takeR S t.size) (r + t.size + 1) (l + t.size) (r + t.size) (t1, 1, 1)).map
      (fun s => (⟨t.size, s.1⟩, s.2.1 * s.2.2)))

/-- lazy_segment_tree.hpp:114-119. -/
def get (S : Acts M A) (t : Tree M A) (index : Nat) : Option (Tree M A × M) :=
  (lazyProp S t index (index+1)).bind (fun t1 =>
    (propagate S t.size (index + t.size) t1).bind (fun t2 =>
      (t2[index + t.size]?).map (fun p => (⟨t.size, t2⟩, p.1))))

/-- `access(i)` of lines 160-163. -/
def access (S : Acts M A) (n i : Nat) (tree : List (M × A)) : Option (List (M × A) × M) :=
  (propagate S n i tree).bind (fun t1 => (t1[i]?).map (fun p => (t1, p.1)))

/-- lines 166-169. -/
def mrPushR (S : Acts M A) (n r : Nat) (tree : List (M × A)) (rps : List (Nat × M)) : Option (List (M × A) × Nat × List (Nat × M)) :=
  if r % 2 = 1 then (access S n (r-1) tree).map (fun q => (q.1, r - 1, (r, q.2) :: rps)) else some (tree, r, rps)

/-- lines 164-171; result (tree, l, r, p, rps). -/
def mrLoop (S : Acts M A) (n : Nat) (f : M → Bool) : Nat → Nat → Nat → M → List (Nat × M) → List (M × A) →
    Option (List (M × A) × Nat × Nat × M × List (Nat × M))
  | 0, _, _, _, _, _ => none
  | k+1, l, r, p, rps, tree =>
    if l < r then
      (access S n l tree).bind (fun q =>
        if f (p * q.2) then
          (mrPushR S n r q.1 rps).bind (fun w =>
            if l % 2 = 1 then mrLoop S n f k ((l+1)/2) (w.2.1/2) (p * q.2) w.2.2 w.1
            else mrLoop S n f k (l/2) (w.2.1/2) p w.2.2 w.1)
        else some (q.1, l, r, p, rps))
    else some (tree, l, r, p, rps)

/-- lines 173-181: `some (l, p)` = continue the descent at `l` with `p`, `none` = the stack ran empty. -/
def mrStack (f : M → Bool) : M → List (Nat × M) → Option (Nat × M)
  | _, [] => none
  | p, (r, rp) :: rest => if !f (p * rp) then some (r - 1, p) else mrStack f (p * rp) rest

/-- lines 184-192. -/
def mrDesc (S : Acts M A) (n : Nat) (f : M → Bool) : Nat → Nat → M → List (M × A) → Option (List (M × A) × Nat)
  | 0, _, _, _ => none
  | k+1, l, p, tree =>
    if l < n then
      (access S n l tree).bind (fun q =>
        if f (p * q.2) then none else
          (access S n (l*2) q.1).bind (fun w =>
            if f (p * w.2) then mrDesc S n f k (l*2+1) (p * w.2) w.1 else mrDesc S n f k (l*2) p w.1))
    else some (tree, l - n)

/-- lazy_segment_tree.hpp:153-195. -/
def maxRight (S : Acts M A) (t : Tree M A) (b e : Nat) (f : M → Bool) : Option (Tree M A × Nat) :=
  if b = e then some (t, e) else
    (lazyProp S t b e).bind (fun t1 =>
      (mrLoop S t.size f (t.size + e + 1) (t.size + b) (t.size + e) 1 [] t1).bind (fun w =>
        if w.2.2.1 ≤ w.2.1 then
          match mrStack f w.2.2.2.1 w.2.2.2.2 with
          | none => some (⟨t.size, w.1⟩, e)
          | some (l, p) => (mrDesc S t.size f (t.size + 1) l p w.1).map (fun z => (⟨t.size, z.1⟩, z.2))
        else (mrDesc S t.size f (t.size + 1) w.2.1 w.2.2.2.1 w.1).map (fun z => (⟨t.size, z.1⟩, z.2))))

/-- lines 214-217. -/
def mlPushL (S : Acts M A) (n l : Nat) (tree : List (M × A)) (lps : List (Nat × M)) : Option (List (M × A) × Nat × List (Nat × M)) :=
  if l % 2 = 1 then (access S n l tree).map (fun q => (q.1, l + 1, (l, q.2) :: lps)) else some (tree, l, lps)

/-- lines 213-220 (line 218 leaves `r` odd; `r>>=1` drops the consumed node). -/
def mlLoop (S : Acts M A) (n : Nat) (f : M → Bool) : Nat → Nat → Nat → M → List (Nat × M) → List (M × A) →
    Option (List (M × A) × Nat × Nat × M × List (Nat × M))
  | 0, _, _, _, _, _ => none
  | k+1, l, r, p, lps, tree =>
    if l < r then
      (access S n (r-1) tree).bind (fun q =>
        if f (q.2 * p) then
          (mlPushL S n l q.1 lps).bind (fun w =>
            (w.1[r-1]?).bind (fun y =>
              mlLoop S n f k (w.2.1/2) (r/2) (if r % 2 = 1 then y.1 * p else p) w.2.2 w.1))
        else some (q.1, l, r, p, lps))
    else some (tree, l, r, p, lps)

/-- lines 222-230. -/
def mlStack (f : M → Bool) : M → List (Nat × M) → Option (Nat × M)
  | _, [] => none
  | p, (l, lp) :: rest => if !f (lp * p) then some (l + 1, p) else mlStack f (lp * p) rest

/-- lines 233-241. -/
def mlDesc (S : Acts M A) (n : Nat) (f : M → Bool) : Nat → Nat → M → List (M × A) → Option (List (M × A) × Nat)
  | 0, _, _, _ => none
  | k+1, r, p, tree =>
    if r ≤ n then
      (access S n (r-1) tree).bind (fun q =>
        if f (q.2 * p) then none else
          (access S n (r*2-1) q.1).bind (fun w =>
            if f (w.2 * p) then mlDesc S n f k (r*2-1) (w.2 * p) w.1 else mlDesc S n f k (r*2) p w.1))
    else some (tree, r - n)

/-- lazy_segment_tree.hpp:201-243. -/
def minLeft (S : Acts M A) (t : Tree M A) (b e : Nat) (f : M → Bool) : Option (Tree M A × Nat) :=
  if e = b then some (t, b) else
    (lazyProp S t b e).bind (fun t1 =>
      (mlLoop S t.size f (t.size + e + 1) (t.size + b) (t.size + e) 1 [] t1).bind (fun w =>
        if w.2.2.1 ≤ w.2.1 then
          match mlStack f w.2.2.2.1 w.2.2.2.2 with
          | none => some (⟨t.size, w.1⟩, b)
          | some (r, p) => (mlDesc S t.size f (t.size + 2) r p w.1).map (fun z => (⟨t.size, z.1⟩, z.2))
        else (mlDesc S t.size f (t.size + 2) w.2.2.1 w.2.2.2.1 w.1).map (fun z => (⟨t.size, z.1⟩, z.2))))

end Verif.LazySegTree
