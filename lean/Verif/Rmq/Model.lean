import Verif.Succinct.BvProps
import Verif.SparseTable.Model
/-!
Model of `/repo/include/mtl/range_minimum_query.hpp` (`Rmq<T> = RmqToLca<T, 3>`).

* The values are integers; the code only compares them.
* The bit vector is the model of `BitVector` (`Verif.Succinct`), the sparse table that of `SparseTable` (`Verif.SparseTable`).
* `none` is undefined behaviour (access out of range), a thrown exception or `size_t` wrap-around.
-/
namespace Verif.Rmq
open Verif Verif.BitManip Verif.Succinct

/-! ### Words -/

/-- range_minimum_query.hpp:31-38: one turn; the state is `(argmin, min_s, sum)`. -/
def tbStep (mask i : Nat) (t : Nat × Int × Int) : Nat × Int × Int :=
  let sum := if mask.testBit i then t.2.2 + 1 else t.2.2 - 1
  if sum < t.2.1 then (i, sum, sum) else (t.1, t.2.1, sum)

/-- range_minimum_query.hpp:28-41: `(idx[mask], val[mask])`. -/
def tb (mask : Nat) : Nat × Int :=
  let t := (List.range 8).foldl (fun t i => tbStep mask i t) (0, 9, 0)
  (t.1, t.2.1)

/-- range_minimum_query.hpp:63-67: `e_e8`. -/
def e8 (mask : Nat) : Nat :=
  u64 (64 * 0x0101010101010101 + u64 (u64 (popcntE8 mask * 2) * 0x0101010101010100) + (2^64 - 8 * 0x0706050403020100))

/-- range_minimum_query.hpp:73-84: one turn with `bi = 8 * k`; the state is `(argmin, min_s)`. -/
def w64Step (mask k : Nat) (t : Nat × Int) : Nat × Int :=
  let sub := (mask >>> (8 * k)) &&& 255
  let s := (tb sub).2 + ((((e8 mask >>> (8 * k)) &&& 255 : Nat) : Int) - 64)
  if s < t.2 then ((tb sub).1 + 8 * k, s) else t

/-- range_minimum_query.hpp:61-86: `rmq64`. -/
def rmq64 (mask : Nat) : Nat × Int := (List.range 8).foldl (fun t k => w64Step mask k t) (0, 65)

/-! ### The Cartesian tree -/

/-- range_minimum_query.hpp:92-94; `null_idx` is `none`. -/
structure Nd where
  p : Option Nat
  l : Option Nat
  r : Option Nat
deriving DecidableEq

/-- range_minimum_query.hpp:95-96. -/
structure Tree where
  root : Option Nat
  nodes : List Nd

/-- range_minimum_query.hpp:111-115: the climb along `p`; running out of fuel is undefined. -/
def climb (xs : List Int) (nodes : List Nd) (x : Int) : Nat → Option Nat → Option (Option Nat)
  | _, none => some none
  | 0, some _ => none
  | fuel+1, some u => (xs[u]?).bind fun au => if x < au then (nodes[u]?).bind fun nd => climb xs nodes x fuel nd.p else some (some u)

/-- `nodes_[i].p = v`. -/
def setP (nodes : List Nd) (i v : Nat) : Option (List Nd) := (nodes[i]?).bind fun nd => wr nodes i ⟨some v, nd.l, nd.r⟩

/-- `nodes_[i].r = v`. -/
def setR (nodes : List Nd) (i v : Nat) : Option (List Nd) := (nodes[i]?).bind fun nd => wr nodes i ⟨nd.p, nd.l, some v⟩

/-- range_minimum_query.hpp:121-124, before `nodes_[u].r = v`: the new node takes the right child of `u` as its left child. -/
def linkUp (nodes : List Nd) (u : Nat) (ur : Option Nat) (v : Nat) : Option (List Nd) :=
  match ur with
  | none => some (nodes ++ [⟨some u, none, none⟩])
  | some k => setP (nodes ++ [⟨some u, some k, none⟩]) k v

/-- range_minimum_query.hpp:104-126: one value, `v = nodes_.size()`. -/
def addNode (xs : List Int) (v : Nat) (t : Tree) : Option Tree :=
  if t.nodes = [] then some ⟨some 0, [⟨none, none, none⟩]⟩ else
  (xs[v]?).bind fun x => (climb xs t.nodes x t.nodes.length (some (v - 1))).bind fun u =>
  match u with
  | none => t.root.bind fun rt => (setP (t.nodes ++ [⟨none, some rt, none⟩]) rt v).map fun ns => ⟨some v, ns⟩
  | some u => (t.nodes[u]?).bind fun nd =>
      (linkUp t.nodes u nd.r v).bind fun ns => (setR ns u v).map fun ns => ⟨t.root, ns⟩

/-- range_minimum_query.hpp:98-128: the constructor. -/
def cart (xs : List Int) : Option Tree := forRange 0 xs.length (addNode xs) ⟨none, []⟩

/-- range_minimum_query.hpp:150-154: the right spine below `v`. -/
def spine (nodes : List Nd) : Nat → Option Nat → Option (List Nat)
  | _, none => some []
  | 0, some _ => none
  | fuel+1, some v => (nodes[v]?).bind fun nd => (spine nodes fuel nd.r).map (v :: ·)

/-- range_minimum_query.hpp:155-159: what is pushed for the spine, from the top of the stack. -/
def items (nodes : List Nd) : List Nat → Option (List (Option Nat × Bool))
  | [] => some []
  | v :: c => (nodes[v]?).bind fun nd => (items nodes c).map fun r => (nd.l, true) :: (none, false) :: r

/-- range_minimum_query.hpp:138-164 with the lambdas at 261-274.  A stack entry is `(left_child, is_inorder)`; its first component in the code is only
handed to the lambdas, which ignore it. -/
def trav (nodes : List Nd) : Nat → List (Option Nat × Bool) → Bm → Nat → Option Bm
  | _, [], b, _ => some b
  | 0, _ :: _, _, _ => none
  | fuel+1, (lc, true) :: st, b, t =>
    (spine nodes nodes.length lc).bind fun c => (items nodes c).bind fun is => (b.put t true).bind fun b => trav nodes fuel (is ++ st) b (t+1)
  | fuel+1, (_, false) :: st, b, t => (b.put t false).bind fun b => trav nodes fuel st b (t+1)

/-- range_minimum_query.hpp:257-274: the parentheses. -/
def parens (t : Tree) : Option Bm :=
  ((⟨[], 0⟩ : Bm).resize (2 * (t.nodes.length + 1)) false).bind fun b =>
    trav t.nodes (2 * (t.nodes.length + 1)) [(t.root, true), (none, false)] b 0

/-! ### The recursive structure -/

/-- `_fn_min` on pairs. -/
def pmin (x y : Int × Nat) : Int × Nat := if y.1 < x.1 ∨ (y.1 = x.1 ∧ y.2 < x.2) then y else x

inductive Obj
  | none
  /-- a sparse table of `(value, index)` -/
  | sparse (t : SparseTable.Table (Int × Nat))
  /-- `LcaToRmq` -/
  | lca (b : Bm) (bv : Bv) (inner : Obj)

/-- range_minimum_query.hpp:310-321: one block; the state is `(a, block_sum)`.  The width is always 64 here (the loop stops before the last block). -/
def blockStep (b : Bm) (bi : Nat) (t : List Int × Int) : Option (List Int × Int) :=
  (b.rangeGet (64 * bi) (64 * bi + 64)).bind fun mask =>
    let v := (rmq64 mask.toNat).2 + t.2
    let s := t.2 + (popcnt mask.toNat * 2 : Nat) - 64
    if 0 ≤ v ∧ 0 ≤ s then (wr t.1 bi v).map fun a => (a, s) else none

/-- range_minimum_query.hpp:307-321: the array `a`. -/
def blocks (b : Bm) (nb : Nat) : Option (List Int) :=
  (forRange 0 ((b.sz - 1) / 64) (blockStep b) (List.replicate nb 0, 0)).map (·.1)

def mkSparse (xs : List Int) : Option Obj := (SparseTable.sBuild pmin (xs.zip (List.range xs.length))).map Obj.sparse

/-- range_minimum_query.hpp:189-201, 226-233 (height 0), 253-324. -/
def build : Nat → List Int → Option Obj
  | 0, xs => mkSparse xs
  | h+1, xs =>
    if xs.length ≤ 8 then mkSparse xs else
    (cart xs).bind fun t => (parens t).bind fun b => (Succinct.build 64 b.src).bind fun bv =>
    let nb := (b.sz + 63) / 64
    (if 3 ≤ nb then (blocks b nb).bind fun a => build h ((a.drop 1).dropLast) else some Obj.none).map fun inner => .lca b bv inner

/-- range_minimum_query.hpp:326-328: `get_e`. -/
def getE (b : Bm) (bv : Bv) (i : Nat) : Option Nat := (rank1 64 b.src bv (i + 1)).bind fun r => if i + 1 ≤ r * 2 then some (r * 2 - (i + 1)) else none

/-- range_minimum_query.hpp:343-353, 357-360, 367-375: the position of the minimum in `[l, r)`, a part of one word, with its excess. -/
def part (b : Bm) (bv : Bv) (l r : Nat) : Option (Nat × Nat) :=
  (b.rangeGet l r).bind fun mask =>
    if r < l ∨ 64 < r - l then none else
    let dist := r - l
    let rem := 64 - dist
    (if rem = 0 then some mask.toNat else if dist < 64 ∧ rem < 64 then some (mask.toNat ||| u64 ((2^rem - 1) <<< dist)) else none).bind fun mask =>
    let idx := (rmq64 mask).1 + l
    (getE b bv idx).map fun e => (idx, e)

/-- `if (e < min_e)`. -/
def better (x y : Nat × Nat) : Nat × Nat := if y.2 < x.2 then y else x

/-- range_minimum_query.hpp:330-392: `lca(x, y)`; `inner` is `rmq_a_.rmq`. -/
def lca (b : Bm) (bv : Bv) (inner : Nat → Nat → Option Nat) (x y : Nat) : Option Nat :=
  if x = y then some x else
  (selectB 64 b.src bv false x).bind fun s => (selectB 64 b.src bv false y).bind fun t =>
  let xx := min s t
  let yy := max s t
  let i := xx / 64
  let j := yy / 64
  (part b bv xx (min (yy + 1) ((i + 1) * 64))).bind fun m0 =>
  (if i + 2 ≤ j then
    (inner (i + 1 - 1) (j - 1)).bind fun k0 => (part b bv ((k0 + 1) * 64) ((k0 + 1 + 1) * 64)).map fun m1 => better m0 m1
   else some m0).bind fun m1 =>
  (if i < j then (part b bv (j * 64) (yy + 1)).map fun m2 => better m1 m2 else some m1).bind fun m =>
  if m.1 = xx then some x else rank0 64 b.src bv m.1

/-- range_minimum_query.hpp:202-210, 234-236: `rmq(l, r)`. -/
def rmq : Obj → Nat → Nat → Option Nat
  | .none, _, _ => none
  | .sparse t, l, r => if r ≤ l then none else (SparseTable.sQuery pmin t l r).map (·.2)
  | .lca b bv inner, l, r => if r ≤ l then none else lca b bv (rmq inner) l (r - 1)

end Verif.Rmq
