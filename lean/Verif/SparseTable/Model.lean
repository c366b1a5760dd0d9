import Verif.Common.Vec
/-!
Models of `/repo/include/mtl/sparse_table.hpp`, `disjoint_sparse_table.hpp`, `dual_sparse_table.hpp`
and `dual_disjoint_sparse_table.hpp`.

`T` has a default value (value-initialised vector entries).  `none` = out-of-range access; it is also
returned where the C++ would shift by a negative amount (`63-clz(0)`).
-/
namespace Verif.SparseTable
open Verif

variable {T : Type}

/-- `63 - bm::clz(x)` for `x ≠ 0`; for `x = 0` the unsigned result wraps and is used as shift amount /
allocation size: `none`.  (`bm::clz` itself is modelled under C27.) -/
def msb (x : Nat) : Option Nat := if x = 0 then none else some (Nat.log2 x)

/-- `64 - bm::clz(x)` (0 for `x = 0`, bit_manip.hpp:98-108 returns 64 there). -/
def bitWidth (x : Nat) : Nat := if x = 0 then 0 else Nat.log2 x + 1

structure Table (T : Type) where
  size : Nat
  logN : Nat
  table : List (List T)

/-! ### SparseTable -/

/-- sparse_table.hpp:26-29 (inner loop; `for i = 0; i + width <= size_`). -/
def sBuildRow (op : T → T → T) (size k : Nat) (t : List (List T)) : Option (List (List T)) :=
  forRange 0 (size + 1 - 2^k) (fun i t => do
    let x ← rd2 t (k-1) i
    let y ← rd2 t (k-1) (i + 2^k/2)
    wr2 t k i (op x y)) t

/-- sparse_table.hpp:18-31. -/
def sBuild [Inhabited T] (op : T → T → T) (xs : List T) : Option (Table T) := do
  let logN ← msb xs.length
  let t0 ← wr (List.replicate (logN+1) (List.replicate xs.length default)) 0 xs
  let t ← forRange 1 (logN+1) (fun k t => sBuildRow op xs.length k t) t0
  some ⟨xs.length, logN, t⟩

/-- sparse_table.hpp:33-36.  `r - (1ull<<p)` cannot wrap when `l < r`. -/
def sQuery (op : T → T → T) (t : Table T) (l r : Nat) : Option T := do
  let p ← msb (r - l)
  let x ← rd2 t.table p l
  let y ← rd2 t.table p (r - 2^p)
  some (op x y)

/-! ### DisjointSparseTable -/

/-- disjoint_sparse_table.hpp:22-27, one block starting at `j` of level `i`, `d = 1<<i`. -/
def dBuildBlock (op : T → T → T) (i j : Nat) (t : List (List T)) : Option (List (List T)) := do
  let d := 2^i
  let x ← rd2 t 0 (j+d-1)
  let t ← wr2 t i (j+d-1) x
  let t ← forRangeDown j (j+d-1) (fun k t => do
    let x ← rd2 t 0 k
    let y ← rd2 t i (k+1)
    wr2 t i k (op x y)) t
  let x ← rd2 t 0 (j+d)
  let t ← wr2 t i (j+d) x
  forRange (j+d+1) (j+d*2) (fun k t => do
    let x ← rd2 t i (k-1)
    let y ← rd2 t 0 k
    wr2 t i k (op x y)) t

/-- disjoint_sparse_table.hpp:21-28: the blocks `j = 0, 2d, 4d, ... < n_` of one level; `n_ = 2^log_n` so their
number is `2^(logN-1-i)`. -/
def dBuildRow (op : T → T → T) (logN i : Nat) (t : List (List T)) : Option (List (List T)) :=
  forRange 0 (2^(logN-1-i)) (fun b t => dBuildBlock op i (b * (2^i*2)) t) t

/-- `std::copy(begin, end, tb_[0].begin())` into a row at least as long. -/
def copyRow0 (xs : List T) (t : List (List T)) : Option (List (List T)) := do
  let row ← t[0]?
  if xs.length ≤ row.length then wr t 0 (xs ++ row.drop xs.length) else none

/-- disjoint_sparse_table.hpp:13-30.  For an empty range `distance-1` wraps to `2^64-1`, `log_n_ = 64` and the
shift is undefined: `none`. -/
def dBuild [Inhabited T] (op : T → T → T) (xs : List T) : Option (Table T) :=
  if xs.length = 0 then none else do
    let logN := bitWidth (xs.length - 1)
    let n := 2^logN
    let t0 ← copyRow0 xs (List.replicate (max logN 1) (List.replicate n default))
    let t ← forRange 1 logN (fun i t => dBuildRow op logN i t) t0
    some ⟨n, logN, t⟩

/-- disjoint_sparse_table.hpp:32-36. -/
def dQuery (op : T → T → T) (t : Table T) (l r : Nat) : Option T :=
  if l + 1 = r then rd2 t.table 0 l else do
    let p ← msb ((r-1) ^^^ l)
    let x ← rd2 t.table p l
    let y ← rd2 t.table p (r-1)
    some (op x y)

/-! ### DualSparseTable -/

/-- dual_sparse_table.hpp:13-16. -/
def uInit (e : T) (size : Nat) : Option (Table T) := do
  let logN ← msb size
  some ⟨size, logN, List.replicate (logN+1) (List.replicate size e)⟩

/-- dual_sparse_table.hpp:18-21. -/
def uOfRange (e : T) (xs : List T) : Option (Table T) := do
  let t ← uInit e xs.length
  let tb ← wr t.table 0 xs
  some { t with table := tb }

/-- dual_sparse_table.hpp:27-32. -/
def uApply (op : T → T → T) (t : Table T) (l r : Nat) (a : T) : Option (Table T) :=
  if l ≥ r then some t else do
    let d ← msb (r - l)
    let x ← rd2 t.table d l
    let tb ← wr2 t.table d l (op x a)
    let y ← rd2 tb d (r - 2^d)
    let tb ← wr2 tb d (r - 2^d) (op y a)
    some { t with table := tb }

/-- dual_sparse_table.hpp:38-46. -/
def uBuild (op : T → T → T) (t : Table T) : Option (Table T) := do
  let tb ← forRangeDown 0 t.logN (fun k tb =>
    forRange 0 (t.size - 2^k) (fun i tb => do
      let x ← rd2 tb k i
      let y ← rd2 tb (k+1) i
      let tb ← wr2 tb k i (op x y)
      let x ← rd2 tb k (i + 2^k)
      let y ← rd2 tb (k+1) i
      wr2 tb k (i + 2^k) (op x y)) tb) t.table
  some { t with table := tb }

/-- dual_sparse_table.hpp:48-50, dual_disjoint_sparse_table.hpp:52-54. -/
def uGet (t : Table T) (i : Nat) : Option T := rd2 t.table 0 i

/-! ### DualDisjointSparseTable -/

/-- dual_disjoint_sparse_table.hpp:13-16 (for `n = 0` the shift is undefined: `none`). -/
def vInit (e : T) (n : Nat) : Option (Table T) :=
  if n = 0 then none else
    let logN := bitWidth (n - 1)
    some ⟨2^logN, logN, List.replicate (max logN 1) (List.replicate (2^logN) e)⟩

/-- dual_disjoint_sparse_table.hpp:17-21. -/
def vOfRange (e : T) (xs : List T) : Option (Table T) := do
  let t ← vInit e xs.length
  let tb ← copyRow0 xs t.table
  some { t with table := tb }

/-- dual_disjoint_sparse_table.hpp:23-32. -/
def vApply (op : T → T → T) (t : Table T) (l r : Nat) (a : T) : Option (Table T) :=
  if l ≥ r then some t
  else if r - l = 1 then do
    let x ← rd2 t.table 0 l
    let tb ← wr2 t.table 0 l (op x a)
    some { t with table := tb }
  else do
    let d ← msb ((r-1) ^^^ l)
    let x ← rd2 t.table d l
    let tb ← wr2 t.table d l (op x a)
    let y ← rd2 tb d (r-1)
    let tb ← wr2 tb d (r-1) (op y a)
    some { t with table := tb }

/-- dual_disjoint_sparse_table.hpp:37-48, one block. -/
def vBuildBlock (op : T → T → T) (e : T) (i j : Nat) (tb : List (List T)) : Option (List (List T)) := do
  let d := 2^i
  let (_, tb) ← forRange j (j+d) (fun k (s : T × List (List T)) => do
    let x ← rd2 s.2 i k
    let ml := op s.1 x
    let y ← rd2 s.2 0 k
    let tb ← wr2 s.2 0 k (op y ml)
    some (ml, tb)) (e, tb)
  let (_, tb) ← forRangeDown (j+d) (j+d*2) (fun k (s : T × List (List T)) => do
    let x ← rd2 s.2 i k
    let mr := op s.1 x
    let y ← rd2 s.2 0 k
    let tb ← wr2 s.2 0 k (op y mr)
    some (mr, tb)) (e, tb)
  some tb

/-- dual_disjoint_sparse_table.hpp:34-50. -/
def vBuild (op : T → T → T) (e : T) (t : Table T) : Option (Table T) := do
  let tb ← forRange 1 t.logN (fun i tb =>
    forRange 0 (2^(t.logN-1-i)) (fun b tb => vBuildBlock op e i (b * (2^i*2)) tb) tb) t.table
  some { t with table := tb }

end Verif.SparseTable
