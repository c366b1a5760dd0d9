import Verif.MatrixM.Model
import Mathlib.Algebra.Field.Defs
/-!
Model of the elimination functions of `/repo/include/mtl/matrix.hpp` (`det`, `gaussian_elimination`, `solve`, `inv`).

A `Matrix<T, R, C>` is a list of `R` rows of length `C` (`Verif/MatrixM`), `T` is a field with decidable equality.
`none` = access out of range, division by zero, failed assertion.
-/
namespace Verif.Gauss
open Verif Verif.MatrixM

variable {K : Type} [Field K] [DecidableEq K]

/-- The search for a row with a non-zero entry in column `c`, from row `j` on (lines 145-148 and 176-182); the first argument is the number of rows left.
The result is the end of the range if there is none. -/
def findRow (x : Mat K) (c : Nat) : Nat → Nat → Option Nat
  | 0, j => some j
  | f+1, j => (rd2 x j c).bind (fun v => if v = 0 then findRow x c f (j+1) else some j)

/-- `std::swap(x[a], x[b])` (lines 153, 186). -/
def swapRows (x : Mat K) (a b : Nat) : Option (Mat K) :=
  (x[a]?).bind (fun ra => (x[b]?).bind (fun rb => (wr x a rb).bind (fun x => wr x b ra)))

/-- `value_type(1) / v` (lines 156, 188). -/
def recip (v : K) : Option K := if v = 0 then none else some (1 / v)

/-- Lines 159-161 and 195-197: `x[j][k] -= factor * x[i][k]` for `lo ≤ k < hi`. -/
def subRow (x : Mat K) (j i lo hi : Nat) (factor : K) : Option (Mat K) :=
  forRange lo hi (fun k x => (rd2 x j k).bind (fun a => (rd2 x i k).bind (fun b => wr2 x j k (a - factor * b)))) x

/-! ### det -/

/-- Lines 152-155. -/
def detSwap (i index : Nat) (s : Mat K × K) : Option (Mat K × K) :=
  if index ≠ i then (swapRows s.1 index i).map (fun x => (x, - s.2)) else some s

/-- Lines 156-162. -/
def detElim (n i : Nat) (x : Mat K) : Option (Mat K) :=
  (rd2 x i i).bind (fun d => (recip d).bind (fun ixii =>
    forRange (i+1) n (fun j x => (rd2 x j i).bind (fun a => subRow x j i (i+1) n (a * ixii))) x))

/-- Lines 144-163 for one `i`; `(x, ret, finished)`: `finished` after the `return 0`. -/
def detStep (n i : Nat) (s : Mat K × K × Bool) : Option (Mat K × K × Bool) :=
  if s.2.2 then some s
  else (findRow s.1 i (n - i) i).bind (fun index =>
    if index = n then some (s.1, 0, true)
    else (detSwap i index (s.1, s.2.1)).bind (fun s => (detElim n i s.1).map (fun x => (x, s.2, false))))

/-- Lines 141-168 (`det(n)`). -/
def det (n : Nat) (a : Mat K) : Option K :=
  (forRange 0 n (detStep n) (a, 1, false)).bind (fun s =>
    if s.2.2 then some 0 else (forRange 0 n (fun i p => (rd2 s.1 i i).map (fun v => p * v)) s.2.1))

/-! ### gaussian_elimination -/

/-- Line 187; `none` is the null pointer. -/
def setP (p : Option (List Nat)) (r i : Nat) : Option (Option (List Nat)) :=
  match p with
  | none => some none
  | some l => (wr l r i).map some

/-- Lines 188-191. -/
def scaleRow (x : Mat K) (r i w : Nat) : Option (Mat K) :=
  (rd2 x r i).bind (fun d => (recip d).bind (fun ixii => (wr2 x r i 1).bind (fun x =>
    forRange (i+1) w (fun j x => (rd2 x r j).bind (fun v => wr2 x r j (v * ixii))) x)))

/-- Lines 193-197 for one `j`. -/
def elimRow (x : Mat K) (j r i w : Nat) : Option (Mat K) :=
  (rd2 x j i).bind (fun factor => (wr2 x j i 0).bind (fun x => subRow x j r (i+1) w factor))

/-- Lines 192-198. -/
def elimAll (x : Mat K) (row r i w : Nat) : Option (Mat K) :=
  forRange 0 row (fun j x => if j ≠ r then elimRow x j r i w else some x) x

/-- Lines 185-199: the row `index` becomes the pivot row of column `i`. -/
def pivot (row w i index : Nat) (s : Mat K × Nat × Option (List Nat)) : Option (Mat K × Nat × Option (List Nat)) :=
  (if index ≠ s.2.1 then swapRows s.1 index s.2.1 else some s.1).bind (fun x => (setP s.2.2 s.2.1 i).bind (fun p =>
    (scaleRow x s.2.1 i w).bind (fun x => (elimAll x row s.2.1 i w).map (fun x => (x, s.2.1 + 1, p)))))

/-- Lines 175-200 for one `i`; state: matrix, `rank`, `*principal`.  When `rank = row` the loop of the program ends; here the remaining rounds do nothing. -/
def gaussStep (row w i : Nat) (s : Mat K × Nat × Option (List Nat)) : Option (Mat K × Nat × Option (List Nat)) :=
  if s.2.1 < row then (findRow s.1 i (row - s.2.1) s.2.1).bind (fun index => if index = row then some s else pivot row w i index s)
  else some s

/-- `principal->resize(row+1, l_column)` (line 174). -/
def resize (l : List Nat) (k v : Nat) : List Nat := l.take k ++ List.replicate (k - l.length) v

/-- Lines 170-202 (`gaussian_elimination`). -/
def gauss (row l r : Nat) (x : Mat K) (p : Option (List Nat)) : Option (Mat K × Nat × Option (List Nat)) :=
  forRange 0 l (gaussStep row (l + r)) (x, 0, p.map (fun q => resize q (row+1) l))

/-! ### solve -/

/-- Lines 208-214. -/
def augmented (R C row column : Nat) (a b : Mat K) : Option (Mat K) :=
  forRange 0 row (fun i x => (forRange 0 column (fun j x => (rd2 a i j).bind (fun v => wr2 x i j v)) x).bind (fun x =>
    (rd2 b i 0).bind (fun v => wr2 x i column v))) (zero R (C+1))

/-- Lines 218-220: is there a non-zero right-hand side in a zero row? -/
def bad (x : Mat K) (column : Nat) : Nat → Nat → Option Bool
  | 0, _ => some false
  | f+1, i => (rd2 x i column).bind (fun v => if v ≠ 0 then some true else bad x column f (i+1))

/-- Lines 232-236 for one `c`. -/
def basisVec (x : Mat K) (col : List Nat) (i c : Nat) (s : Mat K × Nat) : Option (Mat K × Nat) :=
  (forRange 0 (i+1) (fun j res => (col[j]?).bind (fun q => (rd2 x j c).bind (fun v => wr2 res (s.2+1) q (-v)))) s.1).bind (fun res =>
    (wr2 res (s.2+1) c 1).map (fun res => (res, s.2+1)))

/-- Lines 223-239. -/
def answer (R C : Nat) (column rank : Nat) (x : Mat K) (col : List Nat) : Option (Mat K) :=
  (forRange 0 rank (fun i res => (col[i]?).bind (fun q => (rd2 x i column).bind (fun v => wr2 res 0 q v))) (zero (R+1) C)).bind (fun res =>
    (wr col rank column).bind (fun col => (col[0]?).bind (fun c0 =>
      (forRange 0 c0 (fun t res => wr2 res (t+1) t 1) res).bind (fun res =>
        (forRange 0 rank (fun i s => (col[i]?).bind (fun lo => (col[i+1]?).bind (fun hi => forRange (lo+1) hi (basisVec x col i) s))) (res, c0)).bind (fun s =>
          if s.2 = column - rank then some s.1 else none)))))

/-- Lines 203-241 (`solve`) for a `Matrix<T, R, C>`. -/
def solve (R C : Nat) (a b : Mat K) (row column : Nat) : Option (Nat × Mat K × Bool) :=
  (augmented R C row column a b).bind (fun x => (gauss row column 1 x (some [])).bind (fun s =>
    (bad s.1 column (row - s.2.1) s.2.1).bind (fun no =>
      if no then some (column - s.2.1, zero (R+1) C, false)
      else s.2.2.bind (fun col => (answer R C column s.2.1 s.1 col).map (fun res => (column - s.2.1, res, true))))))

/-! ### inv -/

/-- Lines 244-250. -/
def withI (R C n : Nat) (a : Mat K) : Option (Mat K) :=
  forRange 0 n (fun i x => (forRange 0 n (fun j x => (rd2 a i j).bind (fun v => wr2 x i j v)) x).bind (fun x => wr2 x i (n+i) 1)) (zero R (C*2))

/-- Lines 242-262 (`inv`). -/
def inv (R C : Nat) (a : Mat K) (n : Nat) : Option (Mat K × Bool) :=
  (withI R C n a).bind (fun x => (gauss n n n x none).bind (fun s =>
    if s.2.1 ≠ n then some (zero R C, false)
    else (forRange 0 n (fun i ret => forRange 0 n (fun j ret => (rd2 s.1 i (n+j)).bind (fun v => wr2 ret i j v)) ret) (zero R C)).map (fun r => (r, true))))

end Verif.Gauss
