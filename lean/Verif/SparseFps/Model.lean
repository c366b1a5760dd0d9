import Verif.Fps.Model2
/-!
Model of `SparseFps` (`/repo/include/mtl/sparse_fps.hpp`, with `exp` in `/repo/include/mtl/fps/exp.hpp:116-122` and `pow` in
`/repo/include/mtl/fps/pow.hpp:70-106`).

A sparse series is its vector of pairs (exponent, residue); exponents are `size_t` and coefficients reduced residues.  `none` is undefined behaviour
or a failed assertion.  The inverse, the division and the shared loops are those of `Verif.Fps.Model` and `Verif.Fps.Model2`
(`Fps.sparseInv`, `Fps.divSparse`, `Fps.pow1SparseImpl`).  Members that cannot be instantiated (they call `push_back` with two
arguments, compare residues with `<` or change a constant object) are left out: `pre`, `operator+`, `-`, `*` between two sparse series, unary `-`, `diff`,
`inte`, `inline_inte`, `log`.
-/
namespace Verif.SparseFps
open Verif.Modular Verif.Fps Verif.Ntt

abbrev Terms := List (Nat × Nat)

/-- sparse_fps.hpp:19-27: the constructors from a range and from a list of terms. -/
def ofTerms (ts : Terms) : Terms := ts.filter (fun t => t.2 != 0)

/-- sparse_fps.hpp:28-35: the constructor from a list of coefficients. -/
def ofCoeffs (l : List Nat) : Terms := terms l l.length

/-- sparse_fps.hpp:36-43: the constructor from a series. -/
def ofFps (f : List Nat) (n : Nat) : Terms := terms f (min n f.length)

/-- sparse_fps.hpp:44-46. -/
def deg (ts : Terms) : Nat :=
  match ts.getLast? with
  | none => 0
  | some l => l.1 + 1

/-- sparse_fps.hpp:59-66 (`push`, `emplace`). -/
def emplace (ts : Terms) (d v : Nat) : Terms := if v = 0 then ts else ts ++ [(d, v)]

/-- sparse_fps.hpp:70-72: the loop. -/
def toFpsLoop : Terms → List Nat → Option (List Nat)
  | [], h => some h
  | t :: ts, h => (wr h t.1 t.2).bind (toFpsLoop ts)

/-- sparse_fps.hpp:67-77 (`to_fps` and the conversion). -/
def toFps (ts : Terms) : Option (List Nat) := if ts = [] then some [] else toFpsLoop ts (List.replicate (deg ts) 0)

/-- sparse_fps.hpp:81-88: the first argument bounds the number of rounds; the iterators are the remaining terms. -/
def eqLoop : Nat → Terms → Terms → Bool
  | 0, a, b => a.isEmpty && b.isEmpty
  | f+1, a, b => if a = [] ∨ b = [] then a.isEmpty && b.isEmpty else
      match a.dropWhile (fun t => t.2 == 0), b.dropWhile (fun t => t.2 == 0) with
      | x :: xs, y :: ys => if x ≠ y then false else eqLoop f xs ys
      | a', b' => a'.isEmpty && b'.isEmpty

/-- sparse_fps.hpp:78-89 (`operator==`). -/
def eqS (a b : Terms) : Bool := eqLoop a.length a b

/-- sparse_fps.hpp:165-167: the inner loop, for the term `x`. -/
def mulRow (p : Nat) (f : List Nat) (x : Nat × Nat) (h : List Nat) : Option (List Nat) :=
  forRange 0 f.length (fun i h => (f[i]?).bind (fun y => addMul p (i + x.1) x.2 y h)) h

/-- sparse_fps.hpp:164-168. -/
def mulRows (p : Nat) (f : List Nat) : Terms → List Nat → Option (List Nat)
  | [], h => some h
  | x :: xs, h => (mulRow p f x h).bind (mulRows p f xs)

/-- sparse_fps.hpp:161-173: the product with a series. -/
def mulFps (p : Nat) (ts : Terms) (f : List Nat) : Option (List Nat) :=
  if ts = [] ∨ f = [] then some [] else mulRows p f ts (List.replicate (deg ts - 1 + f.length) 0)

/-- sparse_fps.hpp:229-235 (`inline_diff`), on 64-bit exponents. -/
def inlineDiff (p : Nat) (ts : Terms) : Option Terms :=
  ts.mapM (fun t => (mul p t.2 (ofInt p t.1)).map (fun c => ((t.1 + 2^64 - 1) % 2^64, c)))

/-- sparse_fps.hpp:259-269. -/
def addC (p c : Nat) (ts : Terms) : Terms :=
  match ts with
  | [] => ofCoeffs [c]
  | t :: ts => if t.1 = 0 then (t.1, add p t.2 c) :: ts else ofCoeffs [c] ++ t :: ts

/-- sparse_fps.hpp:270-272. -/
def subC (p c : Nat) (ts : Terms) : Terms := addC p (neg p c) ts

/-- sparse_fps.hpp:273-280 and 285-291. -/
def mulC (p c : Nat) (ts : Terms) : Option Terms :=
  if c = 0 then none else ts.mapM (fun t => (mul p t.2 c).map (fun y => (t.1, y)))

/-- sparse_fps.hpp:281-284 and 292-295. -/
def divC (p c : Nat) (ts : Terms) : Option Terms := if c = 0 then none else (inv p c).bind (fun ic => mulC p ic ts)

/-- The conversion of a `size_t` to `int`. -/
def toInt32 (x : Nat) : Int := Int.bmod (x : Int) (2^32)

/-- exp.hpp:95-101: the loop over the terms; `d` is the exponent less one, as `int`. -/
def expDot (p i : Nat) (h : List Nat) : Terms → Nat → Option Nat
  | [], s => some s
  | t :: ts, s => if t.1 = 0 then expDot p i h ts s else
      (mul p t.2 (ofInt p t.1)).bind (fun c => if toInt32 (t.1 - 1) > (i : Int) - 1 then some s else
        (h[((i : Int) - 1 - toInt32 (t.1 - 1)).toNat]?).bind (fun y => (mul p y c).bind (fun z => expDot p i h ts (add p s z))))

/-- exp.hpp:93-103: one round. -/
def expStep (p : Nat) (tb : List Nat) (ts : Terms) (i : Nat) (h : List Nat) : Option (List Nat) :=
  (expDot p i h ts (ofInt p 0)).bind (fun s => (tableInv p i tb).bind (fun v => (mul p s v.1).bind (fun y => wr h i y)))

/-- exp.hpp:83-105 (`exp_sparse_impl`). -/
def expImpl (p : Nat) (tb : List Nat) (ts : Terms) (n : Nat) : Option (List Nat) :=
  (wr (List.replicate n 0) 0 (ofInt p 1)).bind (fun h => (setInv p (n-1) tb).bind (fun tb => forRange 1 n (expStep p tb ts) h))

/-- exp.hpp:116-122 (`SparseFps::exp`). -/
def exp (p : Nat) (tb : List Nat) (ts : Terms) (n : Nat) : Option (List Nat) :=
  match ts with
  | [] => if n = 0 then some [] else some [ofInt p 1]
  | t :: ts => if t.1 = 0 ∧ t.2 ≠ 0 then none else if n = 0 then some [] else expImpl p tb (t :: ts) n

/-- pow.hpp:92-105: the first non-zero term `(k, c)` is taken out. -/
def powTail (p : Nat) (tb : List Nat) (ts : Terms) (n k c degrees : Nat) : Option (List Nat) :=
  (inv p c).bind (fun ic => (ts.mapM (fun t => (mul p t.2 ic).map (fun y => ((t.1 + 2^64 - k) % 2^64, y)))).bind (fun g =>
    (pow1SparseImpl p tb g n degrees).bind (fun g => (Modular.pow p c n).bind (fun cpn =>
      (forRange 0 g.length (powOut p cpn (k*n) g) (List.replicate (k*n + g.length) 0)).map (pre degrees)))))

/-- pow.hpp:70-106 (`SparseFps::pow`), for a non-negative exponent. -/
def pow (p : Nat) (tb : List Nat) (ts : Terms) (n degrees : Nat) : Option (List Nat) :=
  if n = 0 then some [ofInt p 1] else
    match ts.find? (fun t => t.2 != 0) with
    | none => some []
    | some (k, c) => if k ≠ 0 ∧ n ≥ (degrees + k - 1) / k then some [] else
        if k = 0 ∧ c = 1 then pow1SparseImpl p tb ts n degrees else powTail p tb ts n k c degrees

end Verif.SparseFps
