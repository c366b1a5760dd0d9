import Verif.Ntt.Model
/-!
Model of `/repo/include/mtl/fps.hpp` (`Fps`) and of the part of `/repo/include/mtl/sparse_fps.hpp` (`SparseFps`) it uses.

A series is the list of the `val_`s of its coefficients, a sparse series the list of its (exponent, coefficient) pairs.
`p` is the modulus, `g` the value of `math::primitive_root<p>`; `none` is undefined behaviour or a failed `assert`.
The parameter `n = -1` of the C++ functions stands for `size()`; here `n` is always given.
-/
namespace Verif.Fps
open Verif.Modular Verif.Ntt

/-- fps.hpp:24-29 (`normalize`). -/
def normalize (f : List Nat) : List Nat := (f.reverse.dropWhile (· == 0)).reverse

/-- fps.hpp:98-102 (`count_terms(n)`). -/
def countTerms (f : List Nat) (n : Nat) : Nat := (f.take n).countP (· != 0)

/-- fps.hpp:104-116 (`term_ties`) and sparse_fps.hpp:36-43 (the constructor from a series): the non-zero terms below `x^n`. -/
def terms (f : List Nat) (n : Nat) : List (Nat × Nat) := ((f.take n).zipIdx.filter (fun x => x.1 != 0)).map (fun x => (x.2, x.1))

/-- fps.hpp:130-132: the inner loop over the terms of `r`. -/
def sparseRow (p i x : Nat) : List (Nat × Nat) → List Nat → Option (List Nat)
  | [], h => some h
  | j :: js, h => (addMul p (i + j.1) x j.2 h).bind (sparseRow p i x js)

/-- fps.hpp:126-134 (`_mul_set_sparse`). -/
def mulSparse (p : Nat) (f r : List Nat) : Option (List Nat) :=
  match (terms r r.length).getLast? with
  | none => some []
  | some l => forRange 0 f.length (fun i h => (f[i]?).bind (fun x => if x ≠ 0 then sparseRow p i x (terms r r.length) h else some h))
      (List.replicate (f.length + l.1) 0)

/-- fps.hpp:135-148 (`operator*=`); the dense branch is `convolution_ntt`. -/
def mulSet (p g : Nat) (f r : List Nat) : Option (List Nat) :=
  if countTerms r r.length < 100 then mulSparse p f r else convNtt p g (f.length + 1) f r

/-- `resize(m)` and `inline_pre` (fps.hpp:30-33). -/
def pre (m : Nat) (f : List Nat) : List Nat := f.take m ++ List.replicate (m - f.length) 0

/-- fps.hpp:167-168: one round. -/
def copyStep (f : List Nat) (i : Nat) (fm : List Nat) : Option (List Nat) := (f[i]?).bind (fun x => wr fm i x)

/-- fps.hpp:174-175: one round. -/
def negStep (p : Nat) (t : List Nat) (i : Nat) (g : List Nat) : Option (List Nat) := (t[i]?).bind (fun x => wr g i (neg p x))

/-- fps.hpp:165-175: one round of the Newton iteration; the state is `g` and `fm`. -/
def newton (p r n m : Nat) (f : List Nat) (s : List Nat × List Nat) : Option (List Nat × List Nat) :=
  (forRange m (min (min (m*2) n) f.length) (copyStep f) (pre (min (m*2) n) s.2)).bind (fun fm =>
    (mulSet p r s.1 s.1).bind (fun t => (mulSet p r t fm).bind (fun t =>
      (forRange m (min (m*2) n) (negStep p (pre (min (m*2) n) t)) (pre (min (m*2) n) s.1)).map (fun g => (g, fm)))))

/-- fps.hpp:164-176; the first argument bounds the number of rounds. -/
def newtonLoop (p r n : Nat) (f : List Nat) : Nat → Nat → List Nat × List Nat → Option (List Nat)
  | 0, _, _ => none
  | t+1, m, s => if m < n then (newton p r n m f s).bind (newtonLoop p r n f t (m*2)) else some s.1

/-- fps.hpp:149-179 (`inv_dense`). -/
def invDense (p r : Nat) (f : List Nat) (n : Nat) : Option (List Nat) :=
  match f with
  | [] => none
  | a :: _ => if a = 0 then none else if n = 0 then some [] else
      (inv p a).bind (fun b => newtonLoop p r n f (n+1) 1 ([b], [a]))

/-- sparse_fps.hpp:184-188: the loop over the terms with `break`. -/
def sparseDot (p i : Nat) (g : List Nat) : List (Nat × Nat) → Nat → Option Nat
  | [], s => some s
  | x :: xs, s => if i < x.1 then some s else
      (g[i - x.1]?).bind (fun y => (mul p x.2 y).bind (fun z => sparseDot p i g xs (add p s z)))

/-- sparse_fps.hpp:183-189: one round. -/
def sparseInvStep (p c : Nat) (ts : List (Nat × Nat)) (i : Nat) (g : List Nat) : Option (List Nat) :=
  (sparseDot p i g ts (ofInt p 0)).bind (fun s => (mul p (neg p s) c).bind (fun y => wr g i y))

/-- sparse_fps.hpp:174-193 (`SparseFps::inv`). -/
def sparseInv (p : Nat) (ts : List (Nat × Nat)) (n : Nat) : Option (List Nat) :=
  match ts with
  | [] => none
  | x :: xs => if x.1 ≠ 0 ∨ x.2 = 0 then none else if n = 0 then some [] else
      (inv p x.2).bind (fun c => (wr (List.replicate n 0) 0 c).bind (fun g => forRange 1 n (sparseInvStep p c xs) g))

/-- fps.hpp:376-382 (`inv_sparse`). -/
def invSparse (p : Nat) (f : List Nat) (n : Nat) : Option (List Nat) :=
  match f with
  | [] => none
  | a :: _ => if a = 0 then none else if n = 0 then some [] else sparseInv p (terms f n) n

/-- fps.hpp:181-184 (`inv`). -/
def invF (p r : Nat) (f : List Nat) (n : Nat) : Option (List Nat) :=
  if countTerms f n < 100 then invSparse p f n else invDense p r f n

/-- fps.hpp:185-187 (`operator/=`). -/
def divF (p r : Nat) (f d : List Nat) : Option (List Nat) := (invF p r d d.length).bind (fun v => mulSet p r f v)

/-- fps.hpp:84-90: one round of `operator-=`. -/
def subStep (p : Nat) (r : List Nat) (i : Nat) (f : List Nat) : Option (List Nat) :=
  (r[i]?).bind (fun y => (f[i]?).bind (fun x => wr f i (sub p x y)))

/-- fps.hpp:84-90 (`operator-=`). -/
def subF (p : Nat) (f r : List Nat) : Option (List Nat) :=
  forRange 0 r.length (subStep p r) (if f.length < r.length then pre r.length f else f)

/-- fps.hpp:349-361 (`operator%=`). -/
def modF (p r : Nat) (f d : List Nat) : Option (List Nat) :=
  (divF p r (normalize f) d).bind (fun q => (mulSet p r q d).bind (fun t => subF p (normalize f) t))

end Verif.Fps
