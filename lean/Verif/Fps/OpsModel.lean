import Verif.Fps.Model3
/-!
Model of the elementary operators of `Fps` (`/repo/include/mtl/fps.hpp:24-97, 188-211, 362-365`): comparison, prefixes, sums, constants,
coefficientwise product, shifts; and of `f *= f`.  (`normalize`, `pre`, `subF`, `scale` and `shr` are in the other files.)
-/
namespace Verif.Fps
open Verif.Modular Verif.Ntt

/-- fps.hpp:35-40 (`pre`): a prefix, or zeros appended. -/
def preC (m : Nat) (f : List Nat) : List Nat := if m ≤ f.length then f.take m else pre m f

/-- fps.hpp:41-48 (`operator==`), from index `i` on with `n - i` rounds left. -/
def eqFLoop (f r : List Nat) : Nat → Nat → Bool
  | 0, _ => true
  | t+1, i => if (if i < f.length then f.getD i 0 else 0) ≠ (if i < r.length then r.getD i 0 else 0) then false else eqFLoop f r t (i+1)

/-- fps.hpp:41-48 (`operator==`). -/
def eqF (f r : List Nat) : Bool := eqFLoop f r (max f.length r.length) 0

/-- fps.hpp:52-57 (`operator+=` of a constant). -/
def addConst (p c : Nat) (f : List Nat) : Option (List Nat) :=
  match f with
  | [] => some [add p 0 c]
  | a :: f => some (add p a c :: f)

/-- fps.hpp:58. -/
def subConst (p c : Nat) (f : List Nat) : Option (List Nat) := addConst p (neg p c) f

/-- fps.hpp:63. -/
def divConst (p c : Nat) (f : List Nat) : Option (List Nat) := (inv p c).bind (fun ic => scale p ic f)

/-- fps.hpp:68-72 (unary `operator-`). -/
def negF (p : Nat) (f : List Nat) : List Nat := f.map (neg p)

/-- fps.hpp:74 (constant minus series). -/
def rsubConst (p c : Nat) (f : List Nat) : Option (List Nat) := addConst p c (negF p f)

/-- fps.hpp:80-81: one round of `operator+=`. -/
def addStep (p : Nat) (r : List Nat) (i : Nat) (f : List Nat) : Option (List Nat) :=
  (r[i]?).bind (fun y => (f[i]?).bind (fun x => wr f i (add p x y)))

/-- fps.hpp:77-83 (`operator+=`). -/
def addF (p : Nat) (f r : List Nat) : Option (List Nat) :=
  forRange 0 r.length (addStep p r) (if f.length < r.length then pre r.length f else f)

/-- fps.hpp:94-95: one round of `dot`. -/
def dotStepF (p : Nat) (r : List Nat) (i : Nat) (f : List Nat) : Option (List Nat) :=
  (f[i]?).bind (fun x => (r[i]?).bind (fun y => (mul p x y).bind (fun z => wr f i z)))

/-- fps.hpp:91-97 (`dot`). -/
def dotF (p : Nat) (f r : List Nat) : Option (List Nat) :=
  forRange 0 (if r.length < f.length then pre r.length f else f).length (dotStepF p r) (if r.length < f.length then pre r.length f else f)

/-- fps.hpp:202-203: one round of `operator<<=`. -/
def shlStep (m s i : Nat) (f : List Nat) : Option (List Nat) := (f[s-1-i]?).bind (fun x => wr f (m+s-1-i) x)

/-- fps.hpp:199-206 (`operator<<=`): the coefficients move from the last to the first, then the gap is filled. -/
def shlSet (m : Nat) (f : List Nat) : Option (List Nat) :=
  (forRange 0 f.length (shlStep m f.length) (pre (m + f.length) f)).bind (fun h => forRange 0 m (fun i h => wr h i 0) h)

/-- fps.hpp:189-193 (`operator<<`). -/
def shlC (m : Nat) (f : List Nat) : Option (List Nat) :=
  forRange 0 f.length (fun i h => (f[i]?).bind (fun x => wr h (m+i) x)) (List.replicate (m + f.length) 0)

/-- fps.hpp:195-198 (`operator>>`) and 207-211 (`operator>>=`). -/
def shrC (m : Nat) (f : List Nat) : List Nat := if m ≥ f.length then [] else shr m f

/-- fps.hpp:117-145 for `f *= f`: both by-value parameters of `convolution_ntt` are initialised from the object, the first by moving it away.  Their
order is unspecified: `leftFirst` says that the first parameter is initialised first (the second one then copies an emptied vector). -/
def mulSelf (p g : Nat) (leftFirst : Bool) (f : List Nat) : Option (List Nat) :=
  if countTerms f f.length < 100 then mulSparse p f f
  else if leftFirst then convNtt p g (f.length + 1) f [] else convNtt p g (f.length + 1) f f

end Verif.Fps
