import Verif.Fps.Model
/-!
Model of the derivative, integral, logarithm (`/repo/include/mtl/fps.hpp:212-258`, `/repo/include/mtl/sparse_fps.hpp:194-218`), exponential
(`/repo/include/mtl/fps/exp.hpp`) and power (`/repo/include/mtl/fps/pow.hpp`) of series.

`tb` is the table of inverses shared by all objects of type `ModularUtil` (`modular.hpp:265-285`) at the call; its growth during a call is not returned.
-/
namespace Verif.Fps
open Verif.Modular Verif.Ntt

/-- fps.hpp:214-215: one round. -/
def diffStep (p i : Nat) (f : List Nat) : Option (List Nat) :=
  (f[i]?).bind (fun x => (mul p x (ofInt p i)).bind (fun y => wr f (i-1) y))

/-- fps.hpp:212-221 (`inline_diff`, `diff`). -/
def diffF (p : Nat) (f : List Nat) : Option (List Nat) :=
  if f.length = 0 then some f else (forRange 1 f.length (diffStep p) f).map (fun f => f.dropLast)

/-- fps.hpp:227-228: one round. -/
def inteStep (p : Nat) (tb : List Nat) (i : Nat) (f : List Nat) : Option (List Nat) :=
  (f[i-1]?).bind (fun x => (tableInv p i tb).bind (fun v => (mul p x v.1).bind (fun y => wr f i y)))

/-- fps.hpp:222-234 (`inline_inte`, `inte`). -/
def inteF (p : Nat) (tb f : List Nat) : Option (List Nat) :=
  if f.length = 0 then some f else
    (setInv p (f.length + 1) tb).bind (fun tb =>
      (forRangeDown 1 (f.length + 1) (inteStep p tb) (f ++ [0])).bind (fun f => wr f 0 0))

/-- fps.hpp:239, 245, 255: the integral of the first `n - 1` coefficients; `n = 0` would ask for `-1` coefficients. -/
def logTail (p : Nat) (tb : List Nat) (n : Nat) (t : List Nat) : Option (List Nat) :=
  if n = 0 then none else (inteF p tb (pre (n-1) t)).map (pre n)

/-- fps.hpp:235-240 (`log_dense`). -/
def logDense (p r : Nat) (tb f : List Nat) (n : Nat) : Option (List Nat) :=
  if f[0]? ≠ some 1 then none else
    (diffF p f).bind (fun d => (invDense p r f (n-1)).bind (fun v => (mulSet p r d v).bind (logTail p tb n)))

/-- fps.hpp:251-256 (`log`). -/
def logF (p r : Nat) (tb f : List Nat) (n : Nat) : Option (List Nat) :=
  if f[0]? ≠ some 1 then none else
    (diffF p f).bind (fun d => (invF p r f (n-1)).bind (fun v => (mulSet p r d v).bind (logTail p tb n)))

/-- sparse_fps.hpp:211-215: the inner loop. -/
def divRow (p i : Nat) : List (Nat × Nat) → List Nat → Option (List Nat)
  | [], h => some h
  | x :: xs, h => if i < x.1 then some h else
      (h[i - x.1]?).bind (fun y => (mul p y (neg p x.2)).bind (fun z => (h[i]?).bind (fun w => (wr h i (add p w z)).bind (divRow p i xs))))

/-- sparse_fps.hpp:205-218 (`div_one`), for a divisor whose first term is `x`. -/
def divOne (p : Nat) (f : List Nat) (ts : List (Nat × Nat)) : Option (List Nat) :=
  match ts.getLast? with
  | none => none
  | some l => forRange 1 (f.length + l.1) (fun i h => divRow p i ts.tail h) (pre (f.length + l.1) f)

/-- sparse_fps.hpp:194-203 (`operator/` of a series and a sparse series); the comparison with the zero series ignores the lengths (fps.hpp:41-48). -/
def divSparse (p : Nat) (f : List Nat) (ts : List (Nat × Nat)) : Option (List Nat) :=
  if ∀ a ∈ f, a = 0 then some [] else
    match ts with
    | [] => none
    | x :: xs => if x.1 ≠ 0 ∨ x.2 = 0 then none else
        if x.2 = 1 then divOne p f (x :: xs) else
          (inv p x.2).bind (fun c => ((x :: xs).mapM (fun t => (mul p t.2 c).map (fun y => (t.1, y)))).bind (fun ts =>
            (divOne p f ts).bind (fun h => h.mapM (fun y => mul p y c))))

/-- fps.hpp:241-246 (`log_sparse`). -/
def logSparse (p : Nat) (tb f : List Nat) (n : Nat) : Option (List Nat) :=
  if f[0]? ≠ some 1 then none else
    (diffF p f).bind (fun d => (divSparse p d (terms f (n-1))).bind (logTail p tb n))

/-- exp.hpp:95-101: the loop over the terms. -/
def expDot (p i : Nat) (h : List Nat) : List (Nat × Nat) → Nat → Option Nat
  | [], s => some s
  | t :: ts, s => if t.1 = 0 then expDot p i h ts s else
      (mul p t.2 (ofInt p t.1)).bind (fun c => if t.1 - 1 > i - 1 then some s else
        (h[i - 1 - (t.1 - 1)]?).bind (fun y => (mul p y c).bind (fun z => expDot p i h ts (add p s z))))

/-- exp.hpp:93-103: one round. -/
def expSparseStep (p : Nat) (tb : List Nat) (ts : List (Nat × Nat)) (i : Nat) (h : List Nat) : Option (List Nat) :=
  (expDot p i h ts (ofInt p 0)).bind (fun s => (tableInv p i tb).bind (fun v => (mul p s v.1).bind (fun y => wr h i y)))

/-- exp.hpp:83-105 (`exp_sparse_impl`). -/
def expSparseImpl (p : Nat) (tb : List Nat) (ts : List (Nat × Nat)) (n : Nat) : Option (List Nat) :=
  (wr (List.replicate n 0) 0 (ofInt p 1)).bind (fun h => (setInv p (n-1) tb).bind (fun tb => forRange 1 n (expSparseStep p tb ts) h))

/-- exp.hpp:107-114 (`exp_sparse`). -/
def expSparse (p : Nat) (tb f : List Nat) (n : Nat) : Option (List Nat) :=
  if f ≠ [] ∧ f[0]? ≠ some 0 then none else if n = 0 then some [] else if f = [] then some [ofInt p 1] else
    expSparseImpl p tb (terms f (min n f.length)) n

/-- exp.hpp:56-57: one round. -/
def qStep (p : Nat) (f : List Nat) (j : Nat) (q : List Nat) : Option (List Nat) :=
  (mul p (f.getD j 0) (ofInt p j)).bind (fun x => wr q (j-1) x)

/-- exp.hpp:44-58: the inverse `g` and the derivative `q` catch up with `f`. -/
def expCatch (p r : Nat) (h : List Nat) (i : Nat) (f : List Nat) (s : List Nat × List Nat) : Option (List Nat × List Nat) :=
  if 1 < i then
    (mulSet p r s.1 s.1).bind (fun t => (mulSet p r t f).bind (fun t =>
      (forRange (i/2) i (negStep p (pre i t)) (pre i s.1)).bind (fun g =>
        (forRange (i/2) i (qStep p h) (pre (i-1) s.2)).map (fun q => (g, q)))))
  else some s

/-- exp.hpp:70-71: one round. -/
def integStep (p : Nat) (tb h : List Nat) (i j : Nat) (t : List Nat) : Option (List Nat) :=
  (t[j]?).bind (fun x => (tableInv p (i+j) tb).bind (fun v => (mul p x v.1).bind (fun y => wr t j (add p y (h.getD (i+j) 0)))))

/-- exp.hpp:75-76: one round. -/
def appendStep (t : List Nat) (i j : Nat) (f : List Nat) : Option (List Nat) := (t[j-i]?).bind (fun x => wr f j x)

/-- fps.hpp:207-211 (`operator>>=`). -/
def shr (m : Nat) (f : List Nat) : List Nat := f.drop m

/-- exp.hpp:59-76: the remainder of the round. -/
def expExtend (p r : Nat) (tb h : List Nat) (n i : Nat) (f g q : List Nat) : Option (List Nat) :=
  (mulSet p r f q).bind (fun t => (mulSet p r (shr (i-1) (pre (min (i*2) n - 1) t)) g).bind (fun t =>
    (forRange 0 (min (i*2) n - i + 1) (integStep p tb h i) (pre (min (i*2) n - i + 1) t)).bind (fun t =>
      (mulSet p r t f).bind (fun t => forRange i (min (i*2) n) (appendStep (pre (min (i*2) n - i) t) i) (pre (min (i*2) n) f)))))

/-- exp.hpp:38-77; the first argument bounds the number of rounds. -/
def expLoop (p r : Nat) (tb h : List Nat) (n : Nat) : Nat → Nat → List Nat → List Nat × List Nat → Option (List Nat)
  | 0, _, _, _ => none
  | t+1, i, f, s => if i < n then
      (expCatch p r h i f s).bind (fun s => (expExtend p r tb h n i f s.1 s.2).bind (fun f => expLoop p r tb h n t (i*2) f s))
    else some f

/-- exp.hpp:10-79 (`exp_dense`). -/
def expDense (p r : Nat) (tb h : List Nat) (n : Nat) : Option (List Nat) :=
  if h ≠ [] ∧ h[0]? ≠ some 0 then none else if n = 0 then some [] else
    (setInv p n tb).bind (fun tb => (expLoop p r tb h n (n+1) 1 [ofInt p 1] ([ofInt p 1], [])).map (pre n))

/-- fps.hpp:263-266 (`exp`). -/
def expF (p r : Nat) (tb h : List Nat) (n : Nat) : Option (List Nat) :=
  if h ≠ [] ∧ h[0]? ≠ some 0 then none else if countTerms h h.length < 100 then expSparse p tb h n else expDense p r tb h n

/-- fps.hpp:59-62: multiplication with a constant. -/
def scale (p c : Nat) (f : List Nat) : Option (List Nat) := f.mapM (fun x => mul p x c)

/-- pow.hpp:4-7 (`_pow_1_dense`). -/
def pow1Dense (p r : Nat) (tb f : List Nat) (n : Int) : Option (List Nat) :=
  (logDense p r tb f f.length).bind (fun l => (scale p (ofInt p n) l).bind (fun l => expDense p r tb l l.length))

/-- pow.hpp:25-30: the loop over the terms. -/
def powDot (p N i : Nat) (h : List Nat) : List (Nat × Nat) → Nat → Option Nat
  | [], s => some s
  | t :: ts, s => if i < t.1 then some s else
      (h[i - t.1]?).bind (fun y => (mul p t.2 y).bind (fun c => (mul p N (ofInt p t.1)).bind (fun u =>
        (mul p c (sub p u (ofInt p (i - t.1 : Nat)))).bind (fun z => powDot p N i h ts (add p s z)))))

/-- pow.hpp:23-32: one round. -/
def powStep (p : Nat) (tb : List Nat) (N : Nat) (ts : List (Nat × Nat)) (i : Nat) (h : List Nat) : Option (List Nat) :=
  (powDot p N i h ts (ofInt p 0)).bind (fun s => (tableInv p i tb).bind (fun v => (mul p s v.1).bind (fun y => wr h i y)))

/-- pow.hpp:9-34 (`pow_1_sparse_impl`). -/
def pow1SparseImpl (p : Nat) (tb : List Nat) (ts : List (Nat × Nat)) (n : Int) (deg : Nat) : Option (List Nat) :=
  if ts = [] then some [] else
    (wr (List.replicate deg 0) 0 (ofInt p 1)).bind (fun h => (setInv p (deg-1) tb).bind (fun tb => forRange 1 deg (powStep p tb (ofInt p n) ts) h))

/-- fps.hpp:270-273 (`_pow_1`) and pow.hpp:36-39 (`_pow_1_sparse`). -/
def pow1 (p r : Nat) (tb f : List Nat) (n : Int) : Option (List Nat) :=
  if f[0]? ≠ some 1 then none else
    if countTerms f f.length < 100 then pow1SparseImpl p tb (terms f f.length) n f.length else pow1Dense p r tb f n

/-- pow.hpp:58-60: one round. -/
def powNorm (p ic k : Nat) (f : List Nat) (i : Nat) (g : List Nat) : Option (List Nat) :=
  (f[i]?).bind (fun x => (mul p x ic).bind (fun y => wr g (i-k) y))

/-- pow.hpp:65-66: one round. -/
def powOut (p cpn d : Nat) (g : List Nat) (i : Nat) (res : List Nat) : Option (List Nat) :=
  (g[i]?).bind (fun x => (mul p x cpn).bind (fun y => wr res (d+i) y))

/-- pow.hpp:56-67: the case in which the first non-zero coefficient `c`, of index `k`, is taken out. -/
def powTail (p r : Nat) (tb f : List Nat) (n k c : Nat) : Option (List Nat) :=
  (inv p c).bind (fun ic => (forRange k f.length (powNorm p ic k f) (List.replicate (f.length - k) 0)).bind (fun g =>
    (pow1 p r tb g n).bind (fun g => (Modular.pow p c n).bind (fun cpn =>
      forRange 0 g.length (powOut p cpn (k*n) g) (List.replicate (k*n + g.length) 0)))))

/-- pow.hpp:41-68 (`pow`), for a non-negative exponent. -/
def powF (p r : Nat) (tb f : List Nat) (n : Nat) : Option (List Nat) :=
  if n = 0 then some [ofInt p 1] else
    match f[(f.takeWhile (· == 0)).length]? with
    | none => some []
    | some c => if (f.takeWhile (· == 0)).length ≠ 0 ∧ n ≥ (f.length - 1) / (f.takeWhile (· == 0)).length + 1 then some [] else
        if f[0]? = some 1 then pow1 p r tb f n else powTail p r tb f n (f.takeWhile (· == 0)).length c

end Verif.Fps
