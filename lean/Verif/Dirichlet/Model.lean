import Verif.Common.Vec
import Mathlib.Algebra.Ring.Defs
/-!
Model of `/repo/include/mtl/dirichlet.hpp`.

`none` is undefined behaviour: signed overflow of `int` or an access out of range.  `std::vector<T>` is a list.  The element type `T` is
arbitrary with exact arithmetic.  Allocation failure is not modelled.
-/
namespace Verif.Dirichlet

variable {T : Type}

/-- A non-negative `int`. -/
def int (x : Nat) : Option Nat := if x < 2^31 then some x else none

/-- dirichlet.hpp:15-16. -/
def markOne (i j : Nat) (p : List Nat) : Option (List Nat) := (p[j]?).bind (fun x => if x = 0 then wr p j i else some p)

/-- dirichlet.hpp:14-17: `for (; j <= n; j += i)`; the first argument bounds the number of rounds. -/
def mark (n i : Nat) : Nat → Nat → List Nat → Option (List Nat)
  | 0, _, _ => none
  | f+1, j, p => if j ≤ n then (markOne i j p).bind (fun p => (int (j + i)).bind (fun j => mark n i f j p)) else some p

/-- dirichlet.hpp:12-18: the body of the loop over `i`. -/
def sieveStep (n i : Nat) (p : List Nat) : Option (List Nat) :=
  (p[i]?).bind (fun x => if x = 0 then (wr p i i).bind (fun p => (int (i * 2)).bind (fun j => mark n i (n+1) j p)) else some p)

/-- dirichlet.hpp:6-21 (`EratosthenesSieve`) for `n ≥ 0`; the loop variable must not overflow in `i++`. -/
def sieve (n : Nat) : Option (List Nat) :=
  (int (n+1)).bind (fun m =>
    if n = 0 then some (List.replicate m 0) else (wr (List.replicate m 0) 1 1).bind (forRange 2 (n+1) (sieveStep n)))

/-- dirichlet.hpp:27-29. -/
def primeStep (era : List Nat) (i : Nat) (ps : List Nat) : Option (List Nat) :=
  (era[i]?).map (fun x => if x = i then ps ++ [i] else ps)

/-- dirichlet.hpp:23-32 (`Primes`). -/
def primes (n : Nat) : Option (List Nat) := (sieve n).bind (fun era => forRange 2 (n+1) (primeStep era) [])

/-- dirichlet.hpp:45: `c[i*j] += a[i] * b[j]`. -/
def convStep [Add T] [Mul T] (a b : List T) (i j : Nat) (c : List T) : Option (List T) :=
  (a[i]?).bind (fun x => (b[j]?).bind (fun y => (c[i*j]?).bind (fun z => wr c (i*j) (z + x * y))))

/-- dirichlet.hpp:42-46. -/
def convRow [Add T] [Mul T] (n : Nat) (a b : List T) (i : Nat) (c : List T) : Option (List T) :=
  forRange 1 (n / i + 1) (convStep a b i) c

/-- dirichlet.hpp:38-48 (`DirichletConvolution`).  For an empty `a` the size is `int(-1)`, the loops are empty and `c` is empty.
`int n` must hold the size and `n+1` must not overflow. -/
def convolution [Zero T] [Add T] [Mul T] (a b : List T) : Option (List T) :=
  if a.isEmpty then some [] else (int a.length).bind (fun m =>
    forRange 1 (m - 1 + 1) (convRow (m - 1) a b) (List.replicate m 0))

/-- dirichlet.hpp:69-75: `while (true)`; `u = p*i`.  The first argument bounds the number of rounds. -/
def powLoop [Add T] [Mul T] (a : List T) (p u : Nat) : Nat → Nat → Nat → List T → Option (List T)
  | 0, _, _, _ => none
  | f+1, q, j, c =>
    (a[q]?).bind (fun x => (c[j]?).bind (fun y => (c[u]?).bind (fun z => (wr c u (z + x * y)).bind (fun c =>
      if j % p ≠ 0 then some c else (int (q * p)).bind (fun q => powLoop a p u f q (j / p) c)))))

/-- dirichlet.hpp:66-76: the body of the loop over `i`; fewer than `i+1` rounds are needed as `j` shrinks. -/
def multStep [Add T] [Mul T] (a : List T) (p i : Nat) (c : List T) : Option (List T) := powLoop a p (p * i) (i+1) p i c

/-- dirichlet.hpp:64-77: one prime; `for (int i = m; i >= 1; i--)`. -/
def multPrime [Add T] [Mul T] (n : Nat) (a : List T) (p : Nat) (c : List T) : Option (List T) := forRangeDown 1 (n / p + 1) (multStep a p) c

/-- `for (int p : ps)`. -/
def forList {σ : Type} (body : Nat → σ → Option σ) : List Nat → σ → Option σ
  | [], s => some s
  | p :: ps, s => (body p s).bind (forList body ps)

/-- `c.resize(n+1)`. -/
def resize [Zero T] (m : Nat) (b : List T) : List T := b.take m ++ List.replicate (m - b.length) 0

/-- dirichlet.hpp:59-79 (`DirichletMultinomialConvolution`), for non-empty `a`. -/
def multConvolution [Zero T] [Add T] [Mul T] (a b : List T) : Option (List T) :=
  if a.isEmpty then none else (int a.length).bind (fun m =>
    (primes (m - 1)).bind (fun ps => forList (multPrime (m - 1) a) ps (resize m b)))

/-- dirichlet.hpp:81-89 (`Identity`); `k` is whatever `std::pow(n, 2./3)` rounds to. -/
def identityPair [Zero T] [One T] (n k : Nat) : Option (List T × List T) :=
  if k = 0 then none else (int (n + k - 1)).bind (fun s =>
    (wr (List.replicate (k+1) 0) 1 1).bind (fun a => (wr (List.replicate (s / k + 1) 1) 0 0).map (fun A => (a, A))))

/-- dirichlet.hpp:91-100 (`Zeta`); `A[i] = n / i` converts from `int`. -/
def zetaPair [Ring T] (n k : Nat) : Option (List T × List T) :=
  if k = 0 then none else (int (n + k - 1)).bind (fun s =>
    (wr (List.replicate (k+1) 1) 0 0).bind (fun a =>
      (forRange 1 (s / k + 1) (fun i A => wr A i ((n / i : Nat) : T)) (List.replicate (s / k + 1) 0)).map (fun A => (a, A))))

/-- dirichlet.hpp:110 (115, 140): `v[i] += v[i-1]`. -/
def prefStep [Add T] (i : Nat) (v : List T) : Option (List T) := (v[i]?).bind (fun x => (v[i-1]?).bind (fun y => wr v i (x + y)))

/-- dirichlet.hpp:107-110 (108, 114-115; 138-140): prefix sums of the small values. -/
def prefixes [Add T] (a : List T) : Option (List T) := forRange 1 (a.length - 1 + 1) prefStep a

/-- dirichlet.hpp:111-113 (116-118, 141-143): the lambda `getA`. -/
def getter (N k : Nat) (low A : List T) (i : Nat) : Option T := if i ≤ k then low[i]? else A[N / i]?

/-- dirichlet.hpp:127-128. -/
def optInner [Ring T] (gA gB : Nat → Option T) (a b : List T) (n m j i : Nat) (C : List T) : Option (List T) :=
  (a[i]?).bind (fun x => (gB (n / i)).bind (fun y => (C[j]?).bind (fun c => (wr C j (c + x * y)).bind (fun C =>
    (gA (n / i)).bind (fun u => (gA m).bind (fun v => (b[i]?).bind (fun w => (C[j]?).bind (fun c => wr C j (c + (u - v) * w)))))))))

/-- dirichlet.hpp:123-130: one entry of `C`.  `int m = sqrt(n)` is the integer square root (the double square root of an `int` is correctly rounded). -/
def optRow [Ring T] (N : Nat) (gA gB : Nat → Option T) (a b : List T) (j : Nat) (C : List T) : Option (List T) :=
  forRange 1 (Nat.sqrt (N / j) + 1) (optInner gA gB a b (N / j) (Nat.sqrt (N / j)) j) C

/-- dirichlet.hpp:102-132 (`DirichletConvolveOptimal`), for non-empty vectors. -/
def convolveOptimal [Ring T] (N : Nat) (a A b B : List T) : Option (List T × List T) :=
  if a.isEmpty ∨ A.isEmpty then none else
    (int ((a.length - 1) * (A.length - 1))).bind (fun kl => if kl < N then none else
      (prefixes a).bind (fun la => (forRange 1 (a.length - 1 + 1) prefStep b).bind (fun lb => (convolution a b).bind (fun c =>
        (forRange 1 (A.length - 1 + 1) (optRow N (getter N (a.length - 1) la A) (getter N (a.length - 1) lb B) a b) (List.replicate A.length 0)).map
          (fun C => (c, C))))))

/-- dirichlet.hpp:149: `c[p*i] += c[i]`. -/
def zetaStep [Add T] (p i : Nat) (c : List T) : Option (List T) := (c[p*i]?).bind (fun x => (c[i]?).bind (fun y => wr c (p*i) (x + y)))

/-- dirichlet.hpp:146-151. -/
def zetaPrime [Add T] (k p : Nat) (c : List T) : Option (List T) := forRange 1 (k / p + 1) (zetaStep p) c

/-- dirichlet.hpp:158-159; `n / i` is converted from `int` to `T`. -/
def zetaInner [Ring T] (gA : Nat → Option T) (a : List T) (n m j i : Nat) (C : List T) : Option (List T) :=
  (a[i]?).bind (fun x => (C[j]?).bind (fun c => (wr C j (c + x * ((n / i : Nat) : T))).bind (fun C =>
    (gA (n / i)).bind (fun u => (gA m).bind (fun v => (C[j]?).bind (fun c => wr C j (c + (u - v))))))))

/-- dirichlet.hpp:154-161. -/
def zetaRow [Ring T] (N : Nat) (gA : Nat → Option T) (a : List T) (j : Nat) (C : List T) : Option (List T) :=
  forRange 1 (Nat.sqrt (N / j) + 1) (zetaInner gA a (N / j) (Nat.sqrt (N / j)) j) C

/-- dirichlet.hpp:134-163 (`DirichletConvolveZeta`), for non-empty vectors. -/
def convolveZeta [Ring T] (N : Nat) (ps : List Nat) (a A : List T) : Option (List T × List T) :=
  if a.isEmpty ∨ A.isEmpty then none else
    (prefixes a).bind (fun la => (forList (zetaPrime (a.length - 1)) ps a).bind (fun c =>
      (forRange 1 (A.length - 1 + 1) (zetaRow N (getter N (a.length - 1) la A) a) (List.replicate A.length 0)).map (fun C => (c, C))))

end Verif.Dirichlet
