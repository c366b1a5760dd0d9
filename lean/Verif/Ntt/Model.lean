import Verif.Modular.Model
import Verif.BitManip.Model
/-!
Model of `/repo/include/mtl/ntt.hpp` and of the functions of `/repo/include/mtl/convolution.hpp` on `Modular`.

`p` is the modulus (a positive `int`), `g` the value of `math::primitive_root<p>`.  A vector of `Modular` is the list of its `val_`s.
`none` is undefined behaviour (index out of range, signed overflow of a product, shift out of range) or a failed `assert`.
Sums and differences of at most four values below `2^32` are computed in `long long` without overflow checks.
-/
namespace Verif.Ntt
open Verif.Modular

/-- A `long long` product; overflow is undefined. -/
def ll (x : Int) : Option Int := if -2^63 ≤ x ∧ x < 2^63 then some x else none

/-- ntt.hpp:9-11. -/
def ceilPow2 (x : Nat) : Option Nat := if x = 0 then some 0 else (BitManip.clz (x - 1)).map (fun c => 64 - c)

/-- `1 << k` on `int`. -/
def shl (k : Nat) : Option Nat := if k < 31 then some (2^k) else none

/-- ntt.hpp:31-33 (`log_n()`). -/
def logN (p : Nat) : Nat := BitManip.ctz (p - 1)

/-- ntt.hpp:40-41: one round. -/
def coeffStep (p i : Nat) (s : List Nat × Nat) : Option (List Nat × Nat) :=
  (wr s.1 i s.2).bind (fun c => (mul p s.2 s.2).map (fun iw => (c, iw)))

/-- ntt.hpp:34-44 (`coeff`). -/
def coeff (p g : Nat) (forward : Bool) : Option (List Nat) :=
  (pow p (ofInt p g) ((p - 1) >>> logN p)).bind (fun r =>
    (if forward then inv p r else some r).bind (fun iw =>
      (forRangeDown 0 (logN p) (coeffStep p) (List.replicate (logN p) 0, iw)).map Prod.fst))

/-- ntt.hpp:52: `for (int k = n >> 1; k > (i ^= k); k >>= 1);`, with the remaining rounds bounded by the first argument. -/
def revNext : Nat → Nat → Nat → Option Nat
  | 0, _, _ => none
  | f+1, k, i => if i ^^^ k < k then revNext f (k / 2) (i ^^^ k) else some (i ^^^ k)

/-- `std::swap(f[i], f[j])`. -/
def swap (f : List Nat) (i j : Nat) : Option (List Nat) :=
  (f[i]?).bind (fun a => (f[j]?).bind (fun b => (wr f i b).bind (fun f => wr f j a)))

/-- ntt.hpp:52-53. -/
def revStep (n j : Nat) (s : Nat × List Nat) : Option (Nat × List Nat) :=
  (revNext 32 (n / 2) s.1).bind (fun i => (if i < j then swap s.2 i j else some s.2).map (fun f => (i, f)))

/-- ntt.hpp:47-55. -/
def bitReverse (f : List Nat) : Option (List Nat) :=
  (ceilPow2 f.length).bind (fun k => (shl k).bind (fun n => (forRange 1 (n-1) (revStep n) (0, f)).map Prod.snd))

/-- Number of rounds of `for (c = 0; c < n; c += s)`. -/
def rounds (n s : Nat) : Nat := (n + s - 1) / s

/-- ntt.hpp:77-82: one radix-2 butterfly of the forward transform at `q`; the state is the twiddle `w` and the vector. -/
def fwd2 (p m w0 q : Nat) (s : Nat × List Nat) : Option (Nat × List Nat) :=
  (s.2[q]?).bind (fun a => (s.2[q+m]?).bind (fun b =>
    (wr s.2 q (add p a b)).bind (fun f =>
      (mul p (sub p a b) s.1).bind (fun y => (wr f (q+m) y).bind (fun f => (mul p s.1 w0).map (fun w => (w, f)))))))

/-- ntt.hpp:74-84. -/
def fwdPass2 (p n m w0 : Nat) (f : List Nat) : Option (List Nat) :=
  forRange 0 (rounds n (2*m)) (fun c f =>
    (forRange 0 m (fun i => fwd2 p m w0 (c * (2*m) + i)) (ofInt p 1, f)).map Prod.snd) f

/-- ntt.hpp:97-101: the arithmetic of one radix-4 butterfly of the forward transform. -/
def fwdBf (p w wh x a b c d : Nat) : Option (Nat × Nat × Nat × Nat) :=
  (ll (((a : Int) - c + p) * w)).bind (fun u =>
  (ll (((b : Int) - d + p) * w)).bind (fun v =>
  (ll (Int.tmod v p * wh)).bind (fun v =>
  (ll (((a : Int) + c - (b + d)) * x)).bind (fun y =>
  (ll ((Int.tmod u p - Int.tmod v p) * x)).map (fun z =>
    (ofInt p ((a : Int) + c + (b + d)), ofInt p y, ofInt p (Int.tmod u p + Int.tmod v p), ofInt p z))))))

/-- Reading and writing the four entries `q`, `q + h`, `q + 2h`, `q + 3h` (ntt.hpp:91-101, 129-140; `h` is `m/2`). -/
def at4 (h q : Nat) (bf : Nat → Nat → Nat → Nat → Option (Nat × Nat × Nat × Nat)) (f : List Nat) : Option (List Nat) :=
  (f[q]?).bind (fun a => (f[q+h]?).bind (fun b => (f[q+2*h]?).bind (fun c => (f[q+3*h]?).bind (fun d =>
    (bf a b c d).bind (fun r =>
      (wr f q r.1).bind (fun f => (wr f (q+h) r.2.1).bind (fun f => (wr f (q+2*h) r.2.2.1).bind (fun f =>
        wr f (q+3*h) r.2.2.2))))))))

/-- ntt.hpp:91-103 and 129-142: one round of the innermost loop; the state is `w`, `x` and the vector. -/
def step4 (p h w0 w1 q : Nat) (bf : Nat → Nat → Nat → Nat → Nat → Nat → Option (Nat × Nat × Nat × Nat))
    (s : Nat × Nat × List Nat) : Option (Nat × Nat × List Nat) :=
  (at4 h q (bf s.1 s.2.1) s.2.2).bind (fun f =>
    (mul p s.1 w0).bind (fun w => (mul p s.2.1 w1).map (fun x => (w, x, f))))

/-- ntt.hpp:88-105 and 126-144: the loop over the chunks (`m` is a power of two, at least 2; `k*m/2` is `k*(m/2)`). -/
def pass4 (p n m w0 w1 : Nat) (bf : Nat → Nat → Nat → Nat → Nat → Nat → Option (Nat × Nat × Nat × Nat)) (f : List Nat) : Option (List Nat) :=
  forRange 0 (rounds n (2*m)) (fun c f =>
    (forRange 0 (m/2) (fun i => step4 p (m/2) w0 w1 (c * (2*m) + i) bf) (ofInt p 1, ofInt p 1, f)).map (fun s => s.2.2)) f

/-- ntt.hpp:86-105, for `log_m > 0`. -/
def fwdPass4 (p n logM : Nat) (co f : List Nat) : Option (List Nat) :=
  (co[logM]?).bind (fun w0 => (co[logM-1]?).bind (fun w1 => (pow p w0 (2^logM/2)).bind (fun wh =>
    pass4 p n (2^logM) w0 w1 (fun w x => fwdBf p w wh x) f)))

/-- ntt.hpp:70-107: the loop over `log_m`; the first argument is `log_m + 1`. -/
def fwdLoop (p n : Nat) (co : List Nat) : Nat → List Nat → Option (List Nat)
  | 0, f => some f
  | 1, f => (co[0]?).bind (fun w0 => fwdPass2 p n 1 w0 f)
  | t+2, f => (fwdPass4 p n (t+1) co f).bind (fwdLoop p n co t)

/-- ntt.hpp:112-116. -/
def inv2 (p q : Nat) (f : List Nat) : Option (List Nat) :=
  (f[q]?).bind (fun a => (f[q+1]?).bind (fun b => (wr f q (add p a b)).bind (fun f => wr f (q+1) (sub p a b))))

/-- ntt.hpp:111-117. -/
def invPass2 (p n : Nat) (f : List Nat) : Option (List Nat) := forRange 0 (rounds n 2) (fun c => inv2 p (c*2)) f

/-- ntt.hpp:134-140: the arithmetic of one radix-4 butterfly of the inverse transform. -/
def invBf (p w wh x a b c d : Nat) : Option (Nat × Nat × Nat × Nat) :=
  (ll ((b : Int) * w)).bind (fun b =>
  (ll ((d : Int) * w)).bind (fun d =>
  (ll ((c + Int.tmod d p) * x)).bind (fun u =>
  (ll ((c - Int.tmod d p + p) * x)).bind (fun v =>
  (ll (Int.tmod v p * wh)).map (fun v =>
    (ofInt p (a + Int.tmod b p + Int.tmod u p), ofInt p (a - Int.tmod b p + p + Int.tmod v p),
     ofInt p (a + Int.tmod b p - Int.tmod u p), ofInt p (a - Int.tmod b p + p - Int.tmod v p)))))))

/-- ntt.hpp:122-144. -/
def invPass4 (p n logM : Nat) (co f : List Nat) : Option (List Nat) :=
  (co[logM]?).bind (fun w0 => (co[logM+1]?).bind (fun w1 => (pow p w1 (2^(logM+1)/2)).bind (fun wh =>
    pass4 p n (2^(logM+1)) w0 w1 (fun w x => invBf p w wh x) f)))

/-- ntt.hpp:109-145. -/
def invLoop (p n logn : Nat) (co f : List Nat) : Option (List Nat) :=
  (if logn % 2 = 1 then (invPass2 p n f).map (fun f => (1, f)) else some (0, f)).bind (fun s =>
    forRange 0 (rounds (logn - s.1) 2) (fun r => invPass4 p n (s.1 + 2*r) co) s.2)

/-- ntt.hpp:151: one round. -/
def scaleStep (p c i : Nat) (f : List Nat) : Option (List Nat) :=
  (f[i]?).bind (fun a => (mul p a c).bind (fun y => wr f i y))

/-- ntt.hpp:150-151. -/
def scale (p n : Nat) (f : List Nat) : Option (List Nat) :=
  (inv p (ofInt p n)).bind (fun c => forRange 0 n (scaleStep p c) f)

/-- `f.resize(n, 0)` on `Modular`. -/
def resize (p n : Nat) (f : List Nat) : List Nat := f.take n ++ List.replicate (n - f.length) (ofInt p 0)

/-- ntt.hpp:57-153 with `Forward = true`. -/
def fft (p g : Nat) (bitrev : Bool) (f : List Nat) : Option (List Nat) :=
  (ceilPow2 f.length).bind (fun k =>
    if logN p < k then none
    else (shl k).bind (fun n =>
      (coeff p g true).bind (fun co =>
        (fwdLoop p n co k (resize p n f)).bind (fun f => if bitrev then bitReverse f else some f))))

/-- ntt.hpp:57-153 with `Forward = false`. -/
def ifft (p g : Nat) (bitrev : Bool) (f : List Nat) : Option (List Nat) :=
  (ceilPow2 f.length).bind (fun k =>
    if logN p < k then none
    else (shl k).bind (fun n =>
      (if bitrev then bitReverse (resize p n f) else some (resize p n f)).bind (fun f =>
        (coeff p g false).bind (fun co =>
          (invLoop p n k co f).bind (scale p n)))))

/-- ntt.hpp:177-181. -/
def ntt (p g : Nat) (f : List Nat) : Option (List Nat) := fft p g true f
/-- ntt.hpp:186-190. -/
def intt (p g : Nat) (f : List Nat) : Option (List Nat) := ifft p g true f
/-- ntt.hpp:192-200. -/
def nttConv (p g : Nat) (f : List Nat) : Option (List Nat) := fft p g false f
/-- ntt.hpp:201-209. -/
def inttConv (p g : Nat) (f : List Nat) : Option (List Nat) := ifft p g false f

/-! ### `convolution.hpp` on `Modular` -/

/-- `h[k] += x * y` (convolution.hpp:16, 20, 74, 76). -/
def addMul (p k x y : Nat) (h : List Nat) : Option (List Nat) :=
  (mul p x y).bind (fun z => (h[k]?).bind (fun a => wr h k (add p a z)))

/-- convolution.hpp:7-23. -/
def convNaive (p : Nat) (f g : List Nat) : Option (List Nat) :=
  if f.length = 0 ∨ g.length = 0 then some []
  else if f.length < g.length then
    forRange 0 g.length (fun j => forRange 0 f.length (fun i h =>
      (f[i]?).bind (fun x => (g[j]?).bind (fun y => addMul p (i+j) x y h)))) (List.replicate (f.length + g.length - 1) 0)
  else
    forRange 0 f.length (fun i => forRange 0 g.length (fun j h =>
      (f[i]?).bind (fun x => (g[j]?).bind (fun y => addMul p (i+j) x y h)))) (List.replicate (f.length + g.length - 1) 0)

/-- convolution.hpp:117-135 (`convolution`, with the call of `convolution_fft`, i.e. `convolution_ntt`, as a parameter). -/
def convWith (p : Nat) (rec : List Nat → List Nat → Option (List Nat)) (f g : List Nat) : Option (List Nat) :=
  if f.length = 0 ∨ g.length = 0 then some []
  else if min f.length g.length ≤ 60 then convNaive p f g
  else rec f g

/-- convolution.hpp:78-79: `h[i] += fg[i]`. -/
def addStep (p : Nat) (fg : List Nat) (i : Nat) (h : List Nat) : Option (List Nat) :=
  (fg[i]?).bind (fun y => (h[i]?).bind (fun a => wr h i (add p a y)))

/-- convolution.hpp:68-81: the last coefficients are split off (`f.back()` of an empty vector is undefined). -/
def convPeel (p : Nat) (rec : List Nat → List Nat → Option (List Nat)) (f g : List Nat) : Option (List Nat) :=
  (f.getLast?).bind (fun fb => (g.getLast?).bind (fun gb =>
    (mul p fb gb).bind (fun z =>
    (wr (List.replicate (f.length + g.length - 1) (ofInt p 0)) (f.length + g.length - 2) z).bind (fun h =>
    (forRange 0 (f.length - 1) (fun i h => (f.dropLast[i]?).bind (fun x => addMul p (i + g.length - 1) x gb h)) h).bind (fun h =>
    (forRange 0 (g.length - 1) (fun i h => (g.dropLast[i]?).bind (fun x => addMul p (i + f.length - 1) x fb h)) h).bind (fun h =>
    (convWith p rec f.dropLast g.dropLast).bind (fun fg =>
      forRange 0 fg.length (addStep p fg) h)))))))

/-- convolution.hpp:88, 92: `f[i] *= g[i]`. -/
def mulStep (p : Nat) (g : List Nat) (i : Nat) (f : List Nat) : Option (List Nat) :=
  (f[i]?).bind (fun x => (g[i]?).bind (fun y => (mul p x y).bind (fun z => wr f i z)))

/-- convolution.hpp:82-95. -/
def convMain (p r l : Nat) (f g : List Nat) : Option (List Nat) :=
  (nttConv p r (resize p l f)).bind (fun a =>
    (if resize p l f = resize p l g then forRange 0 l (fun i f => (f[i]?).bind (fun x => (mul p x x).bind (fun z => wr f i z))) a
     else (nttConv p r (resize p l g)).bind (fun b => forRange 0 l (mulStep p b) a)).bind (fun c => inttConv p r c))

/-- convolution.hpp:65-96 (`convolution_ntt`); sizes are `size_t`; the first argument bounds the depth of the recursion. -/
def convNtt (p r : Nat) : Nat → List Nat → List Nat → Option (List Nat)
  | 0, _, _ => none
  | t+1, f, g =>
    (ceilPow2 ((f.length + g.length + 2^64 - 1) % 2^64)).bind (fun k => (shl k).bind (fun l =>
      if (f.length + g.length + 2^64 - 3) % 2^64 < l / 2 then convPeel p (convNtt p r t) f g
      else convMain p r l f g))

/-- convolution.hpp:117-135 (`convolution`). -/
def conv (p r : Nat) (f g : List Nat) : Option (List Nat) := convWith p (convNtt p r (f.length + 1)) f g

end Verif.Ntt
