import Verif.Common.Vec
/-!
Model of `ArbitraryModBinomial` (`/repo/include/mtl/arbitrary_mod_binomial.hpp`).

`n` and the modulus are natural numbers (negative arguments are outside the model).  `none` = out-of-range access, negative vector size, overflow of `int`, or an
endless loop.  The test for coprimality (lines 8-19) is `Nat.gcd`.
-/
namespace Verif.AmBinom

/-- Lines 45-54: the object of the sieve: `isn_p`, `P`, `d`, `k`. -/
structure Sv where
  isn : List Bool
  P : List Nat
  d : List Nat
  k : Nat

/-- Lines 48-49 and 52-53: `a[v] = x` for the multiples `v` of `i` from `v` on; the first argument bounds the number of steps. -/
def mark {α : Type} (n i : Nat) (x : α) : Nat → Nat → List α → Option (List α)
  | 0, _, _ => none
  | t+1, v, a => if n < v then some a else (wr a v x).bind (mark n i x t (v+i))

/-- Lines 46-54: one round. -/
def sieveStep (n md i : Nat) (s : Sv) : Option Sv :=
  (s.isn[i]?).bind (fun b => if b then some s else
    (mark n i true (n+1) (i+i) s.isn).bind (fun isn => if md % i ≠ 0 then some { s with isn := isn } else
      (wr s.P (s.k+1) i).bind (fun P => (mark n i (s.k+1) (n+1) i s.d).map (fun d => ⟨isn, P, d, s.k+1⟩))))

/-- An `int` product. -/
def imul (a b : Int) : Option Int := if -2^31 ≤ a * b ∧ a * b < 2^31 then some (a * b) else none

/-- Lines 103-107; the first argument bounds the number of rounds (an exponent of `-1` never becomes zero). -/
def modInvLoop (md : Int) : Nat → Int → Int → Int → Option Int
  | 0, _, _, _ => none
  | f+1, p, t, u => if p = 0 then some t else
      (if p % 2 = 1 then (imul t u).map (fun x => x.tmod md) else some t).bind (fun t =>
        (imul u u).bind (fun v => modInvLoop md f (p / 2) t (v.tmod md)))

/-- Lines 99-109 (`mod_inv`). -/
def modInv (md x : Nat) : Option Int := modInvLoop md 64 (md - 2) 1 x

/-- Lines 58-59: one round. -/
def invStep (md : Nat) (i : Nat) (inv : List Int) : Option (List Int) :=
  (inv[i+1]?).bind (fun x => wr inv i ((x * (i+1)).tmod md))

/-- Lines 67-70: one round; the state is `(v, ptb)`. -/
def ptbCell (md : Nat) (w : Nat) (i : Nat) (pi : Int) (j : Nat) (s : Int × List Int) : Option (Int × List Int) :=
  (imul s.1 pi).bind (fun v => (wr s.2 (i*w + j) (v.tmod md)).map (fun ptb => (v.tmod md, ptb)))

/-- Lines 63-71: one round. -/
def ptbRow (n md w : Nat) (P : List Nat) (i : Nat) (ptb : List Int) : Option (List Int) :=
  (P[i]?).bind (fun pi => if (pi : Int) - 1 = 0 then none else
    (wr ptb (i*w) 1).bind (fun ptb => (forRange 1 (Int.tdiv n (pi - 1) + 1).toNat (ptbCell md w i pi) (1, ptb)).map Prod.snd))

/-- Lines 80-83; the first argument bounds the number of rounds. -/
def splitLoop (P d : List Nat) : Nat → Nat → List Int → Option (Nat × List Int)
  | 0, _, _ => none
  | f+1, x, q => (d[x]?).bind (fun c => if c = 0 then some (x, q) else
      (q[c]?).bind (fun y => (wr q c (y+1)).bind (fun q => (P[c]?).bind (fun pc => if pc = 0 then none else splitLoop P d f (x/pc) q))))

/-- Lines 75-85 (`make_st`). -/
def makeSt (P d : List Nat) (k : Nat) : Option (Nat × List Int) :=
  if k = 0 then some (1, List.replicate 10 0) else splitLoop P d (k+1) k (List.replicate 10 0)

/-- Lines 91-92 and 95-96. -/
def addAll (sgn : Int) (nt : List Int) (t : List Int) : Option (List Int) :=
  forRange 1 10 (fun i t => (t[i]?).bind (fun x => (nt[i]?).bind (fun y => wr t i (x + sgn * y)))) t

/-- Lines 97-99. -/
def product (md w : Nat) (ptb t : List Int) (s : Int) : Option Int :=
  forRange 1 10 (fun i x => (t[i]?).bind (fun e => if (i*w : Int) + e < 0 then none else
    (ptb[((i*w : Int) + e).toNat]?).map (fun y => (x * y).tmod md))) s

/-- Lines 89-100: one round; the state is `(s, t, st_)`. -/
def step (n md w : Nat) (P d : List Nat) (inv ptb : List Int) (k : Nat) (s : Int × List Int × List Int) : Option (Int × List Int × List Int) :=
  (makeSt P d (n - k + 1)).bind (fun a => (addAll 1 a.2 s.2.1).bind (fun t => (makeSt P d k).bind (fun b => (inv[b.1]?).bind (fun iv =>
    (addAll (-1) b.2 t).bind (fun t => (product md w ptb t (((s.1 * a.1).tmod md * iv).tmod md)).bind (fun x =>
      (wr s.2.2 k x).map (fun st => (((s.1 * a.1).tmod md * iv).tmod md, t, st))))))))

/-- Lines 60-62: `h` and `w`, the dimensions of `ptb`. -/
def table (h : Nat) (w : Int) : Option (List Int) := if h * w < 0 then none else some (List.replicate (h * w).toNat 0)

/-- Lines 39-101: the constructor; the result is `st_`. -/
def build (n md : Nat) : Option (List Int) :=
  if Nat.gcd n md ≠ 1 then some (List.replicate ((n+1)/2) 0) else
    (forRange 2 (n+1) (sieveStep n md) ⟨List.replicate (n+1) false, List.replicate 10 0, List.replicate (n+1) 0, 0⟩).bind (fun sv =>
      (modInv md ((n+1)/2)).bind (fun iv => (wr (List.replicate ((n+1)/2 + 1) 0) ((n+1)/2) iv).bind (fun inv =>
        (forRangeDown 1 ((n+1)/2) (invStep md) inv).bind (fun inv => (sv.P[1]?).bind (fun (p1 : Nat) => if (p1 : Int) - 1 = 0 then none else
          (table (sv.k+1) (Int.tdiv n (p1 - 1) + 1)).bind (fun ptb =>
            (forRange 1 10 (ptbRow n md (Int.tdiv n (p1 - 1) + 1).toNat sv.P) ptb).bind (fun ptb =>
              (wr (List.replicate ((n+1)/2) 0) 0 1).bind (fun st =>
                (forRange 1 ((n+1)/2 + 1) (step n md (Int.tdiv n (p1 - 1) + 1).toNat sv.P sv.d inv ptb) (1, List.replicate 10 0, st)).map (fun s => s.2.2)))))))))

/-- Lines 110-115: `operator()`, whose assertion is `enabled()`. -/
def binom (n md : Nat) (st : List Int) (m : Nat) : Option Int :=
  if Nat.gcd n md ≠ 1 then none else if m * 2 > n then st[n - m]? else st[m]?

end Verif.AmBinom
