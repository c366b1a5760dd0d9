import Verif.BitManip.Model
import Verif.Modular.Model
/-!
Model of `math::primitive_root_constexpr` (`/repo/include/mtl/modular.hpp:291-343`).  `int` values are naturals below `2^31`; overflow of `int` or `long long`, a write
behind the 20 entries of `divs`, a division by 0 and an endless loop are `none`.
-/
namespace Verif.PrimRoot
open Verif.Modular (i64)

/-- An `int` result. -/
def i32 (x : Nat) : Option Nat := if x < 2^31 then some x else none

/-- modular.hpp:294-302; the first argument bounds the rounds. -/
def powLoop (m : Nat) : Nat → Nat → Nat → Nat → Option Nat
  | 0, _, _, _ => none
  | f+1, p, t, u =>
      if p = 0 then some t
      else if m = 0 then none
      else (if p % 2 = 1 then (i64 (t * u)).map (fun t => t % m) else some t).bind (fun t =>
        (i64 (u * u)).bind (fun u => powLoop m f (p / 2) t (u % m)))

/-- :291-304 (`mod_pow_constexpr`) -/
def modPow (x p m : Nat) : Option Nat := powLoop m (p + 1) p 1 x

/-- `divs[cnt++] = d` on an array of 20. -/
def push (ds : List Nat) (d : Nat) : Option (List Nat) := if ds.length < 20 then some (ds ++ [d]) else none

/-- :324-325 -/
def divOut (d : Nat) : Nat → Nat → Option Nat
  | 0, _ => none
  | f+1, x => if d = 0 then none else if x % d = 0 then divOut d f (x / d) else some x

/-- :321-327: `x`, `divs` at the end. -/
def trial : Nat → Nat → Nat → List Nat → Option (Nat × List Nat)
  | 0, _, _, _ => none
  | f+1, d, x, ds =>
      (i32 (d * d)).bind (fun dd =>
        if dd ≤ x then
          if x % d = 0 then (push ds d).bind (fun ds => (divOut d (x + 1) x).bind (fun x => trial f (d + 2) x ds))
          else trial f (d + 2) x ds
        else some (x, ds))

/-- :314-328: the divisors. -/
def divisors (m : Nat) : Option (List Nat) :=
  (if (m - 1) % 2 = 0 then (push [] 2).map (fun ds => ((m - 1) / 2^(BitManip.ctz (m - 1)), ds)) else some (m - 1, [])).bind (fun s =>
    (trial m 3 s.1 s.2).bind (fun t => if 1 < t.1 then push t.2 t.1 else some t.2))

/-- :330-336: `ok` -/
def test (m g : Nat) : List Nat → Option Bool
  | [] => some true
  | d :: ds => if d = 0 then none else (modPow g ((m - 1) / d) m).bind (fun r => if r = 1 then some false else test m g ds)

/-- :329-339, with `n` rounds left. -/
def search (m : Nat) (ds : List Nat) : Nat → Nat → Option Int
  | 0, _ => some (-1)
  | n+1, g => (test m g ds).bind (fun ok => if ok then some (g : Int) else search m ds n (g + 1))

/-- :306-340 (`primitive_root_constexpr`) -/
def primRoot (m : Nat) : Option Int :=
  if m = 2 then some 1
  else if m = 167772161 then some 3
  else if m = 469762049 then some 3
  else if m = 754974721 then some 11
  else if m = 880803841 then some 26
  else if m = 998244353 then some 3
  else (divisors m).bind (fun ds => search m ds (m - 2) 2)

end Verif.PrimRoot
