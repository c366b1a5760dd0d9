import Verif.Common.Vec
/-!
Model of `/repo/include/mtl/modular.hpp`: `Modular<MOD>` and `DynamicModular<Id>`.

The member functions modelled here are textually identical in the two classes; the parameter `m` is `mod()`.
`val_` is an `unsigned int`: a natural number below `2^32`, with wrap-around written out.  Products are formed in `long long`;
signed overflow is `none`.
-/
namespace Verif.Modular

/-- Wrap-around of `unsigned int`. -/
def u32 (x : Nat) : Nat := x % 2^32

/-- A `long long` result; overflow is undefined. -/
def i64 (x : Nat) : Option Nat := if x < 2^63 then some x else none

/-- modular.hpp:13-18 and 30 (`safe_mod`, the constructor from signed types): `%` truncates towards zero. -/
def ofInt (m : Nat) (v : Int) : Nat :=
  let x := Int.tmod v m
  (if x < 0 then x + m else x).toNat

/-- modular.hpp:25 (the constructor from unsigned types). -/
def ofNat (m v : Nat) : Nat := v % m

/-- `if (val_ >= mod()) val_ -= mod();` -/
def fold (m v : Nat) : Nat := if m ≤ v then v - m else v

/-- modular.hpp:33-37. -/
def add (m a b : Nat) : Nat := fold m (u32 (a + b))

/-- modular.hpp:38: `{mod() - val_}` in unsigned arithmetic, then the constructor. -/
def neg (m a : Nat) : Nat := ofNat m (u32 (m + 2^32 - a))

/-- modular.hpp:39-43. -/
def sub (m a b : Nat) : Nat := fold m (u32 (a + u32 (m + 2^32 - b)))

/-- modular.hpp:44-49. -/
def mul (m a b : Nat) : Option Nat := (i64 (a * b)).map (fun v => u32 (if m ≤ v then v % m else v))

/-- modular.hpp:54-59, with at most 64 rounds for a `long long` exponent. -/
def powLoop (m : Nat) : Nat → Nat → Nat → Nat → Option Nat
  | 0, _, _, _ => none
  | f+1, p, t, u =>
    if p = 0 then some t
    else (if p % 2 = 1 then mul m t u else some t).bind (fun t => (mul m u u).bind (fun u => powLoop m f (p / 2) t u))

/-- modular.hpp:50-61. -/
def pow (m a p : Nat) : Option Nat := powLoop m 64 p (ofInt m 1) a

/-- modular.hpp:65 (`mod()-2` in unsigned arithmetic). -/
def inv (m a : Nat) : Option Nat := pow m a (u32 (m + 2^32 - 2))

/-- modular.hpp:66 and 70. -/
def div (m a b : Nat) : Option Nat := (inv m b).bind (fun c => mul m a c)

/-! ### `ModularUtil` (modular.hpp:265-285) -/

/-- modular.hpp:276-277: one new table entry. -/
def invEntry (m i : Nat) (tb : List Nat) : Option (List Nat) :=
  (tb[m % i]?).bind (fun x => (mul m (neg m x) (ofInt m (m / i : Nat))).bind (fun y => wr tb i y))

/-- modular.hpp:272-278 (`resize` fills with zeros). -/
def setInv (m n : Nat) (tb : List Nat) : Option (List Nat) :=
  if n < tb.length then some tb
  else forRange tb.length (n+1) (invEntry m) (tb ++ List.replicate (n + 1 - tb.length) 0)

/-- modular.hpp:279-282: the returned value and the table afterwards. -/
def tableInv (m i : Nat) (tb : List Nat) : Option (Nat × List Nat) :=
  (setInv m i tb).bind (fun tb => (tb[i]?).map (fun v => (v, tb)))

/-- modular.hpp:268-271: the initial table `{0, 1}`. -/
def table0 (m : Nat) : List Nat := [ofInt m 0, ofInt m 1]

end Verif.Modular
