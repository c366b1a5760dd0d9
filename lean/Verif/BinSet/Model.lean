import Verif.Rrr.Props
/-!
Model of `/repo/include/mtl/succinct/binary_set.hpp`: `BinarySet` and `BinaryMultiset` over `RRR<s>` (the default, with any block size) and its `BV`.

`BV` reads the words of the `RRR` through `get_word`; the model reads all of them once (`Rrr.src`).
-/
namespace Verif.BinSet
open Verif Verif.BitManip Verif.Succinct

def u32 (x : Nat) : Nat := x % 2^32

/-- A `size_t` subtraction. -/
def wsub (x y : Nat) : Nat := (x + 2^64 - y) % 2^64

/-- binary_set.hpp:15-17, 76-78: `bm_`, `rs_` and `size_`, after `build()`. -/
structure St where
  s : Nat
  tb : List (List Nat)
  r : Rrr.Rrr
  sr : Src
  bv : Bv
  size : Nat

/-- `bm_.set(p, 1)` for the positions `ps`, then `bm_.build()` and `rs_.build(&bm_)`; `size_` comes from the argument. -/
def mk (s : Nat) (ps : List Nat) (size : Src → Bv → Option Nat) : Option St :=
  (Rrr.mkTable s).bind fun tb => (Rrr.build tb s (Rrr.setAll s (ps.map fun p => (p, true)))).bind fun r => (Rrr.src tb s r).bind fun sr =>
  (build s sr).bind fun bv => (size sr bv).map fun n => ⟨s, tb, r, sr, bv, n⟩

/-- rrr.hpp:314-316. -/
def St.bmSize (t : St) : Nat := TY.size t.r.heads * t.s

/-! ### BinarySet -/

/-- :43-50: `insert` of every element of `xs`, then `build()`. -/
def setBuild (s : Nat) (xs : List Nat) : Option St := mk s xs fun sr bv => rank1 s sr bv sr.n

/-- :53-55 -/
def contains (t : St) (x : Nat) : Option Bool := Rrr.get t.tb t.s t.r x

/-- :63-65 -/
def rank (t : St) (x : Nat) : Option Nat := if x < t.bmSize then rank1 t.s t.sr t.bv x else some t.size

/-- :66-68 -/
def get (t : St) (i : Nat) : Option Nat := if i < t.size then (selectB t.s t.sr t.bv true i).map u32 else some (u32 t.bmSize)

/-- :56-59 -/
def lowerBound (t : St) (x : Nat) : Option Nat := (contains t x).bind fun c => if c then some x else (rank t x).bind (get t)

/-- :60-62 -/
def upperBound (t : St) (x : Nat) : Option Nat := lowerBound t (u32 (x + 1))

/-! ### BinaryMultiset -/

/-- :110-123: `insert` of every element of `xs`, then `build()`.  `std::sort` is `List.mergeSort`. -/
def multiBuild (s : Nat) (xs : List Nat) : Option St :=
  mk s ((xs.mergeSort (fun a b => decide (a ≤ b))).zipIdx.map fun p => p.1 + p.2) fun _ _ => some xs.length

/-- :126-129 -/
def mcount (t : St) (x : Nat) : Option Nat :=
  (selectB t.s t.sr t.bv false x).bind fun a => if x = 0 then some a else (selectB t.s t.sr t.bv false (x-1)).map fun b => wsub a (b + 1)

/-- :130-133 -/
def mcontains (t : St) (x : Nat) : Option Bool :=
  (selectB t.s t.sr t.bv false x).bind fun a => if a = 0 then some false else Rrr.get t.tb t.s t.r (a - 1)

/-- :140-142 -/
def mrank (t : St) (x : Nat) : Option Nat :=
  if x ≤ wsub t.bmSize t.size then if x = 0 then some 0 else (selectB t.s t.sr t.bv false (x-1)).map fun a => wsub a (x - 1) else some t.size

/-- :143-145 -/
def mget (t : St) (i : Nat) : Option Nat := (selectB t.s t.sr t.bv true i).map fun a => u32 (wsub a i)

/-- :134-136 -/
def mlower (t : St) (x : Nat) : Option Nat := (mrank t x).bind (mget t)

/-- :137-139 -/
def mupper (t : St) (x : Nat) : Option Nat := mlower t (u32 (x + 1))

end Verif.BinSet
