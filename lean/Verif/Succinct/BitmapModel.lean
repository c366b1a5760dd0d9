import Verif.Common.Vec
/-!
Model of `/repo/include/mtl/succinct/bitmap.hpp` (`Bitmap`).  Words are `BitVec 64`; `none` is undefined behaviour (out-of-range access, shift by 64
or more, failed assertion) or `size_t` wrap-around.
-/
namespace Verif.Succinct

abbrev W := BitVec 64

/-- bitmap.hpp:14-15 -/
structure Bm where
  arr : List W
  sz : Nat

/-- :16-18 -/
def req (n : Nat) : Nat := (n + 63) / 64
/-- :19-21 -/
def fill (bit : Bool) : W := if bit then BitVec.allOnes 64 else 0#64

/-- :22-23 -/
def Bm.mk' (n : Nat) (bit : Bool) : Bm := ⟨List.replicate (req n) (fill bit), n⟩

/-- :40-51 (`push_back`) -/
def Bm.pushBack (s : Bm) (bit : Bool) : Option Bm :=
  if s.sz % 64 = 0 then some ⟨s.arr ++ [if bit then 1#64 else 0#64], s.sz + 1⟩
  else (s.arr[s.arr.length - 1]?).bind (fun w =>
    (wr s.arr (s.arr.length - 1) (if bit then w ||| (1#64 <<< (s.sz % 64)) else w &&& ~~~(1#64 <<< (s.sz % 64)))).map (fun a => ⟨a, s.sz + 1⟩))

/-- :24-35: construction from a range. -/
def Bm.ofList : Bm → List Bool → Option Bm
  | s, [] => some s
  | s, b :: l => (s.pushBack b).bind (fun s => Bm.ofList s l)

/-- :52-54 (`pop_back`) -/
def Bm.popBack (s : Bm) : Option Bm := if s.sz = 0 then none else some ⟨s.arr, s.sz - 1⟩

/-- `std::vector::resize` -/
def vresize (a : List W) (n : Nat) (x : W) : List W := if n ≤ a.length then a.take n else a ++ List.replicate (n - a.length) x

/-- :63-69: the partial word at the old end. -/
def fixWord (a : List W) (old : Nat) (bit : Bool) : Option (List W) :=
  if old % 64 = 0 then some a
  else (a[old / 64]?).bind (fun w => wr a (old / 64) (if bit then w ||| ~~~((1#64 <<< (old % 64)) - 1#64) else w &&& ((1#64 <<< (old % 64)) - 1#64)))

/-- :55-70 (`resize`) -/
def Bm.resize (s : Bm) (n : Nat) (bit : Bool) : Option Bm :=
  if n < s.sz then some ⟨s.arr, n⟩ else (fixWord (vresize s.arr (req n) (fill bit)) s.sz bit).map (fun a => ⟨a, n⟩)

/-- :71-74 (`assign`) -/
def Bm.assign (_ : Bm) (n : Nat) (bit : Bool) : Bm := Bm.mk' n bit

/-- :86-94, 128-130 (`operator[]`, `get`, conversion to `bool`). -/
def Bm.get (s : Bm) (i : Nat) : Option Bool := (s.arr[i / 64]?).map (fun w => (w &&& (1#64 <<< (i % 64))) != 0#64)

/-- :158-164: `reference::operator=(bool)`. -/
def Bm.put (s : Bm) (i : Nat) (b : Bool) : Option Bm :=
  (s.arr[i / 64]?).bind (fun w => (wr s.arr (i / 64) (if b then w ||| (1#64 <<< (i % 64)) else w &&& ~~~(1#64 <<< (i % 64)))).map (fun a => ⟨a, s.sz⟩))

/-- :165-169: `operator|=`. -/
def Bm.orAt (s : Bm) (i : Nat) (b : Bool) : Option Bm :=
  (s.arr[i / 64]?).bind (fun w => (wr s.arr (i / 64) (if b then w ||| (1#64 <<< (i % 64)) else w)).map (fun a => ⟨a, s.sz⟩))

/-- :170-174: `operator&=`. -/
def Bm.andAt (s : Bm) (i : Nat) (b : Bool) : Option Bm :=
  (s.arr[i / 64]?).bind (fun w => (wr s.arr (i / 64) (if b then w else w &&& ~~~(1#64 <<< (i % 64)))).map (fun a => ⟨a, s.sz⟩))

/-- :98-102 (`set`) -/
def Bm.set (s : Bm) (i : Nat) (b : Bool) : Option Bm := (if s.sz ≤ i then s.resize (i + 1) false else some s).bind (fun s => s.put i b)

/-- :282, 294: the mask of `range_set` and `range_get`. -/
def rmask (w : Nat) : W := if w < 64 then (1#64 <<< w) - 1#64 else BitVec.allOnes 64

/-- :278-288 (`range_set`) -/
def Bm.rangeSet (s : Bm) (b e : Nat) (x : W) : Option Bm :=
  if e ≤ b then some s
  else if x ≤ rmask (e - b) then
    (s.arr[b / 64]?).bind (fun w => (wr s.arr (b / 64) ((w &&& ~~~(rmask (e - b) <<< (b % 64))) ||| (x <<< (b % 64)))).bind (fun a =>
      if 64 < (e - b) + b % 64 then
        (a[b / 64 + 1]?).bind (fun w => (wr a (b / 64 + 1) ((w &&& ~~~(rmask (e - b) >>> (64 - b % 64))) ||| (x >>> (64 - b % 64)))).map (fun a => ⟨a, s.sz⟩))
      else some ⟨a, s.sz⟩))
  else none

/-- :289-299 (`range_get`) -/
def Bm.rangeGet (s : Bm) (b e : Nat) : Option W :=
  if e ≤ b then some 0#64
  else if e - b ≤ 64 then
    (s.arr[b / 64]?).bind (fun w =>
      if 64 < (e - b) + b % 64 then (s.arr[b / 64 + 1]?).map (fun (v : W) => ((w >>> (b % 64)) ||| (v <<< (64 - b % 64))) &&& rmask (e - b))
      else some ((w >>> (b % 64)) &&& rmask (e - b)))
  else none

/-! ### Iterators -/

/-- :199-201: word index and bit index (`unsigned`, so reduced modulo 2^32). -/
structure It where
  ptr : Int
  ctz : Nat
deriving DecidableEq

/-- :213-221 -/
def It.inc (i : It) : It := if i.ctz % 64 < 63 then ⟨i.ptr, i.ctz + 1⟩ else ⟨i.ptr + 1, 0⟩
/-- :227-235 -/
def It.dec (i : It) : It := if 0 < i.ctz % 64 then ⟨i.ptr, i.ctz - 1⟩ else ⟨i.ptr - 1, 63⟩
/-- :244-251: `+=` for non-negative `d` -/
def It.addN (i : It) (d : Nat) : It := if i.ctz + d % 64 < 64 then ⟨i.ptr + d / 64, i.ctz + d % 64⟩ else ⟨i.ptr + (d / 64 + 1), i.ctz + d % 64 - 64⟩
/-- :260-267: `-=` for non-negative `d`; `(ctz + 64 - r) - 64` is converted to `unsigned`. -/
def It.subN (i : It) (d : Nat) : It :=
  if d % 64 ≤ i.ctz then ⟨i.ptr - d / 64, i.ctz - d % 64⟩ else ⟨i.ptr - (d / 64 + 1), (((i.ctz : Int) + 64 - (d % 64 : Nat) - 64) % 2^32).toNat⟩
/-- :241-243 -/
def It.add (i : It) (d : Int) : It := if d < 0 then i.subN (-d).toNat else i.addN d.toNat
/-- :257-259 -/
def It.sub (i : It) (d : Int) : It := if d < 0 then i.addN (-d).toNat else i.subN d.toNat

/-- :202-204 and the conversion to `bool`: the shift by `ctz` is undefined from 64 on. -/
def Bm.deref (s : Bm) (i : It) : Option Bool :=
  if i.ctz < 64 ∧ 0 ≤ i.ptr then (s.arr[i.ptr.toNat]?).map (fun w => (w &&& (1#64 <<< i.ctz)) != 0#64) else none

/-- :110-111 -/
def Bm.begin : It := ⟨0, 0⟩
/-- :113-114 -/
def Bm.end (s : Bm) : It := ⟨(s.sz / 64 : Nat), s.sz % 64⟩

end Verif.Succinct
