/-!
Model of `/repo/include/mtl/bit_manip.hpp`: the portable branch (before C++20; the other branch calls `std::popcount` etc.).

`uint64_t` values are natural numbers below `2^64`, with wrap-around written out; `none` is a failed `assert` or a shift by 64 or more.
-/
namespace Verif.BitManip

/-- Wrap-around of `uint64_t`. -/
def u64 (x : Nat) : Nat := x % 2^64

/-- bit_manip.hpp:14-19. -/
def popcntE8 (x : Nat) : Nat :=
  let x := u64 ((x &&& 0x5555555555555555) + ((x >>> 1) &&& 0x5555555555555555))
  let x := u64 ((x &&& 0x3333333333333333) + ((x >>> 2) &&& 0x3333333333333333))
  u64 ((x &&& 0x0F0F0F0F0F0F0F0F) + ((x >>> 4) &&& 0x0F0F0F0F0F0F0F0F))

/-- bit_manip.hpp:21-27. -/
def popcnt (x : Nat) : Nat := u64 (popcntE8 x * 0x0101010101010101) >>> 56

/-- `-x` on `uint64_t`. -/
def neg (x : Nat) : Nat := u64 (2^64 - x)

/-- `~x` on `uint64_t`. -/
def compl (x : Nat) : Nat := 2^64 - 1 - x

/-- bit_manip.hpp:33-39. -/
def ctz (x : Nat) : Nat := popcnt (u64 ((x &&& neg x) + 2^64 - 1))

/-- bit_manip.hpp:45-51. -/
def cto (x : Nat) : Nat := ctz (compl x)

/-- bit_manip.hpp:56-58 (`x` a byte, promoted to `int`; `x & -x` is the same number in 64 bits). -/
def ctz8 (x : Nat) : Nat := if x = 0 then 8 else popcntE8 ((x &&& neg x) - 1)

/-- bit_manip.hpp:60-70. -/
def summary (x : Nat) : Nat :=
  let a := x &&& 0x8080808080808080
  let b := x &&& 0x7F7F7F7F7F7F7F7F
  let b := u64 (0x8080808080808080 + 2^64 - b)
  let b := compl b
  let c := (a ||| b) &&& 0x8080808080808080
  let c := u64 (c * 0x0002040810204081)
  (c >>> 56) % 256

/-- bit_manip.hpp:72-75. -/
def bextr (x start len : Nat) : Option Nat :=
  if start < 64 then some ((x >>> start) &&& (if len < 64 then 2^len - 1 else 0xFFFFFFFFFFFFFFFF)) else none

/-- bit_manip.hpp:77-86 (`x` a byte). -/
def log2p1 (x : Nat) : Nat :=
  if x &&& 0x80 ≠ 0 then 8
  else
    let p := u64 (x * 0x0101010101010101)
    let p := u64 (p + 2^64 - 0x8040201008040201)
    let p := compl p &&& 0x8080808080808080
    let p := u64 ((p >>> 7) * 0x0101010101010101)
    p >>> 56

/-- bit_manip.hpp:88-91. -/
def mssb8 (x : Nat) : Option Nat := if x = 0 then none else some (log2p1 x - 1)

/-- bit_manip.hpp:93-96. -/
def lssb8 (x : Nat) : Option Nat := if x = 0 then none else some (popcntE8 ((x &&& neg x) - 1))

/-- bit_manip.hpp:98-108. -/
def clz (x : Nat) : Option Nat :=
  if x = 0 then some 64
  else (mssb8 (summary x)).bind (fun i => (bextr x (8*i) 8).bind (fun b => (mssb8 b).map (fun j => 63 - (8*i + j))))

/-- bit_manip.hpp:114-120. -/
def clo (x : Nat) : Option Nat := clz (compl x)

/-- bit_manip.hpp:126-128. -/
def clz8 (x : Nat) : Option Nat := if x = 0 then some 8 else (mssb8 x).map (fun j => 7 - j)

/-- One line of bit_manip.hpp:130-135. -/
def revStep (lo hi s x : Nat) : Nat := u64 ((x &&& lo) <<< s) ||| ((x &&& hi) >>> s)

/-- bit_manip.hpp:129-137. -/
def bitReverse (x : Nat) : Nat :=
  let x := revStep 0x00000000FFFFFFFF 0xFFFFFFFF00000000 32 x
  let x := revStep 0x0000FFFF0000FFFF 0xFFFF0000FFFF0000 16 x
  let x := revStep 0x00FF00FF00FF00FF 0xFF00FF00FF00FF00 8 x
  let x := revStep 0x0F0F0F0F0F0F0F0F 0xF0F0F0F0F0F0F0F0 4 x
  let x := revStep 0x3333333333333333 0xCCCCCCCCCCCCCCCC 2 x
  revStep 0x5555555555555555 0xAAAAAAAAAAAAAAAA 1 x

/-- bit_manip.hpp:140-146. -/
def hasSingleBit (x : Nat) : Bool := x != 0 && (x &&& u64 (x + 2^64 - 1)) == 0

/-- bit_manip.hpp:149-155. -/
def bitWidth (x : Nat) : Option Nat := (clz x).map (fun k => 64 - k)

/-- `1ull << k`. -/
def shl1 (k : Nat) : Option Nat := if k < 64 then some (2^k) else none

/-- bit_manip.hpp:158-165. -/
def bitCeil (x : Nat) : Option Nat := if x = 0 then some 1 else (bitWidth (x-1)).bind shl1

/-- bit_manip.hpp:168-175. -/
def bitFloor (x : Nat) : Option Nat := if x = 0 then some 0 else (bitWidth x).bind (fun w => shl1 (w-1))

end Verif.BitManip
