import Verif.Succinct.BvProps
/-!
Model of `/repo/include/mtl/succinct/wavelet_matrix.hpp` (`WaveletMatrix<T>` over `Bitmap`).  Stored values are naturals below `2^64` (the constructor asserts
that they are not negative); values given as arguments are integers, as `T` may be signed.  `none` is undefined behaviour (out-of-range access, shift by 64 or
more, division by zero), a failed assertion or `size_t` wrap-around.
-/
namespace Verif.Wavelet
open Verif.BitManip Verif.Succinct

/-- wavelet_matrix.hpp:16-21; `rs_b` is the `BV` support over `B`. -/
structure WM where
  n : Nat
  h : Nat
  B : Bm
  bv : Bv
  RO : List Nat
  Z : List Nat

/-- bitmap.hpp:158-164 through an iterator (`*bit = b`). -/
def putIt (s : Bm) (i : It) (b : Bool) : Option Bm :=
  if i.ctz < 64 ∧ 0 ≤ i.ptr then
    (s.arr[i.ptr.toNat]?).bind (fun w => (wr s.arr i.ptr.toNat (if b then w ||| (1#64 <<< i.ctz) else w &&& ~~~(1#64 <<< i.ctz))).map (fun a => ⟨a, s.sz⟩))
  else none

/-- State of the loop in lines 45-52: `_B`, `bit`, `z`, `o`. -/
structure LSt where
  B : Bm
  it : It
  z : List Nat
  o : List Nat

/-- wavelet_matrix.hpp:46-51 -/
def scanBody (S : List Nat) (k i : Nat) (t : LSt) : Option LSt :=
  (S[i]?).bind (fun x => (putIt t.B t.it (x.testBit k)).map (fun B =>
    if x.testBit k then ⟨B, t.it.inc, t.z, t.o ++ [x]⟩ else ⟨B, t.it.inc, t.z ++ [x], t.o⟩))

/-- :55-62: `while (!v.empty()) { S[--j] = v.back(); v.pop_back(); }`; the list is `v` from the back. -/
def backFill : List Nat → Nat → List Nat → Option (List Nat × Nat)
  | S, j, [] => some (S, j)
  | S, j, x :: l => if j = 0 then none else (wr S (j - 1) x).bind (fun S => backFill S (j - 1) l)

/-- State of the loop in lines 44-64: `S`, `_B`, `bit`, `Z`. -/
structure CSt where
  S : List Nat
  B : Bm
  it : It
  Z : List Nat

/-- :45-63 for one `k`. -/
def levelBody (n h k : Nat) (t : CSt) : Option CSt :=
  (forRange 0 n (scanBody t.S k) ⟨t.B, t.it, [], []⟩).bind (fun q =>
  (wr t.Z k (n * (h - 1 - k + 1) + q.z.length)).bind (fun Z =>
  (backFill t.S n q.o.reverse).bind (fun p =>
  (backFill p.1 p.2 q.z.reverse).bind (fun p => if p.2 = 0 then some ⟨p.1, q.B, q.it, Z⟩ else none))))

/-- :67-68 -/
def fillRO (B : Bm) (bv : Bv) (n i : Nat) (RO : List Nat) : Option (List Nat) := (rank1 64 B.src bv (n * i)).bind (fun r => wr RO i r)

/-- :27: the height; `height` is `some H` when the template parameter `Height` is not 0 (then `h = H`, the number of value bits of `T`). -/
def heightOf (height : Option Nat) (S : List Nat) : Option Nat :=
  match height with
  | some H => some H
  | none => (clz (if S.length = 0 then 0 else S.foldl max 0)).map (fun c => max 1 (64 - c))

/-- :25-69 with `h` known. -/
def buildH (h : Nat) (S : List Nat) : Option WM :=
  if S.length = 0 then some ⟨0, h, ⟨[], 0⟩, ⟨[], [], []⟩, List.replicate (h + 1) 0, List.replicate h 0⟩
  else (forRangeDown 0 h (levelBody S.length h) ⟨S, Bm.mk' (S.length * h) false, Bm.begin, List.replicate h 0⟩).bind (fun t =>
    (Succinct.build 64 t.B.src).bind (fun bv =>
    (forRange 0 (h + 1) (fillRO t.B bv S.length) (List.replicate (h + 1) 0)).map (fun RO => ⟨S.length, h, t.B, bv, RO, t.Z⟩)))

/-- :24-69: the constructor. -/
def mk (height : Option Nat) (S : List Nat) : Option WM := (heightOf height S).bind (fun h => buildH h S)

/-- `rs_b.rank1(i)` -/
def WM.rk (w : WM) (i : Nat) : Option Nat := rank1 64 w.B.src w.bv i

/-- :111-113 -/
def WM.child0 (w : WM) (level i : Nat) : Option Nat :=
  (w.RO[level]?).bind (fun ro => (w.rk i).bind (fun r => if r ≤ i + w.n + ro then some (i + w.n + ro - r) else none))
/-- :114-116 -/
def WM.child1 (w : WM) (level i : Nat) : Option Nat :=
  (w.rk i).bind (fun r => (w.RO[level + 1]?).bind (fun ro => if ro ≤ w.n * (level + 2) + r then some (w.n * (level + 2) + r - ro) else none))
/-- :117-119 -/
def WM.child (w : WM) (level i : Nat) (b : Bool) : Option Nat := if b then w.child1 level i else w.child0 level i
/-- :120-128 -/
def WM.tie (w : WM) (level l r : Nat) (b : Bool) : Option (Nat × Nat) := (w.child level l b).bind (fun l' => (w.child level r b).map (fun r' => (l', r')))

/-- :130-132 -/
def WM.parent0 (w : WM) (level i : Nat) : Option Nat :=
  (w.RO[level]?).bind (fun ro => if w.n + ro ≤ i then selectB 64 w.B.src w.bv false (i - w.n - ro) else none)
/-- :133-135 -/
def WM.parent1 (w : WM) (level i : Nat) : Option Nat :=
  (w.Z[w.h - 1 - level]?).bind (fun z => (w.RO[level]?).bind (fun ro => if z ≤ i then selectB 64 w.B.src w.bv true (i - z + ro) else none))
/-- :136-138 -/
def WM.parent (w : WM) (level i : Nat) (b : Bool) : Option Nat := if b then w.parent1 level i else w.parent0 level i

/-- :143-148; the first argument is the number of iterations left, so `k` runs down to 1; the state is `j`, `c`. -/
def WM.getLoop (w : WM) : Nat → Nat → Nat → Option (Nat × Nat)
  | 0, j, c => some (j, c)
  | k+1, j, c => (w.B.get j).bind (fun b => (w.child (w.h - 1 - (k + 1)) j b).bind (fun j => w.getLoop k j (if b then c ||| 2^(k+1) else c)))

/-- :140-152 (`get`) -/
def WM.get (w : WM) (i : Nat) : Option Nat :=
  (w.getLoop (w.h - 1) i 0).bind (fun t => (w.B.get t.1).map (fun b => if b then t.2 ||| 1 else t.2))

/-- `(c >> k) & 1`: arithmetic shift. -/
def cbit (c : Int) (k : Nat) : Bool := decide (c / 2^k % 2 = 1)

/-- :155-157 -/
def WM.rrLoop (w : WM) (c : Int) : Nat → Nat → Nat → Option (Nat × Nat)
  | 0, l, r => some (l, r)
  | k+1, l, r => if l < r then (w.tie (w.h - 1 - k) l r (cbit c k)).bind (fun p => w.rrLoop c k p.1 p.2) else some (l, r)

/-- Unsigned subtraction. -/
def usub (a b : Nat) : Option Nat := if b ≤ a then some (a - b) else none

/-- :154-159 (`range_rank`) -/
def WM.rangeRank (w : WM) (c : Int) (l r : Nat) : Option Nat := (w.rrLoop c w.h l r).bind (fun p => usub p.2 p.1)

/-- :160-162 (`rank`) -/
def WM.rank (w : WM) (c : Int) (i : Nat) : Option Nat := w.rangeRank c 0 i

/-- :165-176 -/
def WM.r3Loop (w : WM) (c : Int) : Nat → Nat → Nat → Nat → Nat → Option (Nat × Nat × Nat)
  | 0, l, r, lt, gt => (usub r l).map (fun e => (lt, e, gt))
  | k+1, l, r, lt, gt => (usub r l).bind (fun pr =>
      if pr = 0 then some (lt, pr, gt)
      else (w.tie (w.h - 1 - k) l r (cbit c k)).bind (fun p => (usub p.2 p.1).bind (fun m => (usub pr m).bind (fun d =>
        if cbit c k then w.r3Loop c k p.1 p.2 (lt + d) gt else w.r3Loop c k p.1 p.2 lt (gt + d)))))

/-- :163-178 (`rank_3way`) -/
def WM.rank3 (w : WM) (c : Int) (l r : Nat) : Option (Nat × Nat × Nat) := w.r3Loop c w.h l r 0 0

/-- :204-205 and 207-208: push the child if it is not empty. -/
def pushIf (q : List (Nat × Nat × Nat)) (l r c : Nat) : List (Nat × Nat × Nat) := if l < r then q ++ [(l, r, c)] else q

/-- :203-208 -/
def WM.rfChildren (w : WM) (l r c : Nat) (q : List (Nat × Nat × Nat)) : Option (List (Nat × Nat × Nat)) :=
  if l / w.n < w.h then
    (w.tie (l / w.n) l r false).bind (fun p0 => (w.tie (l / w.n) l r true).map (fun p1 =>
      pushIf (pushIf q p0.1 p0.2 c) p1.1 p1.2 (c ||| 2^(w.h - 1 - l / w.n))))
  else none

/-- :186-209, with fuel for the number of iterations. -/
def WM.rfLoop (w : WM) (x y : Int) : Nat → List (Nat × Nat × Nat) → Nat → Option Nat
  | _, [], freq => some freq
  | 0, _ :: _, _ => none
  | fuel+1, (l, r, c) :: q, freq =>
      if l < r ∧ w.n ≠ 0 ∧ w.h - l / w.n < 64 then
        if ((c ||| (2^(w.h - l / w.n) - 1) : Nat) : Int) < x ∨ y ≤ (c : Int) then w.rfLoop x y fuel q freq
        else if x ≤ (c : Int) ∧ ((c ||| (2^(w.h - l / w.n) - 1) : Nat) : Int) < y then w.rfLoop x y fuel q (freq + (r - l))
        else (w.rfChildren l r c q).bind (fun q => w.rfLoop x y fuel q freq)
      else none

/-- :181-211 (`range_freq`) -/
def WM.rangeFreq (w : WM) (l r : Nat) (x y : Int) : Option Nat :=
  if l = r then some 0 else w.rfLoop x y ((r - l) * (w.h + 1) + 1) [(l, r, 0)] 0

/-- :216-220: `none` inside is the early return of `n`. -/
def WM.selDown (w : WM) (c : Int) (i : Nat) : Nat → Nat → Nat → Option (Option (Nat × Nat))
  | 0, l, r => some (some (l, r))
  | k+1, l, r => (w.tie (w.h - 1 - k) l r (cbit c k)).bind (fun p => (usub p.2 p.1).bind (fun d => if d ≤ i then some none else w.selDown c i k p.1 p.2))

/-- :222-225 for one `k`. -/
def WM.selUp (w : WM) (c : Int) (k j : Nat) : Option Nat :=
  (w.parent (w.h - 1 - k) j (cbit c k)).bind (fun j => (w.B.get j).bind (fun b => if cbit c k = b then some j else none))

/-- :213-227 (`range_select`) -/
def WM.rangeSelect (w : WM) (c : Int) (l r i : Nat) : Option Nat :=
  (usub r l).bind (fun d => if d ≤ i then some w.n
    else (w.selDown c i w.h l r).bind (fun p => match p with
      | none => some w.n
      | some p => forRange 0 w.h (w.selUp c) (p.1 + i)))

/-- :228-230 (`select`) -/
def WM.select (w : WM) (c : Int) (i : Nat) : Option Nat := w.rangeSelect c 0 w.n i

/-- :236-248; the state is `l`, `r`, `k`, `c`; the first argument is the number of iterations left. -/
def WM.qLoop (w : WM) : Nat → Nat → Nat → Nat → Nat → Option (Nat × Nat × Nat × Nat)
  | 0, l, r, k, c => some (l, r, k, c)
  | d+1, l, r, k, c => (w.rk r).bind (fun a => (w.rk l).bind (fun b => (usub a b).bind (fun os => (usub r l).bind (fun m => (usub m os).bind (fun zs =>
      if k < zs then (w.tie (w.h - 1 - (d + 1)) l r false).bind (fun p => if p.1 < p.2 then w.qLoop d p.1 p.2 k c else none)
      else (w.tie (w.h - 1 - (d + 1)) l r true).bind (fun p => if p.1 < p.2 then w.qLoop d p.1 p.2 (k - zs) (c ||| 2^(d+1)) else none))))))

/-- :249-252 -/
def WM.qLast (w : WM) (t : Nat × Nat × Nat × Nat) : Option Nat :=
  (w.rk t.2.1).bind (fun a => (w.rk t.1).bind (fun b => (usub a b).bind (fun os => (usub t.2.1 t.1).bind (fun m => (usub m os).map (fun zs =>
    if zs ≤ t.2.2.1 then t.2.2.2 ||| 1 else t.2.2.2)))))

/-- :233-254 (`quantile`) -/
def WM.quantile (w : WM) (l r k : Nat) : Option Nat :=
  (usub r l).bind (fun d => if k < d then (w.qLoop (w.h - 1) l r k 0).bind w.qLast else none)

end Verif.Wavelet
