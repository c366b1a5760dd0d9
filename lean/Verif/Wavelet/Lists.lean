import Verif.Wavelet.Model
/-!
Model of the functions of `/repo/include/mtl/succinct/wavelet_matrix.hpp` that list values with their frequencies: `top_k`, `sum`, `range_list_k`,
`range_list`, `range_max_k` and `range_min_k` (lines 256-343).  `intersect` (345-369) does not compile when used (`qs.emplace({l1,r1,l2,r2}, 0)`).
-/
namespace Verif.Wavelet

/-- `std::tuple<size_t, size_t, T>`: (`range`, `s`, `c`). -/
abbrev Item := Nat × Nat × Nat

/-- `a < b` on tuples: lexicographic. -/
def itemLt (a b : Item) : Bool :=
  decide (a.1 < b.1) || (decide (a.1 = b.1) && (decide (a.2.1 < b.2.1) || (decide (a.2.1 = b.2.1) && decide (a.2.2 < b.2.2))))

/-- `qs.top()` of a `std::priority_queue`: a greatest item (the list is the contents in any order). -/
def pqTop : List Item → Option Item
  | [] => none
  | a :: q => match pqTop q with
    | none => some a
    | some b => some (if itemLt a b then b else a)

/-- :274-276 for one `b`: `l..r` is `s..s+range`. -/
def WM.tkPush (w : WM) (range s c : Nat) (b : Bool) (q : List Item) : Option (List Item) :=
  (w.tie (s / w.n) s (s + range) b).bind (fun p =>
    if p.1 ≠ p.2 then (usub p.2 p.1).map (fun d => q ++ [(d, p.1, c ||| (b.toNat * 2^(w.h - 1 - s / w.n)))]) else some q)

/-- :261-279, with fuel for the number of iterations.  A level above `h` would be undefined behaviour (`RO` is read out of range). -/
def WM.tkLoop (w : WM) (k : Nat) : Nat → List Item → List (Nat × Nat) → Option (List (Nat × Nat))
  | 0, q, ret => if q = [] then some ret else none
  | fuel+1, q, ret => match pqTop q with
    | none => some ret
    | some (range, s, c) =>
        if w.n = 0 then none
        else if s / w.n = w.h then
          (if (ret ++ [(c, range)]).length = k then some (ret ++ [(c, range)]) else w.tkLoop k fuel (q.erase (range, s, c)) (ret ++ [(c, range)]))
        else if s / w.n < w.h then
          (w.tkPush range s c false (q.erase (range, s, c))).bind (fun q => (w.tkPush range s c true q).bind (fun q => w.tkLoop k fuel q ret))
        else none

/-- :257-281 (`top_k`); the fuel suffices for every run that is not stuck. -/
def WM.topK (w : WM) (l r k : Nat) : Option (List (Nat × Nat)) :=
  (usub r l).bind (fun d => w.tkLoop k (d * (w.h + 1) + 2) [(d, l, 0)] [])

/-- :283-289 (`sum`); `U` is any type with addition, multiplication and a zero to which integers convert, e.g. integers modulo `2^64` or an `atcoder`-like modint. -/
def WM.sum {U : Type} [Zero U] [Add U] [Mul U] [NatCast U] (w : WM) (l r : Nat) : Option U :=
  (usub r l).bind (fun d => (w.topK l r d).map (fun L => L.foldl (fun ret p => ret + (p.1 : U) * (p.2 : U)) 0))

/-- `y-1`: when `T` is an unsigned type of `int`'s width or more (`some bits`) it wraps around at `y = 0`; for other types (`none`; `y` not the least value) it is
the difference. -/
def ym1 (u : Option Nat) (y : Int) : Int := match u with
  | some bits => (y - 1) % 2^bits
  | none => y - 1

/-- The arguments `x`, `y` and the template parameters of `range_list_k`. -/
structure RlArgs where
  asc : Bool
  vr : Bool
  u : Option Nat
  x : Int
  y : Int

/-- :316: the children that are skipped. -/
def RlArgs.skip (a : RlArgs) (shift nc : Nat) : Bool :=
  a.vr && (decide ((nc : Int) < a.x / 2^shift) || decide (ym1 a.u a.y / 2^shift < (nc : Int)))

/-- :315-321 for one `b`; `(c << 1) | b` is `2 * c + b`. -/
def WM.rlPush (w : WM) (a : RlArgs) (range s c : Nat) (b : Bool) (q : List Item) : Option (List Item) :=
  if a.skip (w.h - 1 - s / w.n) (2 * c + b.toNat) then some q
  else (w.tie (s / w.n) s (s + range) b).bind (fun p =>
    if p.1 ≠ p.2 then (usub p.2 p.1).map (fun d => q ++ [(d, p.1, 2 * c + b.toNat)]) else some q)

/-- :301-324, with fuel for the number of iterations. -/
def WM.rlLoop (w : WM) (a : RlArgs) (k : Nat) : Nat → List Item → List (Nat × Nat) → Option (List (Nat × Nat))
  | _, [], ret => some ret
  | 0, _ :: _, _ => none
  | fuel+1, (range, s, c) :: q, ret =>
      if w.n = 0 then none
      else if s / w.n = w.h then
        (if a.vr = false ∨ (a.x ≤ (c : Int) ∧ (c : Int) < a.y) then
          (if (ret ++ [(c, range)]).length = k then some (ret ++ [(c, range)]) else w.rlLoop a k fuel q (ret ++ [(c, range)]))
        else none)
      else if s / w.n < w.h then
        (w.rlPush a range s c (!a.asc) q).bind (fun q => (w.rlPush a range s c a.asc q).bind (fun q => w.rlLoop a k fuel q ret))
      else none

/-- :293-326 (`range_list_k<ASCENDING, VALUE_RANGE>`) -/
def WM.rangeListK (w : WM) (a : RlArgs) (l r k : Nat) : Option (List (Nat × Nat)) :=
  (usub r l).bind (fun d => w.rlLoop a k (d * (w.h + 1) + 2) [(d, l, 0)] [])

/-- :330-332 (`range_list`) -/
def WM.rangeList (w : WM) (u : Option Nat) (l r : Nat) (x y : Int) : Option (List (Nat × Nat)) :=
  (usub r l).bind (fun d => w.rangeListK ⟨true, true, u, x, y⟩ l r d)
/-- :336-338 (`range_max_k`) -/
def WM.rangeMaxK (w : WM) (u : Option Nat) (l r k : Nat) : Option (List (Nat × Nat)) := w.rangeListK ⟨false, false, u, 0, 0⟩ l r k
/-- :341-343 (`range_min_k`) -/
def WM.rangeMinK (w : WM) (u : Option Nat) (l r k : Nat) : Option (List (Nat × Nat)) := w.rangeListK ⟨true, false, u, 0, 0⟩ l r k

end Verif.Wavelet
