/-!
Model of `ConvexHullTrick`, `/repo/include/mtl/convex_hull_trick.hpp:85-245`.

* `up = true` is `C = std::less<T>` (maximum), `up = false` is `C = std::greater<T>` (minimum).
* `T` is a signed two's complement type: `INF = I`, `MINF = -I-1`, where `I` is a parameter.
* `none` is undefined behaviour: a failed `assert`, a signed overflow, or a dereferenced end iterator.
* The asserts at 133-134 and 154-155 compare in `double`; here they compare the exact product.
* `std::map` is the list of its entries in iteration order, an iterator is an index.  A search in the map is a scan with the map's own comparison from the
  beginning (the tree search does a subset of these comparisons); `emplace_hint` inserts before the lower bound of the key unless an equivalent key is there.
-/
namespace Verif.ChtMap

abbrev Line := Int × Int
/-- `Node`: `(u, v)`. -/
abbrev Node := Int × Int

/-- convex_hull_trick.hpp:93: `MINF`. -/
def mi (I : Int) : Int := -I - 1

/-- `cmp(a, b)`. -/
def lt (up : Bool) (a b : Int) : Bool := if up then decide (a < b) else decide (b < a)

/-- convex_hull_trick.hpp:94: `AX_LO`. -/
def axLo (up : Bool) (I : Int) : Int := if up then mi I else I

/-- convex_hull_trick.hpp:95: `AX_HI`. -/
def axHi (up : Bool) (I : Int) : Int := if up then I else mi I

/-- The result of a signed operation: undefined on overflow. -/
def ck (I v : Int) : Option Int := if mi I ≤ v ∧ v ≤ I then some v else none

/-- A product whose `assert` demands that it is strictly between the limits. -/
def ckS (I v : Int) : Option Int := if mi I < v ∧ v < I then some v else none

/-- convex_hull_trick.hpp:108-120: `Node(f, g)`. -/
def mkNode (up : Bool) (I : Int) (f g : Line) : Option Node :=
  if f.1 = axLo up I then some (0, mi I)
  else if g.1 = axHi up I then some (0, I)
  else
    (ck I (f.1 - g.1)).bind fun u =>
    (ck I (g.2 - f.2)).bind fun v =>
    if u < 0 then (ck I (-u)).bind fun u' => (ck I (-v)).map fun v' => (u', v')
    else some (u, v)

/-- convex_hull_trick.hpp:124-136: `Node::operator<`. -/
def nodeLt (I : Int) (p q : Node) : Option Bool :=
  if p.2 = I ∨ q.2 = mi I then some false
  else if p.2 = mi I ∨ q.2 = I then some true
  else (ckS I (p.2 * q.1)).bind fun x => (ckS I (q.2 * p.1)).map fun y => decide (x < y)

/-- convex_hull_trick.hpp:140-157: `intersect_less`.  The second assert (155) looks at `t * u` again instead of the lower limit of `v * s`; the product itself
still has to be representable. -/
def interLess (up : Bool) (I : Int) (g h i : Line) : Option Bool :=
  if g.1 = h.1 then some (lt up g.2 h.2)
  else if h.1 = i.1 then some (lt up i.2 h.2)
  else if g.1 = axLo up I ∨ i.1 = axHi up I then some true
  else
    (ck I (g.1 - h.1)).bind fun s =>
    (ck I (h.2 - g.2)).bind fun t =>
    (ck I (h.1 - i.1)).bind fun u =>
    (ck I (i.2 - h.2)).bind fun v =>
    (ckS I (t * u)).bind fun x =>
    (ck I (v * s)).bind fun y =>
    if y < I then some (decide (x < y)) else none

structure Cht where
  tr : List (Node × Line)
  L : List Line
deriving DecidableEq, Repr

/-- convex_hull_trick.hpp:96-102: the constructor. -/
def init (up : Bool) (I : Int) : Option Cht :=
  (mkNode up I (axLo up I, 0) (axHi up I, 0)).map fun nd =>
    ⟨[(nd, (axLo up I, 0))], [(axLo up I, 0), (axHi up I, 0)]⟩

/-- `tr.lower_bound(key)`. -/
def lowerTr (I : Int) (key : Node) : List (Node × Line) → Option Nat
  | [] => some 0
  | e :: l => (nodeLt I e.1 key).bind fun b => if b then (lowerTr I key l).map (· + 1) else some 0

/-- `L.lower_bound(a)`. -/
def lowerL (up : Bool) (a : Int) : List Line → Nat
  | [] => 0
  | e :: l => if lt up e.1 a then lowerL up a l + 1 else 0

/-- `tr.find(key)`; the end of `tr` is `none` (the assert at 176). -/
def findTr (I : Int) (key : Node) (tr : List (Node × Line)) : Option Nat :=
  (lowerTr I key tr).bind fun i => (tr[i]?).bind fun e => (nodeLt I key e.1).bind fun b => if b then none else some i

/-- `tr.emplace_hint(_, key, l)`: the map and the position of the entry. -/
def emplaceTr (I : Int) (key : Node) (l : Line) (tr : List (Node × Line)) : Option (List (Node × Line) × Nat) :=
  (lowerTr I key tr).bind fun i =>
    match tr[i]? with
    | none => some (tr ++ [(key, l)], i)
    | some e => (nodeLt I key e.1).map fun b => if b then (tr.take i ++ (key, l) :: tr.drop i, i) else (tr, i)

/-- `L.emplace_hint(_, l)`. -/
def emplaceL (up : Bool) (l : Line) (L : List Line) : List Line :=
  let i := lowerL up l.1 L
  match L[i]? with
  | none => L ++ [l]
  | some e => if lt up l.1 e.1 then L.take i ++ l :: L.drop i else L

/-- convex_hull_trick.hpp:178-181: the first loop of `add`, on the positions `lit` and `tit`. -/
def leftLoop (up : Bool) (I : Int) (L : List Line) (line : Line) : Nat → Nat → Option (Nat × Nat)
  | 0, tit => some (0, tit)
  | lit+1, tit =>
    (L[lit]?).bind fun g => (L[lit+1]?).bind fun h => (interLess up I g h line).bind fun b =>
      if b then some (lit+1, tit) else if tit = 0 then none else leftLoop up I L line lit (tit-1)

/-- convex_hull_trick.hpp:182-185: the second loop of `add`, on the positions `it` and `teit`; `fuel` bounds the turns, running out of it is undefined. -/
def rightLoop (up : Bool) (I : Int) (L : List Line) (line : Line) (trLen : Nat) : Nat → Nat → Nat → Option (Nat × Nat)
  | 0, _, _ => none
  | fuel+1, it, teit =>
    if it + 1 = L.length then some (it, teit) else
      (L[it]?).bind fun h => (L[it+1]?).bind fun i => (interLess up I line h i).bind fun b =>
        if b then some (it, teit) else if teit = trLen then none else rightLoop up I L line trLen fuel (it+1) (teit+1)

/-- convex_hull_trick.hpp:188: the condition of the assert, for the entry at `tit` (`none` at the end). -/
def beforeTr (I : Int) (n : Node) : Option (Node × Line) → Option Bool
  | none => some true
  | some e => nodeLt I n e.1

/-- convex_hull_trick.hpp:186-192: the end of `add`: erase `[tit, teit)` and `(lit, it)`, insert the two nodes and the line. -/
def splice (up : Bool) (I : Int) (s : Cht) (line : Line) (lit it tit teit : Nat) : Option Cht :=
  if tit ≤ teit ∧ lit + 1 ≤ it then
    let tr := s.tr.take tit ++ s.tr.drop teit
    let L := s.L.take (lit + 1) ++ s.L.drop it
    (L[lit]?).bind fun q => (L[lit+1]?).bind fun p =>
    (mkNode up I line p).bind fun n2 =>
    (beforeTr I n2 tr[tit]?).bind fun ok =>
    if ok then
      (emplaceTr I n2 line tr).bind fun r =>
      (r.1[r.2]?).bind fun e =>
      (mkNode up I q line).bind fun n1 =>
      (nodeLt I n1 e.1).bind fun ok2 =>
      if ok2 then (emplaceTr I n1 q r.1).map fun (r' : List (Node × Line) × Nat) => (⟨r'.1, emplaceL up line L⟩ : Cht)
      else none
    else none
  else none

/-- convex_hull_trick.hpp:175-192: from `tr.find` on. -/
def replace (up : Bool) (I : Int) (s : Cht) (line : Line) (lit it : Nat) : Option Cht :=
  (s.L[lit]?).bind fun q => (s.L[it]?).bind fun p =>
  (mkNode up I q p).bind fun nd =>
  (findTr I nd s.tr).bind fun tit =>
  (leftLoop up I s.L line lit tit).bind fun l =>
  (rightLoop up I s.L line s.tr.length s.L.length it (tit+1)).bind fun r =>
  splice up I s line l.1 r.1 l.2 r.2

/-- convex_hull_trick.hpp:160-193: `add`. -/
def add (up : Bool) (I : Int) (s : Cht) (a b : Int) : Option Cht :=
  let it := lowerL up a s.L
  if it = 0 ∨ it = s.L.length then none else
  (s.L[it]?).bind fun p =>
  if p.1 = a then
    if lt up p.2 b then replace up I s (a, b) it (it+1) else some s
  else
    (s.L[it-1]?).bind fun q => (interLess up I q (a, b) p).bind fun ok =>
      if ok then replace up I s (a, b) (it-1) it else some s

/-- convex_hull_trick.hpp:196-198: the value of a line. -/
def f (I : Int) (l : Line) (x : Int) : Option Int := (ck I (l.1 * x)).bind fun p => ck I (p + l.2)

/-- convex_hull_trick.hpp:201-205: `get`. -/
def get (I : Int) (s : Cht) (x : Int) : Option Int :=
  (lowerTr I (1, x) s.tr).bind fun i => (s.tr[i]?).bind fun e => f I e.2 x

/-- convex_hull_trick.hpp:214-217: the loop of `get_incremental`, on the position `e`; `ne = e + 1`, and `te` has moved as often as `e`. -/
def incLoop (up : Bool) (I : Int) (L : List Line) (x : Int) : Nat → Nat → Option Nat
  | 0, _ => none
  | fuel+1, e =>
    if e + 1 = L.length - 1 then some e else
      (L[e]?).bind fun g => (L[e+1]?).bind fun h => (f I g x).bind fun y => (f I h x).bind fun z =>
        if lt up y z then incLoop up I L x fuel (e+1) else some e

/-- convex_hull_trick.hpp:207-225: `get_incremental`. -/
def getInc (up : Bool) (I : Int) (s : Cht) (x : Int) : Option (Cht × Int) :=
  (incLoop up I s.L x s.L.length 1).bind fun e =>
  if e = 1 then (s.L[1]?).bind fun l => (f I l x).map fun y => (s, y)
  else if s.tr.length < e then none
  else
    let tr := s.tr.drop e
    let L := s.L.take 1 ++ s.L.drop e
    (L[0]?).bind fun q => (L[1]?).bind fun l => (mkNode up I q l).bind fun nd =>
      (emplaceTr I nd q tr).bind fun r => (f I l x).map fun y => (⟨r.1, L⟩, y)

/-- convex_hull_trick.hpp:233-236: the loop of `get_decremental`, on the position `s`; `ps = s - 1`. -/
def decLoop (up : Bool) (I : Int) (L : List Line) (x : Int) : Nat → Option Nat
  | 0 => none
  | p+1 =>
    if p = 0 then some (p+1) else
      (L[p+1]?).bind fun h => (L[p]?).bind fun g => (f I h x).bind fun y => (f I g x).bind fun z =>
        if lt up y z then decLoop up I L x p else some (p+1)

/-- convex_hull_trick.hpp:227-244: `get_decremental`.  Without lines `s` is the first element and `--s` leaves the map (`none`). -/
def getDec (up : Bool) (I : Int) (s : Cht) (x : Int) : Option (Cht × Int) :=
  let last := s.L.length - 2
  (decLoop up I s.L x last).bind fun e =>
  if e = last then (s.L[e]?).bind fun l => (f I l x).map fun y => (s, y)
  else if s.tr.length < last - e + 1 then none
  else
    let k := last - e
    let tr := s.tr.take (s.tr.length - (k + 1))
    let L := s.L.take (e + 1) ++ s.L.drop (last + 1)
    (L[e]?).bind fun l => (L[e+1]?).bind fun h => (mkNode up I l h).bind fun nd =>
      (emplaceTr I nd l tr).bind fun r => (f I l x).map fun y => (⟨r.1, L⟩, y)

end Verif.ChtMap
