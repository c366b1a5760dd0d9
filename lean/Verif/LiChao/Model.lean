import Verif.Common.Vec
import Verif.Cht.Deque
import Verif.BitManip.Model
/-!
Model of `/repo/include/mtl/li_chao_tree.hpp`.

Values are exact integers (no overflow of `T`); `inv` is the constant `INV`.  `up = true` is `Comp = std::less` (maximum), `up = false` is
`Comp = std::greater` (minimum).  `none` is undefined behaviour, a failed assertion or exhausted fuel.  Node numbers are exact naturals.
-/
namespace Verif.LiChao
open Verif.Cht

structure Tree where
  n : Nat
  N : Nat
  X : List Int
  seg : List Line

/-- li_chao_tree.hpp:23: `_n ? 1ull<<(64-bm::clz(_n-1)) : 0`. -/
def leaves (n : Nat) : Option Nat :=
  if n = 0 then some 0 else (BitManip.clz (n-1)).bind (fun c => if 64 - c < 64 then some (2^(64 - c)) else none)

/-- li_chao_tree.hpp:23-32: constructor from a range (or from a size followed by `set_x` on every index). -/
def new (inv : Int) (xs : List Int) : Option Tree :=
  (leaves xs.length).map (fun N => ⟨xs.length, N, xs, List.replicate (N*2) (0, inv)⟩)

/-- li_chao_tree.hpp:43-44. -/
def enabled (up : Bool) (n : Nat) (X : List Int) (seg : List Line) (u : Nat) (line : Line) (p : Nat) : Option Bool :=
  if p < n then (X[p]?).bind (fun x => (seg[u]?).map (fun s => decide (lt up (val s x) (val line x)))) else some false

/-- li_chao_tree.hpp:45-46: `if (enabled_mid) std::swap(line, seg[u])`. -/
def place (b : Bool) (line : Line) (u : Nat) (seg : List Line) : Option (Line × List Line) :=
  if b then (seg[u]?).bind (fun s => (wr seg u line).map (fun seg => (s, seg))) else some (line, seg)

/-- li_chao_tree.hpp:39-53 (`_add_line`). -/
def addAux (up : Bool) (inv : Int) (n : Nat) (X : List Int) : Nat → Line → Nat → Nat → Nat → List Line → Option (List Line)
  | 0, _, _, _, _, _ => none
  | f+1, line, u, l, r, seg =>
    if line.2 = inv then some seg else
      (enabled up n X seg u line l).bind (fun el =>
        (enabled up n X seg u line (l + (r-l)/2)).bind (fun em =>
          (place em line u seg).bind (fun p =>
            if r - l = 1 then some p.2
            else if el != em then addAux up inv n X f p.1 (2*u) l (l + (r-l)/2) p.2
            else addAux up inv n X f p.1 (2*u+1) (l + (r-l)/2) r p.2)))

/-- li_chao_tree.hpp:55-57 (`add_line`). -/
def addLine (up : Bool) (inv : Int) (t : Tree) (line : Line) : Option Tree :=
  (addAux up inv t.n t.X (t.N + 1) line 1 0 t.N t.seg).map (fun s => { t with seg := s })

/-- li_chao_tree.hpp:65-68: new `u`, `L` and nodes. -/
def stepU (add : Nat → Nat → Nat → List Line → Option (List Line)) (u L range : Nat) (seg : List Line) : Option (Nat × Nat × List Line) :=
  if u % 2 = 1 then (add u L (L + range) seg).map (fun s => (u + 1, L + range, s)) else some (u, L, seg)

/-- li_chao_tree.hpp:69-72. -/
def stepV (add : Nat → Nat → Nat → List Line → Option (List Line)) (v R range : Nat) (seg : List Line) : Option (Nat × Nat × List Line) :=
  if v % 2 = 1 then (add (v - 1) (R - range) (R - range + range) seg).map (fun s => (v - 1, R - range, s)) else some (v, R, seg)

/-- li_chao_tree.hpp:64-77. -/
def segLoop (add : Nat → Nat → Nat → List Line → Option (List Line)) : Nat → Nat → Nat → Nat → Nat → Nat → List Line → Option (List Line)
  | 0, _, _, _, _, _, _ => none
  | f+1, u, v, L, R, range, seg =>
    if u < v then
      (stepU add u L range seg).bind (fun p => (stepV add v R range p.2.2).bind (fun q =>
        segLoop add f (p.1 / 2) (q.1 / 2) p.2.1 q.2.1 (range * 2) q.2.2))
    else if L = R then some seg else none

/-- li_chao_tree.hpp:59-78 (`add_segment_idx`). -/
def addSegmentIdx (up : Bool) (inv : Int) (t : Tree) (line : Line) (l r : Nat) : Option Tree :=
  (segLoop (addAux up inv t.n t.X (t.N + 1) line) (r + t.N + 1) (l + t.N) (r + t.N) l r 1 t.seg).map (fun s => { t with seg := s })

/-- `std::lower_bound(X.begin(), X.end(), x) - X.begin()` on a sorted vector. -/
def lowerBound (X : List Int) (x : Int) : Nat := (X.takeWhile (fun y => decide (y < x))).length

/-- li_chao_tree.hpp:79-84 (`add_segment`). -/
def addSegment (up : Bool) (inv : Int) (t : Tree) (line : Line) (xl xr : Int) : Option Tree :=
  if xl ≤ xr then addSegmentIdx up inv t line (lowerBound t.X xl) (lowerBound t.X xr) else none

/-- li_chao_tree.hpp:90-94: `if (cmp(ret, v)) ret = v` while walking up. -/
def getLoop (up : Bool) (x : Int) (seg : List Line) : Nat → Nat → Int → Option Int
  | 0, _, _ => none
  | f+1, u, ret => if 0 < u then (seg[u]?).bind (fun s => getLoop up x seg f (u / 2) (if lt up ret (val s x) then val s x else ret)) else some ret

/-- li_chao_tree.hpp:86-96 (`get_idx`). -/
def getIdx (up : Bool) (inv : Int) (t : Tree) (i : Nat) : Option Int :=
  (t.X[i]?).bind (fun x => getLoop up x t.seg (i + t.N + 1) (i + t.N) inv)

/-- li_chao_tree.hpp:97-101 (`get`). -/
def get (up : Bool) (inv : Int) (t : Tree) (x : Int) : Option Int :=
  if lowerBound t.X x < t.X.length then getIdx up inv t (lowerBound t.X x) else none

end Verif.LiChao
