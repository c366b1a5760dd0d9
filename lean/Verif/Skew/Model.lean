/-!
Model of `PersistentSkewbinaryList<T>`, `/repo/include/mtl/skewbinary_list.hpp`.

Nodes and digits are written only before they are published, so they are modelled as immutable trees and lists
(`Tree.nil` is `nullptr`).  `none` = null dereference or failed `assert`.  Simplifications: `int`/`size_t`/`uint8_t` are
unbounded naturals (so `dig ≤ 63` and `i < 2^31` are assumed).
-/
namespace Verif.Skew

variable {T : Type}

/-- skewbinary_list.hpp:27-38. -/
inductive Tree (T : Type)
  | nil
  | node (v : T) (dig : Nat) (l r : Tree T)

def Tree.isNil : Tree T → Bool
  | .nil => true
  | .node .. => false

/-- skewbinary_list.hpp:32-34 (through a pointer). -/
def Tree.size : Tree T → Option Nat
  | .nil => none
  | .node _ d _ _ => some (2^d - 1)

def Tree.digit : Tree T → Option Nat
  | .nil => none
  | .node _ d _ _ => some d

/-- skewbinary_list.hpp:31: a fresh node. -/
def fresh (v : T) (dig : Nat) : Tree T := .node v dig .nil .nil

/-- skewbinary_list.hpp:45-46. -/
structure SL (T : Type) where
  ds : List (Tree T)
  size : Nat

/-- skewbinary_list.hpp:57. -/
def empty : SL T := ⟨[], 0⟩

/-- skewbinary_list.hpp:84-86. -/
def front (s : SL T) : Option T :=
  match s.ds with
  | .node v _ _ _ :: _ => some v
  | _ => none

/-- skewbinary_list.hpp:88-99, the digit list. -/
def pushDs (v : T) : List (Tree T) → Option (List (Tree T))
  | a :: b :: rest => a.digit.bind (fun da => b.digit.bind (fun db =>
      if da = db then some (.node v (da+1) a b :: rest) else some (fresh v 1 :: a :: b :: rest)))
  | ds => some (fresh v 1 :: ds)

/-- skewbinary_list.hpp:88-99. -/
def pushed (s : SL T) (v : T) : Option (SL T) := (pushDs v s.ds).map (fun ds => ⟨ds, s.size + 1⟩)

/-- skewbinary_list.hpp:101-116, the digit list. -/
def popDs : List (Tree T) → Option (List (Tree T))
  | .node v d l r :: rest =>
      if 2^d - 1 > 1 then
        if d > 1 && l.isNil then some (fresh v (d-1) :: fresh v (d-1) :: rest) else some (l :: r :: rest)
      else some rest
  | _ => none

/-- skewbinary_list.hpp:101-116. -/
def popped (s : SL T) : Option (SL T) := (popDs s.ds).map (fun ds => ⟨ds, s.size - 1⟩)

/-- skewbinary_list.hpp:125-138. -/
def getTree : Tree T → Nat → Option T
  | .nil, _ => none
  | .node v d l r, j =>
      if j = 0 then some v
      else if d > 1 && l.isNil then some v
      else l.size.bind (fun sl => if j - 1 < sl then getTree l (j-1) else getTree r (j - 1 - sl))

/-- skewbinary_list.hpp:118-139. -/
def getDs : List (Tree T) → Nat → Option T
  | [], _ => none
  | c :: rest, j => c.size.bind (fun s => if s ≤ j then getDs rest (j - s) else getTree c j)

def getAt (s : SL T) (i : Nat) : Option T := getDs s.ds i

/-- skewbinary_list.hpp:184-200: the copy of a lump; the current copy has digit `D+1`, the variable `dig` is `D`. -/
def lumpUpd (v x : T) : Nat → Nat → Nat → Option (Tree T)
  | 0, _, _ => none
  | D+1, s, j =>
      if j = 0 then some (.node x (D+1) (fresh v D) (fresh v D))
      else if j - 1 < s then (lumpUpd v x D (s/2) (j-1)).map (fun t => .node v (D+1) t (fresh v D))
      else (lumpUpd v x D (s/2) (j-1-s)).map (fun t => .node v (D+1) (fresh v D) t)

/-- skewbinary_list.hpp:156-201: path copy inside a tree. -/
def updTree (x : T) : Tree T → Nat → Option (Tree T)
  | .nil, _ => none
  | .node v d l r, j =>
      if d > 1 && l.isNil then lumpUpd v x d ((2^d - 1) / 2) j
      else if j = 0 then some (.node x d l r)
      else l.size.bind (fun sl => if j - 1 < sl then (updTree x l (j-1)).map (fun t => .node v d t r)
        else (updTree x r (j - 1 - sl)).map (fun t => .node v d l t))

/-- skewbinary_list.hpp:141-203: digits before the touched one are copied. -/
def updDs (x : T) : List (Tree T) → Nat → Option (List (Tree T))
  | [], _ => none
  | c :: rest, j => c.size.bind (fun s =>
      if s ≤ j then (updDs x rest (j - s)).map (c :: ·) else (updTree x c j).map (· :: rest))

def updatedAt (s : SL T) (i : Nat) (x : T) : Option (SL T) := (updDs x s.ds i).map (fun ds => ⟨ds, s.size⟩)

/-- skewbinary_list.hpp:215-226; `_push_node` (50-53) reads `u->size()`. -/
def dropTree : Tree T → Nat → List (Tree T) → Option (List (Tree T))
  | .nil, _, _ => none
  | .node v d l r, j, dst =>
      if j = 0 then some (.node v d l r :: dst)
      else l.size.bind (fun sl =>
        if j - 1 < sl then r.size.bind (fun _ => dropTree l (j-1) (r :: dst)) else dropTree r (j - 1 - sl) dst)

/-- skewbinary_list.hpp:205-227. -/
def dropDs : List (Tree T) → Nat → Option (List (Tree T))
  | [], _ => some []
  | c :: rest, j => c.size.bind (fun s => if s ≤ j then dropDs rest (j - s) else dropTree c j rest)

/-- skewbinary_list.hpp:205-230.  When everything is dropped a default list (size 0) is returned (lines 212-214). -/
def dropped (s : SL T) (i : Nat) : Option (SL T) :=
  (dropDs s.ds i).map (fun ds => if ds.isEmpty then empty else ⟨ds, s.size - i⟩)

/-- One round of skewbinary_list.hpp:238-253: `none` UB, `some none` break. -/
def extRound (v : T) : List (Tree T) → Nat → Nat → Option (Option (List (Tree T) × Nat × Nat))
  | [], _, _ => none
  | [c], sz, m => c.size.bind (fun s => c.digit.bind (fun d =>
      if s ≤ m then some (some (fresh v d :: [c], sz + s, m - s)) else some none))
  | a :: b :: rest, sz, m => a.size.bind (fun sa => b.size.bind (fun sb => a.digit.bind (fun d =>
      if sa = sb then some (some (.node v (d+1) a b :: rest, sz + 1, m - 1))
      else if sa ≤ m then some (some (fresh v d :: a :: b :: rest, sz + sa, m - sa)) else some none)))

/-- skewbinary_list.hpp:238-253 (each round lowers `m`, the budget). -/
def ext1 (v : T) : Nat → List (Tree T) → Nat → Nat → Option (List (Tree T) × Nat × Nat)
  | 0, ds, sz, m => if m = 0 then some (ds, sz, m) else none
  | f+1, ds, sz, m =>
      if m = 0 then some (ds, sz, m) else
      (extRound v ds sz m).bind (fun r => match r with
        | none => some (ds, sz, m)
        | some (ds', sz', m') => ext1 v f ds' sz' m')

/-- skewbinary_list.hpp:254-260; `63 - clz(m+1)` is the floor logarithm. -/
def ext2 (v : T) : Nat → List (Tree T) → Nat → Nat → Option (List (Tree T) × Nat)
  | 0, ds, sz, m => if m = 0 then some (ds, sz) else none
  | f+1, ds, sz, m =>
      if m = 0 then some (ds, sz) else
      if 2^(m+1).log2 - 1 ≤ m then
        ext2 v f (fresh v (m+1).log2 :: ds) (sz + (2^(m+1).log2 - 1)) (m - (2^(m+1).log2 - 1))
      else none

/-- skewbinary_list.hpp:236-263. -/
def extended (s : SL T) (n : Nat) (v : T) : Option (SL T) :=
  (ext1 v n s.ds s.size n).bind (fun r => (ext2 v r.2.2 r.1 r.2.1 r.2.2).bind (fun q =>
    if q.2 = s.size + n then some ⟨q.1, q.2⟩ else none))

end Verif.Skew
