/-!
Model of `/repo/include/mtl/unionfind.hpp`.

`par_` is a `List Int`: a negative entry is minus the size of the set, a non-negative
entry is the parent.  `none` = undefined behaviour (out-of-range access) or a recursion that
does not return within `par_.size()+1` nested calls.
-/
namespace Verif.UnionFind

abbrev Par := List Int

/-- unionfind.hpp:13 `UnionFind(size_t size) : par_(size, -1)`. -/
def init (n : Nat) : Par := List.replicate n (-1)

/-- unionfind.hpp:15-19 `root`, recursive with path compression.  The first argument bounds the
recursion depth; running out is `none` (so `some` also states termination). -/
def rootF : Nat → Par → Nat → Option (Nat × Par)
  | 0, _, _ => none
  | k+1, par, u => do
    let x ← par[u]?
    if x < 0 then
      some (u, par)
    else
      let (r, par') ← rootF k par x.toNat
      if u < par'.length then some (r, par'.set u (r : Int)) else none

/-- unionfind.hpp:15-19. -/
def root (par : Par) (u : Nat) : Option (Nat × Par) := rootF (par.length + 1) par u

/-- unionfind.hpp:21-23 (the two calls are modelled left to right; C++ leaves the order open). -/
def areUnion (par : Par) (u v : Nat) : Option (Bool × Par) := do
  let (ru, p1) ← root par u
  let (rv, p2) ← root p1 v
  some (ru == rv, p2)

/-- unionfind.hpp:25-27. -/
def sizeOf (par : Par) (u : Nat) : Option (Int × Par) := do
  let (r, p1) ← root par u
  let x ← p1[r]?
  some (-x, p1)

/-- unionfind.hpp:34-35, after the possible swap.  Right operands of the two assignments are
evaluated before the left ones, as C++17 prescribes. -/
def link (par : Par) (u v : Nat) : Option Par := do
  let (sv, p1) ← sizeOf par v
  let (ru, p2) ← root p1 u
  let x ← p2[ru]?
  let p3 := p2.set ru (x - sv)
  let (ru', p4) ← root p3 u
  let (rv, p5) ← root p4 v
  if rv < p5.length then some (p5.set rv (ru' : Int)) else none

/-- unionfind.hpp:29-37. -/
def unite (par : Par) (u v : Nat) : Option (Bool × Par) := do
  let (b, p1) ← areUnion par u v
  if b then
    some (false, p1)
  else
    let (su, p2) ← sizeOf p1 u
    let (sv, p3) ← sizeOf p2 v
    if su < sv then
      let p4 ← link p3 v u
      some (true, p4)
    else
      let p4 ← link p3 u v
      some (true, p4)

/-- One call of the public interface. -/
inductive Op where
  | unite (u v : Nat)
  | areUnion (u v : Nat)
  | sizeOf (u : Nat)
  | root (u : Nat)

/-- State change of one call. -/
def step (par : Par) : Op → Option Par
  | .unite u v => (unite par u v).map (·.2)
  | .areUnion u v => (areUnion par u v).map (·.2)
  | .sizeOf u => (sizeOf par u).map (·.2)
  | .root u => (root par u).map (·.2)

/-- A history of calls. -/
def exec : Par → List Op → Option Par
  | par, [] => some par
  | par, op :: ops => do
    let p ← step par op
    exec p ops

end Verif.UnionFind
