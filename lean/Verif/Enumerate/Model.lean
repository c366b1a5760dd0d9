import Verif.Modular.Model
/-!
Model of `Enumerate<Modular<MOD>>`, `/repo/include/mtl/enumerate.hpp`.

`m` is `MOD`.  `int` indices are natural numbers; `max_n_*2` is assumed not to overflow `int` (a table of `2^30` entries).
The operands of the products in `cmb` and `prm` are evaluated from left to right (C++ leaves the order open).
-/
namespace Verif.Enumerate
open Modular

structure Tab where
  maxN : Nat
  fact : List Nat
  ifact : List Nat
deriving DecidableEq

/-- `vector::resize`. -/
def resize (v : List Nat) (n : Nat) : List Nat := v.take n ++ List.replicate (n - v.length) 0

/-- enumerate.hpp:54. -/
def factStep (m i : Nat) (v : List Nat) : Option (List Nat) :=
  (v[i-1]?).bind (fun x => (mul m x (ofInt m i)).bind (fun y => wr v i y))

/-- enumerate.hpp:58. -/
def ifactStep (m i : Nat) (v : List Nat) : Option (List Nat) :=
  (v[i+1]?).bind (fun x => (mul m x (ofInt m ((i+1 : Nat) : Int))).bind (fun y => wr v i y))

/-- enumerate.hpp:46-61. -/
def setMaxN (m n : Nat) (t : Tab) : Option Tab :=
  if n ≤ t.maxN then some t
  else
    let nxt := max (t.maxN * 2) n
    (forRange (t.maxN+1) (nxt+1) (factStep m) (resize t.fact (nxt+1))).bind (fun f =>
      (f[nxt]?).bind (fun x => (div m (ofInt m 1) x).bind (fun y => (wr (resize t.ifact (nxt+1)) nxt y).bind (fun g =>
        (forRangeDown (t.maxN+1) nxt (ifactStep m) g).map (fun g => ⟨nxt, f, g⟩)))))

/-- enumerate.hpp:17. -/
def mk0 (m : Nat) : Tab := ⟨1, [ofInt m 1, ofInt m 1], [ofInt m 1, ofInt m 1]⟩

/-- enumerate.hpp:18-21. -/
def mk (m n : Nat) : Option Tab :=
  let v := ofInt m 1 :: ofInt m 1 :: List.replicate (max 2 (n+1) - 2) 0
  setMaxN m n ⟨1, v, v⟩

/-- enumerate.hpp:33-37. -/
def fact (m n : Nat) (t : Tab) : Option (Nat × Tab) :=
  (if t.maxN < n then setMaxN m n t else some t).bind (fun t => (t.fact[n]?).map (fun v => (v, t)))

/-- enumerate.hpp:38-42. -/
def ifact (m n : Nat) (t : Tab) : Option (Nat × Tab) :=
  (if t.maxN < n then setMaxN m n t else some t).bind (fun t => (t.ifact[n]?).map (fun v => (v, t)))

/-- enumerate.hpp:23-26. -/
def cmb (m p q : Nat) (t : Tab) : Option (Nat × Tab) :=
  if p < q then some (ofInt m 0, t)
  else (fact m p t).bind (fun a => (ifact m q a.2).bind (fun b => (mul m a.1 b.1).bind (fun ab =>
    (ifact m (p-q) b.2).bind (fun c => (mul m ab c.1).map (fun v => (v, c.2))))))

/-- enumerate.hpp:28-31. -/
def prm (m p q : Nat) (t : Tab) : Option (Nat × Tab) :=
  if p < q then some (ofInt m 0, t)
  else (fact m p t).bind (fun a => (ifact m (p-q) a.2).bind (fun b => (mul m a.1 b.1).map (fun v => (v, b.2))))

end Verif.Enumerate
