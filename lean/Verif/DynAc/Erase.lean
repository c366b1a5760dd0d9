import Verif.DynAc.Model
/-!
Model of `DynamicAcMachine::erase` (`/repo/include/mtl/string/dynamic_ac_machine.hpp`, lines 96-131) on the machine of `Verif.DynAc.Model`.
-/
namespace Verif.DynAc
open Verif.AcMachine

variable {α T : Type} [DecidableEq α]

/-- `nodes_[f].ifail.erase(x)` -/
def setDel (ifl : List (List Nat)) (f x : Nat) : Option (List (List Nat)) := (ifl[f]?).bind (fun l => wr ifl f (l.filter (fun y => decide (y ≠ x))))

/-- Lines 123-127: the loop over `nodes_[x].ifail`.  The set is read once; were `target` equal to `x`, the loop would change the set it runs over, which is `none`. -/
def retarget (x : Nat) : List Nat → St α → Option (St α)
  | [], st => some st
  | v :: l, st => (st.1[x]?).bind (fun nd => nd.fail.bind (fun t => if t = x then none else
      (setDel st.2 t x).bind (fun i => (setFailD (st.1, i) v t).bind (retarget x l))))

/-- Lines 121-127: the round for `x = s[k]`. -/
def unlink (ord : List Nat → List Nat) (st : St α) (x : Nat) : Option (St α) :=
  (st.1[x]?).bind (fun nd => nd.fail.bind (fun f => (setDel st.2 f x).bind (fun i => (i[x]?).bind (fun l => retarget x (ord l) (st.1, i)))))

/-- Lines 120-128: the rounds for `s[d], s[d+1], …`. -/
def unlinks (ord : List Nat → List Nat) : List Nat → St α → Option (St α)
  | [], st => some st
  | x :: l, st => (unlink ord st x).bind (unlinks ord l)

/-- Lines 117-119: `d` goes down from the given value. -/
def lower (nodes : List (Nd α)) (s : List Nat) : Nat → Option Nat
  | 0 => some 0
  | d+1 => (s[d]?).bind (fun q => (nodes[q]?).bind (fun nd => if nd.id = none ∧ nd.e.length = 1 then lower nodes s d else some (d+1)))

/-- Line 129: `nodes_[u].e.erase(c)`. -/
def delEdge (nodes : List (Nd α)) (u : Nat) (c : α) : Option (List (Nd α)) :=
  (nodes[u]?).bind (fun nd => wr nodes u { nd with e := nd.e.filter (fun p => decide (p.1 ≠ c)) })

/-- Lines 117-129: the nodes `s[d..]` are taken out of the links and of the trie. -/
def prune (ord : List Nat → List Nat) (m : Dyn α T) (nodes : List (Nd α)) (s : List Nat) (key : List α) : Option (Dyn α T) :=
  (lower nodes s (key.length - 1)).bind (fun d => (unlinks ord (s.drop d) (nodes, m.ifl)).bind (fun st =>
    (if d = 0 then some 0 else s[d-1]?).bind (fun q => (key[d]?).bind (fun c => (delEdge st.1 q c).map (fun n => ⟨⟨m.ac.cont, n⟩, st.2⟩)))))

/-- Lines 109-130: after the walk found the whole key.  With an empty key `s[key.size()-1]` is `s[-1]` of an empty vector. -/
def eraseAt (ord : List Nat → List Nat) (m : Dyn α T) (s : List Nat) (key : List α) : Option (Dyn α T) :=
  (if key.length = 0 then none else s[key.length - 1]?).bind (fun x => (m.ac.nodes[x]?).bind (fun nd =>
    if nd.id = none then some m else (wr m.ac.nodes x { nd with id := none }).bind (fun n1 =>
      if nd.e.isEmpty then prune ord m n1 s key else some ⟨⟨m.ac.cont, n1⟩, m.ifl⟩)))

/-- What `erase` does with the result of the walk (lines 99-108: it returns when a letter is missing). -/
def eraseFrom (ord : List Nat → List Nat) (m : Dyn α T) (key : List α) : Nat × List Nat × List α → Option (Dyn α T)
  | (_, _, _ :: _) => some m
  | (_, s, []) => eraseAt ord m s key

/-- Lines 96-131 (`erase`). -/
def eraseD (ord : List Nat → List Nat) (m : Dyn α T) (key : List α) : Option (Dyn α T) := (walkP m.ac.nodes 0 key).bind (eraseFrom ord m key)

/-- A call. -/
inductive Op (α T : Type) where
  | ins (key : List α) (v : T)
  | del (key : List α)

/-- One call. -/
def step (ord : List Nat → List Nat) (m : Dyn α T) : Op α T → Option (Dyn α T)
  | .ins k v => insertD ord m k v
  | .del k => eraseD ord m k

/-- Calls one after the other. -/
def runD (ord : List Nat → List Nat) : Dyn α T → List (Op α T) → Option (Dyn α T)
  | m, [] => some m
  | m, o :: l => (step ord m o).bind (fun m => runD ord m l)

end Verif.DynAc
