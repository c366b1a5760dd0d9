import Verif.AcMachine.Model
/-!
Model of `/repo/include/mtl/string/dynamic_ac_machine.hpp` (`DynamicAcMachine`).

The members inherited from `_AcMachine` are those of `Verif.AcMachine.Model`.  The sets `ifail` of the nodes are kept in a second vector of the same
length; an `unordered_set` is a list, and the order in which a range-for visits it is given by an arbitrary function `ord`.  `-1` is `none`.
The outer `none` is an access outside of a vector (including index `-1`) or a loop not stopping within its fuel.
-/
namespace Verif.DynAc
open Verif.AcMachine

/-- The machine with the sets `ifail` of the nodes (lines 6-13). -/
structure Dyn (α T : Type) where
  ac : Ac α T
  ifl : List (List Nat)
deriving DecidableEq

variable {α T : Type} [DecidableEq α]

/-- `set.insert(x)` -/
def setIns (l : List Nat) (x : Nat) : List Nat := if x ∈ l then l else l ++ [x]

/-- Nodes and sets. -/
abbrev St (α : Type) := List (Nd α) × List (List Nat)

/-- Lines 9-12 (`set_fail(u, f, nodes_[f])` on `nodes_[u]`). -/
def setFailD (st : St α) (u f : Nat) : Option (St α) :=
  (setFail st.1 u f).bind (fun n => (st.2[f]?).bind (fun l => (wr st.2 f (setIns l u)).map (fun i => (n, i))))

/-- Lines 37-44: the node where the walk stops, the visited nodes `s[0..i)` and the rest of the key. -/
def walkP (nodes : List (Nd α)) : Nat → List α → Option (Nat × List Nat × List α)
  | u, [] => some (u, [], [])
  | u, c :: k => (nodes[u]?).bind (fun nd => match assoc nd.e c with
      | none => some (u, [], c :: k)
      | some v => (walkP nodes v k).map (fun r => (r.1, v :: r.2.1, r.2.2)))

/-- Lines 49-56: the new nodes `s[i..]` and the last one. -/
def extendP : List α → Nat → List (Nd α) → Option (Nat × List Nat × List (Nd α))
  | [], u, nodes => some (u, [], nodes)
  | c :: k, u, nodes => (addEdge (nodes ++ [Nd.new]) u c nodes.length).bind (fun n => (extendP k nodes.length n).map (fun r => (r.1, nodes.length :: r.2.1, r.2.2)))

/-- Lines 61-69: the link of the new node `s[k]`. -/
def newFail (key : List α) (s : List Nat) (k : Nat) (st : St α) : Option (St α) :=
  (s[k]?).bind (fun u =>
    if k = 0 then setFailD st u 0
    else (s[k-1]?).bind (fun q => (st.1[q]?).bind (fun nd => nd.fail.bind (fun f => (key[k]?).bind (fun c =>
      (chase st.1 c st.1.length f).bind (fun t => setFailD st u t))))))

/-- Lines 60-70: `n` rounds from `k` on. -/
def newFails (key : List α) (s : List Nat) : Nat → Nat → St α → Option (St α)
  | 0, _, st => some st
  | n+1, k, st => (newFail key s k st).bind (newFails key s n (k+1))

/-- Lines 80-88: the inner loop with at most `n` rounds (`n = key.size() - k`); `pf` is a copy of a node, so `pf.ifail.erase(next)` changes nothing. -/
def follow (key : List α) (s : List Nat) : Nat → Nat → Nat → St α → Option (Nat × Nat × St α)
  | 0, v, k, st => some (v, k, st)
  | n+1, v, k, st => (key[k]?).bind (fun c => (go st.1 v c).bind (fun r => match r with
      | none => some (v, k, st)
      | some next => (st.1[next]?).bind (fun nd => (match nd.fail with
            | none => some ()
            | some f => (st.1[f]?).map (fun _ => ())).bind (fun _ =>
          (s[k]?).bind (fun u => (setFailD st next u).bind (follow key s n next (k+1)))))))

/-- Lines 75-93: the loop over the queue, with fuel. -/
def update (ord : List Nat → List Nat) (key : List α) (s : List Nat) : Nat → List (Nat × Nat) → St α → Option (St α)
  | _, [], st => some st
  | 0, _ :: _, _ => none
  | n+1, q :: qs, st => (follow key s (key.length - q.2) q.1 q.2 st).bind (fun r =>
      if r.2.1 < key.length then (r.2.2.2[r.1]?).bind (fun l => update ord key s n (qs ++ (ord l).map (fun x => (x, r.2.1))) r.2.2)
      else update ord key s n qs r.2.2)

/-- Lines 72-74: the set the queue starts with. -/
def startSet (s : List Nat) (d : Nat) (st : St α) : Option (List Nat) :=
  if d = 0 then st.2[0]? else (s[d-1]?).bind (fun u => st.2[u]?)

/-- Lines 47-94: after the walk. -/
def insertFromD (ord : List Nat → List Nat) (m : Dyn α T) (nodes : List (Nd α)) (ifl : List (List Nat)) (key : List α) (v : T) : Nat × List Nat × List α → Option (Dyn α T)
  | (_, _, []) => some ⟨⟨m.ac.cont, nodes⟩, ifl⟩
  | (u, s0, c :: k) => (extendP (c :: k) u nodes).bind (fun q => (setId q.2.2 q.1 m.ac.cont.length).bind (fun n2 =>
      (newFails key (s0 ++ q.2.1) (k.length + 1) s0.length (n2, ifl ++ List.replicate (k.length + 1) [])).bind (fun st =>
        (startSet (s0 ++ q.2.1) s0.length st).bind (fun l =>
          (update ord key (s0 ++ q.2.1) ((n2.length + 1) ^ (n2.length + 1)) ((ord l).map (fun x => (x, s0.length))) st).map (fun st =>
            ⟨⟨m.ac.cont ++ [(key, v)], st.1⟩, st.2⟩)))))

/-- Lines 28-94 (`insert`). -/
def insertD (ord : List Nat → List Nat) (m : Dyn α T) (key : List α) (v : T) : Option (Dyn α T) :=
  (walkP (withRoot m.ac.nodes) 0 key).bind (insertFromD ord m (withRoot m.ac.nodes) (if m.ac.nodes.isEmpty then [[]] else m.ifl) key v)

/-- A new machine and some insertions. -/
def inserts (ord : List Nat → List Nat) : Dyn α T → List (List α × T) → Option (Dyn α T)
  | m, [] => some m
  | m, p :: l => (insertD ord m p.1 p.2).bind (fun m => inserts ord m l)

/-- `DynamicAcMachine()` -/
def newD : Dyn α T := ⟨⟨[], []⟩, []⟩

end Verif.DynAc
