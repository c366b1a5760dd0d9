import Verif.Common.Vec
/-!
Model of `/repo/include/mtl/string/ac_machine.hpp` (`_AcMachine` with `_AcMachineNode`).

Strings are lists over a type `α` with decidable equality; `T` is the mapped type.  `std::unordered_map` is an association list; the order in which a
range-for visits it is given by an arbitrary function `ord` (the theorems assume only that it permutes the list).  `-1` is `none`; node ids are natural numbers.
`none` of the outer `Option` = access outside of a vector (including index `-1`), or a loop not stopping within its fuel.
-/
namespace Verif.AcMachine

/-- Lines 30-41 -/
structure Nd (α : Type) where
  id : Option Nat
  e : List (α × Nat)
  fail : Option Nat
deriving DecidableEq

/-- `Node()` -/
def Nd.new {α : Type} : Nd α := ⟨none, [], none⟩

/-- Lines 53-54: `container_`, `nodes_`. -/
structure Ac (α T : Type) where
  cont : List (List α × T)
  nodes : List (Nd α)
deriving DecidableEq

variable {α T : Type} [DecidableEq α]

/-- `e.find(c)` -/
def assoc : List (α × Nat) → α → Option Nat
  | [], _ => none
  | (d, v) :: l, c => if d = c then some v else assoc l c

/-- `e[c] = v` -/
def assocSet (l : List (α × Nat)) (c : α) (v : Nat) : List (α × Nat) := l.filter (fun p => decide (p.1 ≠ c)) ++ [(c, v)]

/-- What `_go` returns given the search result. -/
def goRes (u : Nat) : Option Nat → Option Nat
  | some v => some v
  | none => if u = 0 then some 0 else none

/-- Lines 58-65 (`_go`); the inner `none` is `-1`. -/
def go (nodes : List (Nd α)) (u : Nat) (c : α) : Option (Option Nat) :=
  (nodes[u]?).map (fun nd => goRes u (assoc nd.e c))

/-- Lines 69-76: the node where the walk stops and the rest of the key. -/
def walk (nodes : List (Nd α)) : Nat → List α → Option (Nat × List α)
  | u, [] => some (u, [])
  | u, c :: k => (nodes[u]?).bind (fun nd => match assoc nd.e c with
      | none => some (u, c :: k)
      | some v => walk nodes v k)

/-- `nodes_[u].e[c] = v` -/
def addEdge (nodes : List (Nd α)) (u : Nat) (c : α) (v : Nat) : Option (List (Nd α)) :=
  (nodes[u]?).bind (fun nd => wr nodes u { nd with e := assocSet nd.e c v })

/-- Lines 79-84 -/
def extend : List α → Nat → List (Nd α) → Option (Nat × List (Nd α))
  | [], u, nodes => some (u, nodes)
  | c :: k, u, nodes => (addEdge (nodes ++ [Nd.new]) u c nodes.length).bind (extend k nodes.length)

/-- Line 85 -/
def setId (nodes : List (Nd α)) (u k : Nat) : Option (List (Nd α)) :=
  (nodes[u]?).bind (fun nd => wr nodes u { nd with id := some k })

/-- Lines 77-86: after the walk. -/
def insertFrom (s : Ac α T) (nodes : List (Nd α)) (key : List α) (v : T) : Nat × List α → Option (Ac α T)
  | (_, []) => some ⟨s.cont, nodes⟩
  | (u, c :: k) => (extend (c :: k) u nodes).bind (fun q => (setId q.2 q.1 s.cont.length).map (fun n2 => ⟨s.cont ++ [(key, v)], n2⟩))

/-- Lines 67-68: the root is created by the first insertion. -/
def withRoot (nodes : List (Nd α)) : List (Nd α) := if nodes.isEmpty then [Nd.new] else nodes

/-- Lines 66-87, 150-152 (`_insert_key`, `insert`) -/
def insert (s : Ac α T) (key : List α) (v : T) : Option (Ac α T) :=
  (walk (withRoot s.nodes) 0 key).bind (insertFrom s (withRoot s.nodes) key v)

/-- Lines 110-111, 207-208: `while ((target = _go(state, c)) == -1) state = nodes_[state].fail`. -/
def chase (nodes : List (Nd α)) (c : α) : Nat → Nat → Option Nat
  | 0, _ => none
  | n+1, u => (go nodes u c).bind (fun r => match r with
      | some t => some t
      | none => (nodes[u]?).bind (fun nd => nd.fail.bind (chase nodes c n)))

/-- Lines 38-40 (`set_fail`) -/
def setFail (nodes : List (Nd α)) (u f : Nat) : Option (List (Nd α)) :=
  (nodes[u]?).bind (fun nd => wr nodes u { nd with fail := some f })

/-- Lines 97-101: the children of the root. -/
def rootLoop : List (α × Nat) → List Nat → List (Nd α) → Option (List Nat × List (Nd α))
  | [], q, nodes => some (q, nodes)
  | p :: l, q, nodes => (setFail nodes p.2 0).bind (rootLoop l (q ++ [p.2]))

/-- Lines 104-113: the children of `id`. -/
def kidLoop (id : Nat) : List (α × Nat) → List Nat → List (Nd α) → Option (List Nat × List (Nd α))
  | [], q, nodes => some (q, nodes)
  | p :: l, q, nodes => (nodes[id]?).bind (fun nd => nd.fail.bind (fun st => (chase nodes p.1 nodes.length st).bind (fun t =>
      (setFail nodes p.2 t).bind (kidLoop id l (q ++ [p.2])))))

/-- Lines 102-115 -/
def bfs (ord : List (α × Nat) → List (α × Nat)) : Nat → List Nat → List (Nd α) → Option (List (Nd α))
  | _, [], nodes => some nodes
  | 0, _ :: _, _ => none
  | n+1, u :: q, nodes => (nodes[u]?).bind (fun nd => (kidLoop u (ord nd.e) q nodes).bind (fun r => bfs ord n r.1 r.2))

/-- Lines 95-116, 153-155 (`_build_fail`, `build`) -/
def build (ord : List (α × Nat) → List (α × Nat)) (s : Ac α T) : Option (Ac α T) :=
  (s.nodes[0]?).bind (fun r => (rootLoop (ord r.e) [] s.nodes).bind (fun q => (bfs ord s.nodes.length q.1 q.2).map (fun n => ⟨s.cont, n⟩)))

/-- Lines 180-188 (`_forward_until_data`, `to_exact`) -/
def toExact (nodes : List (Nd α)) : Nat → Nat → Option Nat
  | 0, _ => none
  | n+1, u => if u = 0 then some 0 else (nodes[u]?).bind (fun nd => if nd.id = none then nd.fail.bind (toExact nodes n) else some u)

/-- Line 191 (`operator*`) -/
def deref (s : Ac α T) (u : Nat) : Option (List α × T) :=
  (s.nodes[u]?).bind (fun nd => nd.id.bind (fun k => s.cont[k]?))

/-- Lines 195-199 (`operator++`) -/
def next (s : Ac α T) (u : Nat) : Option Nat :=
  (s.nodes[u]?).bind (fun nd => nd.fail.bind (toExact s.nodes s.nodes.length))

/-- A user's loop `for (it = u; it != key_end(); ++it) out.push_back(*it)`. -/
def collect (s : Ac α T) : Nat → Nat → Option (List (List α × T))
  | 0, _ => none
  | n+1, u => if u = 0 then some [] else (deref s u).bind (fun x => (next s u).bind (fun v => (collect s n v).map (fun l => x :: l)))

/-- Lines 205-211 (`push`) -/
def push (s : Ac α T) (u : Nat) (c : α) : Option Nat := chase s.nodes c s.nodes.length u

/-- Lines 225-232: the loop of `find_all` from position `i` with the iterator at `u`. -/
def findAllFrom (s : Ac α T) : Nat → Nat → List α → Option (List (Nat × Nat))
  | _, _, [] => some []
  | i, u, c :: t => (push s u c).bind (fun v => (toExact s.nodes s.nodes.length v).bind (fun x =>
      (findAllFrom s (i+1) v t).map (fun l => if x ≠ 0 then (i+1, x) :: l else l)))

/-- Lines 222-234 (`find_all`) -/
def findAll (s : Ac α T) (text : List α) : Option (List (Nat × Nat)) := findAllFrom s 0 0 text

/-- Lines 237-245: the loop of `find`; the inner `none` is `{{}, false}`. -/
def findFrom (s : Ac α T) : Nat → Nat → List α → Option (Option (Nat × Nat))
  | _, _, [] => some none
  | i, u, c :: t => (push s u c).bind (fun v => (toExact s.nodes s.nodes.length v).bind (fun x =>
      if x ≠ 0 then some (some (i+1, x)) else findFrom s (i+1) v t))

/-- Lines 235-246 (`find`) -/
def find (s : Ac α T) (text : List α) : Option (Option (Nat × Nat)) := findFrom s 0 0 text

/-- The loop of lines 249-251. -/
def pushAll (s : Ac α T) : Nat → List α → Option Nat
  | u, [] => some u
  | u, c :: t => (push s u c).bind (fun v => pushAll s v t)

/-- Lines 247-253 (`find_suffix`) -/
def findSuffix (s : Ac α T) (text : List α) : Option Nat := (pushAll s 0 text).bind (toExact s.nodes s.nodes.length)

end Verif.AcMachine
