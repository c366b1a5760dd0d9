import Verif.Common.Vec
/-!
Model of `/repo/include/mtl/meldable_heap.hpp` (class `MeldableHeap<T, Cond>`).

Nodes live in one growing memory (`mem`), pointers are `Option Nat`; several heap objects share that memory, as `meld` makes them do.
`rand()` is an arbitrary sequence `ρ` of bits read through a counter.  `parent` (never read by any function of the class) is left out.
A node is never freed: a `shared_ptr` keeps every node that can still be reached.  `none` = null dereference, failed assertion, missing heap object, or a recursion that does not
end within a budget larger than any recursion on disjoint trees.
-/
namespace Verif.Meldable

variable {T : Type}

/-- Lines 10-13. -/
structure Node (T : Type) where
  x : T
  left : Option Nat
  right : Option Nat
  deriving DecidableEq

/-- Lines 19-32 (`_meld`); the first argument bounds the depth of the recursion, `c` counts the calls of `rand()`. -/
def meldF (lt : T → T → Bool) (ρ : Nat → Bool) : Nat → List (Node T) → Nat → Option Nat → Option Nat → Option (List (Node T) × Nat × Option Nat)
  | 0, _, _, _, _ => none
  | _+1, h, c, none, r => some (h, c, r)
  | _+1, h, c, some l, none => some (h, c, some l)
  | k+1, h, c, some l, some r =>
    (h[l]?).bind (fun a => (h[r]?).bind (fun b =>
      if lt a.x b.x then meldF lt ρ k h c (some r) (some l)
      else if ρ c then (meldF lt ρ k h (c+1) a.left (some r)).bind (fun s => (s.1[l]?).bind (fun a => (wr s.1 l { a with left := s.2.2 }).map (fun h => (h, s.2.1, some l))))
      else (meldF lt ρ k h (c+1) a.right (some r)).bind (fun s => (s.1[l]?).bind (fun a => (wr s.1 l { a with right := s.2.2 }).map (fun h => (h, s.2.1, some l))))))

/-- Lines 16-17: one heap object. -/
structure Obj where
  r : Option Nat
  sz : Nat
  deriving DecidableEq

/-- The memory, the number of `rand()` calls so far, and the heap objects of the program. -/
structure St (T : Type) where
  mem : List (Node T)
  cnt : Nat
  objs : List Obj

/-- Line 35: `k` empty heaps. -/
def init (k : Nat) : St T := ⟨[], 0, List.replicate k ⟨none, 0⟩⟩

/-- `_meld` on the whole memory. -/
def meldM (lt : T → T → Bool) (ρ : Nat → Bool) (s : St T) (l r : Option Nat) : Option (List (Node T) × Nat × Option Nat) :=
  meldF lt ρ (2 * s.mem.length + 2) s.mem s.cnt l r

/-- Lines 43-47 (`meld`): `r` itself is not modified. -/
def meld (lt : T → T → Bool) (ρ : Nat → Bool) (s : St T) (i j : Nat) : Option (St T) :=
  (s.objs[i]?).bind (fun a => (s.objs[j]?).bind (fun b => (meldM lt ρ s a.r b.r).bind (fun m => (wr s.objs i ⟨m.2.2, a.sz + b.sz⟩).map (fun o => ⟨m.1, m.2.1, o⟩))))

/-- Lines 54-60 (`push`). -/
def push (lt : T → T → Bool) (ρ : Nat → Bool) (s : St T) (i : Nat) (x : T) : Option (St T) :=
  (s.objs[i]?).bind (fun a => (meldM lt ρ ⟨s.mem ++ [⟨x, none, none⟩], s.cnt, s.objs⟩ a.r (some s.mem.length)).bind (fun m => (wr s.objs i ⟨m.2.2, a.sz + 1⟩).map (fun o => ⟨m.1, m.2.1, o⟩)))

/-- Line 62 (`top`). -/
def top (s : St T) (i : Nat) : Option T := (s.objs[i]?).bind (fun a => a.r.bind (fun p => (s.mem[p]?).map (fun n => n.x)))

/-- Lines 63-70 (`pop`). -/
def pop (lt : T → T → Bool) (ρ : Nat → Bool) (s : St T) (i : Nat) : Option (T × St T) :=
  (s.objs[i]?).bind (fun a => a.r.bind (fun p => (s.mem[p]?).bind (fun n => (meldM lt ρ s n.left n.right).bind (fun m => (wr s.objs i ⟨m.2.2, a.sz - 1⟩).map (fun o => (n.x, ⟨m.1, m.2.1, o⟩))))))

/-- Lines 72-73 (`size`). -/
def size (s : St T) (i : Nat) : Option Nat := (s.objs[i]?).map (fun a => a.sz)

/-- Lines 74-77 (`clear`). -/
def clear (s : St T) (i : Nat) : Option (St T) := (wr s.objs i ⟨none, 0⟩).map (fun o => ⟨s.mem, s.cnt, o⟩)

/-- The calls of a program on its heap objects.  `absorb i j` is `a_i.meld(a_j); a_j.clear();` -/
inductive Op (T : Type) where
  | push (i : Nat) (x : T)
  | pop (i : Nat)
  | top (i : Nat)
  | size (i : Nat)
  | clear (i : Nat)
  | meld (i j : Nat)
  | absorb (i j : Nat)

/-- What a call returns. -/
inductive Out (T : Type) where
  | unit
  | val (x : T)
  | num (n : Nat)
  deriving DecidableEq

/-- One call. -/
def step (lt : T → T → Bool) (ρ : Nat → Bool) (s : St T) : Op T → Option (St T × Out T)
  | .push i x => (push lt ρ s i x).map (fun s => (s, .unit))
  | .pop i => (pop lt ρ s i).map (fun r => (r.2, .val r.1))
  | .top i => (top s i).map (fun x => (s, .val x))
  | .size i => (size s i).map (fun n => (s, .num n))
  | .clear i => (clear s i).map (fun s => (s, .unit))
  | .meld i j => (meld lt ρ s i j).map (fun s => (s, .unit))
  | .absorb i j => (meld lt ρ s i j).bind (fun s => (clear s j).map (fun s => (s, .unit)))

/-- A program: a sequence of calls. -/
def run (lt : T → T → Bool) (ρ : Nat → Bool) : St T → List (Op T) → Option (St T × List (Out T))
  | s, [] => some (s, [])
  | s, op :: ops => (step lt ρ s op).bind (fun r => (run lt ρ r.1 ops).map (fun q => (q.1, r.2 :: q.2)))

end Verif.Meldable
