import Verif.IntSet.Model
import Verif.Trie.Spec
/-!
# Specification of `_XFastTrie` of integer_set.hpp: a partial map from keys to values

Nothing here looks at nodes, threads or tables.  `put1`, `Least`, `Greatest` and `Valid` are those of `Verif/Trie/Spec.lean`.
-/
namespace Verif.IntSet
open Verif
open Verif.Trie (put1 Least Greatest Valid)

variable {V : Type}

/-- Calls of the public interface.  An iterator is `some key` or `none` for `end()`. -/
inductive Op (V : Type) where
  | emplace (x : Nat) (v : V)                      -- `emplace(x, v)`
  | hint (a : Option Nat) (x : Nat) (v : V)        -- `emplace_hint(a, x, v)`
  | erase (x : Nat)                                -- `erase(x)`
  | eraseAt (a : Option Nat)                       -- `erase(a)`
  | find (x : Nat)                                 -- also `count`, `contains`
  | lower (x : Nat)
  | upper (x : Nat)                                -- also `successor`
  | pred (x : Nat)                                 -- `predecessor(x)`
  | next (a : Nat)                                 -- `++it`
  | prev (a : Option Nat)                          -- `--it`
  | value (a : Nat)                                -- `it->second`
  | size                                           -- also `empty`
  | list                                           -- `for (auto& e : m)`
  | clear

inductive Ret (V : Type) where
  | unit
  | it (a : Option Nat)
  | value (v : Option V)
  | num (n : Nat)
  | list (l : List (Nat × V))
  deriving DecidableEq

/-! ### the model's run -/

def step (W : Nat) (s : St V) : Op V → Option (St V × Ret V)
  | .emplace x v => (emplace W s x v).map (fun a => (a.1, .it a.2))
  | .hint a x v => (emplaceHint W s a x v).map (fun a => (a.1, .it a.2))
  | .erase x => (erase W s x).map (fun a => (a.1, .it a.2))
  | .eraseAt a => (eraseAt W s a).map (fun b => (b.1, .it b.2))
  | .find x => some (s, .it (find W s x))
  | .lower x => (lowerBound W s x).map (fun a => (s, .it a))
  | .upper x => (upperBound W s x).map (fun a => (s, .it a))
  | .pred x => (predecessor W s x).map (fun a => (s, .it a))
  | .next a => (s.leaf (some a)).map (fun l => (s, .it l.next))
  | .prev a => (s.leaf a).map (fun l => (s, .it l.prev))
  | .value a => (s.leaf (some a)).map (fun l => (s, .value l.v))
  | .size => some (s, .num s.size)
  | .list => (elements s).map (fun l => (s, .list l))
  | .clear => some (init, .unit)

def run (W : Nat) : St V → List (Op V) → Option (St V × List (Ret V))
  | s, [] => some (s, [])
  | s, o :: os => (step W s o).bind (fun a => (run W a.1 os).map (fun b => (b.1, a.2 :: b.2)))

/-! ### the specification -/

/-- The map after a call. -/
def after (m : Nat → Option V) : Op V → Nat → Option V
  | .emplace x v | .hint _ x v => if (m x).isSome then m else put1 m x (some v)
  | .erase x | .eraseAt (some x) => put1 m x none
  | .clear => fun _ => none
  | _ => m

/-- The iterator returned when key `x` is erased: the next element (`wanted`), or, as the code has it, the previous one. -/
def Behind (wanted : Bool) (m : Nat → Option V) (x : Nat) (a : Option Nat) : Prop :=
  if wanted then Least m (x < ·) a else Greatest m (· < x) a

/-- What a call may return. -/
def Res (wanted : Bool) (m : Nat → Option V) : Op V → Ret V → Prop
  | .emplace x _, r | .hint _ x _, r => r = .it (some x)
  | .erase x, r => ∃ a, r = .it a ∧ if (m x).isSome then Behind wanted m x a else Least m (x ≤ ·) a
  | .eraseAt none, r => r = .it none
  | .eraseAt (some x), r => ∃ a, r = .it a ∧ Behind wanted m x a
  | .find x, r => r = .it (if (m x).isSome then some x else none)
  | .lower x, r => ∃ a, r = .it a ∧ Least m (x ≤ ·) a
  | .upper x, r => ∃ a, r = .it a ∧ Least m (x < ·) a
  | .pred x, r => ∃ a, r = .it a ∧ Greatest m (· < x) a
  | .next x, r => ∃ a, r = .it a ∧ Least m (x < ·) a
  | .prev (some x), r => ∃ a, r = .it a ∧ Greatest m (· < x) a
  | .prev none, r => ∃ a, r = .it a ∧ Greatest m (fun _ => True) a
  | .value x, r => r = .value (m x)
  | .size, r => ∃ K : Finset Nat, (∀ y, y ∈ K ↔ (m y).isSome) ∧ r = .num K.card
  | .list, r => ∃ l : List (Nat × V), r = .list l ∧ (l.map Prod.fst).Pairwise (· < ·) ∧ ∀ y w, (y, w) ∈ l ↔ m y = some w
  | .clear, r => r = .unit

/-- Some other key is stored. -/
def Other (m : Nat → Option V) (x : Nat) : Prop := ∃ z, z ≠ x ∧ (m z).isSome

/-- Preconditions.  As wanted: keys have `W` bits, iterators are valid and dereferenceable where needed.  Otherwise moreover: the last element is not erased, `erase(x)` of an absent
key is called only when a greater key is stored, and with 64-bit keys a hint is given only when a key with the same top bit is stored. -/
def Pre (W : Nat) (wanted : Bool) (m : Nat → Option V) : Op V → Prop
  | .emplace x _ | .find x | .lower x | .upper x | .pred x => x < 2 ^ W
  | .hint a x _ => x < 2 ^ W ∧ Valid m a ∧ (wanted = true ∨ W < 64 ∨ ∃ z, (m z).isSome ∧ z / 2 ^ (W - 1) = x / 2 ^ (W - 1))
  | .erase x => x < 2 ^ W ∧ (wanted = true ∨ if (m x).isSome then Other m x else ∃ z, x < z ∧ (m z).isSome)
  | .eraseAt a => Valid m a ∧ (wanted = true ∨ ∀ x, a = some x → Other m x)
  | .prev a => Valid m a
  | .next a | .value a => (m a).isSome
  | .size | .list | .clear => True

def Legal (W : Nat) (wanted : Bool) : (Nat → Option V) → List (Op V) → Prop
  | _, [] => True
  | m, o :: os => Pre W wanted m o ∧ Legal W wanted (after m o) os

def Results (wanted : Bool) : (Nat → Option V) → List (Op V) → List (Ret V) → Prop
  | _, [], rs => rs = []
  | m, o :: os, rs => ∃ r rs', rs = r :: rs' ∧ Res wanted m o r ∧ Results wanted (after m o) os rs'

/-- From state `s` every legal sequence of calls is defined and answers as the map `m` would. -/
def Behaves (W : Nat) (wanted : Bool) (s : St V) (m : Nat → Option V) : Prop :=
  ∀ os, Legal W wanted m os → ∃ s' rs, run W s os = some (s', rs) ∧ Results wanted m os rs

/-- The map after a sequence of calls. -/
def afterAll : (Nat → Option V) → List (Op V) → (Nat → Option V)
  | m, [] => m
  | m, o :: os => afterAll (after m o) os

end Verif.IntSet
