import Verif.Trie.Model
import Mathlib.Data.Finset.Card
/-!
# Specification of the tries: a partial map from keys to values

Nothing here looks at nodes, links or tables.
-/
namespace Verif.Trie
open Verif

variable {V : Type}

/-- Calls of the public interface (traits/set_traits.hpp:60-232 over `BinaryTrieBase` / `XFastTrieBase`).  An iterator is `some key` or `none` for `end()`. -/
inductive Op (V : Type) where
  | insert (x : Nat) (v : V)                       -- `insert({x, v})`, `emplace(x, v)`
  | hint (a : Option Nat) (x : Nat) (v : V)        -- `emplace_hint(a, x, v)`
  | read (x : Nat) (d : V)                         -- `m[x]`, `d` the default value
  | assign (x : Nat) (d v : V)                     -- `m[x] = v`
  | erase (x : Nat)                                -- `erase(x)`
  | eraseAt (a : Option Nat)                       -- `erase(a)`
  | find (x : Nat)
  | lower (x : Nat)
  | upper (x : Nat)
  | next (a : Nat)                                 -- `++it`
  | prev (a : Option Nat)                          -- `--it`
  | value (a : Nat)                                -- `it->second`
  | size
  | list                                           -- `for (auto& e : m)`
  | clear

inductive Ret (V : Type) where
  | unit
  | flag (b : Bool)
  | it (a : Option Nat)
  | value (v : Option V)
  | num (n : Nat)
  | list (l : List (Nat × V))
  deriving DecidableEq

/-! ### the model's run -/

/-- One call on an X-fast trie (`xf`) or a plain one. -/
def step (xf : Bool) (W : Nat) (s : St V) : Op V → Option (St V × Ret V)
  | .insert x v => (add xf W s x v).map (fun a => (a.1, .flag a.2))
  | .hint a x v => (emplaceHint xf W s a x v).map (fun s => (s, .it (some x)))
  | .read x d => (ref xf W s x d).map (fun s => (s, .value (valueAt s (some x))))
  | .assign x d v => (assign xf W s x d v).map (fun s => (s, .unit))
  | .erase x => (erase xf W s x).map (fun a => (a.1, .flag a.2))
  | .eraseAt a => (eraseAt xf W s a).map (fun b => (b.1, .it b.2))
  | .find x => (find xf W s x).map (fun a => (s, .it a))
  | .lower x => (lowerBound xf W s x).map (fun a => (s, .it a))
  | .upper x => (upperBound xf W s x).map (fun a => (s, .it a))
  | .next a => (s.leaf (some a)).map (fun l => (s, .it l.next))
  | .prev a => (s.leaf a).map (fun l => (s, .it l.prev))
  | .value a => (s.leaf (some a)).map (fun l => (s, .value l.v))
  | .size => some (s, .num s.size)
  | .list => (elements s).map (fun l => (s, .list l))
  | .clear => (clear (some s)).bind (fun a => a.map (fun s => (s, .unit)))

def run (xf : Bool) (W : Nat) : St V → List (Op V) → Option (St V × List (Ret V))
  | s, [] => some (s, [])
  | s, o :: os => (step xf W s o).bind (fun a => (run xf W a.1 os).map (fun b => (b.1, a.2 :: b.2)))

/-! ### the specification -/

/-- The map with the value of `x` replaced. -/
def put1 (m : Nat → Option V) (x : Nat) (w : Option V) : Nat → Option V := fun y => if y = x then w else m y

/-- The map after a call. -/
def after (m : Nat → Option V) : Op V → Nat → Option V
  | .insert x v | .hint _ x v | .read x v => if (m x).isSome then m else put1 m x (some v)
  | .assign x _ v => put1 m x (some v)
  | .erase x | .eraseAt (some x) => put1 m x none
  | .clear => fun _ => none
  | _ => m

/-- `r` is the smallest key with property `P`, or `end()` when there is none. -/
def Least (m : Nat → Option V) (P : Nat → Prop) : Option Nat → Prop
  | some y => (m y).isSome ∧ P y ∧ ∀ z, (m z).isSome → P z → y ≤ z
  | none => ∀ z, (m z).isSome → ¬ P z

def Greatest (m : Nat → Option V) (P : Nat → Prop) : Option Nat → Prop
  | some y => (m y).isSome ∧ P y ∧ ∀ z, (m z).isSome → P z → z ≤ y
  | none => ∀ z, (m z).isSome → ¬ P z

/-- What a call may return. -/
def Res (m : Nat → Option V) : Op V → Ret V → Prop
  | .insert x _, r => r = .flag (m x).isNone
  | .hint _ x _, r => r = .it (some x)
  | .read x d, r => r = .value (some ((m x).getD d))
  | .assign _ _ _, r => r = .unit
  | .erase x, r => r = .flag (m x).isSome
  | .eraseAt none, r => r = .it none
  | .eraseAt (some x), r => ∃ a, r = .it a ∧ Least m (x < ·) a
  | .find x, r => r = .it (if (m x).isSome then some x else none)
  | .lower x, r => ∃ a, r = .it a ∧ Least m (x ≤ ·) a
  | .upper x, r => ∃ a, r = .it a ∧ Least m (x < ·) a
  | .next x, r => ∃ a, r = .it a ∧ Least m (x < ·) a
  | .prev (some x), r => ∃ a, r = .it a ∧ Greatest m (· < x) a
  | .prev none, r => ∃ a, r = .it a ∧ Greatest m (fun _ => True) a
  | .value x, r => r = .value (m x)
  | .size, r => ∃ K : Finset Nat, (∀ y, y ∈ K ↔ (m y).isSome) ∧ r = .num K.card
  | .list, r => ∃ l : List (Nat × V), r = .list l ∧ (l.map Prod.fst).Pairwise (· < ·) ∧ ∀ y w, (y, w) ∈ l ↔ m y = some w
  | .clear, r => r = .unit

/-- An iterator of the map. -/
def Valid (m : Nat → Option V) : Option Nat → Prop
  | none => True
  | some x => (m x).isSome

/-- Preconditions: keys have `W` bits, iterators are valid and dereferenceable where needed.  `hints` tells whether `emplace_hint` and `operator[]` may be used. -/
def Pre (W : Nat) (hints : Bool) (m : Nat → Option V) : Op V → Prop
  | .insert x _ | .erase x | .find x | .lower x | .upper x => x < 2 ^ W
  | .hint a x _ => x < 2 ^ W ∧ Valid m a ∧ hints = true
  | .read x _ | .assign x _ _ => x < 2 ^ W ∧ hints = true
  | .eraseAt a | .prev a => Valid m a
  | .next a | .value a => (m a).isSome
  | .size | .list | .clear => True

/-- `clear` lets `emplace_hint` be used from then on. -/
def hintsAfter (h : Bool) : Op V → Bool
  | .clear => true
  | _ => h

def Legal (W : Nat) : Bool → (Nat → Option V) → List (Op V) → Prop
  | _, _, [] => True
  | h, m, o :: os => Pre W h m o ∧ Legal W (hintsAfter h o) (after m o) os

def Results : (Nat → Option V) → List (Op V) → List (Ret V) → Prop
  | _, [], rs => rs = []
  | m, o :: os, rs => ∃ r rs', rs = r :: rs' ∧ Res m o r ∧ Results (after m o) os rs'

/-- From state `s` every legal sequence of calls is defined and answers as the map `m` would. -/
def Behaves (xf : Bool) (W : Nat) (h : Bool) (s : St V) (m : Nat → Option V) : Prop :=
  ∀ os, Legal W h m os → ∃ s' rs, run xf W s os = some (s', rs) ∧ Results m os rs

/-- The map after a sequence of calls. -/
def afterAll : (Nat → Option V) → List (Op V) → (Nat → Option V)
  | m, [] => m
  | m, o :: os => afterAll (after m o) os

/-- The map of a range: of several elements with the same key the first counts. -/
def ofList (l : List (Nat × V)) : Nat → Option V := fun y => (l.find? (fun a => a.1 == y)).map Prod.snd

end Verif.Trie
