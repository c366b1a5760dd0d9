import Verif.IntSet.Run
/-!
# C124: `_XFastTrie` of integer_set.hpp as an ordered map

The specification (`Spec.lean`) is a partial map `m : Nat → Option V`; `Behaves W wanted` says that every legal sequence of calls is defined and answers as the map would.
With `wanted = true` this is the property as a user expects it; it fails for four reasons, each shown below.  `wanted = false` leaves out exactly these cases.
-/
namespace Verif.IntSet
open Verif

variable {V : Type} {W : Nat}

/-- The empty map. -/
def empty : Nat → Option V := fun _ => none

/-- C124, as wanted: every legal sequence of calls on a new trie of keys of 1 to 64 bits. -/
def History (V : Type) : Prop := ∀ W, 0 < W → W ≤ 64 → Behaves W true (init : St V) empty

/-- C124, what holds: every sequence of calls that never erases the last element, erases absent keys only below the greatest one, and with 64-bit keys gives hints only for keys
that share the top bit with a stored one.  An erasing call returns the iterator of the previous element. -/
theorem C124_history_partial (hW : 0 < W) : Behaves W false (init : St V) empty := by
  intro os hl
  obtain ⟨s, rs, e, hr, _⟩ := run_ok hW os init empty hl ⟨∅, init_inv W⟩
  exact ⟨s, rs, e, hr⟩

/-- A legal history with every kind of call, and what the model answers. -/
example : Legal 3 false (empty : Nat → Option Nat) [.emplace 5 50, .emplace 2 20, .emplace 5 51, .hint (some 5) 3 30, .hint none 1 10, .lower 4, .upper 5, .pred 5, .pred 1, .find 4, .erase 4, .erase 2, .eraseAt (some 5), .prev none, .next 1, .value 3, .size, .list,
    .clear, .size, .emplace 7 70, .list] := by
  simp [Legal, Pre, after, Trie.put1, empty, Trie.Valid, Other]
  refine ⟨⟨5, by simp⟩, ⟨5, by simp⟩, ⟨1, by simp⟩⟩

example : (run 3 (init : St Nat) [.emplace 5 50, .emplace 2 20, .emplace 5 51, .hint (some 5) 3 30, .hint none 1 10, .lower 4, .upper 5, .pred 5, .pred 1, .find 4, .erase 4, .erase 2, .eraseAt (some 5), .prev none, .next 1, .value 3, .size, .list,
    .clear, .size, .emplace 7 70, .list]).map Prod.snd =
    some [.it (some 5), .it (some 2), .it (some 5), .it (some 3), .it (some 1), .it (some 5), .it none, .it (some 3), .it none, .it none, .it (some 5), .it (some 1), .it (some 3), .it (some 3), .it (some 3), .value (some 30), .num 2, .list [(1, 10), (3, 30)],
      .unit, .num 0, .it (some 7), .list [(7, 70)]] := by decide +kernel

/-- A state reached by a sequence of calls covered by `C124_history_partial`, with its map. -/
def Reached (W : Nat) (s : St V) (m : Nat → Option V) : Prop :=
  ∃ os rs, Legal W false empty os ∧ run W (init : St V) os = some (s, rs) ∧ m = afterAll empty os

theorem Reached.inv {s : St V} {m : Nat → Option V} (hW : 0 < W) (hr : Reached W s m) : ∃ K, Inv W s K m := by
  obtain ⟨os, rs, hl, e, rfl⟩ := hr
  obtain ⟨s', rs', e', _, I⟩ := run_ok hW os (init : St V) empty hl ⟨∅, init_inv W⟩
  rw [e] at e'
  cases e'
  exact I

/-- C124 fails whenever the only element is erased (integer_set.hpp:261-285).  The trie is then empty in size and no key is found.  But for every key with the same top bit as the
erased one `lower_bound` gives or follows a null pointer and `emplace` follows one, and for every smaller key with another top bit `lower_bound` gives the leaf that was erased. -/
theorem C124_erase_last (hW : 0 < W) {s : St V} {m : Nat → Option V} (hr : Reached W s m) {x : Nat} (hx : (m x).isSome) (h1 : ∀ z, (m z).isSome → z = x) :
    ∃ s', eraseAt W s (some x) = some (s', none) ∧ s'.size = 0 ∧ (∀ y, find W s' y = none) ∧
      (∀ y < 2 ^ W, lowerBound W s' y = if y / 2 ^ (W - 1) = x / 2 ^ (W - 1) then none else if y < x then some (some x) else some none) ∧
      (∀ y < 2 ^ W, ∀ v, y / 2 ^ (W - 1) = x / 2 ^ (W - 1) → emplace W s' y v = none) := by
  obtain ⟨K, I⟩ := hr.inv hW
  have hK : K = {x} := by
    ext z
    rw [Finset.mem_singleton]
    exact ⟨fun h => h1 z ((I.mem z).1 h), fun h => by rw [h]; exact (I.mem x).2 hx⟩
  subst hK
  exact eraseLast hW I

example : Legal 3 false (empty : Nat → Option Nat) [.emplace 4 40] := by simp [Legal, Pre]

/-- A new element may even be lost: after `emplace(1); erase(1); emplace(4)` the size is 1 and 4 is found, but the loop from `begin()` to `end()` sees nothing. -/
theorem C124_lost_element : (run 3 (init : St Nat) [.emplace 1 10, .erase 1, .emplace 4 40, .size, .find 4, .list]).map Prod.snd =
    some [.it (some 1), .it none, .it (some 4), .num 1, .it (some 4), .list []] := by decide +kernel

/-- C124 fails: `emplace(4, a); erase(4); emplace(5, b)` meets a null pointer. -/
theorem C124_history_fails : ¬ History Nat := by
  intro h
  obtain ⟨s, rs, e, _⟩ := h 3 (by decide) (by decide) [.emplace 4 1, .erase 4, .emplace 5 1] (by simp [Legal, Pre])
  have : (run 3 (init : St Nat) [.emplace 4 1, .erase 4, .emplace 5 1]).isNone = true := by decide +kernel
  rw [e] at this
  cases this

/-- C124 fails in another way: `erase(it)` gives the previous element (lines 256, 287), here `end()` although 5 follows. -/
theorem C124_erase_result_fails : Legal 3 true (empty : Nat → Option Nat) [.emplace 1 10, .emplace 5 50, .eraseAt (some 1)] ∧
    ∃ s rs, run 3 (init : St Nat) [.emplace 1 10, .emplace 5 50, .eraseAt (some 1)] = some (s, rs) ∧ rs = [.it (some 1), .it (some 5), .it none] ∧
      ¬ Results true empty [.emplace 1 10, .emplace 5 50, .eraseAt (some 1)] rs := by
  refine ⟨by simp [Legal, Pre, after, Trie.put1, empty, Trie.Valid], ?_⟩
  have h : (run 3 (init : St Nat) [.emplace 1 10, .emplace 5 50, .eraseAt (some 1)]).map Prod.snd = some [.it (some 1), .it (some 5), .it none] := by decide +kernel
  cases e : run 3 (init : St Nat) [.emplace 1 10, .emplace 5 50, .eraseAt (some 1)] with
  | none => rw [e] at h; cases h
  | some a =>
    obtain ⟨s, rs⟩ := a
    rw [e] at h
    have hrs : rs = [.it (some 1), .it (some 5), .it none] := Option.some.inj h
    refine ⟨s, rs, rfl, hrs, ?_⟩
    rw [hrs]
    rintro ⟨r1, rs1, e1, _, r2, rs2, e2, _, r3, rs3, e3, ⟨a, ea, hb⟩, _⟩
    cases e1; cases e2; cases e3; cases ea
    exact hb 5 (by simp [after, Trie.put1, empty]) (by decide)

/-- C124 fails in another way: `erase(x)` of a key above all stored ones asks `end()` for its key (lines 289-292); so on an empty trie. -/
theorem C124_erase_absent_fails : Legal 3 true (empty : Nat → Option Nat) [.emplace 1 10, .erase 5] ∧ run 3 (init : St Nat) [.emplace 1 10, .erase 5] = none ∧
    Legal 3 true (empty : Nat → Option Nat) [.erase 5] ∧ run 3 (init : St Nat) [.erase 5] = none := by
  refine ⟨by simp [Legal, Pre], Option.isNone_iff_eq_none.1 (by decide +kernel), by simp [Legal, Pre], Option.isNone_iff_eq_none.1 (by decide +kernel)⟩

/-- C124 fails in another way: with 64-bit keys `emplace_hint` into an empty trie shifts by 64 (line 217), for every key. -/
theorem C124_hint_fails (x : Nat) (v : V) : run 64 (init : St V) [.hint none x v] = none := rfl

example : Legal 64 true (empty : Nat → Option Nat) [.hint none 5 50] := by simp [Legal, Pre, Trie.Valid]

/-- With fewer bits the same call is fine. -/
example : (run 63 (init : St Nat) [.hint none 5 50, .list]).map Prod.snd = some [.it (some 5), .list [(5, 50)]] := by decide +kernel

end Verif.IntSet
