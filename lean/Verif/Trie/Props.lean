import Verif.Trie.Run
/-!
# C86, C87, C88, C89: `BinaryTrie` and `XFastTrie` as ordered maps

The specification (`Spec.lean`) is a partial map `m : Nat → Option V`; `Behaves` says that every legal sequence of calls is defined and answers as the map would.
-/
namespace Verif.Trie
open Verif

variable {V : Type} {W : Nat}

/-- The empty map. -/
def empty : Nat → Option V := fun _ => none

/-! ### C86: the plain trie -/

/-- C86.  A default-constructed binary trie answers every legal sequence of calls as a map does. -/
theorem C86_history (hW : 0 < W) (rt : Bool) : Behaves false W true (init rt : St V) empty :=
  behaves_of hW ⟨rt, ∅, init_inv W rt, fun h => by cases h⟩

/-- C86.  The same for one built from a range, sorted or not, with or without repeated keys. -/
theorem C86_range_history (hW : 0 < W) (l : List (Nat × V)) (hl : ∀ a ∈ l, a.1 < 2 ^ W) :
    ∃ s, ofRange false W l = some s ∧ Behaves false W true s (ofList l) := by
  obtain ⟨s, K, e, I⟩ := ofRange_inv hW false l hl
  exact ⟨s, e, behaves_of hW ⟨true, K, I, fun _ _ => rfl⟩⟩

/-- A legal history with every kind of call, and what the model answers. -/
example : Legal 3 true (empty : Nat → Option Nat) [.insert 5 50, .insert 2 20, .insert 5 51, .hint (some 5) 6 60, .read 7 70, .assign 2 0 22, .lower 3, .upper 5, .find 4, .erase 5, .eraseAt (some 6), .prev none, .next 2, .value 2, .size, .list, .clear, .size] := by
  simp [Legal, Pre, after, put1, empty, hintsAfter, Valid]

example : (run false 3 (init false : St Nat) [.insert 5 50, .insert 2 20, .insert 5 51, .hint (some 5) 6 60, .read 7 70, .assign 2 0 22, .lower 3, .upper 5, .find 4, .erase 5, .eraseAt (some 6), .prev none, .next 2, .value 2, .size, .list, .clear, .size]).map Prod.snd =
    some [.flag true, .flag true, .flag false, .it (some 6), .value (some 70), .unit, .it (some 5), .it (some 6), .it none, .flag true, .it (some 7), .it (some 7), .it (some 7), .value (some 22), .num 2, .list [(2, 22), (7, 70)], .unit, .num 0] := by
  decide +kernel

/-- A sorted range with a repeated key and an unsorted one. -/
example : ((ofRange false 3 [(1, 10), (4, 40), (4, 41), (6, 60)]).bind elements) = some [(1, 10), (4, 40), (6, 60)] := by decide +kernel
example : ((ofRange false 3 [(4, 40), (1, 10), (4, 41), (6, 60)]).bind elements) = some [(1, 10), (4, 40), (6, 60)] := by decide +kernel

/-! ### C87: the X-fast trie -/

/-- C87, as wanted: every legal sequence of calls on a default-constructed X-fast trie. -/
def XFastHistory (V : Type) : Prop := ∀ W, 0 < W → Behaves true W true (init false : St V) empty

/-- C87 fails: `m[0] = a; m[4] = b;` on a default-constructed X-fast trie of 3-bit keys ends in a failed `assert` (xft.hpp:119), because the root was never stored in `tb_[0]`. -/
theorem C87_history_fails : ¬ XFastHistory Nat := by
  intro h
  obtain ⟨s, rs, e, _⟩ := h 3 (by decide) [.assign 0 0 1, .assign 4 0 1] (by simp [Legal, Pre, hintsAfter])
  have : (run true 3 (init false : St Nat) [.assign 0 0 1, .assign 4 0 1]).isNone = true := by decide +kernel
  rw [e] at this
  cases this

/-- C87, what holds for a default-constructed X-fast trie: every sequence of calls in which `emplace_hint` and `operator[]` come only after a `clear`. -/
theorem C87_history_partial (hW : 0 < W) : Behaves true W false (init false : St V) empty :=
  behaves_of hW ⟨false, ∅, init_inv W false, fun _ h => by cases h⟩

/-- C87 for an X-fast trie built from a range: every legal sequence of calls. -/
theorem C87_range_history (hW : 0 < W) (l : List (Nat × V)) (hl : ∀ a ∈ l, a.1 < 2 ^ W) :
    ∃ s, ofRange true W l = some s ∧ Behaves true W true s (ofList l) := by
  obtain ⟨s, K, e, I⟩ := ofRange_inv hW true l hl
  exact ⟨s, e, behaves_of hW ⟨true, K, I, fun _ _ => rfl⟩⟩

example : Legal 3 false (empty : Nat → Option Nat) [.insert 5 50, .insert 2 20, .erase 5, .insert 6 60, .lower 3, .list, .clear, .assign 4 0 44, .assign 0 0 1, .size] := by
  simp [Legal, Pre, hintsAfter, after]

example : (run true 3 (init false : St Nat) [.insert 5 50, .insert 2 20, .erase 5, .insert 6 60, .lower 3, .list, .clear, .assign 4 0 44, .assign 0 0 1, .size]).map Prod.snd =
    some [.flag true, .flag true, .flag true, .flag true, .it (some 6), .list [(2, 20), (6, 60)], .unit, .unit, .unit, .num 2] := by decide +kernel

/-! ### C88: copies, moves and destruction -/

/-- A state reached by a legal sequence of calls, with its map. -/
def Reached (xf : Bool) (W : Nat) (s : St V) (m : Nat → Option V) : Prop :=
  ∃ h os rs, Legal W h empty os ∧ (xf = true → h = false) ∧ run xf W (init false : St V) os = some (s, rs) ∧ m = afterAll empty os

theorem Reached.inv {xf : Bool} {s : St V} {m : Nat → Option V} (hW : 0 < W) (hr : Reached xf W s m) : ∃ rt K, Inv W rt s K m := by
  obtain ⟨h, os, rs, hl, hx, e, rfl⟩ := hr
  obtain ⟨s', rs', _, e', _, ⟨rt, K, I, _⟩, _⟩ := run_ok hW xf os h (init false : St V) empty hl ⟨false, ∅, init_inv W false, fun a b => by rw [hx a] at b; cases b⟩
  rw [e] at e'
  cases e'
  exact ⟨rt, K, I⟩

/-- C88, as wanted: a trie can be copied and moved, the results hold its elements, and everything can be destroyed afterwards. -/
def CopyMove (xf : Bool) (V : Type) : Prop := ∀ (W : Nat) (s : St V) (m : Nat → Option V), 0 < W → Reached xf W s m →
  (∃ c, copyOf xf W (some s) = some (some c) ∧ Behaves xf W true c m ∧ destroy (some c) = some ()) ∧
  (∃ c, copyAssign xf W (some s) (some s) = some (some c) ∧ Behaves xf W true c m) ∧
  (∃ t r, moveOf xf (some s) = some (some t, r) ∧ Behaves xf W false t m ∧ destroy (some t) = some () ∧ destroy r = some ()) ∧
  destroy (some s) = some ()

/-- C88 fails for both tries: the source of a move has null pointers, which its destructor dereferences (binary_trie.hpp:70). -/
theorem C88_copyMove_fails (xf : Bool) : ¬ CopyMove xf Nat := by
  intro h
  obtain ⟨_, _, ⟨t, r, e, _, _, hd⟩, _⟩ := h 1 (init false) empty (by decide) ⟨false, [], [], trivial, fun _ => rfl, rfl, rfl⟩
  unfold moveOf at e
  cases xf with
  | false =>
    rw [if_neg (by decide)] at e
    injection e with e
    injection e with e1 e2
    subst e2
    cases hd
  | true =>
    rw [if_pos rfl, deinit_ok (init_inv 1 false)] at e
    injection e with e
    injection e with e1 e2
    subst e2
    cases hd

/-- The destructor of a moved-from trie is undefined for every trie. -/
theorem C88_moved_from_destroy (xf : Bool) (s : St V) (t r : Option (St V)) (h : moveOf xf (some s) = some (t, r)) : destroy r = none := by
  unfold moveOf at h
  cases xf with
  | false =>
    rw [if_neg (by decide)] at h
    injection h with h
    injection h with h1 h2
    rw [← h2]; rfl
  | true =>
    rw [if_pos rfl, deinit_ok (init_inv 1 false)] at h
    injection h with h
    injection h with h1 h2
    rw [← h2]; rfl

/-- Assigning a trie to itself reads the null `dummy_`. -/
theorem C88_selfAssign_undefined (xf : Bool) (s : St V) : selfAssign xf W (some s) = none := by
  unfold selfAssign
  cases deinit (some s) <;> rfl

/-- A moved X-fast trie does not find any of its keys: the table is left behind (xft.hpp:51-53). -/
theorem C88_xfast_move_loses (s t : St V) (r : Option (St V)) (h : moveOf true (some s) = some (some t, r)) (x : Nat) : find true W t x = some none := by
  unfold moveOf at h
  rw [if_pos rfl, deinit_ok (init_inv 1 false)] at h
  injection h with h
  injection h with h1 h2
  injection h1 with h1
  rw [← h1]
  rfl

/-- ... though the key is still among its elements. -/
example : ((run true 3 (init false : St Nat) [.insert 5 50]).bind (fun a => (moveOf true (some a.1)).bind (fun b => b.1.bind (fun t => elements t)))) = some [(5, 50)] := by decide +kernel

/-- C88, what holds: copying (for both tries), copy assignment between different plain tries, the target of a move of a plain trie, and destruction of tries that were not moved from. -/
theorem C88_copyMove_partial (hW : 0 < W) {xf : Bool} {s : St V} {m : Nat → Option V} (hr : Reached xf W s m) :
    (∃ c, copyOf xf W (some s) = some (some c) ∧ Behaves xf W true c m ∧ destroy (some c) = some ()) ∧ destroy (some s) = some () ∧
    (xf = false → (∀ s' m', Reached false W s' m' → ∃ c, copyAssign false W (some s') (some s) = some (some c) ∧ Behaves false W true c m ∧ destroy (some c) = some ()) ∧
      (∃ t r, moveOf false (some s) = some (some t, r) ∧ Behaves false W true t m ∧ destroy (some t) = some ()) ∧
      (∀ s' m', Reached false W s' m' → ∃ t r, moveAssign (some s') (some s) = some (some t, r) ∧ Behaves false W true t m ∧ destroy (some t) = some ())) := by
  obtain ⟨rt, K, I⟩ := hr.inv hW
  obtain ⟨c, K', e, I'⟩ := copy_ok hW xf I
  refine ⟨⟨c, e, behaves_of hW ⟨true, K', I', fun _ _ => rfl⟩, deinit_ok I'⟩, deinit_ok I, ?_⟩
  rintro rfl
  have hB : Behaves false W true s m := behaves_of hW ⟨rt, K, I, fun h => by cases h⟩
  refine ⟨fun s' m' hr' => ?_, ⟨s, none, rfl, hB, deinit_ok I⟩, fun s' m' hr' => ?_⟩
  · obtain ⟨rt', K2, I2⟩ := hr'.inv hW
    exact ⟨c, by unfold copyAssign; rw [deinit_ok I2, Option.bind_some, if_neg (by decide), e], behaves_of hW ⟨true, K', I', fun _ _ => rfl⟩, deinit_ok I'⟩
  · obtain ⟨rt', K2, I2⟩ := hr'.inv hW
    exact ⟨s, none, by unfold moveAssign; rw [deinit_ok I2]; rfl, hB, deinit_ok I⟩

/-- Two keys, copied. -/
example : ((run true 3 (init false : St Nat) [.insert 5 50, .insert 1 10]).bind (fun a => (copyOf true 3 (some a.1)).bind (fun b => b.bind (fun t => elements t)))) = some [(1, 10), (5, 50)] := by decide +kernel

/-! ### C89: client-driven descent -/

open Classical in
/-- C89.  `traverse(rule)` on a non-empty trie with a rule that only asks for children that are there: the key reached is in the map and each of its bits is what the rule says,
given the two facts whether some key continues the prefix with 0 and with 1. -/
theorem C89_traverse_rule (hW : 0 < W) {xf : Bool} {s : St V} {m : Nat → Option V} (hr : Reached xf W s m) (hne : ∃ z, (m z).isSome) {rule : Nat → Bool → Bool → Nat} (hs : Sound rule) :
    ∃ y, follow W s rule W 0 0 = some y ∧ (m y).isSome ∧
      ∀ i < W, y / 2 ^ (W - i - 1) % 2 = rule (W - 1 - i) (decide (∃ z, (m z).isSome ∧ z / 2 ^ (W - (i+1)) = 2 * (y / 2 ^ (W - i)))) (decide (∃ z, (m z).isSome ∧ z / 2 ^ (W - (i+1)) = 2 * (y / 2 ^ (W - i)) + 1)) := by
  obtain ⟨rt, K, I⟩ := hr.inv hW
  obtain ⟨z, hz⟩ := hne
  have hz' := (I.mem z).2 hz
  obtain ⟨y, e, hy, _, hb⟩ := follow_ok I hs W 0 0 (by omega) ⟨z, hz', pre_zero (I.lt z hz')⟩
  refine ⟨y, e, (I.mem y).1 hy, fun i hi => ?_⟩
  have := hb i (Nat.zero_le _) hi
  unfold bit pre at this
  rw [this]
  simp only [I.mem]

/-- C89.  With the xor rule the key reached is the one closest to `q` under xor. -/
theorem C89_xor_min (hW : 0 < W) {xf : Bool} {s : St V} {m : Nat → Option V} (hr : Reached xf W s m) (hne : ∃ z, (m z).isSome) (q : Nat) :
    ∃ y, follow W s (xorRule q) W 0 0 = some y ∧ (m y).isSome ∧ ∀ z, (m z).isSome → y ^^^ q ≤ z ^^^ q := by
  classical
  obtain ⟨rt, K, I⟩ := hr.inv hW
  obtain ⟨z, hz⟩ := hne
  have hz' := (I.mem z).2 hz
  obtain ⟨y, e, hy, _, hb⟩ := follow_ok I (xorRule_sound q) W 0 0 (by omega) ⟨z, hz', pre_zero (I.lt z hz')⟩
  refine ⟨y, e, (I.mem y).1 hy, fun z hz => ?_⟩
  have hzK := (I.mem z).2 hz
  by_cases c : z = y
  · rw [c]
  · obtain ⟨d, hd, h1, h2⟩ := part (I.lt y hy) (I.lt z hzK) c
    have hbz := bit_lt W z d
    have hby := bit_lt W y d
    have hbq := bit_lt W q d
    have psz := pre_succ (x := z) hd
    have psy := pre_succ (x := y) hd
    have hbd := hb d (Nat.zero_le _) hd
    have hc : ∀ b, b < 2 → ∃ t ∈ K, pre W t (d+1) = 2 * pre W y d + b := fun b hb2 => by
      by_cases e : bit W y d = b
      · exact ⟨y, hy, by rw [psy, e]⟩
      · exact ⟨z, hzK, by rw [psz, h1]; omega⟩
    have hc0 : ∃ t ∈ K, pre W t (d+1) = 2 * pre W y d := hc 0 (by omega)
    rw [decide_eq_true hc0, decide_eq_true (hc 1 (by omega))] at hbd
    have hq : bit W y d = bit W q d := by
      rw [hbd]
      show q / 2 ^ (W - 1 - d) % 2 = q / 2 ^ (W - d - 1) % 2
      congr 3
      omega
    refine le_of_lt (lt_of_pre (W := W) (i := d+1) ?_)
    rw [pre_succ hd, pre_succ hd, pre_xor, pre_xor, bit_xor, bit_xor, h1]
    omega

example : ((run false 3 (init false : St Nat) [.insert 5 50, .insert 1 10, .insert 6 60]).bind (fun a => follow 3 a.1 (xorRule 3) 3 0 0)) = some 1 := by decide +kernel
example : Reached false 3 (init false : St Nat) empty := ⟨true, [], [], trivial, fun h => (by cases h), rfl, rfl⟩

end Verif.Trie
