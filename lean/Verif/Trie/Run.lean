import Verif.Trie.Spec
import Verif.Trie.Rest
import Verif.Trie.Range
/-! Every call keeps the invariant and answers as specified. -/
namespace Verif.Trie
open Verif

variable {V : Type} {W x y z : Nat} {K : Finset Nat} {rt xf hts : Bool} {s : St V} {m : Nat → Option V}

theorem put1_eq (w : Option V) : put1 m x w = upd m x w := rfl

theorem least_of {P : Nat → Prop} {r : Option Nat} (I : Inv W rt s K m) (h : IsMin (fun z => z ∈ K ∧ P z) r) : Least m P r := by
  cases r with
  | none => exact fun z hz hp => h z ⟨(I.mem z).2 hz, hp⟩
  | some y => exact ⟨(I.mem y).1 h.1.1, h.1.2, fun z hz hp => h.2 z ⟨(I.mem z).2 hz, hp⟩⟩

theorem greatest_of {P : Nat → Prop} {r : Option Nat} (I : Inv W rt s K m) (h : IsMax (fun z => z ∈ K ∧ P z) r) : Greatest m P r := by
  cases r with
  | none => exact fun z hz hp => h z ⟨(I.mem z).2 hz, hp⟩
  | some y => exact ⟨(I.mem y).1 h.1.1, h.1.2, fun z hz hp => h.2 z ⟨(I.mem z).2 hz, hp⟩⟩

theorem ptr_of {a : Option Nat} (I : Inv W rt s K m) (h : Valid m a) : Ptr K a := by
  cases a with
  | none => trivial
  | some x => exact (I.mem x).2 h

theorem ite_mem (I : Inv W rt s K m) (v : V) : (if x ∈ K then m else upd m x (some v)) = (if (m x).isSome then m else put1 m x (some v)) := by
  by_cases c : x ∈ K
  · rw [if_pos c, if_pos ((I.mem x).1 c)]
  · rw [if_neg c, if_neg (fun h => c ((I.mem x).2 h))]; rfl

/-- The invariant with the set of keys hidden, and what is known of the stored root. -/
def Inv1 (xf : Bool) (W : Nat) (h : Bool) (s : St V) (m : Nat → Option V) : Prop := ∃ rt K, Inv W rt s K m ∧ (xf = true → h = true → rt = true)

theorem step_ok (hW : 0 < W) (xf : Bool) {o : Op V} (hp : Pre W hts m o) (I1 : Inv1 xf W hts s m) :
    ∃ s' r, step xf W s o = some (s', r) ∧ Res m o r ∧ Inv1 xf W (hintsAfter hts o) s' (after m o) := by
  obtain ⟨rt, K, I, hrt⟩ := I1
  cases o with
  | insert x v =>
    obtain ⟨s', e, J⟩ := add_ok I hW hp xf v
    rw [ite_mem I] at J
    refine ⟨s', .flag (decide (x ∉ K)), by rw [step, e]; rfl, ?_, rt, _, J, hrt⟩
    show _ = _
    congr 1
    have := I.mem x
    cases hc : m x with
    | none => rw [hc] at this; simpa using this
    | some w => rw [hc] at this; simpa using this
  | hint a x v =>
    obtain ⟨s', e, J⟩ := emplaceHint_ok I hW hp.1 xf (fun h => hrt h hp.2.2) (ptr_of I hp.2.1) v
    rw [ite_mem I] at J
    exact ⟨s', _, by rw [step, e]; rfl, rfl, rt, _, J, hrt⟩
  | read x d =>
    obtain ⟨s', e, J⟩ := ref_ok I hW hp.1 xf (fun h => hrt h hp.2) d
    rw [ite_mem I] at J
    refine ⟨s', .value (valueAt s' (some x)), by rw [step, e]; rfl, ?_, rt, _, J, hrt⟩
    rw [valueAt_ok J (Finset.mem_insert_self x K)]
    show _ = _
    cases hc : m x with
    | none => rw [if_neg (by simp)]; simp [put1]
    | some w => rw [if_pos (by simp)]; simp [hc]
  | assign x d v =>
    obtain ⟨s', e, J⟩ := assign_ok I hW hp.1 xf (fun h => hrt h hp.2) d v
    exact ⟨s', _, by rw [step, e]; rfl, rfl, rt, _, J, hrt⟩
  | erase x =>
    obtain ⟨s', e, J⟩ := erase_ok hW I hp xf
    refine ⟨s', .flag (decide (x ∈ K)), by rw [step, e]; rfl, ?_, rt, _, J, hrt⟩
    show _ = _
    congr 1
    have := I.mem x
    cases hc : m x with
    | none => rw [hc] at this; simpa using this
    | some w => rw [hc] at this; simpa using this
  | eraseAt a =>
    cases a with
    | none => exact ⟨s, _, rfl, rfl, rt, K, I, hrt⟩
    | some x =>
      obtain ⟨s', nx, e, J, hn⟩ := eraseAt_ok hW I ((I.mem x).2 hp) xf
      exact ⟨s', .it nx, by rw [step, eraseAt, e]; rfl, ⟨nx, rfl, least_of I hn⟩, rt, _, J, hrt⟩
  | find x =>
    refine ⟨s, .it (if x ∈ K then some x else none), by rw [step, find_ok I hW hp xf]; rfl, ?_, rt, K, I, hrt⟩
    show _ = _
    by_cases c : x ∈ K
    · rw [if_pos c, if_pos ((I.mem x).1 c)]
    · rw [if_neg c, if_neg (fun h => c ((I.mem x).2 h))]
  | lower x =>
    obtain ⟨r, e, h⟩ := lowerBound_ok I hW hp xf
    exact ⟨s, _, by rw [step, e]; rfl, ⟨r, rfl, least_of I h⟩, rt, K, I, hrt⟩
  | upper x =>
    obtain ⟨r, e, h⟩ := upperBound_ok I hW hp xf
    exact ⟨s, _, by rw [step, e]; rfl, ⟨r, rfl, least_of I h⟩, rt, K, I, hrt⟩
  | next x =>
    obtain ⟨l, el, lp, ln, lv⟩ := I.leaf (some x) ((I.mem x).2 hp)
    exact ⟨s, _, by rw [step, el]; rfl, ⟨l.next, rfl, least_of I ln⟩, rt, K, I, hrt⟩
  | prev a =>
    obtain ⟨l, el, lp, ln, lv⟩ := I.leaf a (ptr_of I hp)
    refine ⟨s, .it l.prev, by rw [step, el]; rfl, ?_, rt, K, I, hrt⟩
    cases a with
    | none => exact ⟨l.prev, rfl, greatest_of I lp⟩
    | some x => exact ⟨l.prev, rfl, greatest_of I lp⟩
  | value x =>
    obtain ⟨l, el, lp, ln, lv⟩ := I.leaf (some x) ((I.mem x).2 hp)
    refine ⟨s, .value l.v, by rw [step, el]; rfl, ?_, rt, K, I, hrt⟩
    rw [lv]
    rfl
  | size => exact ⟨s, _, rfl, ⟨K, I.mem, by rw [I.size]⟩, rt, K, I, hrt⟩
  | list =>
    obtain ⟨l, e, h1, h2⟩ := elements_ok I
    exact ⟨s, .list l, by rw [step, e]; rfl, ⟨l, rfl, h1, h2⟩, rt, K, I, hrt⟩
  | clear => exact ⟨init true, .unit, by rw [step, clear, deinit_ok I]; rfl, rfl, true, ∅, init_inv W true, fun _ _ => rfl⟩

theorem run_ok (hW : 0 < W) (xf : Bool) : ∀ (os : List (Op V)) (hts : Bool) (s : St V) (m : Nat → Option V), Legal W hts m os → Inv1 xf W hts s m →
    ∃ s' rs hts', run xf W s os = some (s', rs) ∧ Results m os rs ∧ Inv1 xf W hts' s' (afterAll m os) ∧ (hts = true → hts' = true)
  | [], hts, s, m, _, I => ⟨s, [], hts, rfl, rfl, I, id⟩
  | o :: os, hts, s, m, hl, I => by
    obtain ⟨s1, r, e, hr, I1⟩ := step_ok hW xf hl.1 I
    obtain ⟨s2, rs, h2, e2, hr2, I2, ht⟩ := run_ok hW xf os _ s1 (after m o) hl.2 I1
    refine ⟨s2, r :: rs, h2, by rw [run, e, Option.bind_some, e2]; rfl, ⟨r, rs, rfl, hr, hr2⟩, I2, fun h => ht ?_⟩
    subst h
    cases o <;> rfl

theorem behaves_of (hW : 0 < W) (I : Inv1 xf W hts s m) : Behaves xf W hts s m := fun os hl => by
  obtain ⟨s', rs, _, e, hr, _⟩ := run_ok hW xf os hts s m hl I
  exact ⟨s', rs, e, hr⟩

theorem ofRange_inv (hW : 0 < W) (xf : Bool) (l : List (Nat × V)) (hl : ∀ a ∈ l, a.1 < 2 ^ W) : ∃ s K, ofRange xf W l = some s ∧ Inv W true s K (ofList l) := by
  obtain ⟨s, K, e, I⟩ := ofRange_ok hW xf l hl
  refine ⟨s, K, e, ?_⟩
  have : put (fun _ => none) l = ofList l := by funext y; rw [put_eq]; rfl
  rwa [this] at I

/-- A list with each key once is the map it lists. -/
theorem ofList_of {l : List (Nat × V)} (hs : (l.map Prod.fst).Pairwise (· < ·)) (hm : ∀ y w, (y, w) ∈ l ↔ m y = some w) : ofList l = m := by
  funext y
  unfold ofList
  cases hc : l.find? (fun a => a.1 == y) with
  | none =>
    cases hmy : m y with
    | none => rfl
    | some w =>
      have := List.find?_eq_none.1 hc _ ((hm y w).2 hmy)
      simp at this
  | some a =>
    obtain ⟨a1, a2⟩ := a
    have h1 := List.mem_of_find?_eq_some hc
    have h2 := List.find?_some hc
    have : a1 = y := by simpa using h2
    subst this
    exact ((hm a1 a2).1 h1).symm

theorem copy_ok (hW : 0 < W) (xf : Bool) (I : Inv W rt s K m) : ∃ s' K', copyOf xf W (some s) = some (some s') ∧ Inv W true s' K' m := by
  obtain ⟨l, e, hs, hm⟩ := elements_ok I
  obtain ⟨s', K', e', I'⟩ := ofRange_inv hW xf l (fun a ha => I.lt _ ((I.mem _).2 (by rw [(hm a.1 a.2).1 ha]; rfl)))
  rw [ofList_of hs hm] at I'
  exact ⟨s', K', by unfold copyOf; dsimp only; rw [e, Option.bind_some, e']; rfl, I'⟩

/-! ### the closest key under xor -/

/-- The rule of the xor-minimum query (test/yosupo/set_xor_min.test.cpp): the bit of `q` when there is a choice. -/
def xorRule (q : Nat) (k : Nat) (l r : Bool) : Nat := if l && r then q / 2 ^ k % 2 else if l then 0 else 1

theorem xorRule_sound (q : Nat) : Sound (xorRule q) := by
  intro k l r h
  unfold xorRule
  have : q / 2 ^ k % 2 < 2 := Nat.mod_lt _ (by decide)
  cases l <;> cases r
  · cases h
  · exact Or.inr ⟨rfl, rfl⟩
  · exact Or.inl ⟨rfl, rfl⟩
  · simp only [Bool.and_self, if_true, and_true]
    omega

theorem pre_xor (W x y i : Nat) : pre W (x ^^^ y) i = pre W x i ^^^ pre W y i := by
  unfold pre
  rw [← Nat.shiftRight_eq_div_pow, ← Nat.shiftRight_eq_div_pow, ← Nat.shiftRight_eq_div_pow, Nat.shiftRight_xor_distrib]

theorem bit_xor (W x y i : Nat) : bit W (x ^^^ y) i = (bit W x i + bit W y i) % 2 := by
  unfold bit
  rw [← Nat.shiftRight_eq_div_pow, ← Nat.shiftRight_eq_div_pow, ← Nat.shiftRight_eq_div_pow, Nat.shiftRight_xor_distrib]
  generalize x >>> (W - i - 1) = a
  generalize y >>> (W - i - 1) = b
  have h0 : (a ^^^ b).testBit 0 = (a.testBit 0 ^^ b.testBit 0) := Nat.testBit_xor a b 0
  rw [Nat.testBit_zero, Nat.testBit_zero, Nat.testBit_zero] at h0
  have h1 : a % 2 < 2 := Nat.mod_lt _ (by decide)
  have h2 : b % 2 < 2 := Nat.mod_lt _ (by decide)
  have h3 : (a ^^^ b) % 2 < 2 := Nat.mod_lt _ (by decide)
  rcases (by omega : a % 2 = 0 ∨ a % 2 = 1) with ea | ea <;> rcases (by omega : b % 2 = 0 ∨ b % 2 = 1) with eb | eb <;>
    rcases (by omega : (a ^^^ b) % 2 = 0 ∨ (a ^^^ b) % 2 = 1) with ec | ec <;> rw [ea, eb, ec] at h0 <;> simp at h0 <;> omega

/-- The depth where two different keys part. -/
theorem part (hy : y < 2 ^ W) (hz : z < 2 ^ W) (hne : z ≠ y) : ∃ d < W, pre W z d = pre W y d ∧ bit W z d ≠ bit W y d := by
  have hx : z ^^^ y ≠ 0 := fun h => hne (eq_of_xor h)
  obtain ⟨h1, h2⟩ := lca_ok hz hy hx
  have h3 := lca_part hz hy hx
  refine ⟨_, h1, h2, fun e => h3 ?_⟩
  rw [pre_succ h1, pre_succ h1, h2, e]

end Verif.Trie
