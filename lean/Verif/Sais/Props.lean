import Verif.Sais.Top
/-!
# C96, C97: suffix arrays

`/repo/include/mtl/string/suffix_array.hpp`.
-/
namespace Verif.Sais

/-- `sa` lists every suffix once, in strictly increasing lexicographic order. -/
def IsSuffixArray {α : Type} [LT α] (s : List α) (sa : List Nat) : Prop :=
  sa.Perm (List.range s.length) ∧ sa.Pairwise (fun i j => List.Lex (· < ·) (s.drop i) (s.drop j))

/-- Any result of `std::sort` on the indices by value. -/
def IsSort (ord : List Nat) (s : List Int) : Prop :=
  ord.Perm (List.range s.length) ∧ ord.Pairwise (fun a b => s.getD a 0 ≤ s.getD b 0)

/-- C96, full statement: for every string, `SuffixArray` returns its suffix array. -/
def suffix_array_full : Prop := ∀ (ord : List Nat) (s : List Int), IsSort ord s → ∃ sa, suffixArray ord s = some sa ∧ IsSuffixArray s sa

/-- C96: a non-empty string of values of type `int` gets its suffix array, whatever the order `std::sort` gives to equal values.
Missing: the empty string, and values outside the range of `int` (`suffix_array_violated`, `suffix_array_violated_wide`,
`suffix_array_violated_unsigned`). -/
theorem suffix_array_partial (ord : List Nat) (s : List Int) (hs : s ≠ []) (hr : ∀ v ∈ s, -2^31 ≤ v ∧ v < 2^31) (ho : IsSort ord s) :
    ∃ sa, suffixArray ord s = some sa ∧ IsSuffixArray s sa :=
  suffixArray_ok hs hr ⟨ho.1, ho.2⟩

/-- The characters of "mississippi": the ranks are computed. -/
example : suffixArray [1, 4, 7, 10, 0, 8, 9, 2, 3, 5, 6] [109, 105, 115, 115, 105, 115, 115, 105, 112, 112, 105] =
    some [10, 7, 4, 1, 0, 9, 8, 6, 3, 5, 2] := by decide +kernel
/-- Small values: the string is copied, and the names of the LMS substrings are not distinct. -/
example : suffixArray [] [2, 1, 2, 1, 2, 1, 3] = some [1, 3, 5, 0, 2, 4, 6] := by decide +kernel
example : IsSort [1, 4, 7, 10, 0, 8, 9, 2, 3, 5, 6] [109, 105, 115, 115, 105, 115, 115, 105, 112, 112, 105] := by
  unfold IsSort; decide +kernel

/-- A string has only one suffix array. -/
theorem suffix_array_unique {α : Type} [LinearOrder α] (s : List α) (p q : List Nat) (hp : IsSuffixArray s p) (hq : IsSuffixArray s q) : p = q := by
  have asymm : ∀ i j, s.drop i < s.drop j → s.drop j < s.drop i → i = j := fun i j h1 h2 => absurd h2 (lt_asymm h1)
  exact List.Perm.eq_of_pairwise (fun a b _ _ => asymm a b) hp.2 hq.2 (hp.1.trans hq.1.symm)

/-- The result does not depend on the order of equal values after the sort. -/
theorem suffix_array_sort_irrelevant (ord ord' : List Nat) (s : List Int) (hs : s ≠ []) (hr : ∀ v ∈ s, -2^31 ≤ v ∧ v < 2^31)
    (ho : IsSort ord s) (ho' : IsSort ord' s) : suffixArray ord s = suffixArray ord' s := by
  obtain ⟨p, e, hp⟩ := suffix_array_partial ord s hs hr ho
  obtain ⟨q, e', hq⟩ := suffix_array_partial ord' s hs hr ho'
  rw [e, e', suffix_array_unique s p q hp hq]

/-- Two different sorts of the same string. -/
example : IsSort [1, 0, 2] [100, 50, 100] ∧ IsSort [1, 2, 0] [100, 50, 100] ∧ suffixArray [1, 0, 2] [100, 50, 100] = some [1, 2, 0] := by
  unfold IsSort; decide +kernel

/-- The empty string: the end of the range is dereferenced. -/
theorem suffix_array_empty : suffixArray [] [] = none := rfl

theorem suffix_array_violated : ¬ suffix_array_full := by
  intro h
  obtain ⟨sa, e, _⟩ := h [] [] (by unfold IsSort; decide)
  rw [suffix_array_empty] at e
  cases e

/-- 64-bit values that differ only above bit 31 are taken for equal: the suffixes of `1, 2^32+1` come out in the wrong order. -/
theorem suffix_array_violated_wide : suffixArray [0, 1] [1, 2^32 + 1] = some [1, 0] ∧ IsSort [0, 1] [1, 2^32 + 1] ∧ ¬ IsSuffixArray [1, (2^32 + 1 : Int)] [1, 0] := by
  refine ⟨by decide +kernel, by unfold IsSort; decide +kernel, ?_⟩
  rintro ⟨_, h⟩
  have := (List.pairwise_cons.1 h).1 0 (by simp)
  revert this
  decide

/-- 32-bit unsigned values from `2^31` on become negative and are used as indices. -/
theorem suffix_array_violated_unsigned : suffixArray [0, 1] [1, 2^31] = none ∧ IsSort [0, 1] [1, 2^31] :=
  ⟨by decide +kernel, by unfold IsSort; decide +kernel⟩

/-- C97: `sa_is` on a string with characters below its length and a final 0 that occurs nowhere else: every index is in range, no assertion
fails, and the suffix array is written, whatever the buckets contain.  With `definitely_distinct_lmss` this needs distinct characters. -/
theorem sa_is_sorts (S : List Nat) (bucket : Buckets) (dist : Bool) (hlast : S.getLast? = some 0) (hlt : ∀ c ∈ S, c < S.length)
    (hpos : ∀ x, x + 1 < S.length → 0 < S.getD x 0) (hb : S.length ≤ bucket.length) (hd : dist = true → S.Nodup) :
    ∃ sa B, saIs S.length S bucket dist = some (sa.map some, B) ∧ B.length = bucket.length ∧ IsSuffixArray S sa := by
  obtain ⟨o, B, e, h1, h2, h3⟩ := saIs_ok S.length S bucket dist (le_refl _) ⟨hlast, hlt, hpos⟩ hb hd
  exact ⟨o, B, e, h1, h2, h3⟩

example : (saIs 8 [2, 1, 2, 1, 2, 1, 3, 0] (List.replicate 8 (5, 9)) false).map Prod.fst =
    some [some 7, some 1, some 3, some 5, some 0, some 2, some 4, some 6] := by decide +kernel

/-- The hint `definitely_distinct_lmss` is only sound for distinct characters: here it loses the order of two LMS suffixes. -/
theorem sa_is_needs_distinct :
    (saIs 8 [2, 1, 3, 1, 3, 1, 2, 0] (List.replicate 8 (0, 0)) true).map Prod.fst =
      some [some 7, some 5, some 1, some 3, some 6, some 0, some 2, some 4] ∧
    (saIs 8 [2, 1, 3, 1, 3, 1, 2, 0] (List.replicate 8 (0, 0)) false).map Prod.fst =
      some [some 7, some 5, some 3, some 1, some 6, some 0, some 4, some 2] := by decide +kernel

end Verif.Sais
