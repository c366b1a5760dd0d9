import Verif.Common.Vec
/-!
Model of `/repo/include/mtl/string/suffix_array.hpp` (SA-IS).

`none` is undefined behaviour (an index out of range, reading the unset value -1 as an index, dereferencing the end of an empty range) or a
failed assertion.  Entries of `A` are `none` for -1.  A bucket `{first, second}` is kept as `(first, second+1)`, so that it is a half-open
range of natural numbers: `A[second--] = x` writes at `e-1`, `A[++second] = x` writes at `e`.  `int` arithmetic does not overflow for
lengths below `2^31 - 1`; this bound is not modelled.
-/
namespace Verif.Sais

abbrev Slots := List (Option Nat)
abbrev Buckets := List (Nat × Nat)

/-- suffix_array.hpp:36-39: one round. -/
def typeStep (S : List Nat) (i : Nat) (t : List Bool) : Option (List Bool) :=
  (S[i]?).bind (fun l => (S[i+1]?).bind (fun r => (t[i+1]?).bind (fun u => wr t i (decide (l < r) || (decide (l = r) && u)))))

/-- suffix_array.hpp:34-39: `is_s`. -/
def types (S : List Nat) : Option (List Bool) :=
  (wr (List.replicate S.length false) (S.length - 1) true).bind (forRangeDown 0 (S.length - 2) (typeStep S))

/-- suffix_array.hpp:40-42: `is_lms`. -/
def isLms (t : List Bool) (i : Nat) : Option Bool :=
  if i = 0 then some false else (t[i]?).bind (fun a => if a then (t[i-1]?).map (fun b => !b) else some false)

/-- suffix_array.hpp:45-46. -/
def countStep (cnt : List Nat) (c : Nat) : Option (List Nat) := (cnt[c]?).bind (fun x => wr cnt c (x+1))

/-- suffix_array.hpp:44-46. -/
def counts (S : List Nat) : Option (List Nat) := S.foldlM countStep (List.replicate S.length 0)

/-- suffix_array.hpp:50-53, on `(bucket, sum)`. -/
def bucketStep (cnt : List Nat) (i : Nat) (s : Buckets × Nat) : Option (Buckets × Nat) :=
  (cnt[i]?).bind (fun x => (wr s.1 i (s.2, s.2 + x)).map (fun b => (b, s.2 + x)))

/-- suffix_array.hpp:48-54: `init_bucket`. -/
def initBucket (n : Nat) (cnt : List Nat) (b : Buckets) : Option Buckets := (forRange 0 n (bucketStep cnt) (b, 0)).map Prod.fst

/-- `A[bucket[S[x]].second--] = x`. -/
def placeBack (S : List Nat) (x : Nat) (s : Slots × Buckets) : Option (Slots × Buckets) :=
  (S[x]?).bind (fun c => (s.2[c]?).bind (fun be =>
    if be.2 = 0 then none else (wr s.1 (be.2 - 1) (some x)).bind (fun A => (wr s.2 c (be.1, be.2 - 1)).map (fun B => (A, B)))))

/-- `A[bucket[S[x]].first++] = x`. -/
def placeFront (S : List Nat) (x : Nat) (s : Slots × Buckets) : Option (Slots × Buckets) :=
  (S[x]?).bind (fun c => (s.2[c]?).bind (fun be =>
    (wr s.1 be.1 (some x)).bind (fun A => (wr s.2 c (be.1 + 1, be.2)).map (fun B => (A, B)))))

/-- suffix_array.hpp:60-63, on `(A, bucket)` and `cnt_lms`. -/
def seedStep (S : List Nat) (t : List Bool) (i : Nat) (s : (Slots × Buckets) × Nat) : Option ((Slots × Buckets) × Nat) :=
  (isLms t i).bind (fun b => if b then (placeBack S i s.1).map (fun u => (u, s.2 + 1)) else some s)

/-- `A[i] ? A[i]-1 : n-1`. -/
def prevOf (n q : Nat) : Nat := if q = 0 then n - 1 else q - 1

/-- suffix_array.hpp:70-73. -/
def clearLms (S : List Nat) (t : List Bool) (i : Nat) (s : Slots × Buckets) : Option (Slots × Buckets) :=
  (s.1[i]?).bind (fun v => v.bind (fun q => (isLms t q).bind (fun b =>
    if b then (S[q]?).bind (fun c => (s.2[c]?).bind (fun be =>
      if be.2 = i then (wr s.1 be.2 none).bind (fun A => (wr s.2 c (be.1, be.2 + 1)).map (fun B => (A, B))) else none))
    else some s)))

/-- suffix_array.hpp:65-74: one round of the first loop of `induced_sort`. -/
def stepL (S : List Nat) (t : List Bool) (i : Nat) (s : Slots × Buckets) : Option (Slots × Buckets) :=
  (s.1[i]?).bind (fun v => match v with
    | none => some s
    | some q => (t[prevOf S.length q]?).bind (fun b =>
      (if b then some s else placeFront S (prevOf S.length q) s).bind (clearLms S t i)))

/-- suffix_array.hpp:75-80: one round of the second loop of `induced_sort`. -/
def stepS (S : List Nat) (t : List Bool) (i : Nat) (s : Slots × Buckets) : Option (Slots × Buckets) :=
  (s.1[i]?).bind (fun v => v.bind (fun q => (t[prevOf S.length q]?).bind (fun b =>
    if b then placeBack S (prevOf S.length q) s else some s)))

/-- suffix_array.hpp:64-81: `induced_sort`. -/
def inducedSort (S : List Nat) (t : List Bool) (s : Slots × Buckets) : Option (Slots × Buckets) :=
  (forRange 0 S.length (stepL S t) s).bind (forRangeDown 0 S.length (stepS S t))

/-- suffix_array.hpp:95-101: the loop of `are_same_lms_substr`; every round moves both indices, so `fuel = n` rounds are enough. -/
def sameLoop (S : List Nat) (t : List Bool) : Nat → Nat → Nat → Option Bool
  | 0, _, _ => none
  | fuel+1, i, j => (S[i]?).bind (fun x => (S[j]?).bind (fun y =>
      if x ≠ y then some false else (isLms t i).bind (fun a => (isLms t j).bind (fun b =>
        if a ≠ b then some false else if a then some true else sameLoop S t fuel (i+1) (j+1)))))

/-- suffix_array.hpp:90-103: `are_same_lms_substr`. -/
def sameLms (S : List Nat) (t : List Bool) (i j : Nat) : Option Bool :=
  if isLms t i = some true ∧ isLms t j = some true then
    (S[i]?).bind (fun x => (S[j]?).bind (fun y => if x ≠ y then some false else sameLoop S t S.length (i+1) (j+1)))
  else none

/-- suffix_array.hpp:111-116, on `(lmss, lms_ord, plms)`; `m` is `cnt_lms`. -/
def nameStep (S : List Nat) (t : List Bool) (A : Slots) (m i : Nat) (s : List Nat × Nat × Nat) : Option (List Nat × Nat × Nat) :=
  (A[i]?).bind (fun v => v.bind (fun x => (isLms t x).bind (fun b =>
    if b then (sameLms S t s.2.2 x).bind (fun e =>
      (wr s.1 (m + x/2) (if e then s.2.1 else s.2.1 + 1)).map (fun l => (l, (if e then s.2.1 else s.2.1 + 1), x)))
    else some s)))

/-- suffix_array.hpp:118-119, on `(lmss, k)`. -/
def packStep (t : List Bool) (m i : Nat) (s : List Nat × Nat) : Option (List Nat × Nat) :=
  (isLms t i).bind (fun b => if b then (s.1[m + i/2]?).bind (fun x => (wr s.1 s.2 x).map (fun l => (l, s.2 + 1))) else some s)

/-- suffix_array.hpp:88-120: the names of the LMS substrings and the last name. -/
def names (S : List Nat) (t : List Bool) (A : Slots) (m : Nat) : Option (List Nat × Nat) :=
  if A[0]? = some (some (S.length - 1)) then
    (wr (List.replicate S.length 0) (m + (S.length - 1)/2) 0).bind (fun l =>
      (forRange 1 S.length (nameStep S t A m) (l, 0, S.length - 1)).bind (fun s =>
        (forRange 1 S.length (packStep t m) (s.1, 0)).map (fun u => (u.1.take m, s.2.1))))
  else none

/-- suffix_array.hpp:125-128: `citi`. -/
def citiStep (t : List Bool) (i : Nat) (l : List Nat) : Option (List Nat) := (isLms t i).map (fun b => if b then l ++ [i] else l)

/-- suffix_array.hpp:131-132: one round, on `(A, bucket)`. -/
def reseedStep (S citi : List Nat) (s : Slots × Buckets) (v : Option Nat) : Option (Slots × Buckets) :=
  v.bind (fun j => (citi[j]?).bind (fun x => placeBack S x s))

/-- suffix_array.hpp:16-33: the short strings. -/
def short (S : List Nat) : Slots :=
  if S.length = 1 then [some 0] else if S.length = 2 then [some 1, some 0] else
  if S.getD 0 0 < S.getD 1 0 then [some 2, some 0, some 1] else [some 2, some 1, some 0]

/-- suffix_array.hpp:11-134 (`sa_is`): the entries written to `dst`, and the buckets.  `fuel` bounds the depth of the recursion. -/
def saIs : Nat → List Nat → Buckets → Bool → Option (Slots × Buckets)
  | 0, _, _, _ => none
  | fuel+1, S, bucket, distinct =>
    if S.getLast? = some 0 ∧ (∀ c ∈ S, c < S.length) then
      if S.length ≤ 3 then some (short S, bucket) else
      (types S).bind (fun t => (counts S).bind (fun cnt =>
        if bucket.length < S.length then none else
        (initBucket S.length cnt bucket).bind (fun bucket =>
          (forRangeDown 1 S.length (seedStep S t) ((List.replicate S.length none, bucket), 0)).bind (fun seeded =>
            (inducedSort S t seeded.1).bind (fun s =>
              if distinct then some s else
              (names S t s.1 seeded.2).bind (fun nm =>
                (saIs fuel nm.1 s.2 (decide (seeded.2 - 1 = nm.2))).bind (fun sub =>
                  (forRange 1 S.length (citiStep t) []).bind (fun citi =>
                    (initBucket S.length cnt sub.2).bind (fun bucket =>
                      (sub.1.reverse.foldlM (reseedStep S citi) (List.replicate S.length none, bucket)).bind (inducedSort S t)))))))))
      )
    else none

/-- Conversion to `int`. -/
def toInt32 (v : Int) : Int := (v + 2^31) % 2^32 - 2^31

/-- The least and the greatest value (`std::minmax_element`). -/
def minmax : List Int → Option (Int × Int)
  | [] => none
  | v :: l => some (l.foldl (fun p w => (min p.1 w, max p.2 w)) (v, v))

/-- suffix_array.hpp:155-156: one round, on `(S, k)`. -/
def rankStep (s : List Int) (ord : List Nat) (i : Nat) (u : List Nat × Nat) : Option (List Nat × Nat) :=
  (ord[i]?).bind (fun x =>
    if i = 0 then (wr u.1 x u.2).map (fun S => (S, u.2)) else
    (ord[i-1]?).bind (fun y => (s[x]?).bind (fun a => (s[y]?).bind (fun b =>
      (wr u.1 x (if a ≠ b then u.2 + 1 else u.2)).map (fun S => (S, if a ≠ b then u.2 + 1 else u.2))))))

/-- suffix_array.hpp:139-158: the string of integers with the final 0.  `ord` is the result of `std::sort`.  A negative entry (possible only
after a narrowing conversion) is undefined behaviour, as it is used as an index. -/
def sentinelString (ord : List Nat) (s : List Int) : Option (List Nat) :=
  (minmax s).bind (fun mp =>
    if 0 < toInt32 mp.1 ∧ toInt32 mp.2 ≤ s.length then
      if ∀ v ∈ s, 0 ≤ toInt32 v then some (s.map (fun v => (toInt32 v).toNat) ++ [0]) else none
    else (forRange 0 s.length (rankStep s ord) (List.replicate (s.length + 1) 0, 1)).map Prod.fst)

/-- suffix_array.hpp:136-162 (`SuffixArray`). -/
def suffixArray (ord : List Nat) (s : List Int) : Option (List Nat) :=
  (sentinelString ord s).bind (fun S => (saIs S.length S (List.replicate S.length (0, 0)) false).bind (fun r => r.1.tail.mapM id))

end Verif.Sais
