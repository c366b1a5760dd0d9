import Verif.BinSet.Spec
/-! C101: `BinarySet`.  C102: `BinaryMultiset`. -/
namespace Verif.BinSet
open Verif Verif.BitManip Verif.Succinct

/-! ### BinarySet -/

/-- `v` is the least element of `xs` that is at least `x`. -/
def IsLB (xs : List Nat) (x v : Nat) : Prop := v ∈ xs ∧ x ≤ v ∧ ∀ w ∈ xs, x ≤ w → v ≤ w

theorem lb_of_below {xs : List Nat} {x v : Nat} (hv : v ∈ xs) (h : below xs v = below xs x) : IsLB xs x v := by
  refine ⟨hv, ?_, fun w hw hxw => ?_⟩
  · by_contra c
    have := below_lt hv (show v < x by omega)
    omega
  · by_contra c
    have h1 := below_lt hw (show w < v by omega)
    have h2 := below_mono xs hxw
    omega

theorem below_lt_all {xs : List Nat} {x v : Nat} (hv : v ∈ xs) (h : x ≤ v) : below xs x < xs.dedup.length := by
  have h1 := below_mono xs h
  have h2 := below_lt hv (show v < v+1 by omega)
  have h3 := below_le xs (v+1)
  omega

theorem set_built {s : Nat} (h1 : 1 ≤ s) (hs : s ≤ 63) (xs : List Nat) :
    ∃ t n, setBuild s xs = some t ∧ t.s = s ∧ t.size = xs.dedup.length ∧ Ok xs t n :=
  mk_ok h1 hs xs _ _ (fun _ _ h => h)

theorem rank_eq {xs : List Nat} {t : St} {n : Nat} (h : Ok xs t n) (hsz : t.size = xs.dedup.length) (x : Nat) : rank t x = some (below xs x) := by
  unfold rank
  rw [h.size]
  by_cases c : x < n
  · rw [if_pos c, h.rank]
  · rw [if_neg c, hsz, below_all (fun p hp => by have := h.lt p hp; omega)]

theorem lower_in {xs : List Nat} (hx : ∀ v ∈ xs, v < 2^32) {t : St} {n : Nat} (h : Ok xs t n) (hsz : t.size = xs.dedup.length) (x : Nat) (he : ∃ v ∈ xs, x ≤ v) :
    ∃ v, lowerBound t x = some v ∧ IsLB xs x v := by
  obtain ⟨v, hv, hxv⟩ := he
  unfold lowerBound contains
  rw [h.get, Option.bind_some]
  by_cases c : x ∈ xs
  · rw [if_pos (by simpa using c)]
    exact ⟨x, rfl, c, Nat.le_refl _, fun w _ hw => hw⟩
  · rw [if_neg (by simpa using c), rank_eq h hsz, Option.bind_some]
    unfold get
    have hlt := below_lt_all hv hxv
    rw [if_pos (by omega)]
    obtain ⟨p, ep, hp, _⟩ := h.sel1 (below xs x)
    obtain ⟨p1, p2⟩ := hp hlt
    rw [ep, Option.map_some, u32, Nat.mod_eq_of_lt (hx p p1)]
    exact ⟨p, rfl, lb_of_below p1 p2⟩

theorem lower_end {xs : List Nat} {t : St} {n : Nat} (h : Ok xs t n) (hsz : t.size = xs.dedup.length) (x : Nat) (he : ∀ v ∈ xs, v < x) :
    lowerBound t x = some (u32 n) := by
  unfold lowerBound contains
  rw [h.get, Option.bind_some, if_neg (by
    intro c
    have := he x (by simpa using c)
    omega), rank_eq h hsz, Option.bind_some]
  unfold get
  rw [below_all he, if_neg (by omega), h.size]

/-- **C101** (partial: `upper_bound(2^32 - 1)` and a bit vector longer than `2^32` are excluded; there the property fails, see below).  For every set of inserted values:
`size()` is the number of different values, `contains(x)` is membership, `rank(x)` the number of values below `x`, `get(i)` the `i`-th smallest value,
`lower_bound(x)` and `upper_bound(x)` the least value not below, above `x`; where there is none they return one number which is above every value. -/
theorem C101_set_partial (s : Nat) (h1 : 1 ≤ s) (hs : s ≤ 63) (xs : List Nat) (hx : ∀ v ∈ xs, v < 2^32) :
    ∃ t e, setBuild s xs = some t ∧ t.size = xs.dedup.length ∧
      (∀ x, contains t x = some (decide (x ∈ xs))) ∧
      (∀ x, rank t x = some (below xs x)) ∧
      (∀ i, i < xs.dedup.length → ∃ v, get t i = some v ∧ v ∈ xs ∧ below xs v = i) ∧
      (∀ x, x < 2^32 → (∃ v ∈ xs, x ≤ v) → ∃ v, lowerBound t x = some v ∧ IsLB xs x v) ∧
      (∀ x, x < 2^32 → (∀ v ∈ xs, v < x) → lowerBound t x = some e) ∧
      (∀ x, x < 2^32 - 1 → (∃ v ∈ xs, x < v) → ∃ v, upperBound t x = some v ∧ IsLB xs (x+1) v) ∧
      (∀ x, x < 2^32 - 1 → (∀ v ∈ xs, v ≤ x) → upperBound t x = some e) ∧
      ((∀ v ∈ xs, v / s * s + s < 2^32) → ∀ v ∈ xs, v < e) := by
  obtain ⟨t, n, e, es, hsz, h⟩ := set_built h1 hs xs
  refine ⟨t, u32 n, e, hsz, h.get, rank_eq h hsz, fun i hi => ?_, fun x _ he => lower_in hx h hsz x he, fun x _ he => lower_end h hsz x he, fun x hlt he => ?_, fun x hlt he => ?_, ?_⟩
  · unfold get
    rw [if_pos (by omega)]
    obtain ⟨p, ep, hp, _⟩ := h.sel1 i
    obtain ⟨p1, p2⟩ := hp hi
    rw [ep, Option.map_some, u32, Nat.mod_eq_of_lt (hx p p1)]
    exact ⟨p, rfl, p1, p2⟩
  · obtain ⟨v, hv, hxv⟩ := he
    unfold upperBound
    rw [u32, Nat.mod_eq_of_lt (by omega)]
    exact lower_in hx h hsz (x+1) ⟨v, hv, hxv⟩
  · unfold upperBound
    rw [show u32 (x + 1) = x + 1 from Nat.mod_eq_of_lt (by omega)]
    exact lower_end h hsz (x+1) (fun v hv => by have := he v hv; omega)
  · intro hb v hv
    have hlt := h.lt v hv
    rcases h.tight with h0 | ⟨p, hp, hn⟩
    · omega
    · have := hb p hp
      rw [es] at hn
      rw [u32, Nat.mod_eq_of_lt (by omega)]
      exact hlt

example : (∀ v ∈ [70, 5, 70, 4000000000], v < 2^32) ∧ (∀ v ∈ [70, 5, 70, 4000000000], v / 63 * 63 + 63 < 2^32) ∧ below [70, 5, 70, 4000000000] 100 = 2 := by decide

example : (setBuild 3 [1, 5, 1]).map (fun t => (t.size, [lowerBound t 2, upperBound t 0, upperBound t 5, get t 1, rank t 5, rank t 1000])) =
    some (2, [some 5, some 1, some 6, some 5, some 1, some 2]) := by decide +kernel

/-- C101 is violated: `upper_bound(2^32 - 1)` returns the least value of the set, as `x + 1` wraps to 0. -/
theorem C101_upper_bound_violated : (setBuild 63 [5]).bind (fun t => upperBound t (2^32 - 1)) = some 5 := by
  obtain ⟨t, n, e, es, hsz, h⟩ := set_built (s := 63) (by decide) (by decide) [5]
  obtain ⟨v, hv, hm, _⟩ := lower_in (by decide) h hsz 0 ⟨5, by simp, by decide⟩
  rw [e, Option.bind_some]
  rw [List.mem_singleton.1 hm] at hv
  exact hv

/-- C101 is violated: with the single value `2^32 - 4`, `lower_bound(2^32 - 2)` returns 59, which is below the value that is in the set (the number of bits, `2^32 + 59`,
does not fit). -/
theorem C101_end_violated : (setBuild 63 [4294967292]).bind (fun t => lowerBound t 4294967294) = some 59 := by
  obtain ⟨t, n, e, es, hsz, h⟩ := set_built (s := 63) (by decide) (by decide) [4294967292]
  rw [e, Option.bind_some, lower_end h hsz 4294967294 (by decide)]
  have hn : n = 4294967355 := by
    rcases h.tight with h0 | ⟨p, hp, hn⟩
    · have := h.lt 4294967292 (by simp)
      omega
    · rw [List.mem_singleton.1 hp, es] at hn
      exact hn
  rw [hn]; rfl

/-! ### BinaryMultiset -/

/-- The number of elements of `xs` below `x`, with repetitions. -/
def mbelow (xs : List Nat) (x : Nat) : Nat := (xs.filter (fun v => decide (v < x))).length

/-- The positions of the ones. -/
def posns (vs : List Nat) : List Nat := vs.zipIdx.map fun p => p.1 + p.2

theorem posns_get (vs : List Nat) (i : Nat) : (posns vs)[i]? = (vs[i]?).map (· + i) := by
  unfold posns
  rw [List.getElem?_map, List.getElem?_zipIdx]
  cases vs[i]? <;> simp

theorem posns_len (vs : List Nat) : (posns vs).length = vs.length := by simp [posns]

abbrev Sorted (vs : List Nat) : Prop := vs.Pairwise (· ≤ ·)

theorem posns_lt {vs : List Nat} (h : Sorted vs) : (posns vs).Pairwise (· < ·) := by
  have h := List.pairwise_iff_getElem.1 h
  rw [List.pairwise_iff_getElem]
  intro i j hi hj hij
  rw [posns_len] at hi hj
  have h1 := h i j hi hj hij
  have e1 := posns_get vs i
  have e2 := posns_get vs j
  rw [List.getElem?_eq_getElem (by rw [posns_len]; exact hi), List.getElem?_eq_getElem hi, Option.map_some, Option.some.injEq] at e1
  rw [List.getElem?_eq_getElem (by rw [posns_len]; exact hj), List.getElem?_eq_getElem hj, Option.map_some, Option.some.injEq] at e2
  rw [e1, e2]
  omega

theorem posns_dedup {vs : List Nat} (h : Sorted vs) : (posns vs).dedup = posns vs := by
  apply List.Nodup.dedup
  exact (posns_lt h).imp (fun hab => by omega)

theorem cnt_ge {vs : List Nat} (p : Nat → Bool) {c : Nat} (hc : c ≤ vs.length) (h1 : ∀ i v, i < c → vs[i]? = some v → p v = true) : c ≤ (vs.filter p).length := by
  have h : (vs.take c).filter p = vs.take c := List.filter_eq_self.2 fun a ha => by
    obtain ⟨i, hi⟩ := List.mem_iff_getElem?.1 ha
    rw [List.getElem?_take] at hi
    split at hi
    · exact h1 i a (by assumption) hi
    · cases hi
  rw [← List.take_append_drop c vs, List.filter_append, List.length_append, h, List.length_take]
  omega

theorem cnt_le {vs : List Nat} (p : Nat → Bool) {c : Nat} (h2 : ∀ i v, c ≤ i → vs[i]? = some v → p v = false) : (vs.filter p).length ≤ c := by
  have h : (vs.drop c).filter p = [] := List.filter_eq_nil_iff.2 fun a ha => by
    obtain ⟨i, hi⟩ := List.mem_iff_getElem?.1 ha
    rw [List.getElem?_drop] at hi
    rw [h2 _ a (by omega) hi]; simp
  rw [← List.take_append_drop c vs, List.filter_append, List.length_append, h]
  have := List.length_filter_le p (vs.take c)
  rw [List.length_take] at this
  simp only [List.length_nil]; omega

theorem sorted_le {vs : List Nat} (h : Sorted vs) {i j a b : Nat} (hij : i ≤ j) (hi : vs[i]? = some a) (hj : vs[j]? = some b) : a ≤ b := by
  rcases Nat.eq_or_lt_of_le hij with e | hlt
  · subst e; rw [hi] at hj; cases hj; exact Nat.le_refl _
  · obtain ⟨li, rfl⟩ := List.getElem?_eq_some_iff.1 hi
    obtain ⟨lj, rfl⟩ := List.getElem?_eq_some_iff.1 hj
    exact List.pairwise_iff_getElem.1 h i j li lj hlt

/-- In a sorted list the elements below `x` are a prefix. -/
theorem idx_iff {vs : List Nat} (h : Sorted vs) {x i w : Nat} (hw : vs[i]? = some w) : i < mbelow vs x ↔ w < x := by
  have hil := (List.getElem?_eq_some_iff.1 hw).1
  constructor
  · intro hi
    by_contra c
    have : mbelow vs x ≤ i := cnt_le _ (fun j v hj hv => by have := sorted_le h hj hw hv; simp; omega)
    omega
  · intro hwx
    exact cnt_ge (fun v => decide (v < x)) (c := i+1) (by omega) (fun j v hj hv => by have := sorted_le h (show j ≤ i by omega) hv hw; simp; omega)

/-- The ones below a position are those of a prefix. -/
theorem below_posns {vs : List Nat} (h : Sorted vs) (p : Nat) {i v : Nat} (hv : vs[i]? = some v) : i < below (posns vs) p ↔ v + i < p := by
  have hb : below (posns vs) p = mbelow (posns vs) p := by rw [below, posns_dedup h]; rfl
  rw [hb, idx_iff ((posns_lt h).imp (fun hab => by omega)) (w := v + i) (by rw [posns_get, hv]; rfl)]

theorem mem_posns {vs : List Nat} {p : Nat} : p ∈ posns vs ↔ ∃ i v, vs[i]? = some v ∧ v + i = p := by
  rw [List.mem_iff_getElem?]
  constructor
  · rintro ⟨i, hi⟩
    rw [posns_get] at hi
    obtain ⟨v, hv, e⟩ := Option.map_eq_some_iff.1 hi
    exact ⟨i, v, hv, e⟩
  · rintro ⟨i, v, hv, e⟩
    exact ⟨i, by rw [posns_get, hv]; simp [e]⟩

/-- Before the zero number `x` there are the elements not above `x`. -/
theorem zero_pos {vs : List Nat} (h : Sorted vs) {p x : Nat} (hp : p ∉ posns vs) (he : p = x + below (posns vs) p) : below (posns vs) p = mbelow vs (x+1) := by
  have hle : below (posns vs) p ≤ vs.length := by
    have := below_le (posns vs) p
    rwa [posns_dedup h, posns_len] at this
  refine Nat.le_antisymm (cnt_ge _ hle (fun i v hi hv => ?_)) (cnt_le _ (fun i v hi hv => ?_))
  · obtain ⟨w, hw⟩ : ∃ w, vs[below (posns vs) p - 1]? = some w := ⟨_, List.getElem?_eq_getElem (by omega)⟩
    have h1 := (below_posns h p hw).1 (by omega)
    have h2 := sorted_le h (show i ≤ below (posns vs) p - 1 by omega) hv hw
    simp; omega
  · obtain ⟨w, hw⟩ : ∃ w, vs[below (posns vs) p]? = some w := ⟨_, List.getElem?_eq_getElem (by have := (List.getElem?_eq_some_iff.1 hv).1; omega)⟩
    have h1 := (not_congr (below_posns h p hw)).1 (by omega)
    have h2 := sorted_le h hi hw hv
    have h3 : w + below (posns vs) p ≠ p := fun e => hp (mem_posns.2 ⟨_, w, hw, e⟩)
    simp; omega

theorem one_pos {vs : List Nat} (h : Sorted vs) {p k : Nat} (hp : p ∈ posns vs) (he : below (posns vs) p = k) : ∃ v, vs[k]? = some v ∧ p = v + k := by
  obtain ⟨i, v, hv, e⟩ := mem_posns.1 hp
  have hik : i = k := by
    have h1 := (not_congr (below_posns h p hv)).2 (by omega)
    by_contra c
    have hk : k < i := by omega
    obtain ⟨w, hw⟩ : ∃ w, vs[k]? = some w := ⟨_, List.getElem?_eq_getElem (by have := (List.getElem?_eq_some_iff.1 hv).1; omega)⟩
    have h2 := (not_congr (below_posns h p hw)).1 (by omega)
    have h3 := sorted_le h (show k ≤ i by omega) hw hv
    omega
  subst hik
  exact ⟨v, hv, e.symm⟩

/-- The sorted values. -/
def srt (xs : List Nat) : List Nat := xs.mergeSort (fun a b => decide (a ≤ b))

theorem srt_sorted (xs : List Nat) : Sorted (srt xs) := by
  have := List.pairwise_mergeSort (le := fun a b : Nat => decide (a ≤ b)) (by simp; omega) (by simp; omega) xs
  exact this.imp (by simp)

theorem srt_perm (xs : List Nat) : (srt xs).Perm xs := List.mergeSort_perm _ _

theorem mbelow_perm {xs ys : List Nat} (h : xs.Perm ys) (x : Nat) : mbelow xs x = mbelow ys x := (h.filter _).length_eq

theorem mbelow_succ (xs : List Nat) (x : Nat) : mbelow xs (x+1) = mbelow xs x + xs.count x := by
  unfold mbelow
  induction xs with
  | nil => rfl
  | cons a xs ih =>
    rw [List.filter_cons, List.filter_cons, List.count_cons]
    by_cases c1 : a < x
    · have : ¬ a = x := by omega
      simp [c1, this, show a < x + 1 by omega]; omega
    · by_cases c2 : a = x
      · simp [c2]; omega
      · simp [c1, c2, show ¬ a < x + 1 by omega]; omega

theorem mbelow_le (xs : List Nat) (x : Nat) : mbelow xs x ≤ xs.length := List.length_filter_le _ _

theorem mbelow_all {xs : List Nat} {x : Nat} (h : ∀ v ∈ xs, v < x) : mbelow xs x = xs.length := by
  unfold mbelow; rw [List.filter_eq_self.2]; intro a ha; simpa using h a ha

/-- The facts used below, for the sorted values `vs`; `Z` is the number of zeros. -/
structure MOk (vs : List Nat) (t : St) (Z : Nat) : Prop where
  ok : Ok (posns vs) t (Z + vs.length)
  size : t.size = vs.length
  le : ∀ v ∈ vs, v ≤ Z
  sel0 : ∀ x, x ≤ Z → selectB t.s t.sr t.bv false x = some (x + mbelow vs (x+1))
  sel0' : ∀ x, Z ≤ x → selectB t.s t.sr t.bv false x = some (Z + vs.length)
  sel1 : ∀ k, ∃ p, selectB t.s t.sr t.bv true k = some p ∧ (∀ v, vs[k]? = some v → p = v + k) ∧ (vs.length ≤ k → p = Z + vs.length)

theorem multi_built {s : Nat} (h1 : 1 ≤ s) (hs : s ≤ 63) (xs : List Nat) : ∃ t Z, multiBuild s xs = some t ∧ t.s = s ∧ MOk (srt xs) t Z := by
  obtain ⟨t, n, e, es, hsz, h⟩ := mk_ok h1 hs (posns (srt xs)) (fun _ _ => some xs.length) xs.length (fun _ _ _ => rfl)
  have hS := srt_sorted xs
  have hl : (srt xs).length = xs.length := (srt_perm xs).length_eq
  have e : multiBuild s xs = some t := e
  generalize srt xs = vs at h hS hl
  have hd : (posns vs).dedup.length = vs.length := by rw [posns_dedup hS, posns_len]
  have hcnt := h.cnt
  rw [hd] at hcnt
  obtain ⟨Z, rfl⟩ : ∃ Z, n = Z + vs.length := ⟨n - vs.length, by omega⟩
  have hle : ∀ v ∈ vs, v ≤ Z := by
    intro v hv
    obtain ⟨i, hi⟩ := List.mem_iff_getElem?.1 hv
    have hlt := (List.getElem?_eq_some_iff.1 hi).1
    obtain ⟨w, hw⟩ : ∃ w, vs[vs.length - 1]? = some w := ⟨_, List.getElem?_eq_getElem (by omega)⟩
    have h2 := sorted_le hS (show i ≤ vs.length - 1 by omega) hi hw
    have h3 := h.lt _ (mem_posns.2 ⟨_, w, hw, rfl⟩)
    omega
  have h0' : ∀ x, Z ≤ x → selectB t.s t.sr t.bv false x = some (Z + vs.length) := by
    intro x hx
    obtain ⟨p, ep, _, h2⟩ := h.sel0 x
    rw [ep, h2 (by omega)]
  refine ⟨t, Z, e, es, h, by rw [hsz, hl], hle, fun x hx => ?_, h0', fun k => ?_⟩
  · rcases Nat.eq_or_lt_of_le hx with rfl | hlt
    · rw [h0' x hx, mbelow_all (fun v hv => by have := hle v hv; omega)]
    · obtain ⟨p, ep, h2, _⟩ := h.sel0 x
      obtain ⟨p1, p2, p3⟩ := h2 (by omega)
      rw [ep, ← zero_pos hS p2 p3, ← p3]
  · obtain ⟨p, ep, h2, h3⟩ := h.sel1 k
    refine ⟨p, ep, fun v hv => ?_, fun hk => h3 (by omega)⟩
    have hlt := (List.getElem?_eq_some_iff.1 hv).1
    obtain ⟨q1, q2⟩ := h2 (by omega)
    obtain ⟨w, hw, e⟩ := one_pos hS q1 q2
    rw [hv] at hw
    cases hw
    exact e

theorem wsub_le {a b : Nat} (h : b ≤ a) (ha : a < 2^64) : wsub a b = a - b := by
  unfold wsub
  rw [show a + 2^64 - b = (a - b) + 2^64 by omega, Nat.add_mod_right, Nat.mod_eq_of_lt (by omega)]

theorem mrank_ok {vs : List Nat} {t : St} {Z : Nat} (h : MOk vs t Z) (hZ : Z + vs.length < 2^64) (x : Nat) : mrank t x = some (mbelow vs x) := by
  unfold mrank
  rw [h.ok.size, h.size, wsub_le (by omega) hZ, show Z + vs.length - vs.length = Z by omega]
  by_cases c : x ≤ Z
  · rw [if_pos c]
    by_cases c0 : x = 0
    · rw [if_pos c0, c0]
      congr 1
      unfold mbelow
      rw [List.filter_eq_nil_iff.2 (by simp)]; rfl
    · rw [if_neg c0, h.sel0 (x-1) (by omega), show x - 1 + 1 = x by omega, Option.map_some]
      have := mbelow_le vs x
      rw [wsub_le (by omega) (by omega)]
      congr 1; omega
  · rw [if_neg c, mbelow_all (fun v hv => by have := h.le v hv; omega)]

theorem mget_ok {vs : List Nat} {t : St} {Z : Nat} (h : MOk vs t Z) (hZ : Z + vs.length < 2^64) (hv : ∀ v ∈ vs, v < 2^32) {i v : Nat} (hi : vs[i]? = some v) : mget t i = some v := by
  unfold mget
  obtain ⟨p, ep, h1, _⟩ := h.sel1 i
  have hm := List.mem_of_getElem? hi
  have h2 := h.le v hm
  have h3 := (List.getElem?_eq_some_iff.1 hi).1
  rw [ep, Option.map_some, h1 v hi, wsub_le (by omega) (by omega), show v + i - i = v by omega, u32, Nat.mod_eq_of_lt (hv v hm)]

theorem get_srt_below {vs : List Nat} (h : Sorted vs) {x : Nat} (he : ∃ v ∈ vs, x ≤ v) : ∃ v, vs[mbelow vs x]? = some v ∧ IsLB vs x v := by
  have hlt : mbelow vs x < vs.length := by
    obtain ⟨v, hv, hx⟩ := he
    rcases Nat.eq_or_lt_of_le (mbelow_le vs x) with e | hlt
    · exfalso
      have := List.length_filter_eq_length_iff.1 e v hv
      simp at this; omega
    · exact hlt
  have hpre : ∀ i w, vs[i]? = some w → (i < mbelow vs x ↔ w < x) := fun i w hw => idx_iff h hw
  obtain ⟨v, hv⟩ : ∃ v, vs[mbelow vs x]? = some v := ⟨_, List.getElem?_eq_getElem hlt⟩
  refine ⟨v, hv, List.mem_of_getElem? hv, ?_, fun w hw hxw => ?_⟩
  · have := (not_congr (hpre _ v hv)).1 (by omega); omega
  · obtain ⟨j, hj⟩ := List.mem_iff_getElem?.1 hw
    have := (not_congr (hpre j w hj)).2 (by omega)
    exact sorted_le h (by omega) hv hj

theorem isLB_perm {xs ys : List Nat} (h : xs.Perm ys) {x v : Nat} (hv : IsLB xs x v) : IsLB ys x v :=
  ⟨h.mem_iff.1 hv.1, hv.2.1, fun w hw => hv.2.2 w (h.mem_iff.2 hw)⟩

/-- **C102** (partial: `count(x)` and `contains(x)` only for `x` up to the number `Z` of zeros of the bit vector, which is at least the greatest value;
`lower_bound` and `upper_bound` only where the answer exists, and not `upper_bound(2^32 - 1)`; elsewhere the property fails, see below).  For every multiset of inserted
values (fewer than `2^63`): `size()`, `rank(x)` for every `x`, `get(i)`, `count(x)`, `contains(x)`, `lower_bound(x)`, `upper_bound(x)`. -/
theorem C102_multiset_partial (s : Nat) (h1 : 1 ≤ s) (hs : s ≤ 63) (xs : List Nat) (hx : ∀ v ∈ xs, v < 2^32) (hn : xs.length < 2^63) :
    ∃ t Z, multiBuild s xs = some t ∧ t.size = xs.length ∧ (∀ v ∈ xs, v ≤ Z) ∧
      (∀ x, mrank t x = some (mbelow xs x)) ∧
      (∀ i v, (xs.mergeSort (fun a b => decide (a ≤ b)))[i]? = some v → mget t i = some v) ∧
      (∀ x, x ≤ Z → mcount t x = some (xs.count x)) ∧
      (∀ x, x ≤ Z → mcontains t x = some (decide (x ∈ xs))) ∧
      (∀ x, (∃ v ∈ xs, x ≤ v) → ∃ v, mlower t x = some v ∧ IsLB xs x v) ∧
      (∀ x, x < 2^32 - 1 → (∃ v ∈ xs, x < v) → ∃ v, mupper t x = some v ∧ IsLB xs (x+1) v) := by
  obtain ⟨t, Z, e, es, h⟩ := multi_built h1 hs xs
  have hS := srt_sorted xs
  have hP := srt_perm xs
  have hv' : ∀ v ∈ srt xs, v < 2^32 := fun v hv => hx v (hP.mem_iff.1 hv)
  have hl := hP.length_eq
  have hZ : Z + (srt xs).length < 2^64 := by
    rcases h.ok.tight with h0 | ⟨p, hp, h0⟩
    · omega
    · obtain ⟨i, v, hv, e⟩ := mem_posns.1 hp
      have h2 := hv' v (List.mem_of_getElem? hv)
      have h3 := (List.getElem?_eq_some_iff.1 hv).1
      rw [es] at h0
      have := Nat.div_mul_le_self p s
      omega
  have hlow : ∀ x, (∃ v ∈ xs, x ≤ v) → ∃ v, mlower t x = some v ∧ IsLB xs x v := by
    intro x ⟨v, hv, hxv⟩
    obtain ⟨w, hw, hlb⟩ := get_srt_below hS ⟨v, hP.mem_iff.2 hv, hxv⟩
    exact ⟨w, by unfold mlower; rw [mrank_ok h hZ, Option.bind_some, mget_ok h hZ hv' hw], isLB_perm hP hlb⟩
  refine ⟨t, Z, e, by rw [h.size, hl], fun v hv => h.le v (hP.mem_iff.2 hv), fun x => by rw [mrank_ok h hZ, mbelow_perm hP], fun i v hi => mget_ok h hZ hv' hi,
    fun x hxZ => ?_, fun x hxZ => ?_, hlow, fun x hlt he => ?_⟩
  · unfold mcount
    have hc := mbelow_succ (srt xs) x
    rw [hP.count_eq x] at hc
    rw [h.sel0 x hxZ, Option.bind_some]
    by_cases c : x = 0
    · rw [if_pos c]
      have : mbelow (srt xs) x = 0 := by
        rw [c]; unfold mbelow
        rw [List.filter_eq_nil_iff.2 (by simp)]; rfl
      congr 1; omega
    · have hb := mbelow_le (srt xs) (x+1)
      rw [if_neg c, h.sel0 (x-1) (by omega), show x - 1 + 1 = x by omega, Option.map_some, wsub_le (by omega) (by omega)]
      congr 1; omega
  · unfold mcontains
    have hc := mbelow_succ (srt xs) x
    rw [hP.count_eq x] at hc
    rw [h.sel0 x hxZ, Option.bind_some]
    have hcp : 0 < xs.count x ↔ x ∈ xs := List.count_pos_iff
    by_cases c : x + mbelow (srt xs) (x+1) = 0
    · rw [if_pos c]
      have : ¬ x ∈ xs := fun hm => by have := hcp.2 hm; omega
      simp [this]
    · rw [if_neg c, h.ok.get]
      congr 1
      apply decide_eq_decide.2
      rw [← hcp, mem_posns]
      constructor
      · rintro ⟨i, v, hv, e⟩
        have hi := idx_iff hS (x := x + 1) hv
        have hvx : v = x := by omega
        exact hcp.2 (hP.mem_iff.1 (hvx ▸ List.mem_of_getElem? hv))
      · intro hpos
        have hle := mbelow_le (srt xs) (x+1)
        obtain ⟨w, hw⟩ : ∃ w, (srt xs)[mbelow (srt xs) (x+1) - 1]? = some w := ⟨_, List.getElem?_eq_getElem (by omega)⟩
        have h2 := idx_iff hS (x := x + 1) hw
        have h3 := idx_iff hS (x := x) hw
        exact ⟨mbelow (srt xs) (x+1) - 1, w, hw, by omega⟩
  · obtain ⟨v, hv, hxv⟩ := he
    unfold mupper
    rw [u32, Nat.mod_eq_of_lt (by omega)]
    exact hlow (x+1) ⟨v, hv, hxv⟩

example : (∀ v ∈ [7, 3, 7, 4000000000], v < 2^32) ∧ [7, 3, 7, 4000000000].length < 2^63 ∧ mbelow [7, 3, 7, 4000000000] 8 = 3 ∧ IsLB [7, 3, 7] 4 7 := by
  refine ⟨by decide, by decide, by decide, by decide, by decide, by decide⟩

/-- The object built for the values 2, 0, 2 (the sort is already done here). -/
example : (mk 3 (posns [0, 2, 2]) fun _ _ => some 3).map (fun t => [mcount t 0, mcount t 1, mcount t 2, mlower t 1, mupper t 0, mget t 2, mrank t 2, mrank t 3, mrank t 4000000000]) =
    some [some 1, some 0, some 2, some 2, some 2, some 2, some 1, some 3, some 3] := by decide +kernel

/-- C102 is violated: with the single value 62, `contains(63)` is true, `count(64)` is `2^64 - 1` and `lower_bound(63)` returns 62. -/
theorem C102_violated : ∃ t, multiBuild 63 [62] = some t ∧ mcontains t 63 = some true ∧ mcount t 64 = some (2^64 - 1) ∧ mlower t 63 = some 62 := by
  obtain ⟨t, Z, e, es, h⟩ := multi_built (s := 63) (by decide) (by decide) [62]
  have hsrt : srt [62] = [62] := by simp [srt]
  rw [hsrt] at h
  have hZ : Z = 62 := by
    rcases h.ok.tight with h0 | ⟨p, hp, hn⟩
    · simp at h0
    · rw [show posns [62] = [62] from rfl, List.mem_singleton] at hp
      rw [hp, es] at hn
      simp at hn; exact hn
  subst hZ
  obtain ⟨p, ep, _, hp⟩ := h.sel1 1
  refine ⟨t, e, ?_, ?_, ?_⟩
  · unfold mcontains
    rw [h.sel0' 63 (by decide), Option.bind_some, if_neg (by decide), h.ok.get]; rfl
  · unfold mcount
    rw [h.sel0' 64 (by decide), Option.bind_some, if_neg (by decide), h.sel0' (64-1) (by decide)]; rfl
  · unfold mlower
    rw [mrank_ok h (by decide), Option.bind_some]
    unfold mget
    rw [show mbelow [62] 63 = 1 from rfl, ep, hp (by decide)]; rfl

/-- C102 is violated: `upper_bound(2^32 - 1)` returns the least value. -/
theorem C102_upper_bound_violated : (multiBuild 63 [5]).bind (fun t => mupper t (2^32 - 1)) = some 5 := by
  obtain ⟨t, Z, e, _, _, _, _, _, _, hl, _⟩ := C102_multiset_partial 63 (by decide) (by decide) [5] (by decide) (by decide)
  obtain ⟨v, hv, hm, _⟩ := hl 0 ⟨5, by simp, by decide⟩
  rw [e, Option.bind_some]
  rw [List.mem_singleton.1 hm] at hv
  exact hv

end Verif.BinSet
