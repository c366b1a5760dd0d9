import Verif.Fraction.Fraction
/-!
C25: operators of `Fraction` and `FractionOrdering` with one `long long` operand, `/repo/include/mtl/fraction.hpp`.
-/
namespace Verif.Fraction

/-- fraction.hpp:195-197. -/
def addL (x : Int) (r : Frac) : Option Frac := addInt r x

/-- fraction.hpp:198-200: `-r + x`. -/
def subL (x : Int) (r : Frac) : Option Frac := (neg r).bind (fun n => addInt n x)

/-- fraction.hpp:201-203. -/
def mulL (x : Int) (r : Frac) : Option Frac := mulInt r x

/-- fraction.hpp:204-206: `x * r.inv()`. -/
def divL (x : Int) (r : Frac) : Option Frac := (inv r).bind (fun n => mulL x n)

/-- fraction.hpp:53-55 (C++20). -/
def cmpInt (f : Frac) (x : Int) : Option Ordering := (i64 (f.v * x)).map (fun y => compare f.u y)

/-- fraction.hpp:75-77 (before C++20, as the following). -/
def eqInt (f : Frac) (x : Int) : Option Bool := (i64 (f.v * x)).map (fun y => decide (f.u = y))
/-- fraction.hpp:78-80. -/
def neInt (f : Frac) (x : Int) : Option Bool := (i64 (f.v * x)).map (fun y => decide (f.u ≠ y))
/-- fraction.hpp:81-83. -/
def ltInt (f : Frac) (x : Int) : Option Bool := (i64 (f.v * x)).map (fun y => decide (f.u < y))
/-- fraction.hpp:84-86. -/
def leInt (f : Frac) (x : Int) : Option Bool := (i64 (f.v * x)).map (fun y => decide (f.u ≤ y))
/-- fraction.hpp:87-89. -/
def gtInt (f : Frac) (x : Int) : Option Bool := (i64 (f.v * x)).map (fun y => decide (f.u > y))
/-- fraction.hpp:90-92. -/
def geInt (f : Frac) (x : Int) : Option Bool := (i64 (f.v * x)).map (fun y => decide (f.u ≥ y))
/-- fraction.hpp:93-95. -/
def eqL (x : Int) (f : Frac) : Option Bool := eqInt f x
/-- fraction.hpp:96-98. -/
def neL (x : Int) (f : Frac) : Option Bool := neInt f x
/-- fraction.hpp:99-101. -/
def ltL (x : Int) (f : Frac) : Option Bool := gtInt f x
/-- fraction.hpp:102-104. -/
def leL (x : Int) (f : Frac) : Option Bool := geInt f x
/-- fraction.hpp:105-107. -/
def gtL (x : Int) (f : Frac) : Option Bool := ltInt f x
/-- fraction.hpp:108-110. -/
def geL (x : Int) (f : Frac) : Option Bool := leInt f x

/-! ### Proofs -/

theorem coprime_quot {u v a b : Int} (ha : a * (Int.gcd u v : Int) = u) (hb : b * (Int.gcd u v : Int) = v)
    (hgpos : 0 < (Int.gcd u v : Int)) : Int.gcd a b = 1 := by
  have h0 : (Int.gcd u v : Int) = (Int.gcd (a * (Int.gcd u v : Int)) (b * (Int.gcd u v : Int)) : Int) := by rw [ha, hb]
  generalize (Int.gcd u v : Int) = g at h0 hgpos
  rw [Int.gcd_mul_right] at h0
  push_cast at h0
  rw [abs_of_pos hgpos] at h0
  have h2 : ((Int.gcd a b : Int) - 1) * g = 0 := by rw [Int.sub_mul, ← h0]; omega
  rcases Int.mul_eq_zero.1 h2 with h | h
  · omega
  · omega

theorem gcd_neg {u v : Int} (hv : -2^63 < v ∧ v < 0) (hu : -2^63 < u ∧ u < 2^63) : gcd u v = some (Int.gcd u v : Int) := by
  have h := (gcd_small (b := -v) hu ⟨by omega, by omega⟩)
  rw [Int.gcd_neg] at h
  unfold gcd
  rw [if_neg (by omega)]
  exact i64_some (by omega) (by omega)

/-- **C25, normal form, any sign of the denominator, part.** Missing: gcds of `2^31` and more. -/
theorem C25_reduct_signed_partial {f : Frac} (hu : -2^63 < f.u ∧ f.u < 2^63) (hv : -2^63 < f.v ∧ f.v < 2^63) (h0 : f.v ≠ 0)
    (hg : Int.gcd f.u f.v < 2^31) : ∃ c, reducted f = some c ∧ Valid c ∧ value c = value f ∧ Int.gcd c.u c.v = 1 := by
  have hgpos : 0 < (Int.gcd f.u f.v : Int) := by exact_mod_cast Int.gcd_pos_of_ne_zero_right _ h0
  have eg : gcd f.u f.v = some (Int.gcd f.u f.v : Int) := by
    by_cases h : 0 < f.v
    · exact (gcd_small hu ⟨h, hv.2⟩).1
    · exact gcd_neg ⟨hv.1, by omega⟩ hu
  have h32 : toInt32 (Int.gcd f.u f.v : Int) = (Int.gcd f.u f.v : Int) := by unfold toInt32; omega
  obtain ⟨a, ea, ha⟩ := quot_small hgpos (Int.gcd_dvd_left ..) (a := f.u) hu
  obtain ⟨b, eb, hb⟩ := quot_small hgpos (Int.gcd_dvd_right ..) (a := f.v) hv
  have hcop := coprime_quot ha hb hgpos
  have hval := value_eq_of_scale (by omega) ha hb
  have hb0 : b ≠ 0 := by rintro rfl; omega
  have ra := (quot_eq ea (Int.gcd_dvd_left ..)).2.2
  have rb := (quot_eq eb (Int.gcd_dvd_right ..)).2.2
  have la := quot_range hgpos ha hu.1
  have lb := quot_range hgpos hb hv.1
  obtain ⟨c, hc⟩ := mk_small (u := a) (v := b) ⟨la, ra.2⟩ ⟨lb, rb.2⟩ hb0
  obtain ⟨hV, hvc, -⟩ := mk_eq hc ⟨la, ra.2⟩ ⟨lb, rb.2⟩
  refine ⟨c, ?_, hV, by rw [hvc, ← hval]; rfl, ?_⟩
  · unfold reducted
    rw [eg, Option.bind_some, h32, ea, Option.bind_some, eb, Option.bind_some, hc]
  · unfold mk at hc
    rw [if_neg hb0] at hc
    split at hc
    · rename_i h
      rw [Option.some.injEq] at hc
      subst hc
      simp
    · split at hc
      · rw [i64_some (by omega) (by omega), i64_some (by omega) (by omega)] at hc
        simp only [Option.bind_some, Option.map_some, Option.some.injEq] at hc
        subst hc
        simpa using hcop
      · rw [Option.some.injEq] at hc
        subst hc
        exact hcop

/-- **C25, division by an integer, part.** When `v * x` does not overflow and the gcd fits in an `int`, `f / x` is the quotient, in lowest terms with
a positive denominator.  Missing: gcds of `2^31` and more (`C25_violated_zero`). -/
theorem C25_div_int_partial {f : Frac} (hf : Valid f) {x : Int} (hx : x ≠ 0) (hv : -2^63 < f.v * x ∧ f.v * x < 2^63)
    (hg : Int.gcd f.u (f.v * x) < 2^31) :
    ∃ c, divInt f x = some c ∧ Valid c ∧ value c = value f / x ∧ Int.gcd c.u c.v = 1 := by
  have h0 : f.v * x ≠ 0 := Int.mul_ne_zero (by have := hf.pos; omega) hx
  obtain ⟨c, ec, hc, hval, hcop⟩ := C25_reduct_signed_partial (f := ⟨f.u, f.v * x⟩) ⟨hf.loU, hf.hiU⟩ hv h0 hg
  refine ⟨c, ?_, hc, ?_, hcop⟩
  · unfold divInt
    rw [i64_some (by omega) hv.2, Option.bind_some, ec]
  · rw [hval]
    unfold value
    push_cast
    rw [div_div]

/-- **C25, small operands.** On a non-zero fraction with parts below `2^31`, division by a non-zero integer below `2^31` is defined and right. -/
theorem C25_div_int_small {f : Frac} (hf : Small f) (hu : f.u ≠ 0) {x : Int} (hx : x ≠ 0) (hx1 : -2^31 < x) (hx2 : x < 2^31) :
    ∃ c, divInt f x = some c ∧ Valid c ∧ value c = value f / x ∧ Int.gcd c.u c.v = 1 := by
  have h1 := hf.pos; have h2 := hf.hiV; have h3 := hf.loU; have h4 := hf.hiU
  have hr := mul_range (a := f.v) ⟨by omega, by omega⟩ ⟨hx1, hx2⟩
  apply C25_div_int_partial hf.valid hx ⟨by omega, by omega⟩
  have := Int.natAbs_dvd_natAbs.2 (Int.gcd_dvd_left f.u (f.v * x))
  rw [Int.natAbs_natCast] at this
  have := Nat.le_of_dvd (by omega) this
  omega

/-- **C25, division by the integer zero** never returns. -/
theorem C25_div_int_zero (f : Frac) : divInt f 0 = none := by
  unfold divInt
  rw [Int.mul_zero, i64_some (by omega) (by omega), Option.bind_some]
  cases h : reducted ⟨f.u, 0⟩ with
  | none => rfl
  | some c =>
    exfalso
    unfold reducted at h
    obtain ⟨g, -, h⟩ := bind_some' h
    obtain ⟨a, -, h⟩ := bind_some' h
    obtain ⟨b, hb, h⟩ := bind_some' h
    have hb0 : b = 0 := by
      unfold quot at hb
      split at hb
      · cases hb
      · have := (i64_eq hb).1
        rwa [Int.zero_tdiv] at this
    unfold mk at h
    rw [if_pos hb0] at h
    cases h

/-- **C25, integer on the left, part.** `x + r`, `x - r`, `x * r` and `x / r` have the right value, are in lowest terms and have a positive denominator,
when the intermediate numbers do not overflow and the denominator to be reduced is below `2^31`. -/
theorem C25_left_partial {r : Frac} (hr : Valid r) (x : Int) :
    (r.v < 2^31 → -2^63 ≤ x * r.v ∧ x * r.v < 2^63 → -2^63 < r.u + x * r.v ∧ r.u + x * r.v < 2^63 →
      ∃ c, addL x r = some c ∧ 0 < c.v ∧ value c = x + value r ∧ Int.gcd c.u c.v = 1) ∧
    (r.v < 2^31 → -2^63 ≤ x * r.v ∧ x * r.v < 2^63 → -2^63 < x * r.v - r.u ∧ x * r.v - r.u < 2^63 →
      ∃ c, subL x r = some c ∧ 0 < c.v ∧ value c = x - value r ∧ Int.gcd c.u c.v = 1) ∧
    (r.v < 2^31 → -2^63 < r.u * x ∧ r.u * x < 2^63 →
      ∃ c, mulL x r = some c ∧ 0 < c.v ∧ value c = x * value r ∧ Int.gcd c.u c.v = 1) ∧
    (r.u ≠ 0 → -2^31 < r.u ∧ r.u < 2^31 → -2^63 < r.v * x ∧ r.v * x < 2^63 →
      ∃ c, divL x r = some c ∧ 0 < c.v ∧ value c = x / value r ∧ Int.gcd c.u c.v = 1) := by
  have h1 := hr.pos; have h2 := hr.hiV; have h3 := hr.loU; have h4 := hr.hiU
  refine ⟨?_, ?_, ?_, ?_⟩
  · intro hv ha hb
    obtain ⟨c, ec, hc, hval, hcop⟩ := (C25_int_partial h1 hv x).1 ha hb
    exact ⟨c, ec, hc, by rw [hval, add_comm], hcop⟩
  · intro hv ha hb
    by_cases hu : r.u = 0
    · have hn : neg r = some ⟨0, 1⟩ := by
        unfold neg mk
        rw [i64_some (by omega) (by omega), Option.bind_some, if_neg (by omega), if_pos (by omega), hu]
        rfl
      have hx : -2^63 < x ∧ x < 2^63 := by
        constructor
        · by_contra hle
          have : x * r.v ≤ x * 1 := Int.mul_le_mul_of_nonpos_left (by omega) (by omega)
          omega
        · by_contra hle
          have : x * 1 ≤ x * r.v := Int.mul_le_mul_of_nonneg_left (by omega) (by omega)
          omega
      obtain ⟨c, ec, hc, hval, hcop⟩ := (C25_int_partial (f := ⟨0, 1⟩) (by decide) (by decide) x).1 (by dsimp only; omega) (by dsimp only; omega)
      refine ⟨c, ?_, hc, ?_, hcop⟩
      · unfold subL
        rw [hn, Option.bind_some, ec]
      · rw [hval]
        unfold value
        rw [hu]
        simp
    have hn : neg r = some ⟨-r.u, r.v⟩ := by
      unfold neg mk
      rw [i64_some (by omega) (by omega), Option.bind_some, if_neg (by omega), if_neg (by omega), if_neg (by omega)]
    obtain ⟨c, ec, hc, hval, hcop⟩ := (C25_int_partial (f := ⟨-r.u, r.v⟩) h1 hv x).1 ha (by dsimp only; omega)
    refine ⟨c, ?_, hc, ?_, hcop⟩
    · unfold subL
      rw [hn, Option.bind_some, ec]
    · rw [hval]
      unfold value
      push_cast
      rw [neg_div, add_comm, sub_eq_add_neg]
  · intro hv ha
    obtain ⟨c, ec, hc, hval, hcop⟩ := (C25_int_partial h1 hv x).2.2 ha
    exact ⟨c, ec, hc, by rw [hval, mul_comm], hcop⟩
  · intro hu hb ha
    rcases Int.lt_or_gt_of_ne hu with hneg | hpos
    · have hn : inv r = some ⟨-r.v, -r.u⟩ := by
        unfold inv mk
        rw [if_neg hu, if_neg hu, if_neg (by omega), if_pos hneg, i64_some (by omega) (by omega), Option.bind_some, i64_some (by omega) (by omega)]
        rfl
      have e : -r.v * x = -(r.v * x) := Int.neg_mul ..
      obtain ⟨c, ec, hc, hval, hcop⟩ := (C25_int_partial (f := ⟨-r.v, -r.u⟩) (by dsimp only; omega) (by dsimp only; omega) x).2.2
        (by dsimp only; omega)
      refine ⟨c, ?_, hc, ?_, hcop⟩
      · unfold divL mulL
        rw [hn, Option.bind_some, ec]
      · rw [hval]
        unfold value
        push_cast
        rw [neg_div_neg_eq, div_div_eq_mul_div, mul_comm, mul_div_assoc]
    · have hn : inv r = some ⟨r.v, r.u⟩ := by
        unfold inv mk
        rw [if_neg hu, if_neg hu, if_neg (by omega), if_neg (by omega)]
      obtain ⟨c, ec, hc, hval, hcop⟩ := (C25_int_partial (f := ⟨r.v, r.u⟩) (by dsimp only; omega) (by dsimp only; omega) x).2.2 ha
      refine ⟨c, ?_, hc, ?_, hcop⟩
      · unfold divL mulL
        rw [hn, Option.bind_some, ec]
      · rw [hval]
        unfold value
        rw [div_div_eq_mul_div, mul_comm, mul_div_assoc]

theorem cross_int {f : Frac} (hf : 0 < f.v) (x : Int) :
    (value f < x ↔ f.u < f.v * x) ∧ (value f = x ↔ f.u = f.v * x) ∧ ((x : ℚ) < value f ↔ f.v * x < f.u) := by
  have h1 : (0 : ℚ) < f.v := by exact_mod_cast hf
  unfold value
  refine ⟨?_, ?_, ?_⟩
  · rw [div_lt_iff₀ h1, mul_comm]
    exact_mod_cast Iff.rfl
  · rw [div_eq_iff (ne_of_gt h1), mul_comm]
    exact_mod_cast Iff.rfl
  · rw [lt_div_iff₀ h1, mul_comm]
    exact_mod_cast Iff.rfl

/-- **C25, comparison with integers.** Every comparison of a fraction with an integer, on either side, is that of the rational numbers, provided
`v * x` does not overflow. -/
theorem C25_cmp_int {f : Frac} (hf : 0 < f.v) (x : Int) (h : -2^63 ≤ f.v * x ∧ f.v * x < 2^63) :
    cmpInt f x = some (compare (value f) (x : ℚ)) ∧
    eqInt f x = some (decide (value f = x)) ∧ neInt f x = some (decide (value f ≠ x)) ∧
    ltInt f x = some (decide (value f < x)) ∧ leInt f x = some (decide (value f ≤ x)) ∧
    gtInt f x = some (decide (value f > x)) ∧ geInt f x = some (decide (value f ≥ x)) ∧
    eqL x f = some (decide ((x : ℚ) = value f)) ∧ neL x f = some (decide ((x : ℚ) ≠ value f)) ∧
    ltL x f = some (decide ((x : ℚ) < value f)) ∧ leL x f = some (decide ((x : ℚ) ≤ value f)) ∧
    gtL x f = some (decide ((x : ℚ) > value f)) ∧ geL x f = some (decide ((x : ℚ) ≥ value f)) := by
  obtain ⟨hlt, heq, hgt⟩ := cross_int hf x
  have hle : value f ≤ x ↔ f.u ≤ f.v * x := by rw [← not_lt, hgt, Int.not_lt]
  have hge : (x : ℚ) ≤ value f ↔ f.v * x ≤ f.u := by rw [← not_lt, hlt, Int.not_lt]
  have heq' : (x : ℚ) = value f ↔ f.u = f.v * x := by rw [eq_comm, heq]
  unfold eqL neL ltL leL gtL geL cmpInt eqInt neInt ltInt leInt gtInt geInt
  rw [i64_some h.1 h.2]
  simp only [Option.map_some, Option.some.injEq, decide_eq_decide, gt_iff_lt, ge_iff_le, ne_eq, hlt, heq, hgt, hle, hge, heq', and_true]
  rcases lt_trichotomy (value f) (x : ℚ) with hc | hc | hc
  · rw [compare_lt_iff_lt.2 hc, compare_lt_iff_lt.2 (hlt.1 hc)]
  · rw [compare_eq_iff_eq.2 hc, compare_eq_iff_eq.2 (heq.1 hc)]
  · rw [compare_gt_iff_gt.2 hc, compare_gt_iff_gt.2 (hgt.1 hc)]

/-- **C25 fails on small numbers**: `(Fraction(1, 65536) - Fraction(1, 65536)) / 65536` is undefined: the difference is `0 / 65536`, not normalised,
and the gcd `2^32` of `0` and the new denominator becomes the `int` 0 (fraction.hpp:26, 130-131, 189). -/
theorem C25_violated_zero : (sub ⟨1, 65536⟩ ⟨1, 65536⟩).bind (fun d => divInt d 65536) = none ∧
    (sub ⟨1, 65536⟩ ⟨1, 65536⟩) = some ⟨0, 65536⟩ := by decide +kernel

example : divInt ⟨6, 5⟩ (-4) = some ⟨-3, 10⟩ := by decide +kernel
example : subL 2 ⟨3, 4⟩ = some ⟨5, 4⟩ := by decide +kernel
example : divL 2 ⟨-4, 3⟩ = some ⟨-3, 2⟩ := by decide +kernel
example : addL 2 ⟨-4, 3⟩ = some ⟨2, 3⟩ := by decide +kernel
example : mulL 6 ⟨-4, 3⟩ = some ⟨-8, 1⟩ := by decide +kernel
example : ltL (-1) ⟨-4, 3⟩ = some false ∧ ltInt ⟨-4, 3⟩ (-1) = some true ∧ cmpInt ⟨8, 4⟩ 2 = some .eq := by decide +kernel
example : Valid ⟨-4, 3⟩ ∧ Int.gcd (-4) (3 * -6) < 2^31 := ⟨⟨by decide, by decide, by decide, by decide⟩, by decide⟩

end Verif.Fraction
