import Mathlib.Data.Rat.Defs
import Mathlib.Algebra.Order.Field.Rat
import Mathlib.Tactic.FieldSimp
import Mathlib.Tactic.Ring
import Mathlib.Tactic.Linarith
/-!
C25: `Fraction` and `FractionOrdering`, `/repo/include/mtl/fraction.hpp`.

Numbers are integers; a `long long` result outside `[-2^63, 2^63)` is `none`, as are division by zero and a failed `assert`.
-/
namespace Verif.Fraction

/-- A `long long` value; overflow is undefined. -/
def i64 (x : Int) : Option Int := if -2^63 ≤ x ∧ x < 2^63 then some x else none

/-- Conversion of a `long long` to `int` (modulo `2^32`). -/
def toInt32 (x : Int) : Int := (x + 2^31) % 2^32 - 2^31

/-- `u`, `v` of `FractionBase` (fraction.hpp:14). -/
structure Frac where
  u : Int
  v : Int
deriving DecidableEq

/-- fraction.hpp:15-23. -/
def mk (u v : Int) : Option Frac :=
  if v = 0 then none
  else if u = 0 then some ⟨u, 1⟩
  else if v < 0 then (i64 (-u)).bind (fun u' => (i64 (-v)).map (fun v' => ⟨u', v'⟩))
  else some ⟨u, v⟩

/-- `std::gcd` on `long long`: undefined if an absolute value is not representable (fraction.hpp:26, 126, 146). -/
def gcd (a b : Int) : Option Int := if a = -2^63 ∨ b = -2^63 then none else i64 (Int.gcd a b : Nat)

/-- `a / b` on `long long`, truncating. -/
def quot (a b : Int) : Option Int := if b = 0 then none else i64 (Int.tdiv a b)

/-- fraction.hpp:25-28: `int g = std::gcd(u,v)`. -/
def reducted (f : Frac) : Option Frac :=
  (gcd f.u f.v).bind (fun g => (quot f.u (toInt32 g)).bind (fun a => (quot f.v (toInt32 g)).bind (fun b => mk a b)))

/-- fraction.hpp:125-133. -/
def add (f r : Frac) : Option Frac :=
  (gcd f.v r.v).bind (fun g => (quot r.v g).bind (fun q => (i64 (f.v * q)).bind (fun nv =>
    (i64 (f.u * q)).bind (fun a => (quot f.v g).bind (fun w => (i64 (r.u * w)).bind (fun b => (i64 (a + b)).map (fun nu => ⟨nu, nv⟩)))))))

/-- fraction.hpp:178-180. -/
def neg (f : Frac) : Option Frac := (i64 (-f.u)).bind (fun u => mk u f.v)

/-- fraction.hpp:137-139. -/
def sub (f r : Frac) : Option Frac := (neg r).bind (add f)

/-- fraction.hpp:143-150. -/
def mul (f r : Frac) : Option Frac :=
  (i64 (f.v * r.v)).bind (fun nv => (i64 (f.u * r.u)).bind (fun nu => (gcd nu nv).bind (fun g =>
    (quot nu g).bind (fun a => (quot nv g).map (fun b => ⟨a, b⟩)))))

/-- fraction.hpp:154-157. -/
def inv (f : Frac) : Option Frac := if f.u = 0 then none else mk f.v f.u

/-- fraction.hpp:158-160. -/
def div (f r : Frac) : Option Frac := (inv r).bind (mul f)

/-- fraction.hpp:164-167. -/
def addInt (f : Frac) (x : Int) : Option Frac := (i64 (x * f.v)).bind (fun y => (i64 (f.u + y)).bind (fun u => reducted ⟨u, f.v⟩))

/-- fraction.hpp:171-174. -/
def subInt (f : Frac) (x : Int) : Option Frac := (i64 (x * f.v)).bind (fun y => (i64 (f.u - y)).bind (fun u => reducted ⟨u, f.v⟩))

/-- fraction.hpp:181-184. -/
def mulInt (f : Frac) (x : Int) : Option Frac := (i64 (f.u * x)).bind (fun u => reducted ⟨u, f.v⟩)

/-- fraction.hpp:188-191. -/
def divInt (f : Frac) (x : Int) : Option Frac := (i64 (f.v * x)).bind (fun v => reducted ⟨f.u, v⟩)

/-- fraction.hpp:40-41 with the base constructor (`std::abs` of `-2^63` is undefined). -/
def mkOrd (u v : Int) : Option Frac :=
  (if 0 ≤ v then some u else i64 (-u)).bind (fun u' => (i64 |v|).bind (fun v' => mk u' v'))

/-- fraction.hpp:44-46 and 212-214. -/
def beq (f r : Frac) : Option Bool := (i64 (f.u * r.v)).bind (fun a => (i64 (f.v * r.u)).map (fun b => decide (a = b)))

/-- fraction.hpp:48-52 (and the comparison operators 60-71): the sign of the comparison. -/
def cmpOrd (f r : Frac) : Option Ordering :=
  (i64 (f.u * r.v)).bind (fun a => (i64 (f.v * r.u)).map (fun b => compare a b))

/-- fraction.hpp:208-210 and 217-219. -/
def cmp (f r : Frac) : Option Ordering := (mkOrd f.u f.v).bind (fun a => (mkOrd r.u r.v).bind (fun b => cmpOrd a b))

/-! ### Specification -/

/-- The rational number denoted. -/
def value (f : Frac) : ℚ := f.u / f.v

/-- Class invariant: both parts are `long long` values, the denominator is positive. -/
structure Valid (f : Frac) : Prop where
  pos : 0 < f.v
  hiV : f.v < 2^63
  loU : -2^63 < f.u
  hiU : f.u < 2^63

/-- Both parts are below `2^31` in absolute value. -/
structure Small (f : Frac) : Prop where
  pos : 0 < f.v
  hiV : f.v < 2^31
  loU : -2^31 < f.u
  hiU : f.u < 2^31

/-! ### Proofs -/

theorem i64_eq {x y : Int} (h : i64 x = some y) : y = x ∧ -2^63 ≤ y ∧ y < 2^63 := by
  unfold i64 at h
  split at h
  · rename_i hx
    rw [Option.some.injEq] at h
    subst h
    exact ⟨rfl, hx⟩
  · cases h

theorem i64_some {x : Int} (h1 : -2^63 ≤ x) (h2 : x < 2^63) : i64 x = some x := by
  unfold i64; rw [if_pos ⟨h1, h2⟩]

theorem Valid.ne {f : Frac} (h : Valid f) : (f.v : ℚ) ≠ 0 := by
  have := h.pos
  exact_mod_cast (by omega : f.v ≠ 0)

theorem Small.valid {f : Frac} (h : Small f) : Valid f := by
  have := h.pos; have := h.hiV; have := h.loU; have := h.hiU
  exact ⟨by omega, by omega, by omega, by omega⟩

theorem bind_some' {α β : Type} {o : Option α} {f : α → Option β} {b : β} (h : o.bind f = some b) : ∃ a, o = some a ∧ f a = some b :=
  Option.bind_eq_some_iff.1 h

theorem mk_eq {u v : Int} {f : Frac} (h : mk u v = some f) (hu : -2^63 < u ∧ u < 2^63) (hv : -2^63 < v ∧ v < 2^63) :
    Valid f ∧ value f = (u : ℚ) / v ∧ v ≠ 0 := by
  unfold mk at h
  split at h
  · cases h
  · rename_i hv0
    split at h
    · rename_i hu0
      rw [Option.some.injEq] at h
      subst h
      exact ⟨⟨by simp, by simp, by simpa using hu.1, by simpa using hu.2⟩, by simp [value, hu0], hv0⟩
    · split at h
      · rename_i hneg
        obtain ⟨a, ha, h⟩ := bind_some' h
        obtain ⟨b, hb, h⟩ := Option.map_eq_some_iff.1 h
        obtain ⟨rfl, h1, h2⟩ := i64_eq ha
        obtain ⟨rfl, h3, h4⟩ := i64_eq hb
        subst h
        refine ⟨⟨by dsimp only; omega, by dsimp only; omega, by dsimp only; omega, by dsimp only; omega⟩, ?_, hv0⟩
        unfold value
        push_cast
        rw [neg_div_neg_eq]
      · rw [Option.some.injEq] at h
        subst h
        exact ⟨⟨by dsimp only; omega, hv.2, hu.1, hu.2⟩, rfl, hv0⟩

theorem mk_small {u v : Int} (hu : -2^63 < u ∧ u < 2^63) (hv : -2^63 < v ∧ v < 2^63) (h0 : v ≠ 0) : ∃ f, mk u v = some f := by
  unfold mk
  rw [if_neg h0]
  split
  · exact ⟨_, rfl⟩
  · split
    · rw [i64_some (by omega) (by omega), i64_some (by omega) (by omega)]
      exact ⟨_, rfl⟩
    · exact ⟨_, rfl⟩

theorem gcd_eq {a b g : Int} (h : gcd a b = some g) : g = (Int.gcd a b : Int) := by
  unfold gcd at h
  split at h
  · cases h
  · exact (i64_eq h).1

theorem quot_eq {a b q : Int} (h : quot a b = some q) (hd : b ∣ a) : b ≠ 0 ∧ q * b = a ∧ -2^63 ≤ q ∧ q < 2^63 := by
  unfold quot at h
  split at h
  · cases h
  · rename_i hb
    obtain ⟨rfl, h1⟩ := i64_eq h
    exact ⟨hb, Int.tdiv_mul_cancel hd, h1⟩

theorem value_eq_of_scale {u v a b g : Int} (hg : g ≠ 0) (ha : a * g = u) (hb : b * g = v) : (u : ℚ) / v = (a : ℚ) / b := by
  have hg' : (g : ℚ) ≠ 0 := by exact_mod_cast hg
  rw [← ha, ← hb]
  push_cast
  rw [mul_div_mul_right _ _ hg']

theorem pos_of_mul {b g v : Int} (hg : 0 < g) (hb : b * g = v) (hv : 0 < v) : 0 < b := by
  by_contra hle
  have : b * g ≤ 0 := Int.mul_nonpos_of_nonpos_of_nonneg (by omega) (by omega)
  omega

/-- Dividing a range-limited number by a positive divisor stays away from `-2^63`. -/
theorem quot_range {q g a : Int} (hg : 0 < g) (h : q * g = a) (ha : -2^63 < a) : -2^63 < q := by
  by_contra hle
  have h1 : q ≤ -2^63 := by omega
  have h2 : q * g ≤ q * 1 := by
    apply Int.mul_le_mul_of_nonpos_left (by omega) (by omega)
  omega

/-- **C25, defined results are right.** Whenever an operation on valid fractions does not overflow, its result is a valid fraction
(positive denominator) denoting the sum, difference, product, quotient or negative of the rational operands. -/
theorem C25_add {f r c : Frac} (hf : Valid f) (hr : Valid r) (h : add f r = some c) : 0 < c.v ∧ value c = value f + value r := by
  unfold add at h
  obtain ⟨g, hg, h⟩ := bind_some' h
  obtain ⟨q, hq, h⟩ := bind_some' h
  obtain ⟨nv, hnv, h⟩ := bind_some' h
  obtain ⟨a, ha, h⟩ := bind_some' h
  obtain ⟨w, hw, h⟩ := bind_some' h
  obtain ⟨b, hb, h⟩ := bind_some' h
  obtain ⟨nu, hnu, h⟩ := Option.map_eq_some_iff.1 h
  have hg := gcd_eq hg
  have hgpos : 0 < g := by
    rw [hg]
    exact_mod_cast Int.gcd_pos_of_ne_zero_left _ (by have := hf.pos; omega)
  obtain ⟨hg0, hq', -⟩ := quot_eq hq (by rw [hg]; exact Int.gcd_dvd_right ..)
  obtain ⟨-, hw', -⟩ := quot_eq hw (by rw [hg]; exact Int.gcd_dvd_left ..)
  obtain ⟨rfl, -⟩ := i64_eq hnv
  obtain ⟨rfl, -⟩ := i64_eq ha
  obtain ⟨rfl, -⟩ := i64_eq hb
  obtain ⟨rfl, -⟩ := i64_eq hnu
  subst h
  have hqpos := pos_of_mul hgpos hq' hr.pos
  refine ⟨Int.mul_pos hf.pos hqpos, ?_⟩
  have hfv := hf.ne
  have hrv := hr.ne
  have hq0 : (q : ℚ) ≠ 0 := by exact_mod_cast (by omega : q ≠ 0)
  have e1 : (r.v : ℚ) = q * g := by exact_mod_cast hq'.symm
  have e2 : (f.v : ℚ) = w * g := by exact_mod_cast hw'.symm
  have hgq : (g : ℚ) ≠ 0 := by exact_mod_cast hg0
  have hw0 : (w : ℚ) ≠ 0 := by
    intro h0
    rw [h0, zero_mul] at e2
    exact hfv e2
  unfold value
  push_cast
  rw [e1, e2]
  field_simp

/-- **C25, negation.** -/
theorem C25_neg {f c : Frac} (hf : Valid f) (h : neg f = some c) : Valid c ∧ value c = - value f := by
  unfold neg at h
  obtain ⟨u, hu, h⟩ := bind_some' h
  obtain ⟨rfl, -⟩ := i64_eq hu
  have h1 := hf.pos; have h2 := hf.hiV; have h3 := hf.loU; have h4 := hf.hiU
  obtain ⟨hv, he, -⟩ := mk_eq h ⟨by omega, by omega⟩ ⟨by omega, by omega⟩
  refine ⟨hv, ?_⟩
  rw [he]
  unfold value
  push_cast
  rw [neg_div]

/-- **C25, subtraction.** -/
theorem C25_sub {f r c : Frac} (hf : Valid f) (hr : Valid r) (h : sub f r = some c) : 0 < c.v ∧ value c = value f - value r := by
  unfold sub at h
  obtain ⟨n, hn, h⟩ := bind_some' h
  obtain ⟨hv, he⟩ := C25_neg hr hn
  obtain ⟨h1, h2⟩ := C25_add hf hv h
  exact ⟨h1, by rw [h2, he, sub_eq_add_neg]⟩

/-- **C25, multiplication.** The product comes out in lowest terms. -/
theorem C25_mul {f r c : Frac} (hf : Valid f) (hr : Valid r) (h : mul f r = some c) :
    0 < c.v ∧ value c = value f * value r ∧ Int.gcd c.u c.v = 1 := by
  unfold mul at h
  obtain ⟨nv, hnv, h⟩ := bind_some' h
  obtain ⟨nu, hnu, h⟩ := bind_some' h
  obtain ⟨g, hg, h⟩ := bind_some' h
  obtain ⟨a, ha, h⟩ := bind_some' h
  obtain ⟨b, hb, rfl⟩ := Option.map_eq_some_iff.1 h
  obtain ⟨rfl, -⟩ := i64_eq hnv
  obtain ⟨rfl, -⟩ := i64_eq hnu
  have hvpos : 0 < f.v * r.v := Int.mul_pos hf.pos hr.pos
  have hg := gcd_eq hg
  have hgpos : 0 < g := by
    rw [hg]
    exact_mod_cast Int.gcd_pos_of_ne_zero_right _ (by omega)
  obtain ⟨hg0, ha', -⟩ := quot_eq ha (by rw [hg]; exact Int.gcd_dvd_left ..)
  obtain ⟨-, hb', -⟩ := quot_eq hb (by rw [hg]; exact Int.gcd_dvd_right ..)
  refine ⟨pos_of_mul hgpos hb' hvpos, ?_, ?_⟩
  · have hs := value_eq_of_scale hg0 ha' hb'
    unfold value
    rw [← hs]
    push_cast
    rw [div_mul_div_comm]
  · dsimp only
    rw [← ha', ← hb', Int.gcd_mul_right] at hg
    have h1 : (g : Int) = (Int.gcd a b : Int) * g := by
      conv_lhs => rw [hg]
      push_cast
      rw [abs_of_pos hgpos]
    have h2 : ((Int.gcd a b : Int) - 1) * g = 0 := by rw [Int.sub_mul, ← h1]; omega
    rcases Int.mul_eq_zero.1 h2 with h | h
    · omega
    · omega

/-- **C25, inverse.** -/
theorem C25_inv {f c : Frac} (hf : Valid f) (h : inv f = some c) : Valid c ∧ value c = (value f)⁻¹ ∧ f.u ≠ 0 := by
  unfold inv at h
  split at h
  · cases h
  · rename_i hu
    have h1 := hf.pos; have h2 := hf.hiV; have h3 := hf.loU; have h4 := hf.hiU
    obtain ⟨hv, he, -⟩ := mk_eq h ⟨by omega, by omega⟩ ⟨by omega, by omega⟩
    exact ⟨hv, by rw [he, value, inv_div], hu⟩

/-- **C25, division.** -/
theorem C25_div {f r c : Frac} (hf : Valid f) (hr : Valid r) (h : div f r = some c) :
    0 < c.v ∧ value c = value f / value r ∧ Int.gcd c.u c.v = 1 := by
  unfold div at h
  obtain ⟨n, hn, h⟩ := bind_some' h
  obtain ⟨hv, he, -⟩ := C25_inv hr hn
  obtain ⟨h1, h2, h3⟩ := C25_mul hf hv h
  exact ⟨h1, by rw [h2, he, div_eq_mul_inv], h3⟩

theorem cross {f r : Frac} (hf : 0 < f.v) (hr : 0 < r.v) :
    (value f < value r ↔ f.u * r.v < f.v * r.u) ∧ (value f = value r ↔ f.u * r.v = f.v * r.u) := by
  have h1 : (0 : ℚ) < f.v := by exact_mod_cast hf
  have h2 : (0 : ℚ) < r.v := by exact_mod_cast hr
  unfold value
  constructor
  · rw [div_lt_div_iff₀ h1 h2, mul_comm (r.u : ℚ)]
    exact_mod_cast Iff.rfl
  · rw [div_eq_div_iff (ne_of_gt h1) (ne_of_gt h2), mul_comm (r.u : ℚ)]
    exact_mod_cast Iff.rfl

/-- **C25, equality.** -/
theorem C25_beq {f r : Frac} (hf : Valid f) (hr : Valid r) {b : Bool} (h : beq f r = some b) : b = true ↔ value f = value r := by
  unfold beq at h
  obtain ⟨x, hx, h⟩ := bind_some' h
  obtain ⟨y, hy, h⟩ := Option.map_eq_some_iff.1 h
  obtain ⟨rfl, -⟩ := i64_eq hx
  obtain ⟨rfl, -⟩ := i64_eq hy
  subst h
  rw [decide_eq_true_iff, (cross hf.pos hr.pos).2]

theorem mkOrd_eq {f c : Frac} (hf : Valid f) (h : mkOrd f.u f.v = some c) : Valid c ∧ value c = value f := by
  unfold mkOrd at h
  have h1 := hf.pos; have h2 := hf.hiV; have h3 := hf.loU; have h4 := hf.hiU
  rw [if_pos (by omega), Option.bind_some, abs_of_pos h1] at h
  obtain ⟨v, hv, h⟩ := bind_some' h
  obtain ⟨rfl, -⟩ := i64_eq hv
  obtain ⟨hV, he, -⟩ := mk_eq h ⟨by omega, by omega⟩ ⟨by omega, by omega⟩
  exact ⟨hV, he⟩

/-- **C25, ordering.** The three-way comparison is that of the rational numbers. -/
theorem C25_cmp {f r : Frac} (hf : Valid f) (hr : Valid r) {o : Ordering} (h : cmp f r = some o) : o = compare (value f) (value r) := by
  unfold cmp at h
  obtain ⟨a, ha, h⟩ := bind_some' h
  obtain ⟨b, hb, h⟩ := bind_some' h
  obtain ⟨hva, ea⟩ := mkOrd_eq hf ha
  obtain ⟨hvb, eb⟩ := mkOrd_eq hr hb
  unfold cmpOrd at h
  obtain ⟨x, hx, h⟩ := bind_some' h
  obtain ⟨y, hy, h⟩ := Option.map_eq_some_iff.1 h
  obtain ⟨rfl, -⟩ := i64_eq hx
  obtain ⟨rfl, -⟩ := i64_eq hy
  obtain ⟨hlt, heq⟩ := cross hva.pos hvb.pos
  rw [← ea, ← eb, ← h]
  rcases lt_trichotomy (value a) (value b) with hc | hc | hc
  · rw [compare_lt_iff_lt.2 hc, compare_lt_iff_lt.2 (hlt.1 hc)]
  · rw [compare_eq_iff_eq.2 hc, compare_eq_iff_eq.2 (heq.1 hc)]
  · rw [compare_gt_iff_gt.2 hc, compare_gt_iff_gt.2]
    have h1 : ¬ value a < value b := not_lt.2 (le_of_lt hc)
    have h2 : ¬ value a = value b := ne_of_gt hc
    rw [hlt] at h1
    rw [heq] at h2
    omega

/-- Products of numbers below `2^31` are below `2^62`. -/
theorem mul_range {a b : Int} (ha : -2^31 < a ∧ a < 2^31) (hb : -2^31 < b ∧ b < 2^31) : -2^62 < a * b ∧ a * b < 2^62 := by
  constructor <;> nlinarith [ha.1, ha.2, hb.1, hb.2]

theorem div_range {a g q : Int} (hg : 0 < g) (h : q * g = a) (ha : -2^31 < a ∧ a < 2^31) : -2^31 < q ∧ q < 2^31 := by
  constructor
  · by_contra hle
    have h2 : q * g ≤ q * 1 := Int.mul_le_mul_of_nonpos_left (by omega) (by omega)
    omega
  · by_contra hle
    have h2 : q * 1 ≤ q * g := Int.mul_le_mul_of_nonneg_left (by omega) (by omega)
    omega

theorem gcd_small {a b : Int} (ha : -2^63 < a ∧ a < 2^63) (hb : 0 < b ∧ b < 2^63) :
    gcd a b = some (Int.gcd a b : Int) ∧ 0 < (Int.gcd a b : Int) ∧ (Int.gcd a b : Int) ≤ b := by
  have h1 : 0 < (Int.gcd a b : Int) := by exact_mod_cast Int.gcd_pos_of_ne_zero_right _ (by omega)
  have h2 : (Int.gcd a b : Int) ≤ b := Int.le_of_dvd hb.1 (Int.gcd_dvd_right ..)
  refine ⟨?_, h1, h2⟩
  unfold gcd
  rw [if_neg (by omega)]
  exact i64_some (by omega) (by omega)

theorem quot_small {a g : Int} (hg : 0 < g) (hd : g ∣ a) (ha : -2^63 < a ∧ a < 2^63) : ∃ q, quot a g = some q ∧ q * g = a := by
  have h := Int.tdiv_mul_cancel hd
  refine ⟨Int.tdiv a g, ?_, h⟩
  unfold quot
  rw [if_neg (by omega)]
  apply i64_some
  · have := quot_range hg h ha.1; omega
  · by_contra hle
    have h2 : Int.tdiv a g * 1 ≤ Int.tdiv a g * g := Int.mul_le_mul_of_nonneg_left (by omega) (by omega)
    omega

/-- **C25, no overflow.** On fractions whose parts are below `2^31` all operations are defined. -/
theorem C25_defined {f r : Frac} (hf : Small f) (hr : Small r) :
    (∃ c, add f r = some c) ∧ (∃ c, sub f r = some c) ∧ (∃ c, mul f r = some c) ∧ (r.u ≠ 0 → ∃ c, div f r = some c) ∧
    (∃ o, cmp f r = some o) ∧ (∃ b, beq f r = some b) := by
  have f1 := hf.pos; have f2 := hf.hiV; have f3 := hf.loU; have f4 := hf.hiU
  have hadd : ∀ r, Small r → ∃ c, add f r = some c := by
    intro r hr
    have r1 := hr.pos; have r2 := hr.hiV; have r3 := hr.loU; have r4 := hr.hiU
    obtain ⟨eg, hg, -⟩ := gcd_small (a := f.v) (b := r.v) ⟨by omega, by omega⟩ ⟨by omega, by omega⟩
    obtain ⟨q, eq, hq⟩ := quot_small hg (Int.gcd_dvd_right ..) (a := r.v) ⟨by omega, by omega⟩
    obtain ⟨w, ew, hw⟩ := quot_small hg (Int.gcd_dvd_left ..) (a := f.v) ⟨by omega, by omega⟩
    have q1 := div_range hg hq ⟨by omega, by omega⟩
    have w1 := div_range hg hw ⟨by omega, by omega⟩
    have m1 := mul_range (a := f.v) ⟨by omega, by omega⟩ q1
    have m2 := mul_range (a := f.u) ⟨by omega, by omega⟩ q1
    have m3 := mul_range (a := r.u) ⟨by omega, by omega⟩ w1
    unfold add
    rw [eg, Option.bind_some, eq, Option.bind_some, i64_some (by omega) (by omega), Option.bind_some,
      i64_some (by omega) (by omega), Option.bind_some, ew, Option.bind_some, i64_some (by omega) (by omega), Option.bind_some,
      i64_some (by omega) (by omega)]
    exact ⟨_, rfl⟩
  have hmul : ∀ r, Small r → ∃ c, mul f r = some c := by
    intro r hr
    have r1 := hr.pos; have r2 := hr.hiV; have r3 := hr.loU; have r4 := hr.hiU
    have m1 := mul_range (a := f.v) (b := r.v) ⟨by omega, by omega⟩ ⟨by omega, by omega⟩
    have m2 := mul_range (a := f.u) (b := r.u) ⟨by omega, by omega⟩ ⟨by omega, by omega⟩
    have m3 : 0 < f.v * r.v := Int.mul_pos f1 r1
    obtain ⟨eg, hg, -⟩ := gcd_small (a := f.u * r.u) (b := f.v * r.v) ⟨by omega, by omega⟩ ⟨by omega, by omega⟩
    obtain ⟨q, eq, -⟩ := quot_small hg (Int.gcd_dvd_left ..) (a := f.u * r.u) ⟨by omega, by omega⟩
    obtain ⟨w, ew, -⟩ := quot_small hg (Int.gcd_dvd_right ..) (a := f.v * r.v) ⟨by omega, by omega⟩
    unfold mul
    rw [i64_some (by omega) (by omega), Option.bind_some, i64_some (by omega) (by omega), Option.bind_some, eg, Option.bind_some,
      eq, Option.bind_some, ew]
    exact ⟨_, rfl⟩
  have r1 := hr.pos; have r2 := hr.hiV; have r3 := hr.loU; have r4 := hr.hiU
  refine ⟨hadd r hr, ?_, hmul r hr, ?_, ?_, ?_⟩
  · unfold sub neg
    rw [i64_some (by omega) (by omega), Option.bind_some]
    unfold mk
    rw [if_neg (by omega)]
    split
    · rw [Option.bind_some]
      exact hadd _ ⟨by simp, by simp, by dsimp only; omega, by dsimp only; omega⟩
    · rw [if_neg (by omega), Option.bind_some]
      exact hadd _ ⟨r1, r2, by dsimp only; omega, by dsimp only; omega⟩
  · intro hu
    unfold div inv
    rw [if_neg hu]
    unfold mk
    rw [if_neg hu, if_neg (by omega)]
    split
    · rw [i64_some (by omega) (by omega), Option.bind_some, i64_some (by omega) (by omega), Option.map_some, Option.bind_some]
      exact hmul _ ⟨by dsimp only; omega, by dsimp only; omega, by dsimp only; omega, by dsimp only; omega⟩
    · rw [Option.bind_some]
      exact hmul _ ⟨by dsimp only; omega, by dsimp only; omega, by dsimp only; omega, by dsimp only; omega⟩
  · have key : ∀ f, Small f → ∃ c, mkOrd f.u f.v = some c ∧ Small c := by
      intro f hf
      have f1 := hf.pos; have f2 := hf.hiV; have f3 := hf.loU; have f4 := hf.hiU
      unfold mkOrd
      rw [if_pos (by omega), Option.bind_some, abs_of_pos f1, i64_some (by omega) (by omega), Option.bind_some]
      unfold mk
      rw [if_neg (by omega)]
      split
      · exact ⟨_, rfl, by simp, by simp, by dsimp only; omega, by dsimp only; omega⟩
      · rw [if_neg (by omega)]
        exact ⟨_, rfl, f1, f2, f3, f4⟩
    obtain ⟨a, ea, ha⟩ := key f hf
    obtain ⟨b, eb, hb⟩ := key r hr
    have a1 := ha.pos; have a2 := ha.hiV; have a3 := ha.loU; have a4 := ha.hiU
    have b1 := hb.pos; have b2 := hb.hiV; have b3 := hb.loU; have b4 := hb.hiU
    have m1 := mul_range (a := a.u) (b := b.v) ⟨by omega, by omega⟩ ⟨by omega, by omega⟩
    have m2 := mul_range (a := a.v) (b := b.u) ⟨by omega, by omega⟩ ⟨by omega, by omega⟩
    unfold cmp cmpOrd
    rw [ea, Option.bind_some, eb, Option.bind_some, i64_some (by omega) (by omega), Option.bind_some, i64_some (by omega) (by omega)]
    exact ⟨_, rfl⟩
  · have m1 := mul_range (a := f.u) (b := r.v) ⟨by omega, by omega⟩ ⟨by omega, by omega⟩
    have m2 := mul_range (a := f.v) (b := r.u) ⟨by omega, by omega⟩ ⟨by omega, by omega⟩
    unfold beq
    rw [i64_some (by omega) (by omega), Option.bind_some, i64_some (by omega) (by omega)]
    exact ⟨_, rfl⟩

/-- **C25, normal form, part.** `reducted()` of a fraction whose gcd fits in an `int` is defined, keeps the value and has coprime parts and
a positive denominator.  Missing: gcds of `2^31` and more, where the claim fails (`C25_violated_ub`, `C25_violated_value`). -/
theorem C25_reduct_partial {f : Frac} (hu : -2^63 < f.u ∧ f.u < 2^63) (hv : 0 < f.v ∧ f.v < 2^63) (hg : Int.gcd f.u f.v < 2^31) :
    ∃ c, reducted f = some c ∧ 0 < c.v ∧ value c = value f ∧ Int.gcd c.u c.v = 1 := by
  obtain ⟨eg, hgpos, -⟩ := gcd_small hu hv
  have h32 : toInt32 (Int.gcd f.u f.v : Int) = (Int.gcd f.u f.v : Int) := by unfold toInt32; omega
  obtain ⟨a, ea, ha⟩ := quot_small hgpos (Int.gcd_dvd_left ..) (a := f.u) hu
  obtain ⟨b, eb, hb⟩ := quot_small hgpos (Int.gcd_dvd_right ..) (a := f.v) ⟨by omega, by omega⟩
  unfold reducted
  rw [eg, Option.bind_some, h32, ea, Option.bind_some, eb, Option.bind_some]
  have hbpos := pos_of_mul hgpos hb hv.1
  have hcop : Int.gcd a b = 1 := by
    have h0 : (Int.gcd f.u f.v : Int) = (Int.gcd (a * (Int.gcd f.u f.v : Int)) (b * (Int.gcd f.u f.v : Int)) : Int) := by rw [ha, hb]
    generalize (Int.gcd f.u f.v : Int) = g at h0 hgpos
    rw [Int.gcd_mul_right] at h0
    push_cast at h0
    rw [abs_of_pos hgpos] at h0
    have h2 : ((Int.gcd a b : Int) - 1) * g = 0 := by rw [Int.sub_mul, ← h0]; omega
    rcases Int.mul_eq_zero.1 h2 with h | h
    · omega
    · omega
  have hval := value_eq_of_scale (by omega) ha hb
  unfold mk
  rw [if_neg (by omega)]
  by_cases ha0 : a = 0
  · rw [if_pos ha0]
    refine ⟨_, rfl, by simp, ?_, by simp⟩
    unfold value
    rw [hval, ha0]; simp
  · rw [if_neg ha0, if_neg (by omega)]
    exact ⟨_, rfl, hbpos, hval.symm, hcop⟩

/-- **C25, mixed operations, part.** `f + x`, `f - x`, `f * x` with an integer: when the intermediate numbers do not overflow and the
denominator is below `2^31`, the result has the right value and is in lowest terms. -/
theorem C25_int_partial {f : Frac} (hf : 0 < f.v) (hv : f.v < 2^31) (x : Int) :
    (-2^63 ≤ x * f.v ∧ x * f.v < 2^63 → -2^63 < f.u + x * f.v ∧ f.u + x * f.v < 2^63 →
      ∃ c, addInt f x = some c ∧ 0 < c.v ∧ value c = value f + x ∧ Int.gcd c.u c.v = 1) ∧
    (-2^63 ≤ x * f.v ∧ x * f.v < 2^63 → -2^63 < f.u - x * f.v ∧ f.u - x * f.v < 2^63 →
      ∃ c, subInt f x = some c ∧ 0 < c.v ∧ value c = value f - x ∧ Int.gcd c.u c.v = 1) ∧
    (-2^63 < f.u * x ∧ f.u * x < 2^63 → ∃ c, mulInt f x = some c ∧ 0 < c.v ∧ value c = value f * x ∧ Int.gcd c.u c.v = 1) := by
  have hne : (f.v : ℚ) ≠ 0 := by exact_mod_cast (by omega : f.v ≠ 0)
  have hg : ∀ u : Int, Int.gcd u f.v < 2^31 := by
    intro u
    have h2 : (Int.gcd u f.v : Int) ≤ f.v := Int.le_of_dvd hf (Int.gcd_dvd_right ..)
    omega
  refine ⟨?_, ?_, ?_⟩
  · intro h1 h2
    obtain ⟨c, ec, hc, hval, hcop⟩ := C25_reduct_partial (f := ⟨f.u + x * f.v, f.v⟩) h2 ⟨hf, by dsimp only; omega⟩ (hg _)
    refine ⟨c, ?_, hc, ?_, hcop⟩
    · unfold addInt
      rw [i64_some h1.1 h1.2, Option.bind_some, i64_some (by omega) h2.2, Option.bind_some, ec]
    · rw [hval]; unfold value; push_cast; field_simp
  · intro h1 h2
    obtain ⟨c, ec, hc, hval, hcop⟩ := C25_reduct_partial (f := ⟨f.u - x * f.v, f.v⟩) h2 ⟨hf, by dsimp only; omega⟩ (hg _)
    refine ⟨c, ?_, hc, ?_, hcop⟩
    · unfold subInt
      rw [i64_some h1.1 h1.2, Option.bind_some, i64_some (by omega) h2.2, Option.bind_some, ec]
    · rw [hval]; unfold value; push_cast; field_simp
  · intro h2
    obtain ⟨c, ec, hc, hval, hcop⟩ := C25_reduct_partial (f := ⟨f.u * x, f.v⟩) h2 ⟨hf, by dsimp only; omega⟩ (hg _)
    refine ⟨c, ?_, hc, ?_, hcop⟩
    · unfold mulInt
      rw [i64_some (by omega) h2.2, Option.bind_some, ec]
    · rw [hval]; unfold value; push_cast; field_simp

/-- **C25 fails, undefined behaviour**: the gcd is narrowed to `int`, so reducing `2^32 / 2^32` divides by zero (fraction.hpp:26). -/
theorem C25_violated_ub : reducted ⟨2^32, 2^32⟩ = none := by decide +kernel

/-- **C25 fails, wrong value**: `(2^32+3) / (3*(2^32+3))`, which is `1/3`, is reduced to `1431655766 / 4294967299`. -/
theorem C25_violated_value : reducted ⟨2^32+3, 3*(2^32+3)⟩ = some ⟨1431655766, 4294967299⟩ ∧
    value ⟨1431655766, 4294967299⟩ ≠ value ⟨2^32+3, 3*(2^32+3)⟩ := by
  refine ⟨by decide +kernel, ?_⟩
  norm_num [value]

example : add ⟨1, 6⟩ ⟨-3, 4⟩ = some ⟨-7, 12⟩ := by decide +kernel
example : mul ⟨2, 3⟩ ⟨-9, 4⟩ = some ⟨-3, 2⟩ := by decide +kernel
example : div ⟨2, 3⟩ ⟨-4, 9⟩ = some ⟨-3, 2⟩ := by decide +kernel
example : cmp ⟨-1, 3⟩ ⟨-1, 2⟩ = some .gt := by decide +kernel
example : addInt ⟨1, 2⟩ 3 = some ⟨7, 2⟩ := by decide +kernel
example : Small ⟨-3, 4⟩ := ⟨by decide, by decide, by decide, by decide⟩

end Verif.Fraction
