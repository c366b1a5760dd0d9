import Verif.Modular.Model
import Mathlib.Data.ZMod.Basic
import Mathlib.FieldTheory.Finite.Basic
import Mathlib.Tactic.Ring
import Mathlib.Tactic.LinearCombination
/-!
# C20, C21, C23: modular arithmetic
-/
namespace Verif.Modular

/-! ### Operations on canonical values -/

theorem ofInt_eq {m : Nat} (hm : 0 < m) (v : Int) : (ofInt m v : Int) = v % (m : Int) := by
  unfold ofInt
  have h1 := Int.tmod_lt_of_pos v (b := (m : Int)) (by omega)
  have h2 := Int.lt_tmod_of_pos v (b := (m : Int)) (by omega)
  have h3 : Int.tmod v m % (m : Int) = v % (m : Int) := by
    conv_rhs => rw [← Int.mul_tdiv_add_tmod v (m : Int)]
    simp
  dsimp only
  split
  · rw [← h3, ← Int.add_emod_right, Int.emod_eq_of_lt (by omega) (by omega)]; omega
  · rw [← h3, Int.emod_eq_of_lt (by omega) (by omega)]; omega

theorem ofInt_lt {m : Nat} (hm : 0 < m) (v : Int) : ofInt m v < m := by
  have h := ofInt_eq hm v
  have := Int.emod_lt_of_pos v (b := (m : Int)) (by omega)
  omega

theorem fold_eq {m v : Nat} (h : v < 2 * m) : fold m v = v % m := by
  unfold fold
  split
  · rw [Nat.mod_eq_sub_mod (by omega), Nat.mod_eq_of_lt (by omega)]
  · rw [Nat.mod_eq_of_lt (by omega)]

theorem add_eq {m a b : Nat} (hm : m ≤ 2^31) (ha : a < m) (hb : b < m) : add m a b = (a + b) % m := by
  unfold add u32
  rw [Nat.mod_eq_of_lt (by omega), fold_eq (by omega)]

theorem neg_eq {m a : Nat} (hm : m ≤ 2^31) (ha : a < m) : neg m a = (m - a) % m := by
  unfold neg u32 ofNat
  rw [show (m + 2^32 - a) % 2^32 = m - a by omega]

theorem sub_eq {m a b : Nat} (hm : m ≤ 2^31) (ha : a < m) (hb : b < m) : sub m a b = (a + (m - b)) % m := by
  unfold sub u32
  rw [show (m + 2^32 - b) % 2^32 = m - b by omega, Nat.mod_eq_of_lt (by omega), fold_eq (by omega)]

theorem mul_eq {m a b : Nat} (hm : m ≤ 2^31) (ha : a < m) (hb : b < m) : mul m a b = some (a * b % m) := by
  have h : a * b ≤ (2^31 - 1) * (2^31 - 1) := Nat.mul_le_mul (by omega) (by omega)
  unfold mul i64
  rw [if_pos (by omega), Option.map_some]
  have hlt : (if m ≤ a * b then a * b % m else a * b) = a * b % m := by
    split
    · rfl
    · rw [Nat.mod_eq_of_lt (by omega)]
  rw [hlt]
  have := Nat.mod_lt (a*b) (show 0 < m by omega)
  unfold u32
  rw [Nat.mod_eq_of_lt (b := 2^32) (by omega)]

/-! The same facts in `ZMod m`. -/

section ring
variable {m : Nat}

theorem cast_inj {a b : Nat} (ha : a < m) (hb : b < m) (h : (a : ZMod m) = b) : a = b := by
  rw [ZMod.natCast_eq_natCast_iff'] at h
  rwa [Nat.mod_eq_of_lt ha, Nat.mod_eq_of_lt hb] at h

theorem add_lt (hm : m ≤ 2^31) {a b : Nat} (ha : a < m) (hb : b < m) : add m a b < m := by
  rw [add_eq hm ha hb]; exact Nat.mod_lt _ (by omega)
theorem add_cast (hm : m ≤ 2^31) {a b : Nat} (ha : a < m) (hb : b < m) : (add m a b : ZMod m) = a + b := by
  rw [add_eq hm ha hb, ZMod.natCast_mod, Nat.cast_add]
theorem neg_lt (hm : m ≤ 2^31) {a : Nat} (ha : a < m) : neg m a < m := by
  rw [neg_eq hm ha]; exact Nat.mod_lt _ (by omega)
theorem neg_cast (hm : m ≤ 2^31) {a : Nat} (ha : a < m) : (neg m a : ZMod m) = -a := by
  rw [neg_eq hm ha, ZMod.natCast_mod, Nat.cast_sub (by omega), ZMod.natCast_self, zero_sub]
theorem sub_lt (hm : m ≤ 2^31) {a b : Nat} (ha : a < m) (hb : b < m) : sub m a b < m := by
  rw [sub_eq hm ha hb]; exact Nat.mod_lt _ (by omega)
theorem sub_cast (hm : m ≤ 2^31) {a b : Nat} (ha : a < m) (hb : b < m) : (sub m a b : ZMod m) = a - b := by
  rw [sub_eq hm ha hb, ZMod.natCast_mod, Nat.cast_add, Nat.cast_sub (by omega), ZMod.natCast_self, zero_sub, sub_eq_add_neg]
theorem mul_cast (hm : m ≤ 2^31) {a b : Nat} (ha : a < m) (hb : b < m) :
    ∃ c, mul m a b = some c ∧ c < m ∧ (c : ZMod m) = a * b :=
  ⟨a * b % m, mul_eq hm ha hb, Nat.mod_lt _ (by omega), by rw [ZMod.natCast_mod, Nat.cast_mul]⟩
theorem ofInt_cast (hm : 0 < m) (v : Int) : (ofInt m v : ZMod m) = v := by
  have h := ofInt_eq hm v
  have : ((ofInt m v : Int) : ZMod m) = ((v % (m : Int) : Int) : ZMod m) := by rw [h]
  rw [ZMod.intCast_mod] at this
  simpa using this

theorem powLoop_cast (hm : m ≤ 2^31) : ∀ f p t u, p < 2^f → t < m → u < m →
    ∃ c, powLoop m (f+1) p t u = some c ∧ c < m ∧ (c : ZMod m) = t * u ^ p := by
  intro f
  induction f with
  | zero =>
    intro p t u hp ht hu
    have : p = 0 := by simpa using hp
    subst this
    exact ⟨t, rfl, ht, by simp⟩
  | succ f ih =>
    intro p t u hp ht hu
    rw [powLoop]
    by_cases h0 : p = 0
    · subst h0
      exact ⟨t, rfl, ht, by simp⟩
    · rw [if_neg h0]
      obtain ⟨u', eu, hu', cu⟩ := mul_cast hm hu hu
      by_cases hodd : p % 2 = 1
      · obtain ⟨t', et, ht', ct⟩ := mul_cast hm ht hu
        rw [if_pos hodd, et, Option.bind_some, eu, Option.bind_some]
        obtain ⟨c, ec, hc, hcc⟩ := ih (p/2) t' u' (by rw [Nat.pow_succ] at hp; omega) ht' hu'
        refine ⟨c, ec, hc, ?_⟩
        rw [hcc, ct, cu]
        conv_rhs => rw [show p = 2 * (p/2) + 1 by omega, pow_succ, pow_mul]
        ring
      · rw [if_neg hodd, Option.bind_some, eu, Option.bind_some]
        obtain ⟨c, ec, hc, hcc⟩ := ih (p/2) t u' (by rw [Nat.pow_succ] at hp; omega) ht hu'
        refine ⟨c, ec, hc, ?_⟩
        rw [hcc, cu]
        conv_rhs => rw [show p = 2 * (p/2) by omega, pow_mul]
        ring

theorem pow_cast (hm : m ≤ 2^31) {a p : Nat} (ha : a < m) (hp : p < 2^63) :
    ∃ c, pow m a p = some c ∧ c < m ∧ (c : ZMod m) = (a : ZMod m) ^ p := by
  obtain ⟨c, e, hc, h⟩ := powLoop_cast hm 63 p (ofInt m 1) a hp (ofInt_lt (by omega) 1) ha
  refine ⟨c, e, hc, ?_⟩
  rw [h, ofInt_cast (by omega)]
  simp

end ring

/-! ### C20 -/

/-- Expressions over modular integers. -/
inductive Expr where
  | lit (v : Int)
  | ulit (v : Nat)
  | add (a b : Expr)
  | sub (a b : Expr)
  | mul (a b : Expr)
  | neg (a : Expr)
  | pow (a : Expr) (p : Nat)

/-- What the program computes. -/
def Expr.run (m : Nat) : Expr → Option Nat
  | .lit v => some (ofInt m v)
  | .ulit v => some (ofNat m v)
  | .add a b => (a.run m).bind (fun x => (b.run m).map (fun y => Modular.add m x y))
  | .sub a b => (a.run m).bind (fun x => (b.run m).map (fun y => Modular.sub m x y))
  | .mul a b => (a.run m).bind (fun x => (b.run m).bind (fun y => Modular.mul m x y))
  | .neg a => (a.run m).map (fun x => Modular.neg m x)
  | .pow a p => (a.run m).bind (fun x => Modular.pow m x p)

/-- The same expression over the integers. -/
def Expr.int : Expr → Int
  | .lit v => v
  | .ulit v => v
  | .add a b => a.int + b.int
  | .sub a b => a.int - b.int
  | .mul a b => a.int * b.int
  | .neg a => - a.int
  | .pow a p => a.int ^ p

/-- All exponents fit in a non-negative `long long`. -/
def Expr.ok : Expr → Prop
  | .lit _ => True
  | .ulit _ => True
  | .add a b => a.ok ∧ b.ok
  | .sub a b => a.ok ∧ b.ok
  | .mul a b => a.ok ∧ b.ok
  | .neg a => a.ok
  | .pow a p => a.ok ∧ p < 2^63

theorem run_cast {m : Nat} (h0 : 0 < m) (hm : m ≤ 2^31) : ∀ e : Expr, e.ok →
    ∃ c, e.run m = some c ∧ c < m ∧ (c : ZMod m) = (e.int : ZMod m) := by
  intro e
  induction e with
  | lit v => intro _; exact ⟨_, rfl, ofInt_lt h0 v, ofInt_cast h0 v⟩
  | ulit v => intro _; exact ⟨_, rfl, Nat.mod_lt _ h0, by simp [ofNat, Expr.int]⟩
  | add a b iha ihb =>
    intro h
    obtain ⟨x, ex, hx, cx⟩ := iha h.1
    obtain ⟨y, ey, hy, cy⟩ := ihb h.2
    exact ⟨_, by simp only [Expr.run, ex, ey, Option.bind_some, Option.map_some], add_lt hm hx hy,
      by rw [add_cast hm hx hy, cx, cy]; simp [Expr.int]⟩
  | sub a b iha ihb =>
    intro h
    obtain ⟨x, ex, hx, cx⟩ := iha h.1
    obtain ⟨y, ey, hy, cy⟩ := ihb h.2
    exact ⟨_, by simp only [Expr.run, ex, ey, Option.bind_some, Option.map_some], sub_lt hm hx hy,
      by rw [sub_cast hm hx hy, cx, cy]; simp [Expr.int]⟩
  | mul a b iha ihb =>
    intro h
    obtain ⟨x, ex, hx, cx⟩ := iha h.1
    obtain ⟨y, ey, hy, cy⟩ := ihb h.2
    obtain ⟨z, ez, hz, cz⟩ := mul_cast hm hx hy
    exact ⟨z, by simp only [Expr.run, ex, ey, ez, Option.bind_some], hz, by rw [cz, cx, cy]; simp [Expr.int]⟩
  | neg a iha =>
    intro h
    obtain ⟨x, ex, hx, cx⟩ := iha h
    exact ⟨_, by simp only [Expr.run, ex, Option.map_some], neg_lt hm hx, by rw [neg_cast hm hx, cx]; simp [Expr.int]⟩
  | pow a p iha =>
    intro h
    obtain ⟨x, ex, hx, cx⟩ := iha h.1
    obtain ⟨z, ez, hz, cz⟩ := pow_cast hm hx h.2
    exact ⟨z, by simp only [Expr.run, ex, ez, Option.bind_some], hz, by rw [cz, cx]; simp [Expr.int]⟩

/-- **C20.** Every expression over `Modular<MOD>`, `1 ≤ MOD ≤ 2^31`, evaluates without overflow to the representative in
`[0, MOD)` of the value of the expression over the integers. -/
theorem C20_ring {m : Nat} (h0 : 0 < m) (hm : m ≤ 2^31) (e : Expr) (he : e.ok) :
    ∃ c : Nat, e.run m = some c ∧ (c : Int) = e.int % (m : Int) := by
  obtain ⟨c, ec, hc, h⟩ := run_cast h0 hm e he
  refine ⟨c, ec, ?_⟩
  have h' : ((c : Int) : ZMod m) = (e.int : ZMod m) := by simpa using h
  rw [ZMod.intCast_eq_intCast_iff'] at h'
  rw [← h', Int.emod_eq_of_lt (by omega) (by omega)]

example : (Expr.pow (.sub (.lit (-5)) (.ulit (10^18))) 1000).run 998244353 = some 901061702 := by decide +kernel

/-- `==` on canonical values is congruence of the integers. -/
theorem C20_eq {m : Nat} (h0 : 0 < m) (hm : m ≤ 2^31) (e e' : Expr) (he : e.ok) (he' : e'.ok) :
    e.run m = e'.run m ↔ (m : Int) ∣ e.int - e'.int := by
  obtain ⟨c, ec, hc⟩ := C20_ring h0 hm e he
  obtain ⟨d, ed, hd⟩ := C20_ring h0 hm e' he'
  rw [ec, ed, Option.some.injEq, Int.dvd_iff_emod_eq_zero, ← Int.emod_eq_emod_iff_emod_sub_eq_zero]
  constructor
  · intro h; omega
  · intro h; omega

/-- Beyond the stated range (`DynamicModular` accepts any `unsigned` modulus) the sum wraps around: with modulus `2^32-1`,
`(2^32-2) + (2^32-2)` yields `2^32-4` rather than `2^32-3`, and the product overflows `long long`. -/
theorem C20_range_needed : add (2^32-1) (2^32-2) (2^32-2) ≠ (2^32-2 + (2^32-2)) % (2^32-1) ∧ mul (2^32-1) (2^32-2) (2^32-2) = none := by
  decide +kernel

/-! ### C21 -/

theorem inv_spec {p : Nat} [hp : Fact p.Prime] (hm : p ≤ 2^31) {a : Nat} (ha : a < p) (ha0 : a ≠ 0) :
    ∃ c, inv p a = some c ∧ c < p ∧ (c : ZMod p) = (a : ZMod p)⁻¹ := by
  have h2 := hp.out.two_le
  have hne : (a : ZMod p) ≠ 0 := by
    intro h
    have : (a : ZMod p) = ((0 : Nat) : ZMod p) := by simpa using h
    exact ha0 (cast_inj ha (by omega) this)
  obtain ⟨c, e, hc, h⟩ := pow_cast hm (p := p - 2) ha (by omega)
  refine ⟨c, ?_, hc, ?_⟩
  · unfold inv u32
    rw [show (p + 2^32 - 2) % 2^32 = p - 2 by omega]
    exact e
  · rw [h]
    apply eq_inv_of_mul_eq_one_left
    rw [← pow_succ, show p - 2 + 1 = p - 1 by omega]
    exact ZMod.pow_card_sub_one_eq_one hne

/-- **C21, inverse.** For a prime modulus `inv()` of a non-zero element multiplies with it to 1. -/
theorem C21_inv {p : Nat} (hp : p.Prime) (hm : p ≤ 2^31) {a : Nat} (ha : a < p) (ha0 : a ≠ 0) :
    ∃ c, inv p a = some c ∧ c < p ∧ c * a % p = 1 := by
  haveI : Fact p.Prime := ⟨hp⟩
  obtain ⟨c, e, hc, h⟩ := inv_spec hm ha ha0
  refine ⟨c, e, hc, ?_⟩
  have hne : (a : ZMod p) ≠ 0 := by
    intro h
    have : (a : ZMod p) = ((0 : Nat) : ZMod p) := by simpa using h
    exact ha0 (cast_inj ha hp.pos this)
  have : ((c * a : Nat) : ZMod p) = ((1 : Nat) : ZMod p) := by
    rw [Nat.cast_mul, h, inv_mul_cancel₀ hne, Nat.cast_one]
  rw [ZMod.natCast_eq_natCast_iff', Nat.mod_eq_of_lt (a := 1) hp.one_lt] at this
  exact this

/-- **C21, division.** `(a / b) * b = a` for `b ≠ 0`. -/
theorem C21_div {p : Nat} (hp : p.Prime) (hm : p ≤ 2^31) {a b : Nat} (ha : a < p) (hb : b < p) (hb0 : b ≠ 0) :
    ∃ q, div p a b = some q ∧ mul p q b = some a := by
  haveI : Fact p.Prime := ⟨hp⟩
  obtain ⟨c, e, hc, h⟩ := inv_spec hm hb hb0
  obtain ⟨q, eq, hq, hqc⟩ := mul_cast hm ha hc
  obtain ⟨r, er, hr, hrc⟩ := mul_cast hm hq hb
  refine ⟨q, by simp [div, e, eq], ?_⟩
  have hne : (b : ZMod p) ≠ 0 := by
    intro h
    have : (b : ZMod p) = ((0 : Nat) : ZMod p) := by simpa using h
    exact hb0 (cast_inj hb hp.pos this)
  rw [er]
  refine congrArg some ?_
  apply cast_inj hr ha
  rw [hrc, hqc, h, mul_assoc, inv_mul_cancel₀ hne, mul_one]

/-- **C21, powers.** `pow` is repeated multiplication, for every modulus and every non-negative `long long` exponent. -/
theorem C21_pow {m : Nat} (hm : m ≤ 2^31) {a p : Nat} (ha : a < m) (hp : p < 2^63) : pow m a p = some (a ^ p % m) := by
  obtain ⟨c, e, hc, h⟩ := pow_cast hm ha hp
  rw [e]
  refine congrArg some ?_
  apply cast_inj hc (Nat.mod_lt _ (by omega))
  rw [h, ZMod.natCast_mod, Nat.cast_pow]

example : inv 998244353 2 = some 499122177 := by decide +kernel
example : div 7 3 5 = some 2 := by decide +kernel
example : inv 2 1 = some 1 := by decide +kernel

/-! ### C23 -/

/-- The table is right as far as it goes. -/
structure TableOk (p : Nat) (tb : List Nat) : Prop where
  len : 2 ≤ tb.length
  lt : ∀ (i x : Nat), tb[i]? = some x → x < p
  val : ∀ (i x : Nat), tb[i]? = some x → i < p → (x : ZMod p) = (i : ZMod p)⁻¹

theorem table0_ok {p : Nat} [hp : Fact p.Prime] : TableOk p (table0 p) := by
  have h2 := hp.out.two_le
  refine ⟨by simp [table0], ?_, ?_⟩
  · intro i x h
    match i, h with
    | 0, h => simp [table0] at h; rw [← h]; exact ofInt_lt (by omega) 0
    | 1, h => simp [table0] at h; rw [← h]; exact ofInt_lt (by omega) 1
    | i+2, h => simp [table0] at h
  · intro i x h _
    match i, h with
    | 0, h => simp [table0] at h; rw [← h, ofInt_cast (by omega)]; simp
    | 1, h => simp [table0] at h; rw [← h, ofInt_cast (by omega)]; simp
    | i+2, h => simp [table0] at h

theorem invEntry_ok {p : Nat} [hp : Fact p.Prime] (hm : p ≤ 2^31) {i : Nat} (hi : 2 ≤ i) (hip : i < p) {tb : List Nat}
    (hlt : i < tb.length)
    (h : ∀ j, j < i → ∃ x, tb[j]? = some x ∧ x < p ∧ (x : ZMod p) = (j : ZMod p)⁻¹) :
    ∃ tb', invEntry p i tb = some tb' ∧ tb'.length = tb.length ∧
      ∀ j, j < i + 1 → ∃ x, tb'[j]? = some x ∧ x < p ∧ (x : ZMod p) = (j : ZMod p)⁻¹ := by
  obtain ⟨x, ex, hx, cx⟩ := h (p % i) (Nat.mod_lt _ (by omega))
  obtain ⟨y, ey, hy, cy⟩ := mul_cast hm (neg_lt hm hx) (ofInt_lt (by omega) ((p / i : Nat) : Int))
  refine ⟨tb.set i y, by rw [invEntry, ex, Option.bind_some, ey, Option.bind_some, wr, if_pos hlt], by simp, ?_⟩
  intro j hj
  by_cases hji : j = i
  · subst hji
    refine ⟨y, by simp [hlt], hy, ?_⟩
    rw [cy, neg_cast hm hx, cx, ofInt_cast (by omega)]
    have hj0 : (j : ZMod p) ≠ 0 := by
      intro h
      have : (j : ZMod p) = ((0 : Nat) : ZMod p) := by simpa using h
      have := cast_inj hip (by omega) this
      omega
    have hmod : p % j ≠ 0 := by
      intro h0
      have hd := Nat.dvd_of_mod_eq_zero h0
      rcases (Nat.dvd_prime hp.out).1 hd with h | h <;> omega
    have hr0 : ((p % j : Nat) : ZMod p) ≠ 0 := by
      intro h
      have h' : ((p % j : Nat) : ZMod p) = ((0 : Nat) : ZMod p) := by simpa using h
      have hlt := Nat.mod_lt p (show 0 < j by omega)
      exact hmod (cast_inj (by omega) (by omega) h')
    have hkey : ((p % j : Nat) : ZMod p) + j * ((p / j : Nat) : ZMod p) = 0 := by
      rw [← Nat.cast_mul, ← Nat.cast_add, Nat.mod_add_div, ZMod.natCast_self]
    apply eq_inv_of_mul_eq_one_left
    rw [Int.cast_natCast]
    have : ((p / j : Nat) : ZMod p) * j = - ((p % j : Nat) : ZMod p) := by linear_combination hkey
    rw [mul_assoc, this, neg_mul_neg, inv_mul_cancel₀ hr0]
  · obtain ⟨z, ez, hz⟩ := h j (by omega)
    exact ⟨z, by rw [List.getElem?_set_ne (Ne.symm hji)]; exact ez, hz⟩

/-- Any sequence of requests; the answers in order. -/
def requests (m : Nat) : List Nat → List Nat → Option (List Nat)
  | [], _ => some []
  | i :: is, tb => (tableInv m i tb).bind (fun r => (requests m is r.2).map (fun vs => r.1 :: vs))

/-- All entries of the table are right. -/
def Full (p : Nat) (tb : List Nat) : Prop :=
  2 ≤ tb.length ∧ tb.length ≤ p ∧ ∀ j, j < tb.length → ∃ x, tb[j]? = some x ∧ x < p ∧ (x : ZMod p) = (j : ZMod p)⁻¹

theorem setInv_full {p : Nat} [hp : Fact p.Prime] (hm : p ≤ 2^31) {n : Nat} (hn : n < p) {tb : List Nat} (h : Full p tb) :
    ∃ tb', setInv p n tb = some tb' ∧ Full p tb' ∧ n < tb'.length := by
  obtain ⟨h1, h2, h3⟩ := h
  unfold setInv
  by_cases hlt : n < tb.length
  · rw [if_pos hlt]; exact ⟨tb, rfl, ⟨h1, h2, h3⟩, hlt⟩
  · rw [if_neg hlt]
    obtain ⟨tb', e, hl, hv⟩ := forRange_inv (a := tb.length) (b := n+1)
      (P := fun i t => t.length = n + 1 ∧ ∀ j, j < i → ∃ x, t[j]? = some x ∧ x < p ∧ (x : ZMod p) = (j : ZMod p)⁻¹)
      (body := invEntry p) (s := tb ++ List.replicate (n + 1 - tb.length) 0) (by omega)
      ⟨by simp; omega, fun j hj => by rw [List.getElem?_append_left hj]; exact h3 j hj⟩
      (by
        intro i s hi1 hi2 ⟨hl, hv⟩
        obtain ⟨s', e, hl', hv'⟩ := invEntry_ok hm (by omega) (by omega) (by omega) hv
        exact ⟨s', e, by omega, hv'⟩)
    exact ⟨tb', e, ⟨by omega, by omega, fun j hj => hv j (by omega)⟩, by omega⟩

/-- **C23.** For a prime modulus, whatever sequence of requests `1 ≤ i < p` is made of `ModularUtil::inv`, the k-th answer is the
inverse of the k-th request. -/
theorem C23_table {p : Nat} (hp : p.Prime) (hm : p ≤ 2^31) (is : List Nat) (his : ∀ i ∈ is, 1 ≤ i ∧ i < p) :
    ∃ vs, requests p is (table0 p) = some vs ∧ List.Forall₂ (fun i v => v < p ∧ v * i % p = 1) is vs := by
  haveI : Fact p.Prime := ⟨hp⟩
  have key : ∀ (is tb : List Nat), Full p tb → (∀ i ∈ is, 1 ≤ i ∧ i < p) →
      ∃ vs, requests p is tb = some vs ∧ List.Forall₂ (fun i v => v < p ∧ v * i % p = 1) is vs := by
    intro is
    induction is with
    | nil => intro tb _ _; exact ⟨[], rfl, .nil⟩
    | cons i is ih =>
      intro tb h his
      obtain ⟨hi1, hip⟩ := his i (by simp)
      obtain ⟨tb', e, hf, hlt⟩ := setInv_full hm hip h
      obtain ⟨x, ex, hx, cx⟩ := hf.2.2 i hlt
      obtain ⟨vs, ev, hvs⟩ := ih tb' hf (fun j hj => his j (by simp [hj]))
      refine ⟨x :: vs, by simp [requests, tableInv, e, ex, ev], .cons ⟨hx, ?_⟩ hvs⟩
      have hne : (i : ZMod p) ≠ 0 := by
        intro h
        have : (i : ZMod p) = ((0 : Nat) : ZMod p) := by simpa using h
        have := cast_inj hip hp.pos this
        omega
      have : ((x * i : Nat) : ZMod p) = ((1 : Nat) : ZMod p) := by
        rw [Nat.cast_mul, cx, inv_mul_cancel₀ hne, Nat.cast_one]
      rw [ZMod.natCast_eq_natCast_iff', Nat.mod_eq_of_lt (a := 1) hp.one_lt] at this
      exact this
  apply key is _ _ his
  refine ⟨by simp [table0], by simp [table0]; exact hp.two_le, ?_⟩
  intro j hj
  have h0 : TableOk p (table0 p) := table0_ok
  obtain ⟨x, ex⟩ : ∃ x, (table0 p)[j]? = some x := ⟨_, List.getElem?_eq_getElem hj⟩
  have hjp : j < p := Nat.lt_of_lt_of_le hj (by simp [table0]; exact hp.two_le)
  exact ⟨x, ex, h0.lt j x ex, h0.val j x ex hjp⟩

example : requests 13 [5, 2, 12, 7] (table0 13) = some [8, 7, 12, 2] := by decide +kernel

end Verif.Modular
