import Verif.Modular.Props
/-!
# C28: reconstruction from three residues

Model of the lambda `garner` of `convolution_garner`, `/repo/include/mtl/convolution.hpp:144-165`.  `none` is a `long long` or `int`
overflow.
-/
namespace Verif.Garner
open Verif.Modular

/-- convolution.hpp:144. -/
def p0 : Nat := 754974721
def p1 : Nat := 167772161
def p2 : Nat := 469762049

/-- A `long long` result. -/
def ll (x : Int) : Option Int := if -2^63 ≤ x ∧ x < 2^63 then some x else none

/-- An `int` result. -/
def int (x : Int) : Option Int := if -2^31 ≤ x ∧ x < 2^31 then some x else none

/-- convolution.hpp:157: `m0_inv_m1`. -/
def m0InvM1 : Option Nat := inv p1 (ofInt p1 p0)

/-- convolution.hpp:156: `m01`. -/
def m01 : Option Int := ll ((p0 : Int) * p1)

/-- convolution.hpp:158: `m01_inv_m2`. -/
def m01InvM2 : Option Nat := m01.bind (fun x => inv p2 (ofInt p2 x))

/-- convolution.hpp:162: the second digit, computed with the truncating `%`. -/
def digit1 (r0 r1 : Nat) : Option Int :=
  m0InvM1.bind (fun c => (ll (c * ((r1 : Int) + p1 - r0))).bind (fun x => int (x.tmod p1)))

/-- convolution.hpp:163: the third digit, in `Modular<469762049>`. -/
def digit2 (r0 r2 : Nat) (v1 : Int) : Option Nat :=
  (mul p2 (ofInt p2 p0) (ofInt p2 v1)).bind (fun y => m01InvM2.bind (fun c =>
    mul p2 (sub p2 (sub p2 (ofInt p2 r2) (ofInt p2 r0)) y) (ofInt p2 c)))

/-- convolution.hpp:164: the sum, reduced by the constructor of `mint` (`m01 % mod` truncates, both are positive). -/
def combine (mod r0 : Nat) (v1 : Int) (v2 : Nat) : Option Nat :=
  m01.bind (fun c => (ll ((p0 : Int) * v1)).bind (fun x => (ll (r0 + x)).bind (fun y => (ll (c.tmod mod * v2)).bind (fun z =>
    (ll (y + z)).map (fun s => ofInt mod s)))))

/-- convolution.hpp:160-165: `garner`. -/
def garner (mod r0 r1 r2 : Nat) : Option Nat :=
  (digit1 r0 r1).bind (fun v1 => (digit2 r0 r2 v1).bind (fun v2 => combine mod r0 v1 v2))

theorem m0InvM1_eq : m0InvM1 = some 95869806 := by decide +kernel
theorem m01_eq : m01 = some 126663740442542081 := by decide +kernel
theorem m01InvM2_eq : m01InvM2 = some 187290749 := by decide +kernel

/-- The first digit is the true one or that minus `p1`. -/
theorem digit1_spec (x : Nat) : ∃ (v1 t : Int), digit1 (x % p0) (x % p1) = some v1 ∧
    v1 = (x / 754974721 % 167772161 : Nat) - 167772161 * t ∧ (t = 0 ∨ t = 1) := by
  unfold digit1
  rw [m0InvM1_eq, Option.bind_some]
  simp only [p0, p1]
  rw [ll, if_pos (by omega), Option.bind_some]
  generalize hE : (95869806 : Nat) * (((x % 167772161 : Nat) : Int) + (167772161 : Nat) - (x % 754974721 : Nat)) = E
  have h1 := Int.tmod_lt_of_pos E (show (0 : Int) < (167772161 : Nat) by omega)
  have h2 := Int.lt_tmod_of_pos E (show (0 : Int) < (167772161 : Nat) by omega)
  have h3 := Int.mul_tdiv_add_tmod E (167772161 : Nat)
  generalize E.tmod (167772161 : Nat) = v at h1 h2 h3
  generalize E.tdiv (167772161 : Nat) = q at h3
  obtain ⟨t, ht⟩ : ∃ t : Int, v = (x / 754974721 % 167772161 : Nat) - 167772161 * t := by
    refine ⟨-((x / 754974721 / 167772161 : Nat) + 431414125 * (x / 754974721 : Nat) - 95869806 * (x / 167772161 : Nat) + 95869806 - q), ?_⟩
    omega
  refine ⟨v, t, ?_, ht, ?_⟩
  · rw [int, if_pos (by omega)]
  · omega

/-- The second digit makes the sum exact. -/
theorem digit2_spec (x : Nat) (v1 t : Int) (hx : x < 754974721 * 167772161 * (469762049 - 1)) (ht : t = 0 ∨ t = 1)
    (hv : v1 = (x / 754974721 % 167772161 : Nat) - 167772161 * t) :
    ∃ v2, digit2 (x % p0) (x % p2) v1 = some v2 ∧ v2 < 469762049 ∧ (x : Int) = (x % 754974721 : Nat) + 754974721 * v1 + 126663740442542081 * v2 := by
  have hlt := fun v => ofInt_lt (m := 469762049) (by omega) v
  have he := fun v => ofInt_eq (m := 469762049) (by omega) v
  unfold digit2
  simp only [p0, p2]
  rw [mul_eq (by omega) (hlt _) (hlt _), Option.bind_some, m01InvM2_eq, Option.bind_some]
  have e0 := he (754974721 : Nat)
  have e1 := he v1
  have e2 := he ((x % 469762049 : Nat) : Int)
  have e3 := he ((x % 754974721 : Nat) : Int)
  have e4 := he ((187290749 : Nat) : Int)
  have l1 := hlt v1
  have l2 := hlt ((x % 469762049 : Nat) : Int)
  have l3 := hlt ((x % 754974721 : Nat) : Int)
  generalize ofInt 469762049 ((x % 469762049 : Nat) : Int) = a2 at *
  generalize ofInt 469762049 ((x % 754974721 : Nat) : Int) = a0 at *
  have e0' : ofInt 469762049 ((754974721 : Nat) : Int) = 285212672 := by omega
  have e4' : ofInt 469762049 ((187290749 : Nat) : Int) = 187290749 := by omega
  rw [e0', e4']
  clear e0 e4 e0' e4'
  generalize ofInt 469762049 v1 = b1 at *
  have ly : 285212672 * b1 % 469762049 < 469762049 := Nat.mod_lt _ (by omega)
  rw [sub_eq (by omega) l2 l3, sub_eq (by omega) (Nat.mod_lt _ (by omega)) ly,
    mul_eq (by omega) (Nat.mod_lt _ (by omega)) (by omega)]
  refine ⟨_, rfl, Nat.mod_lt _ (by omega), ?_⟩
  generalize hv2 : ((a2 + (469762049 - a0)) % 469762049 + (469762049 - 285212672 * b1 % 469762049)) % 469762049 * 187290749 % 469762049 = v2
  have lv2 : v2 < 469762049 := by rw [← hv2]; exact Nat.mod_lt _ (by omega)
  -- `x = r0 + p0 d1 + p0 p1 D`
  have hD : x = x % 754974721 + 754974721 * (x / 754974721 % 167772161) + 126663740442542081 * (x / 126663740442542081) := by
    have h1 := Nat.div_add_mod x 754974721
    have h2 := Nat.div_add_mod (x / 754974721) 167772161
    have h3 : x / 754974721 / 167772161 = x / 126663740442542081 := by rw [Nat.div_div_eq_div_mul]
    omega
  have hDlt : x / 126663740442542081 < 469762048 := by omega
  generalize x / 126663740442542081 = D at *
  generalize x / 754974721 % 167772161 = d1 at *
  generalize hr0 : x % 754974721 = r0 at *
  -- `v2 = D + t` modulo `p2`
  have hmod : ∃ u : Int, (v2 : Int) = D + t + 469762049 * u := by
    obtain ⟨u1, hu1⟩ : ∃ u : Int, (a2 : Int) = x + 469762049 * u := ⟨-(x / 469762049 : Nat), by omega⟩
    obtain ⟨u2, hu2⟩ : ∃ u : Int, (a0 : Int) = r0 + 469762049 * u := ⟨-((r0 : Int) / 469762049), by omega⟩
    obtain ⟨u3, hu3⟩ : ∃ u : Int, (b1 : Int) = v1 + 469762049 * u := ⟨-(v1 / 469762049), by omega⟩
    have hz : ∃ u : Int, ((((a2 + (469762049 - a0)) % 469762049 + (469762049 - 285212672 * b1 % 469762049)) % 469762049 : Nat) : Int) =
        a2 - a0 - 285212672 * b1 + 469762049 * u := by
      refine ⟨1 - ((a2 + (469762049 - a0)) / 469762049 : Nat) + 1 + (285212672 * b1 / 469762049 : Nat)
        - (((a2 + (469762049 - a0)) % 469762049 + (469762049 - 285212672 * b1 % 469762049)) / 469762049 : Nat), ?_⟩
      omega
    obtain ⟨u4, hu4⟩ := hz
    generalize ((a2 + (469762049 - a0)) % 469762049 + (469762049 - 285212672 * b1 % 469762049)) % 469762049 = z at *
    obtain ⟨u5, hu5⟩ : ∃ u : Int, (v2 : Int) = z * 187290749 + 469762049 * u := ⟨-(z * 187290749 / 469762049 : Nat), by omega⟩
    clear hv2 hx e1 e2 e3 l1 l2 l3 ly lv2 hr0 hDlt
    have hX : (x : Int) - r0 - 754974721 * v1 = 126663740442542081 * (D + t) := by omega
    have hz2 : (z : Int) = 126663740442542081 * (D + t) + 469762049 * (v1 + u1 - u2 - 285212672 * u3 + u4) := by omega
    refine ⟨187290749 * (v1 + u1 - u2 - 285212672 * u3 + u4) + u5 + 50499921969271932 * (D + t), ?_⟩
    omega
  obtain ⟨u, hu⟩ := hmod
  omega

/-- **C28.** From the residues of `x` modulo the three primes, `x` modulo the target is obtained, without overflow. -/
theorem C28_garner (x mod : Nat) (hx : x < p0 * p1 * (p2 - 1)) (hm0 : 0 < mod) (hm : mod < 2^31) :
    garner mod (x % p0) (x % p1) (x % p2) = some (x % mod) := by
  obtain ⟨v1, t, e1, h1, ht⟩ := digit1_spec x
  obtain ⟨v2, e2, h2, h3⟩ := digit2_spec x v1 t hx ht h1
  unfold garner
  rw [e1, Option.bind_some, e2, Option.bind_some, combine, m01_eq, Option.bind_some]
  simp only [p0, p1] at *
  rw [ll, if_pos (by omega), Option.bind_some, ll, if_pos (by omega), Option.bind_some]
  have hc : (126663740442542081 : Int).tmod mod = ((126663740442542081 % mod : Nat) : Int) := by
    rw [Int.tmod_eq_emod_of_nonneg (by omega)]; rfl
  have hcl : 126663740442542081 % mod < mod := Nat.mod_lt _ hm0
  have hcd := Nat.div_add_mod 126663740442542081 mod
  rw [hc]
  generalize 126663740442542081 % mod = c at *
  generalize 126663740442542081 / mod = k at *
  have hcv : (c * v2 : Nat) ≤ 2^31 * 469762049 := Nat.mul_le_mul (by omega) (by omega)
  have hcv' : ((c : Int) * v2) = ((c * v2 : Nat) : Int) := by push_cast; rfl
  rw [hcv', ll, if_pos (by omega), Option.bind_some, ll, if_pos (by omega), Option.map_some]
  refine congrArg some ?_
  have := ofInt_eq hm0 (((x % 754974721 : Nat) : Int) + (754974721 : Nat) * v1 + ((c * v2 : Nat) : Int))
  apply Int.natCast_inj.1
  rw [this]
  push_cast
  have hx2 : ((x % 754974721 : Nat) : Int) + 754974721 * v1 + c * v2 = x + mod * (-(k * v2)) := by
    rw [h3]
    have : (126663740442542081 : Int) = mod * k + c := by exact_mod_cast hcd.symm
    rw [this]
    ring
  push_cast at hx2
  rw [hx2, Int.add_mul_emod_self_left]

/-- The bound is sharp: just above it a negative digit combines with a third digit that wraps to 0. -/
theorem C28_bound_sharp : ∃ x, p0 * p1 * (p2 - 1) ≤ x ∧ x < p0 * p1 * p2 ∧ garner 1000000007 (x % p0) (x % p1) (x % p2) ≠ some (x % 1000000007) := by
  refine ⟨p0 * p1 * (p2 - 1) + 1100000077, by decide, by decide, by decide +kernel⟩

/-- A sum of at most `2^23` products of reduced values (the longest convolution `convolution_ntt` supports) is below the bound. -/
theorem C28_bound_enough (n mod : Nat) (f g : Nat → Nat) (hm : mod < 2^31) (hn : n ≤ 2^23) (hf : ∀ i, f i < mod) (hg : ∀ i, g i < mod) :
    ((List.range n).map (fun i => f i * g i)).sum < p0 * p1 * (p2 - 1) := by
  have h : ∀ n : Nat, ((List.range n).map (fun i => f i * g i)).sum ≤ n * 2^62 := by
    intro n
    induction n with
    | zero => simp
    | succ n ih =>
      rw [List.range_succ, List.map_append, List.sum_append, List.map_singleton, List.sum_singleton]
      have h1 := hf n
      have h2 := hg n
      have h3 : f n * g n ≤ 2^31 * 2^31 := Nat.mul_le_mul (by omega) (by omega)
      omega
  have := h n
  have hp : p0 * p1 * (p2 - 1) = 59501818117628994296741888 := by decide
  rw [hp]
  omega

/-- Both kinds of first digit occur. -/
example : digit1 0 1 = some 95869806 ∧ digit1 754974720 5 = some (-95869809) := by decide +kernel
example : garner 1000000007 (10^25 % p0) (10^25 % p1) (10^25 % p2) = some (10^25 % 1000000007) := by decide +kernel

end Verif.Garner
