import Verif.PrimRoot.Proofs
/-!
C113: `math::primitive_root<m>`.
-/
namespace Verif.PrimRoot
open Verif.Ntt

/-- C113.  For every prime `m` that fits in `int`, `primitive_root_constexpr(m)` is computed without overflow, without overrunning `divs` and without an endless loop, and
its result `g` is a primitive root: every residue `1 ≤ a < m` is a power `g^e mod m` for exactly one exponent `e < m-1`. -/
theorem C113_primitive_root {m : Nat} (hp : m.Prime) (hm : m < 2^31) :
    ∃ g : Nat, primRoot m = some (g : Int) ∧ 1 ≤ g ∧ g < m ∧ ∀ a, 1 ≤ a → a < m → ∃! e, e < m - 1 ∧ g^e % m = a := by
  obtain ⟨g, e, h1, h2, hr⟩ := primRoot_root hp hm
  refine ⟨g, e, h1, h2, fun a ha1 ha2 => ?_⟩
  haveI : Fact m.Prime := ⟨hp⟩
  have hm2 := hp.two_le
  have hinj : ∀ i j, i < m - 1 → j < m - 1 → g^i % m = g^j % m → i = j := by
    intro i j hi hj h
    have h' : (g : ZMod m)^i = (g : ZMod m)^j := by
      have := (ZMod.natCast_eq_natCast_iff' (g^i) (g^j) m).mpr h
      push_cast at this
      exact this
    exact pow_injOn_Iio_orderOf (by rw [hr.order]; exact hi) (by rw [hr.order]; exact hj) h'
  have hmem : ∀ i, g^i % m ∈ Finset.Ico 1 m := by
    intro i
    rw [Finset.mem_Ico]
    refine ⟨?_, Nat.mod_lt _ (by omega)⟩
    rw [Nat.one_le_iff_ne_zero]
    intro h
    have h3 : m ∣ g := hp.dvd_of_dvd_pow (Nat.dvd_of_mod_eq_zero h)
    have := Nat.le_of_dvd (by omega) h3
    omega
  have hsurj : Set.SurjOn (fun i => g^i % m) (Finset.range (m - 1) : Set Nat) (Finset.Ico 1 m : Set Nat) := by
    refine Finset.surjOn_of_injOn_of_card_le _ (fun i _ => hmem i) ?_ (by simp)
    intro i hi j hj h
    exact hinj i j (by simpa using hi) (by simpa using hj) h
  obtain ⟨i, hi, hia⟩ := hsurj (show a ∈ (Finset.Ico 1 m : Set Nat) by simp; omega)
  have hi' : i < m - 1 := by simpa using hi
  exact ⟨i, ⟨hi', hia⟩, fun j hj => hinj j i hj.1 hi' (by rw [hj.2]; exact hia.symm)⟩

/-- C113, in use: for every prime modulus below `2^31`, not only the tabulated ones, `convolution` with the computed root returns the product of the polynomials, as long as
the length of the product is within the power of two dividing `m-1`. -/
theorem C113_convolution {m k : Nat} (hp : m.Prime) (hm : m < 2^31) (hk : 2^k ∣ m - 1) (f h : List Nat) (hf : ∀ a ∈ f, a < m) (hh : ∀ a ∈ h, a < m) (hf0 : f ≠ []) (hh0 : h ≠ [])
    (hl : f.length + h.length - 1 ≤ 2^k) :
    ∃ g : Nat, primRoot m = some (g : Int) ∧ ∃ r, conv m g f h = some r ∧ IsProduct m f h r := by
  obtain ⟨g, e, _, _, hr⟩ := primRoot_root hp hm
  exact ⟨g, e, (C54_convolution hr hk f h hf hh).2 hf0 hh0 (Or.inr (by omega))⟩

/-- A prime that is not tabulated: the search finds 5 for 97 (and 3 for 31, whose predecessor has three prime factors). -/
example : Nat.Prime 97 ∧ primRoot 97 = some 5 ∧ divisors 31 = some [2, 3, 5] ∧ primRoot 31 = some 3 := by
  refine ⟨by decide, ?_, ?_, ?_⟩ <;> decide +kernel
example : primRoot 40961 = some 3 ∧ primRoot 65537 = some 3 ∧ 2^13 ∣ 40961 - 1 := by refine ⟨?_, ?_, ?_⟩ <;> decide +kernel

end Verif.PrimRoot
