/-! The most significant differing bit of two numbers. -/
namespace Verif

theorem div_xor (x y k : Nat) : (x ^^^ y) / 2^k = x / 2^k ^^^ y / 2^k := by
  simp only [← Nat.shiftRight_eq_div_pow, Nat.shiftRight_xor_distrib]

/-- With `p` the top set bit of `x xor y` and `x < y`: above bit `p` they agree, at bit `p` `x` has 0 and `y` has 1. -/
theorem xor_msb {x y p : Nat} (hlt : x < y) (h1 : 2^p ≤ x ^^^ y) (h2 : x ^^^ y < 2^(p+1)) :
    ∃ q, x / 2^p = 2*q ∧ y / 2^p = 2*q + 1 := by
  have e1 : x / 2^p ^^^ y / 2^p = 1 := by
    rw [← div_xor]
    rw [Nat.pow_succ] at h2
    apply Nat.div_eq_of_lt_le
    · omega
    · omega
  have hle : x / 2^p ≤ y / 2^p := Nat.div_le_div_right (Nat.le_of_lt hlt)
  generalize x / 2^p = u at *
  generalize y / 2^p = v at *
  have hd : u / 2 = v / 2 := by
    have := div_xor u v 1
    rw [e1] at this
    simp only [Nat.pow_one] at this
    have h3 : u / 2 ^^^ v / 2 = 0 := by rw [← this]
    calc u / 2 = u / 2 ^^^ (v / 2 ^^^ v / 2) := by rw [Nat.xor_self, Nat.xor_zero]
      _ = (u / 2 ^^^ v / 2) ^^^ v / 2 := by rw [Nat.xor_assoc]
      _ = v / 2 := by rw [h3, Nat.zero_xor]
  have hne : u ≠ v := by
    rintro rfl
    rw [Nat.xor_self] at e1
    exact absurd e1 (by decide)
  exact ⟨u/2, by omega, by omega⟩

end Verif
