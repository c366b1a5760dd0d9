import Verif.Fft.Reverse
import Mathlib.Algebra.BigOperators.Intervals
import Mathlib.Algebra.BigOperators.Ring.Finset
import Mathlib.Tactic.Ring
/-!
The butterflies compute the discrete Fourier transform.
-/
namespace Verif.Fft
open Finset

variable {T : Type}

/-- What one stage does. -/
def stageF [CommRing T] (w : Nat → T) (m : Nat) (g : Nat → T) (x : Nat) : T :=
  if x % (2 * m) < m then g x + g (x + m) * w (x % (2 * m)) else g (x - m) - g x * w (x % (2 * m) - m)

theorem mod_lo {m c i : Nat} (hi : i < 2 * m) : (2 * m * c + i) % (2 * m) = i := by
  rw [Nat.mul_add_mod, Nat.mod_eq_of_lt hi]

theorem butterflies_ok [CommRing T] (w : Nat → T) {n m c : Nat} {f : List T} {g : Nat → T} (R : Rep f n g) (hc : 2 * m * c + 2 * m ≤ n) :
    ∃ f', forRange 0 m (butterfly w m (2 * m * c)) f = some f' ∧
      Rep f' n (fun x => if 2 * m * c ≤ x ∧ x < 2 * m * c + 2 * m then stageF w m g x else g x) := by
  obtain ⟨f', e, R'⟩ := forRange_inv (body := butterfly w m (2 * m * c)) (s := f)
    (fun i f => Rep f n (fun x => if (2 * m * c ≤ x ∧ x < 2 * m * c + i) ∨ (2 * m * c + m ≤ x ∧ x < 2 * m * c + m + i) then stageF w m g x else g x)) (Nat.zero_le m)
    (R.congr (fun x _ => by rw [if_neg (by omega)]))
    (fun i f _ hi R => by
      unfold butterfly
      rw [Nat.add_zero, R.val _ (by omega), Option.bind_some, R.val _ (by omega), Option.bind_some, if_neg (by omega), if_neg (by omega)]
      obtain ⟨f1, e1, R1⟩ := R.wr (i := 2 * m * c + i) (by omega) (g (2 * m * c + i) + g (2 * m * c + i + m) * w i)
      obtain ⟨f2, e2, R2⟩ := R1.wr (i := 2 * m * c + i + m) (by omega) (g (2 * m * c + i) - g (2 * m * c + i + m) * w i)
      refine ⟨f2, by rw [e1, Option.bind_some, e2], R2.congr (fun x hx => ?_)⟩
      by_cases h1 : x = 2 * m * c + i + m
      · subst h1
        rw [upd_same, if_pos (by omega)]
        have h2 : (2 * m * c + i + m) % (2 * m) = i + m := by rw [Nat.add_assoc]; exact mod_lo (by omega)
        unfold stageF
        rw [h2, if_neg (by omega), Nat.add_sub_cancel, Nat.add_sub_cancel]
      · rw [upd_ne _ _ h1]
        by_cases h2 : x = 2 * m * c + i
        · subst h2
          rw [upd_same, if_pos (by omega)]
          unfold stageF
          rw [mod_lo (by omega), if_pos hi]
        · rw [upd_ne _ _ h2]
          by_cases h3 : (2 * m * c ≤ x ∧ x < 2 * m * c + i) ∨ (2 * m * c + m ≤ x ∧ x < 2 * m * c + m + i)
          · rw [if_pos h3, if_pos (by omega)]
          · rw [if_neg h3, if_neg (by omega)])
  refine ⟨f', e, R'.congr (fun x _ => ?_)⟩
  by_cases h : 2 * m * c ≤ x ∧ x < 2 * m * c + 2 * m
  · rw [if_pos h, if_pos (by omega)]
  · rw [if_neg h, if_neg (by omega)]

theorem chunks_ok [CommRing T] (w : Nat → T) {m C : Nat} (hm : 0 < m) (g : Nat → T) : ∀ r c f, C ≤ c + r → c ≤ C →
    Rep f (2 * m * C) (fun x => if x < 2 * m * c then stageF w m g x else g x) →
    ∃ f', chunks w (2 * m * C) m (r+1) (2 * m * c) f = some f' ∧ Rep f' (2 * m * C) (stageF w m g)
  | r, c, f, h1, h2, R => by
      rw [chunks]
      by_cases hc : c = C
      · subst hc
        rw [if_neg (Nat.lt_irrefl _)]
        exact ⟨f, rfl, R.congr (fun x hx => if_pos hx)⟩
      · have hlt : 2 * m * c + 2 * m ≤ 2 * m * C := by
          have := Nat.mul_le_mul_left (2 * m) (by omega : c + 1 ≤ C)
          rwa [Nat.mul_succ] at this
        rw [if_pos (by omega)]
        obtain ⟨f1, e1, R1⟩ := butterflies_ok w R hlt
        rw [e1, Option.bind_some]
        obtain ⟨r', rfl⟩ : ∃ r', r = r' + 1 := ⟨r - 1, by omega⟩
        have hs : 2 * m * c + 2 * m = 2 * m * (c + 1) := (Nat.mul_succ _ _).symm
        obtain ⟨f2, e2, R2⟩ := chunks_ok w hm g r' (c+1) f1 (by omega) (by omega) (R1.congr (fun x hx => by
          rw [← hs]
          by_cases h3 : x < 2 * m * c
          · rw [if_neg (by omega), if_pos h3, if_pos (by omega)]
          · by_cases h4 : x < 2 * m * c + 2 * m
            · rw [if_pos ⟨by omega, h4⟩, if_pos h4]
              have hd : x = 2 * m * c + (x - 2 * m * c) := by omega
              have hmod : x % (2 * m) = x - 2 * m * c := by
                conv => lhs; rw [hd]
                exact mod_lo (by omega)
              unfold stageF
              rw [hmod]
              by_cases h5 : x - 2 * m * c < m
              · rw [if_pos h5, if_pos h5]
                dsimp only
                rw [if_neg h3, if_neg (by omega)]
              · rw [if_neg h5, if_neg h5]
                dsimp only
                rw [if_neg h3, if_neg (by omega)]
            · rw [if_neg (by omega), if_neg h3, if_neg h4]))
        rw [← hs] at e2
        exact ⟨f2, e2, R2⟩

/-! ### The transform -/

/-- Roots of unity: `z s` has order `2^s`, `tw m i` is the number of line 56. -/
structure Twiddles [CommRing T] (tw : Nat → Nat → T) (z : Nat → T) : Prop where
  tw : ∀ s i, tw (2^s) i = z (s+1) ^ i
  neg : z 1 = -1
  sq : ∀ s, z (s+1) ^ 2 = z s

/-- The discrete Fourier transform of size `n`, for the root of unity `ω`. -/
def dft [CommRing T] (ω : T) (n : Nat) (g : Nat → T) (k : Nat) : T := ∑ t ∈ range n, g t * ω ^ (k * t)

theorem Twiddles.half [CommRing T] {tw : Nat → Nat → T} {z : Nat → T} (H : Twiddles tw z) : ∀ s, z (s+1) ^ (2^s) = -1
  | 0 => by rw [Nat.pow_zero, pow_one, H.neg]
  | s+1 => by rw [Nat.pow_succ, Nat.mul_comm, pow_mul, H.sq, H.half s]

theorem Twiddles.full [CommRing T] {tw : Nat → Nat → T} {z : Nat → T} (H : Twiddles tw z) : ∀ s, z s ^ (2^s) = 1
  | 0 => by rw [Nat.pow_zero, pow_one, ← H.sq 0, H.neg]; ring
  | s+1 => by rw [Nat.pow_succ, pow_mul, H.half s]; ring

theorem sum_even_odd [CommRing T] (h : Nat → T) : ∀ M, ∑ t ∈ range (2 * M), h t = ∑ t ∈ range M, h (2 * t) + ∑ t ∈ range M, h (2 * t + 1)
  | 0 => by simp
  | M+1 => by
      rw [Nat.mul_succ, sum_range_succ, sum_range_succ, sum_even_odd h M, sum_range_succ, sum_range_succ]
      ring

theorem dft_split [CommRing T] (ω : T) (M : Nat) (g : Nat → T) (k : Nat) :
    dft ω (2 * M) g k = dft (ω^2) M (fun t => g (2 * t)) k + ω ^ k * dft (ω^2) M (fun t => g (2 * t + 1)) k := by
  unfold dft
  rw [sum_even_odd, mul_sum]
  congr 1
  · refine sum_congr rfl (fun t _ => ?_)
    rw [← pow_mul]
    congr 2
    ring
  · refine sum_congr rfl (fun t _ => ?_)
    rw [← pow_mul]
    have : ω ^ (k * (2 * t + 1)) = ω ^ k * ω ^ (2 * (k * t)) := by rw [← pow_add]; congr 1; ring
    rw [this]
    ring

theorem dft_period [CommRing T] {ω : T} {n : Nat} (h : ω ^ n = 1) (g : Nat → T) (k : Nat) : dft ω n g (k + n) = dft ω n g k := by
  unfold dft
  refine sum_congr rfl (fun t _ => ?_)
  rw [Nat.add_mul, pow_add, pow_mul ω n, h, one_pow, mul_one]

/-- The vector after the stages up to block size `2^s`. -/
def block [CommRing T] (z : Nat → T) (L s : Nat) (a : Nat → T) (x : Nat) : T :=
  dft (z s) (2^s) (fun t => a (rev (L - s) (x / 2^s) + t * 2^(L - s))) (x % 2^s)

theorem block_step [CommRing T] {tw : Nat → Nat → T} {z : Nat → T} (H : Twiddles tw z) {L s : Nat} (hs : s < L) (a : Nat → T) (x : Nat) :
    stageF (tw (2^s)) (2^s) (block z L s a) x = block z L (s+1) a x := by
  have hM : 0 < 2^s := Nat.pow_pos (by omega)
  obtain ⟨D, hD⟩ : ∃ D, L - s = D + 1 := ⟨L - s - 1, by omega⟩
  have hD' : L - (s+1) = D := by omega
  have hp : 2^(s+1) = 2 * 2^s := by rw [Nat.pow_succ, Nat.mul_comm]
  have hsq : z (s+1) ^ 2 = z s := H.sq s
  have hfull := H.full s
  have hhalf := H.half s
  unfold stageF block
  rw [hD, hD', hp]
  generalize hM' : 2^s = M at *
  -- split `x` into the block and the position
  obtain ⟨c, y, hy, rfl⟩ : ∃ c y, y < 2 * M ∧ x = 2 * M * c + y := ⟨x / (2 * M), x % (2 * M), Nat.mod_lt _ (by omega), (Nat.div_add_mod _ _).symm⟩
  have htw : ∀ i, tw M i = z (s+1) ^ i := fun i => by rw [← hM', H.tw]
  have hdiv : (2 * M * c + y) / (2 * M) = c := by rw [Nat.mul_add_div (by omega), Nat.div_eq_of_lt hy, Nat.add_zero]
  -- the two halves of the block
  have key : ∀ i, i < M → ∀ b, b < 2 → dft (z s) M (fun t => a (rev (D+1) ((2 * M * c + (b * M + i)) / M) + t * 2^(D+1))) ((2 * M * c + (b * M + i)) % M) =
      dft (z s) M (fun t => a (rev D c + (2 * t + b) * 2^D)) i := by
    intro i hi b hb
    have e1 : 2 * M * c + (b * M + i) = M * (2 * c + b) + i := by ring
    rw [e1, Nat.mul_add_mod, Nat.mod_eq_of_lt hi, Nat.mul_add_div hM, Nat.div_eq_of_lt hi, Nat.add_zero]
    congr 1
    funext t
    have e2 : (2 * c + b) % 2 = b := by omega
    have e3 : (2 * c + b) / 2 = c := by omega
    have e4 : 2 * c + b + 0 = 2 * c + b := rfl
    rw [rev, e4, e2, e3]
    congr 1
    rw [Nat.pow_succ]
    ring
  rw [mod_lo hy, hdiv, dft_split, hsq]
  by_cases h : y < M
  · have k0 := key y h 0 (by omega)
    have k1 := key y h 1 (by omega)
    rw [Nat.zero_mul, Nat.zero_add] at k0
    rw [Nat.one_mul] at k1
    rw [if_pos h, htw, show 2 * M * c + y + M = 2 * M * c + (M + y) from by omega, k0, k1, mul_comm]
    simp only [Nat.add_zero]
  · obtain ⟨i, rfl⟩ : ∃ i, y = M + i := ⟨y - M, by omega⟩
    have k0 := key i (by omega) 0 (by omega)
    have k1 := key i (by omega) 1 (by omega)
    rw [Nat.zero_mul, Nat.zero_add] at k0
    rw [Nat.one_mul] at k1
    have p0 := dft_period hfull (fun t => a (rev D c + 2 * t * 2^D)) i
    have p1 := dft_period hfull (fun t => a (rev D c + (2 * t + 1) * 2^D)) i
    rw [if_neg h, htw, show 2 * M * c + (M + i) - M = 2 * M * c + i from by omega, Nat.add_sub_cancel_left, k0, k1, Nat.add_comm M i, p0, p1, pow_add, hhalf]
    simp only [Nat.add_zero]
    ring

theorem stages_ok [CommRing T] {tw : Nat → Nat → T} {z : Nat → T} (H : Twiddles tw z) {L : Nat} (a : Nat → T) : ∀ r s f, L ≤ s + r → s ≤ L → Rep f (2^L) (block z L s a) →
    ∃ f', stages tw (2^L) (r+1) (2^s) f = some f' ∧ Rep f' (2^L) (block z L L a)
  | r, s, f, h1, h2, R => by
      rw [stages]
      by_cases hs : s = L
      · subst hs
        rw [if_neg (Nat.lt_irrefl _)]
        exact ⟨f, rfl, R⟩
      · have hlt : 2^s < 2^L := Nat.pow_lt_pow_right (by omega) (by omega)
        rw [if_pos hlt]
        have hn : 2^L = 2 * 2^s * 2^(L - s - 1) := by
          rw [← Nat.pow_succ', ← Nat.pow_add]
          congr 1
          omega
        have hC : 2^(L - s - 1) ≤ 2^L := Nat.pow_le_pow_right (by omega) (by omega)
        have hpos : 0 < 2^s := Nat.pow_pos (by omega)
        obtain ⟨f1, e1, R1⟩ := chunks_ok (tw (2^s)) (C := 2^(L - s - 1)) hpos (block z L s a) (2^L) 0 f (by omega) (Nat.zero_le _) (by
          rw [← hn]
          exact R.congr (fun x _ => by rw [Nat.mul_zero, if_neg (by omega)]))
        rw [Nat.mul_zero, ← hn] at e1
        rw [← hn] at R1
        rw [e1, Option.bind_some]
        obtain ⟨r', rfl⟩ : ∃ r', r = r' + 1 := ⟨r - 1, by omega⟩
        have := stages_ok H a r' (s+1) f1 (by omega) (by omega) (R1.congr (fun x _ => block_step H (by omega) a x))
        rwa [Nat.pow_succ] at this

/-- The transform of a vector of the size of the object. -/
theorem impl_ok [CommRing T] {tw : Nat → Nat → T} {z : Nat → T} (H : Twiddles tw z) {L : Nat} {f : List T} {a : Nat → T} (R : Rep f (2^L) a) :
    ∃ f', impl tw (2^L) f = some f' ∧ Rep f' (2^L) (dft (z L) (2^L) a) := by
  unfold impl
  obtain ⟨f1, e1, R1⟩ := reverse_ok R
  obtain ⟨f2, e2, R2⟩ := stages_ok H (L := L) a (2^L) 0 f1 (by have := lt_self_pow L; omega) (Nat.zero_le _) (R1.congr (fun x hx => by
    unfold block dft
    rw [Nat.pow_zero, sum_range_one, Nat.div_one, Nat.mod_one, Nat.zero_mul, pow_zero, mul_one]
    dsimp only
    rw [Nat.zero_mul, Nat.add_zero, Nat.sub_zero]))
  refine ⟨f2, by rw [e1, Option.bind_some]; exact e2, R2.congr (fun x hx => ?_)⟩
  unfold block
  rw [Nat.sub_self, Nat.mod_eq_of_lt hx]
  congr 1
  funext t
  rw [rev, Nat.zero_add, Nat.pow_zero, Nat.mul_one]

end Verif.Fft
