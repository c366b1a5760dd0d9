/-!
C18: `bisect_int`, `/repo/include/mtl/search.hpp:11-22`.

Integers are mathematical; `lim` is the largest value of the integer type, and `std::abs(ng - ok)` is `none`
(undefined behaviour) when the difference does not fit.  The predicate is a partial function: `none` means that
calling it there is not allowed.  The unbounded loop gets a step budget; the theorem states that the budget
`|ng - ok|` always suffices and that a larger one does not change the result.
-/
namespace Verif.Bisect

/-- search.hpp:13-22. `/` on signed integers truncates towards zero. -/
def bisectInt (lim : Nat) (f : Int → Option Bool) : Nat → Int → Int → Option Int
  | fuel, ok, ng =>
    if (ng - ok).natAbs > lim then none
    else if (ng - ok).natAbs > 1 then
      match fuel with
      | 0 => none
      | fuel+1 => do
        let c := ok + (ng - ok).tdiv 2
        let b ← f c
        if b then bisectInt lim f fuel c ng else bisectInt lim f fuel ok c
    else some ok

/-- Strictly between two integers, in either order. -/
def Between (a b x : Int) : Prop := (a < x ∧ x < b) ∨ (b < x ∧ x < a)

theorem mid {ok ng : Int} (h : (ng - ok).natAbs > 1) :
    Between ok ng (ok + (ng - ok).tdiv 2) ∧ (ng - (ok + (ng - ok).tdiv 2)).natAbs < (ng - ok).natAbs ∧
      (ok + (ng - ok).tdiv 2 - ok).natAbs < (ng - ok).natAbs := by
  have hq := Int.tdiv_mul_add_tmod (ng - ok) 2
  have h1 : (ng - ok).tmod 2 < 2 := Int.tmod_lt_of_pos _ (by omega)
  have h2 : -2 < (ng - ok).tmod 2 := by
    have := Int.tmod_lt_of_pos (-(ng - ok)) (show (0 : Int) < 2 by omega)
    rw [Int.neg_tmod] at this
    omega
  generalize (ng - ok).tdiv 2 = q at *
  generalize (ng - ok).tmod 2 = r at *
  refine ⟨?_, ?_, ?_⟩
  · unfold Between; omega
  · omega
  · omega

/-- C18: for `ok ≠ ng` whose difference fits the type and a predicate defined strictly between them, the loop ends
within `|ng - ok|` rounds and returns `x`, which is `ok` or a point strictly between where `f` holds, such that the
neighbour of `x` towards `ng` is `ng` itself or a point strictly between where `f` fails.  No monotonicity is needed. -/
theorem C18_bisect_int (lim : Nat) (f : Int → Option Bool) (ok ng : Int) (hne : ok ≠ ng) (hlim : (ng - ok).natAbs ≤ lim)
    (hdef : ∀ x, Between ok ng x → f x ≠ none) :
    ∃ x, (∀ fuel, (ng - ok).natAbs ≤ fuel → bisectInt lim f fuel ok ng = some x) ∧
      (x = ok ∨ (Between ok ng x ∧ f x = some true)) ∧
      (x + (ng - ok).sign = ng ∨ (Between ok ng (x + (ng - ok).sign) ∧ f (x + (ng - ok).sign) = some false)) := by
  generalize hn : (ng - ok).natAbs = n
  induction n using Nat.strongRecOn generalizing ok ng with
  | _ n ih =>
    by_cases h1 : (ng - ok).natAbs > 1
    · obtain ⟨hb, d1, d2⟩ := mid h1
      have hc := hdef _ hb
      have step : ∀ fuel, n ≤ fuel + 1 → bisectInt lim f (fuel+1) ok ng =
          (f (ok + (ng - ok).tdiv 2)).bind (fun b => if b then bisectInt lim f fuel (ok + (ng - ok).tdiv 2) ng
            else bisectInt lim f fuel ok (ok + (ng - ok).tdiv 2)) := by
        intro fuel _
        rw [bisectInt.eq_def]
        simp only [if_neg (show ¬ (ng - ok).natAbs > lim by omega), if_pos h1]
        rfl
      generalize ok + (ng - ok).tdiv 2 = c at *
      obtain ⟨b, hfb⟩ := Option.ne_none_iff_exists'.1 hc
      have hfuel : ∀ fuel, n ≤ fuel → ∃ k, fuel = k + 1 ∧ n ≤ k + 1 := by
        intro fuel h
        exact ⟨fuel - 1, by omega, by omega⟩
      cases b with
      | true =>
        have hs : (ng - c).sign = (ng - ok).sign := by
          unfold Between at hb
          rcases hb with hb | hb
          · rw [Int.sign_eq_one_of_pos (by omega), Int.sign_eq_one_of_pos (by omega)]
          · rw [Int.sign_eq_neg_one_of_neg (by omega), Int.sign_eq_neg_one_of_neg (by omega)]
        obtain ⟨x, e, p1, p2⟩ := ih _ (by omega) c ng (by unfold Between at hb; omega) (by omega)
          (fun x hx => hdef x (by unfold Between at *; omega)) rfl
        refine ⟨x, ?_, ?_, ?_⟩
        · intro fuel hf
          obtain ⟨k, rfl, hk⟩ := hfuel fuel hf
          rw [step k hk, hfb]
          exact e k (by omega)
        · rcases p1 with rfl | ⟨q1, q2⟩
          · exact Or.inr ⟨hb, hfb⟩
          · exact Or.inr ⟨by unfold Between at *; omega, q2⟩
        · rw [hs] at p2
          rcases p2 with q | ⟨q1, q2⟩
          · exact Or.inl q
          · exact Or.inr ⟨by unfold Between at *; omega, q2⟩
      | false =>
        have hs : (c - ok).sign = (ng - ok).sign := by
          unfold Between at hb
          rcases hb with hb | hb
          · rw [Int.sign_eq_one_of_pos (by omega), Int.sign_eq_one_of_pos (by omega)]
          · rw [Int.sign_eq_neg_one_of_neg (by omega), Int.sign_eq_neg_one_of_neg (by omega)]
        obtain ⟨x, e, p1, p2⟩ := ih _ (by omega) ok c (by unfold Between at hb; omega) (by omega)
          (fun x hx => hdef x (by unfold Between at *; omega)) rfl
        refine ⟨x, ?_, ?_, ?_⟩
        · intro fuel hf
          obtain ⟨k, rfl, hk⟩ := hfuel fuel hf
          rw [step k hk, hfb]
          exact e k (by omega)
        · rcases p1 with q | ⟨q1, q2⟩
          · exact Or.inl q
          · exact Or.inr ⟨by unfold Between at *; omega, q2⟩
        · rw [hs] at p2
          rcases p2 with q | ⟨q1, q2⟩
          · exact Or.inr ⟨by rw [q]; exact hb, by rw [q]; exact hfb⟩
          · exact Or.inr ⟨by unfold Between at *; omega, q2⟩
    · refine ⟨ok, ?_, Or.inl rfl, Or.inl ?_⟩
      · intro fuel _
        rw [bisectInt.eq_def]
        simp only [if_neg (show ¬ (ng - ok).natAbs > lim by omega), if_neg h1]
      · rcases Int.lt_or_gt_of_ne hne with h | h
        · rw [Int.sign_eq_one_of_pos (by omega)]; omega
        · rw [Int.sign_eq_neg_one_of_neg (by omega)]; omega

/-- For a monotone predicate this is the boundary: everything on the `ok` side up to `x` holds, everything beyond fails. -/
theorem C18_bisect_monotone (lim : Nat) (p : Int → Bool) (ok ng : Int) (hlt : ok < ng) (hlim : (ng - ok).natAbs ≤ lim)
    (hmono : ∀ x y, ok < x → x ≤ y → y < ng → p y = true → p x = true) :
    ∃ x, bisectInt lim (fun x => some (p x)) (ng - ok).natAbs ok ng = some x ∧ ok ≤ x ∧ x < ng ∧
      (∀ y, ok < y → y ≤ x → p y = true) ∧ (∀ y, x < y → y < ng → p y = false) := by
  obtain ⟨x, e, h1, h2⟩ := C18_bisect_int lim (fun x => some (p x)) ok ng (by omega) hlim (by simp)
  rw [Int.sign_eq_one_of_pos (by omega)] at h2
  simp only [Option.some.injEq] at h1 h2
  unfold Between at h1 h2
  refine ⟨x, e _ (Nat.le_refl _), by omega, by omega, ?_, ?_⟩
  · intro y hy hyx
    rcases h1 with h | h
    · omega
    · exact hmono y x hy hyx (by omega) h.2
  · intro y hy hyn
    rcases h2 with h | h
    · omega
    · cases hp : p y with
      | false => rfl
      | true => rw [hmono (x+1) y (by omega) (by omega) hyn hp] at h; exact absurd h.2 (by decide)

example : bisectInt (2^31-1) (fun x => some (decide (x*x ≤ 50))) 100 0 100 = some 7 := by decide
example : bisectInt (2^31-1) (fun x => some (decide (x ≥ -3))) 30 10 (-20) = some (-3) := by decide
example : ∀ x y : Int, 0 < x → x ≤ y → y < 100 → decide (y ≤ 50) = true → decide (x ≤ 50) = true := by
  intro x y _ _ _ h; simp at *; omega

end Verif.Bisect
