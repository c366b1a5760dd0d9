import Verif.AmBinom.Model
/-!
**C51.** `ArbitraryModBinomial(n, mod)(m)` is the binomial coefficient modulo `mod` whenever `enabled()`.

False for every `n` and `mod`: an enabled object cannot be constructed without undefined behaviour.
-/
namespace Verif.AmBinom

theorem wr_length {α : Type} {l l' : List α} {i : Nat} {x : α} (h : wr l i x = some l') : l'.length = l.length ∧ i < l.length := by
  unfold wr at h
  split at h
  · cases h
    exact ⟨List.length_set, by assumption⟩
  · cases h

theorem step_length {n md w : Nat} {P d : List Nat} {inv ptb : List Int} {k : Nat} {s s' : Int × List Int × List Int}
    (h : step n md w P d inv ptb k s = some s') : s'.2.2.length = s.2.2.length ∧ k < s.2.2.length := by
  unfold step at h
  simp only [Option.bind_eq_some_iff, Option.map_eq_some_iff] at h
  obtain ⟨a, _, t, _, b, _, iv, _, t', _, x, _, st, e, rfl⟩ := h
  exact wr_length e

/-- The loop of lines 89-100 writes `st_[mid]`, one past the end. -/
theorem loop_none {n md w : Nat} {P d : List Nat} {inv ptb : List Int} {m : Nat} (hm : 0 < m) {s : Int × List Int × List Int} (hs : s.2.2.length = m) :
    forRange 1 (m+1) (step n md w P d inv ptb) s = none := by
  have key : ∀ j, 1 ≤ j → j ≤ m + 1 → ∀ s', forRange 1 j (step n md w P d inv ptb) s = some s' → s'.2.2.length = m := by
    intro j h1
    induction j with
    | zero => omega
    | succ j ih =>
      intro h2 s' h
      by_cases hj : j = 0
      · subst hj
        rw [forRange_nil (by omega)] at h
        cases h; exact hs
      · rw [forRange_last (by omega), Option.bind_eq_some_iff] at h
        obtain ⟨s1, e1, e2⟩ := h
        have := ih (by omega) (by omega) s1 e1
        rw [(step_length e2).1, this]
  cases h : forRange 1 (m+1) (step n md w P d inv ptb) s with
  | none => rfl
  | some s' =>
    exfalso
    rw [forRange_last (by omega), Option.bind_eq_some_iff] at h
    obtain ⟨s1, e1, e2⟩ := h
    have h1 := key m (by omega) (by omega) s1 e1
    have h2 := (step_length e2).2
    omega

/-- **C51, violation.** Whatever `n` and `mod` are: if `enabled()` holds, the constructor has undefined behaviour. -/
theorem C51_violation (n md : Nat) (h : Nat.gcd n md = 1) : build n md = none := by
  unfold build
  rw [if_neg (by omega)]
  cases hb : (forRange 2 (n+1) (sieveStep n md) ⟨List.replicate (n+1) false, List.replicate 10 0, List.replicate (n+1) 0, 0⟩) with
  | none => rfl
  | some sv =>
    rw [Option.bind_some]
    cases modInv md ((n+1)/2) with
    | none => rfl
    | some iv =>
      rw [Option.bind_some]
      cases wr (List.replicate ((n+1)/2 + 1) 0) ((n+1)/2) iv with
      | none => rfl
      | some inv =>
        rw [Option.bind_some]
        cases forRangeDown 1 ((n+1)/2) (invStep md) inv with
        | none => rfl
        | some inv =>
          rw [Option.bind_some]
          cases sv.P[1]? with
          | none => rfl
          | some p1 =>
            rw [Option.bind_some]
            split
            · rfl
            · cases table (sv.k+1) (Int.tdiv n (p1 - 1) + 1) with
              | none => rfl
              | some ptb =>
                rw [Option.bind_some]
                cases forRange 1 10 (ptbRow n md (Int.tdiv n (p1 - 1) + 1).toNat sv.P) ptb with
                | none => rfl
                | some ptb =>
                  rw [Option.bind_some]
                  cases hw : wr (List.replicate ((n+1)/2) (0:Int)) 0 1 with
                  | none => rfl
                  | some st =>
                    rw [Option.bind_some]
                    obtain ⟨h1, h2⟩ := wr_length hw
                    rw [List.length_replicate] at h1 h2
                    rw [loop_none h2 h1]
                    rfl

/-- The same for the two-line use of the header: no value is ever delivered. -/
theorem C51_violation_use (n md m : Nat) : ((build n md).bind (fun st => binom n md st m)) = none := by
  by_cases h : Nat.gcd n md = 1
  · rw [C51_violation n md h]; rfl
  · unfold build
    rw [if_pos h, Option.bind_some]
    unfold binom
    rw [if_pos h]

example : build 7 6 = none := C51_violation 7 6 (by decide)
example : build 7 7 = some [0, 0, 0, 0] := by decide +kernel

end Verif.AmBinom
