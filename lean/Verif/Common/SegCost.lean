import Verif.Common.SegLoop
import Verif.Common.Count
/-!
Bounds on the loops of `SegLoop`: the number of nodes collected by `_set_ids` and visited by the bottom-up loop is logarithmic.
-/
namespace Verif.SegLoop

variable {σ : Type}

theorem idsUp_length : ∀ K k x, x < 2^K → (idsUp k x).length ≤ K
  | _, 0, _, _ => Nat.zero_le _
  | 0, k+1, x, h => by
      rw [idsUp, if_neg (by rw [Nat.pow_zero] at h; omega)]
      exact Nat.le_refl 0
  | K+1, k+1, x, h => by
      rw [idsUp]
      by_cases hx : 0 < x
      · rw [if_pos hx, List.length_cons]
        have := idsUp_length K k (x/2) (by rw [Nat.pow_succ] at h; omega)
        omega
      · rw [if_neg hx]; exact Nat.zero_le _

theorem idsLoop_length (lth rth : Nat) : ∀ K k l r, l ≤ r → r < 2^K → (idsLoop lth rth k l r).length ≤ 2 * K
  | _, 0, _, _, _, _ => Nat.zero_le _
  | 0, k+1, l, r, hl, h => by
      rw [Nat.pow_zero] at h
      rw [idsLoop, if_neg (by omega)]
      exact idsUp_length 0 _ _ (by rw [Nat.pow_zero]; omega)
  | K+1, k+1, l, r, hl, h => by
      rw [idsLoop]
      by_cases hc : l < r
      · rw [if_pos hc, List.length_append, List.length_append]
        have := idsLoop_length lth rth K k (l/2) (r/2) (by omega) (by rw [Nat.pow_succ] at h; omega)
        have h1 : (if r ≤ rth then [r] else []).length ≤ 1 := by split <;> simp
        have h2 : (if l ≤ lth then [l] else []).length ≤ 1 := by split <;> simp
        omega
      · rw [if_neg hc]
        have := idsUp_length (K+1) (l+1) l (by omega)
        omega

theorem setIds_length {a b K : Nat} (hab : a ≤ b) (h : b < 2^K) : (setIds a b).length ≤ 2 * K := idsLoop_length _ _ K _ a b hab h

theorem each_fst {fC : Nat → σ × Nat → Option (σ × Nat)} {f : Nat → σ → Option σ} (h : ∀ i s, (fC i s).map Prod.fst = f i s.1) :
    ∀ xs s, (each fC xs s).map Prod.fst = each f xs s.1
  | [], _ => rfl
  | x :: xs, s => bind_fst (h x s) (each_fst h xs)

theorem each_cost {fC : Nat → σ × Nat → Option (σ × Nat)} {c : Nat} (h : ∀ i s s', fC i s = some s' → s'.2 ≤ s.2 + c) :
    ∀ xs s s', each fC xs s = some s' → s'.2 ≤ s.2 + xs.length * c
  | [], s, s', e => by cases e; exact Nat.le_add_right _ _
  | x :: xs, s, s', e => by
      rw [each, Option.bind_eq_some_iff] at e
      obtain ⟨s1, e1, e2⟩ := e
      have h1 := h x s s1 e1
      have h2 := each_cost h xs s1 s' e2
      rw [List.length_cons, Nat.succ_mul]
      omega

theorem stepR_fst {lC rC : Nat → σ × Nat → Option (σ × Nat)} {fl fr : Nat → σ → Option σ} (hr : ∀ i s, (rC i s).map Prod.fst = fr i s.1) (k : Nat)
    (ih : ∀ l r s, (canonLoop lC rC k l r s).map Prod.fst = canonLoop fl fr k l r s.1) (l r : Nat) (s : σ × Nat) :
    ((stepR rC r s).bind (fun q => canonLoop lC rC k (l / 2) (q.1 / 2) q.2)).map Prod.fst = (stepR fr r s.1).bind (fun q => canonLoop fl fr k (l / 2) (q.1 / 2) q.2) := by
  unfold stepR
  by_cases h1 : r % 2 = 1
  · rw [if_pos h1, if_pos h1, ← hr]
    cases rC (r-1) s with
    | none => rfl
    | some s1 => exact ih _ _ s1
  · rw [if_neg h1, if_neg h1]
    exact ih _ _ s

theorem canonLoop_fst {lC rC : Nat → σ × Nat → Option (σ × Nat)} {fl fr : Nat → σ → Option σ} (hl : ∀ i s, (lC i s).map Prod.fst = fl i s.1)
    (hr : ∀ i s, (rC i s).map Prod.fst = fr i s.1) : ∀ k l r s, (canonLoop lC rC k l r s).map Prod.fst = canonLoop fl fr k l r s.1
  | 0, _, _, _ => rfl
  | k+1, l, r, s => by
      rw [canonLoop, canonLoop]
      by_cases h : l < r
      · rw [if_pos h, if_pos h]
        unfold stepL
        by_cases hl1 : l % 2 = 1
        · rw [if_pos hl1, if_pos hl1, ← hl]
          cases lC l s with
          | none => rfl
          | some s1 => exact stepR_fst hr k (canonLoop_fst hl hr k) (l+1) r s1
        · rw [if_neg hl1, if_neg hl1]
          exact stepR_fst hr k (canonLoop_fst hl hr k) l r s
      · rw [if_neg h, if_neg h]; rfl

theorem canonLoop_cost {lC rC : Nat → σ × Nat → Option (σ × Nat)} {c : Nat} (hl : ∀ i s s', lC i s = some s' → s'.2 ≤ s.2 + c)
    (hr : ∀ i s s', rC i s = some s' → s'.2 ≤ s.2 + c) : ∀ K k l r s s', r < 2^K → canonLoop lC rC k l r s = some s' → s'.2 ≤ s.2 + K * (2 * c)
  | _, 0, _, _, _, _, _, e => by cases e
  | 0, k+1, l, r, s, s', h, e => by
      rw [Nat.pow_zero] at h
      rw [canonLoop, if_neg (by omega)] at e
      cases e
      exact Nat.le_add_right _ _
  | K+1, k+1, l, r, s, s', h, e => by
      rw [canonLoop] at e
      by_cases hc : l < r
      · rw [if_pos hc, Option.bind_eq_some_iff] at e
        obtain ⟨p, e1, e2⟩ := e
        rw [Option.bind_eq_some_iff] at e2
        obtain ⟨q, e2, e3⟩ := e2
        have c1 : p.2.2 ≤ s.2 + c := by
          unfold stepL at e1
          by_cases h1 : l % 2 = 1
          · rw [if_pos h1, Option.map_eq_some_iff] at e1
            obtain ⟨s1, h2, rfl⟩ := e1
            exact hl _ _ _ h2
          · rw [if_neg h1] at e1
            cases e1
            exact Nat.le_add_right _ _
        have c2 : q.2.2 ≤ p.2.2 + c ∧ q.1 ≤ r := by
          unfold stepR at e2
          by_cases h1 : r % 2 = 1
          · rw [if_pos h1, Option.map_eq_some_iff] at e2
            obtain ⟨s1, h2, rfl⟩ := e2
            exact ⟨hr _ _ _ h2, Nat.sub_le _ _⟩
          · rw [if_neg h1] at e2
            cases e2
            exact ⟨Nat.le_add_right _ _, Nat.le_refl _⟩
        have := canonLoop_cost hl hr K k _ _ _ _ (by rw [Nat.pow_succ] at h; omega) e3
        rw [Nat.succ_mul]
        omega
      · rw [if_neg hc] at e
        cases e
        exact Nat.le_add_right _ _

end Verif.SegLoop
