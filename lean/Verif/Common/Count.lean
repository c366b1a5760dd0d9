import Verif.Common.Vec
import Mathlib.Algebra.BigOperators.Intervals
import Mathlib.Algebra.Order.BigOperators.Group.Finset
/-!
Loops whose state carries a counter: the counter does not change the result, and bounds on it.  Nothing here is specific to one header.
-/
namespace Verif
open Finset

variable {σ : Type}

/-- A loop body that counts one more round. -/
def tick (body : Nat → σ → Option σ) (i : Nat) (s : σ × Nat) : Option (σ × Nat) := (body i s.1).map (fun c => (c, s.2 + 1))

theorem tick_fst (body : Nat → σ → Option σ) (i : Nat) (s : σ × Nat) : (tick body i s).map Prod.fst = body i s.1 := by
  unfold tick
  cases body i s.1 <;> rfl

theorem bind_fst {β : Type} {x : Option (σ × Nat)} {y : Option σ} {k : σ × Nat → Option (β × Nat)} {k' : σ → Option β} (h : x.map Prod.fst = y)
    (hk : ∀ s, (k s).map Prod.fst = k' s.1) : (x.bind k).map Prod.fst = y.bind k' := by
  subst h
  cases x with
  | none => rfl
  | some s => exact hk s

theorem bind_same {β γ : Type} (x : Option γ) {k : γ → Option (β × Nat)} {k' : γ → Option β} (hk : ∀ c, (k c).map Prod.fst = k' c) :
    (x.bind k).map Prod.fst = x.bind k' := by
  cases x with
  | none => rfl
  | some s => exact hk s

theorem forUp_fst {bodyC : Nat → σ × Nat → Option (σ × Nat)} {body : Nat → σ → Option σ} (h : ∀ i s, (bodyC i s).map Prod.fst = body i s.1) :
    ∀ n a s, (forUp bodyC a n s).map Prod.fst = forUp body a n s.1
  | 0, _, _ => rfl
  | n+1, a, s => bind_fst (h a s) (forUp_fst h n (a+1))

theorem forDown_fst {bodyC : Nat → σ × Nat → Option (σ × Nat)} {body : Nat → σ → Option σ} (h : ∀ i s, (bodyC i s).map Prod.fst = body i s.1) :
    ∀ n a s, (forDown bodyC a n s).map Prod.fst = forDown body a n s.1
  | 0, _, _ => rfl
  | n+1, a, s => bind_fst (h (a+n) s) (forDown_fst h n a)

/-- A result and a bound on the count, from the result of the plain function. -/
theorem of_fst {β : Type} {x : Option (β × Nat)} {y : Option β} {c : β} (h : x.map Prod.fst = y) (e : y = some c) : ∃ k, x = some (c, k) := by
  subst h
  cases x with
  | none => cases e
  | some s => cases e; exact ⟨s.2, rfl⟩

/-! ### Costs -/

theorem forUp_cost {bodyC : Nat → σ × Nat → Option (σ × Nat)} (f : Nat → Nat) :
    ∀ n a s s', (∀ i s s', a ≤ i → bodyC i s = some s' → s'.2 ≤ s.2 + f i) → forUp bodyC a n s = some s' → s'.2 ≤ s.2 + ∑ i ∈ range n, f (a + i)
  | 0, _, s, s', _, e => by cases e; exact Nat.le_add_right _ _
  | n+1, a, s, s', h, e => by
      rw [forUp, Option.bind_eq_some_iff] at e
      obtain ⟨s1, e1, e2⟩ := e
      have h1 := h a s s1 (Nat.le_refl a) e1
      have h2 := forUp_cost f n (a+1) s1 s' (fun i s s' hi => h i s s' (by omega)) e2
      rw [sum_range_succ']
      have : ∑ i ∈ range n, f (a + 1 + i) = ∑ i ∈ range n, f (a + (i + 1)) := sum_congr rfl (fun i _ => by rw [Nat.add_assoc, Nat.add_comm 1 i])
      rw [Nat.add_zero]
      omega

theorem forDown_cost {bodyC : Nat → σ × Nat → Option (σ × Nat)} (f : Nat → Nat) {a : Nat} (h : ∀ i s s', a ≤ i → bodyC i s = some s' → s'.2 ≤ s.2 + f i) :
    ∀ n s s', forDown bodyC a n s = some s' → s'.2 ≤ s.2 + ∑ i ∈ range n, f (a + i)
  | 0, s, s', e => by cases e; exact Nat.le_add_right _ _
  | n+1, s, s', e => by
      rw [forDown, Option.bind_eq_some_iff] at e
      obtain ⟨s1, e1, e2⟩ := e
      have h1 := h (a+n) s s1 (Nat.le_add_right _ _) e1
      have h2 := forDown_cost f h n s1 s' e2
      rw [sum_range_succ]
      omega

theorem tick_cost {body : Nat → σ → Option σ} {i : Nat} {s s' : σ × Nat} (e : tick body i s = some s') : s'.2 ≤ s.2 + 1 := by
  unfold tick at e
  rw [Option.map_eq_some_iff] at e
  obtain ⟨c, _, rfl⟩ := e
  exact Nat.le_refl _

theorem ticks_cost {body : Nat → σ → Option σ} {a b : Nat} {s s' : σ × Nat} (e : forRange a b (tick body) s = some s') : s'.2 ≤ s.2 + (b - a) := by
  have := forUp_cost (fun _ => 1) (b - a) a s s' (fun i s s' _ e => tick_cost e) e
  rwa [sum_const, card_range, Nat.nsmul_eq_mul, Nat.mul_one] at this

theorem forUp_exact {bodyC : Nat → σ × Nat → Option (σ × Nat)} (f : Nat → Nat) :
    ∀ n a s s', (∀ i s s', a ≤ i → i < a + n → bodyC i s = some s' → s'.2 = s.2 + f i) → forUp bodyC a n s = some s' → s'.2 = s.2 + ∑ i ∈ range n, f (a + i)
  | 0, _, s, s', _, e => by cases e; rfl
  | n+1, a, s, s', h, e => by
      rw [forUp, Option.bind_eq_some_iff] at e
      obtain ⟨s1, e1, e2⟩ := e
      have h1 := h a s s1 (Nat.le_refl a) (by omega) e1
      have h2 := forUp_exact f n (a+1) s1 s' (fun i s s' hi hi' => h i s s' (by omega) (by omega)) e2
      rw [sum_range_succ']
      have : ∑ i ∈ range n, f (a + 1 + i) = ∑ i ∈ range n, f (a + (i + 1)) := sum_congr rfl (fun i _ => by rw [Nat.add_assoc, Nat.add_comm 1 i])
      rw [Nat.add_zero]
      omega

theorem forDown_exact {bodyC : Nat → σ × Nat → Option (σ × Nat)} (f : Nat → Nat) {a : Nat} :
    ∀ n s s', (∀ i s s', a ≤ i → i < a + n → bodyC i s = some s' → s'.2 = s.2 + f i) → forDown bodyC a n s = some s' → s'.2 = s.2 + ∑ i ∈ range n, f (a + i)
  | 0, s, s', _, e => by cases e; rfl
  | n+1, s, s', h, e => by
      rw [forDown, Option.bind_eq_some_iff] at e
      obtain ⟨s1, e1, e2⟩ := e
      have h1 := h (a+n) s s1 (Nat.le_add_right _ _) (by omega) e1
      have h2 := forDown_exact f n s1 s' (fun i s s' hi hi' => h i s s' hi (by omega)) e2
      rw [sum_range_succ]
      omega

theorem ticks_exact {body : Nat → σ → Option σ} {a b : Nat} {s s' : σ × Nat} (e : forRange a b (tick body) s = some s') : s'.2 = s.2 + (b - a) := by
  have := forUp_exact (fun _ => 1) (b - a) a s s' (fun i s s' _ _ e => by
    unfold tick at e
    rw [Option.map_eq_some_iff] at e
    obtain ⟨c, _, rfl⟩ := e
    rfl) e
  rwa [sum_const, card_range, Nat.nsmul_eq_mul, Nat.mul_one] at this

end Verif
