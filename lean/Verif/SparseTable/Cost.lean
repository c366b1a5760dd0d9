import Verif.SparseTable.Dual
import Verif.Common.Count
/-!
# C144: the number of operator calls of DualSparseTable
-/
namespace Verif.SparseTable
open Finset

variable {T : Type}

/-- One round of the inner loop of `build`, with two calls of `op` (dual_sparse_table.hpp:42-43). -/
def uCell (op : T → T → T) (k i : Nat) (tb : List (List T)) : Option (List (List T)) := do
  let x ← rd2 tb k i
  let y ← rd2 tb (k+1) i
  let tb ← wr2 tb k i (op x y)
  let x ← rd2 tb k (i + 2^k)
  let y ← rd2 tb (k+1) i
  wr2 tb k (i + 2^k) (op x y)

/-- `uBuild` with the number of rounds of the inner loop (dual_sparse_table.hpp:38-46). -/
def uBuildC (op : T → T → T) (t : Table T) : Option (Table T × Nat) :=
  (forRangeDown 0 t.logN (fun k (tb : List (List T) × Nat) => forRange 0 (t.size - 2^k) (tick (uCell op k)) tb) (t.table, 0)).map (fun tb => ({ t with table := tb.1 }, tb.2))

theorem uBuildC_fst (op : T → T → T) (t : Table T) : (uBuildC op t).map Prod.fst = uBuild op t := by
  have h : (forRangeDown 0 t.logN (fun k (tb : List (List T) × Nat) => forRange 0 (t.size - 2^k) (tick (uCell op k)) tb) (t.table, 0)).map Prod.fst =
      forRangeDown 0 t.logN (fun k tb => forRange 0 (t.size - 2^k) (uCell op k) tb) t.table :=
    forDown_fst (body := fun k tb => forRange 0 (t.size - 2^k) (uCell op k) tb) (fun k s => forUp_fst (tick_fst (uCell op k)) _ _ s) _ _ (t.table, 0)
  have h2 : uBuild op t = (forRangeDown 0 t.logN (fun k tb => forRange 0 (t.size - 2^k) (uCell op k) tb) t.table).bind (fun tb => some { t with table := tb }) := rfl
  rw [h2, ← h]
  unfold uBuildC
  cases forRangeDown 0 t.logN (fun k (tb : List (List T) × Nat) => forRange 0 (t.size - 2^k) (tick (uCell op k)) tb) (t.table, 0) <;> rfl

theorem sum_pow (n : Nat) : ∀ L, 2^L ≤ n → ∑ k ∈ range L, (n - 2^k) + 2^L = n * L + 1
  | 0, _ => by simp
  | L+1, h => by
      have h1 : 2^(L+1) = 2^L * 2 := Nat.pow_succ 2 L
      have := sum_pow n L (by omega)
      rw [sum_range_succ, Nat.mul_succ]
      omega

theorem uApply_shape {op : T → T → T} {t t' : Table T} {l r : Nat} {a : T} (h : uApply op t l r a = some t') : t'.size = t.size ∧ t'.logN = t.logN := by
  unfold uApply at h
  split at h
  · cases h; exact ⟨rfl, rfl⟩
  · simp only [Option.bind_eq_bind, Option.bind_eq_some_iff, Option.some.injEq] at h
    obtain ⟨_, _, _, _, _, _, _, _, _, _, rfl⟩ := h
    exact ⟨rfl, rfl⟩

theorem uApplyAll_shape {op : T → T → T} : ∀ (ops : List (Nat × Nat × T)) {t t' : Table T}, uApplyAll op t ops = some t' → t'.size = t.size ∧ t'.logN = t.logN
  | [], _, _, h => by cases h; exact ⟨rfl, rfl⟩
  | o :: ops, t, t', h => by
      rw [uApplyAll, Option.bind_eq_some_iff] at h
      obtain ⟨t1, h1, h2⟩ := h
      have a := uApply_shape h1
      have b := uApplyAll_shape ops h2
      exact ⟨b.1.trans a.1, b.2.trans a.2⟩

theorem uInit_shape {e : T} {n : Nat} {t : Table T} (h : uInit e n = some t) : t.size = n ∧ t.logN = Nat.log2 n := by
  unfold uInit msb at h
  split at h
  · cases h
  · cases h; exact ⟨rfl, rfl⟩

theorem uStart_shape {e : T} {st : DStart T} {t : Table T} (h : uStart e st = some t) : t.size = (st.values e).length ∧ t.logN = Nat.log2 (st.values e).length := by
  cases st with
  | size n =>
    rw [DStart.values, List.length_replicate]
    exact uInit_shape h
  | range xs =>
    simp only [uStart, uOfRange, Option.bind_eq_bind, Option.bind_eq_some_iff, Option.some.injEq] at h
    obtain ⟨t1, h1, _, _, rfl⟩ := h
    have := uInit_shape h1
    exact this

/-- C144.  After any `apply` calls on a table of `n > 0` elements: `build` runs its inner loop, of two operator calls, exactly `n L + 1 - 2^L` times for `L = ⌊log2 n⌋`, hence at most `n log n` times. -/
theorem C144_build (op : T → T → T) (e : T) (hassoc : ∀ x y z, op (op x y) z = op x (op y z)) (hcomm : ∀ x y, op x y = op y x) (hid : ∀ x, op x x = x) (he : ∀ x, op e x = x)
    (st : DStart T) (ops : List (Nat × Nat × T)) (hne : st.values e ≠ []) (hv : ∀ o ∈ ops, DValid (st.values e).length o) :
    ∃ t t' k, (uStart e st).bind (fun t => uApplyAll op t ops) = some t ∧ uBuildC op t = some (t', k) ∧ uBuild op t = some t' ∧
      k + 2^(Nat.log2 (st.values e).length) = (st.values e).length * Nat.log2 (st.values e).length + 1 := by
  obtain ⟨t', e', _⟩ := C11_dual_sparse op e hassoc hcomm hid he st ops hne hv
  unfold uRun at e'
  simp only [Option.bind_eq_bind, Option.bind_eq_some_iff] at e'
  obtain ⟨t0, h0, t, h1, h2⟩ := e'
  obtain ⟨k, ek⟩ := of_fst (uBuildC_fst op t) h2
  refine ⟨t, t', k, by rw [h0, Option.bind_some, h1], ek, h2, ?_⟩
  have a := uStart_shape h0
  have b := uApplyAll_shape ops h1
  unfold uBuildC at ek
  rw [Option.map_eq_some_iff] at ek
  obtain ⟨tb, h3, h4⟩ := ek
  cases h4
  have h5 := forDown_exact (bodyC := fun k tb => forRange 0 (t.size - 2^k) (tick (uCell op k)) tb) (fun k => t.size - 2^k) _ _ _
    (fun i s s' _ _ e => (ticks_exact e).trans (by rw [Nat.sub_zero])) h3
  rw [h5, ← a.2, ← a.1, ← b.2, ← b.1]
  have hn : (st.values e).length ≠ 0 := fun h => hne (List.length_eq_zero_iff.1 h)
  have h6 := sum_pow t.size t.logN (by rw [b.1, b.2, a.1, a.2]; exact Nat.log2_self_le hn)
  rw [← h6]
  simp

/-- Rounds of `build` on 6 and 16 elements. -/
example : ((uStart 0 (DStart.size 6)).bind (fun t => (uApplyAll max t [(1, 5, 7), (0, 2, 3)]).bind (uBuildC max))).map Prod.snd = some 9 := by decide +kernel
example : ((uStart 0 (DStart.range [3, 1, 4, 1, 5, 9, 2, 6, 5, 3, 5, 8, 9, 7, 9, 3])).bind (uBuildC max)).map Prod.snd = some 49 := by decide +kernel
example : ∀ o ∈ [(1, 5, 7), (0, 2, 3)], DValid ((DStart.size 6).values 0).length o := by
  intro o ho
  unfold DValid
  revert o
  decide

end Verif.SparseTable
