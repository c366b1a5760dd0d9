import Verif.SparseTable.Sparse
import Verif.SparseTable.Disjoint
import Verif.Common.Count
/-!
# C150: the number of operator calls made by the constructors of SparseTable and DisjointSparseTable
-/
namespace Verif.SparseTable
open Finset

variable {T : Type}

/-! ### SparseTable -/

/-- One round of the inner loop, with one call of `op` (sparse_table.hpp:27-28). -/
def sCell (op : T → T → T) (k i : Nat) (t : List (List T)) : Option (List (List T)) := do
  let x ← rd2 t (k-1) i
  let y ← rd2 t (k-1) (i + 2^k/2)
  wr2 t k i (op x y)

/-- `sBuild` with the number of calls of `op` (sparse_table.hpp:18-31). -/
def sBuildC [Inhabited T] (op : T → T → T) (xs : List T) : Option (Table T × Nat) := do
  let logN ← msb xs.length
  let t0 ← wr (List.replicate (logN+1) (List.replicate xs.length default)) 0 xs
  let t ← forRange 1 (logN+1) (fun k (t : List (List T) × Nat) => forRange 0 (xs.length + 1 - 2^k) (tick (sCell op k)) t) (t0, 0)
  some (⟨xs.length, logN, t.1⟩, t.2)

theorem sBuildC_fst [Inhabited T] (op : T → T → T) (xs : List T) : (sBuildC op xs).map Prod.fst = sBuild op xs := by
  unfold sBuildC sBuild
  refine bind_same _ (fun logN => bind_same _ (fun t0 => ?_))
  refine bind_fst (y := forRange 1 (logN+1) (fun k t => sBuildRow op xs.length k t) t0) ?_ (fun s => rfl)
  exact forUp_fst (body := fun k t => sBuildRow op xs.length k t) (fun k s => forUp_fst (body := sCell op k) (tick_fst (sCell op k)) _ _ s) _ _ (t0, 0)

theorem sum_levels (n : Nat) : ∀ L, 2^L ≤ n → ∑ k ∈ range L, (n + 1 - 2^(1+k)) + 2^(L+1) = (n + 1) * L + 2
  | 0, _ => by simp
  | L+1, h => by
      have h1 : 2^(L+1) = 2^L * 2 := Nat.pow_succ 2 L
      have h2 : 2^(L+1+1) = 2^(L+1) * 2 := Nat.pow_succ 2 (L+1)
      have := sum_levels n L (by omega)
      rw [sum_range_succ, Nat.mul_succ, Nat.add_comm 1 L]
      omega

/-- C150 (`SparseTable`): the constructor on `n ≥ 1` elements calls `op` exactly `(n+1) L + 2 - 2^(L+1)` times for `L = ⌊log2 n⌋`. -/
theorem C150_sparse [Inhabited T] (op : T → T → T) (hassoc : ∀ x y z, op (op x y) z = op x (op y z)) (hid : ∀ x, op x x = x) (xs : List T) (hx : xs ≠ []) :
    ∃ t k, sBuildC op xs = some (t, k) ∧ sBuild op xs = some t ∧ k + 2^(Nat.log2 xs.length + 1) = (xs.length + 1) * Nat.log2 xs.length + 2 := by
  obtain ⟨t, e, _⟩ := C09_query op hassoc hid xs hx
  obtain ⟨k, ek⟩ := of_fst (sBuildC_fst op xs) e
  refine ⟨t, k, ek, e, ?_⟩
  have hn : xs.length ≠ 0 := fun h => hx (List.length_eq_zero_iff.1 h)
  unfold sBuildC at ek
  simp only [Option.bind_eq_bind, Option.bind_eq_some_iff, Option.some.injEq] at ek
  obtain ⟨L, hL, t0, h0, tb, h3, h4⟩ := ek
  cases h4
  unfold msb at hL
  rw [if_neg hn] at hL
  cases hL
  have h5 := forUp_exact (bodyC := fun k (t : List (List T) × Nat) => forRange 0 (xs.length + 1 - 2^k) (tick (sCell op k)) t) (fun k => xs.length + 1 - 2^k) _ _ _ _
    (fun i s s' _ _ e => (ticks_exact e).trans (by rw [Nat.sub_zero])) h3
  rw [h5, Nat.zero_add, Nat.add_sub_cancel]
  exact sum_levels _ _ (Nat.log2_self_le hn)

/-! ### DisjointSparseTable -/

/-- disjoint_sparse_table.hpp:24. -/
def dLeft (op : T → T → T) (i k : Nat) (t : List (List T)) : Option (List (List T)) := do
  let x ← rd2 t 0 k
  let y ← rd2 t i (k+1)
  wr2 t i k (op x y)

/-- disjoint_sparse_table.hpp:27. -/
def dRight (op : T → T → T) (i k : Nat) (t : List (List T)) : Option (List (List T)) := do
  let x ← rd2 t i (k-1)
  let y ← rd2 t 0 k
  wr2 t i k (op x y)

/-- `dBuildBlock` with the number of calls of `op` (disjoint_sparse_table.hpp:22-27). -/
def dBlockC (op : T → T → T) (i j : Nat) (s : List (List T) × Nat) : Option (List (List T) × Nat) :=
  (rd2 s.1 0 (j+2^i-1)).bind (fun x => (wr2 s.1 i (j+2^i-1) x).bind (fun t =>
    (forRangeDown j (j+2^i-1) (tick (dLeft op i)) (t, s.2)).bind (fun s =>
      (rd2 s.1 0 (j+2^i)).bind (fun x => (wr2 s.1 i (j+2^i) x).bind (fun t => forRange (j+2^i+1) (j+2^i*2) (tick (dRight op i)) (t, s.2))))))

theorem dBlockC_fst (op : T → T → T) (i j : Nat) (s : List (List T) × Nat) : (dBlockC op i j s).map Prod.fst = dBuildBlock op i j s.1 := by
  unfold dBlockC
  refine bind_same _ (fun x => bind_same _ (fun t => ?_))
  refine bind_fst (forDown_fst (body := dLeft op i) (tick_fst (dLeft op i)) _ _ (t, s.2)) (fun s => ?_)
  exact bind_same _ (fun x => bind_same _ (fun t => forUp_fst (body := dRight op i) (tick_fst (dRight op i)) _ _ (t, s.2)))

/-- `dBuild` with the number of calls of `op` (disjoint_sparse_table.hpp:13-30). -/
def dBuildC [Inhabited T] (op : T → T → T) (xs : List T) : Option (Table T × Nat) :=
  if xs.length = 0 then none else
    (copyRow0 xs (List.replicate (max (bitWidth (xs.length - 1)) 1) (List.replicate (2^bitWidth (xs.length - 1)) default))).bind (fun t0 =>
      (forRange 1 (bitWidth (xs.length - 1)) (fun i (s : List (List T) × Nat) => forRange 0 (2^(bitWidth (xs.length - 1)-1-i)) (fun b s => dBlockC op i (b * (2^i*2)) s) s) (t0, 0)).bind (fun s =>
        some (⟨2^bitWidth (xs.length - 1), bitWidth (xs.length - 1), s.1⟩, s.2)))

theorem dBuildC_fst [Inhabited T] (op : T → T → T) (xs : List T) : (dBuildC op xs).map Prod.fst = dBuild op xs := by
  unfold dBuildC dBuild
  by_cases h : xs.length = 0
  · rw [if_pos h, if_pos h]; rfl
  · rw [if_neg h, if_neg h]
    refine bind_same _ (fun t0 => ?_)
    refine bind_fst (forUp_fst (body := fun i t => dBuildRow op (bitWidth (xs.length - 1)) i t) (fun i s => ?_) _ _ (t0, 0)) (fun s => rfl)
    exact forUp_fst (body := fun b t => dBuildBlock op i (b * (2^i*2)) t) (fun b s => dBlockC_fst op i _ s) _ _ s

theorem ticksDown_exact {σ : Type} {body : Nat → σ → Option σ} {a b : Nat} {s s' : σ × Nat} (e : forRangeDown a b (tick body) s = some s') : s'.2 = s.2 + (b - a) := by
  have := forDown_exact (fun _ => 1) (b - a) s s' (fun i s s' _ _ e => by
    unfold tick at e
    rw [Option.map_eq_some_iff] at e
    obtain ⟨c, _, rfl⟩ := e
    rfl) e
  rwa [sum_const, card_range, Nat.nsmul_eq_mul, Nat.mul_one] at this

theorem dBlockC_cost {op : T → T → T} {i j : Nat} {s s' : List (List T) × Nat} (e : dBlockC op i j s = some s') : s'.2 = s.2 + (2 * 2^i - 2) := by
  unfold dBlockC at e
  simp only [Option.bind_eq_some_iff] at e
  obtain ⟨_, _, _, _, s1, e1, _, _, _, _, e2⟩ := e
  have h1 := ticksDown_exact e1
  have h2 := ticks_exact e2
  have : 1 ≤ 2^i := Nat.one_le_two_pow
  dsimp only at h1 h2
  omega

/-- The calls of all levels: `(2d - 2)` for each of the `2^(L-1-i)` blocks of level `i`. -/
theorem sum_blocks : ∀ L, ∑ i ∈ range (L - 1), 2^(L - 1 - (1+i)) * (2 * 2^(1+i) - 2) + 2^L * 2 = L * 2^L + 2
  | 0 => by simp
  | 1 => by simp
  | L+2 => by
      have e : ∀ i ∈ range (L+1), 2^(L + 2 - 1 - (1+i)) * (2 * 2^(1+i) - 2) = 2^(L+2) - 2^(L + 1 - i) := fun i hi => by
        have hi := mem_range.1 hi
        rw [show L + 2 - 1 - (1 + i) = L - i by omega, Nat.mul_sub, ← Nat.mul_assoc, Nat.mul_comm _ 2, Nat.mul_assoc, ← Nat.pow_add, show L - i + (1 + i) = L + 1 by omega,
          show L + 1 - i = (L - i) + 1 by omega, Nat.pow_succ 2 (L - i), Nat.pow_succ 2 (L+1)]
        omega
      rw [show L + 2 - 1 = L + 1 by omega] at *
      rw [sum_congr rfl e]
      have key : ∀ m, m ≤ L + 1 → ∑ i ∈ range m, (2^(L+2) - 2^(L + 1 - i)) + 2^(L+2) = m * 2^(L+2) + 2^(L+2-m) := by
        intro m
        induction m with
        | zero => intro _; simp
        | succ m ih =>
          intro hm
          have := ih (by omega)
          have h1 : 2^(L+2-m) = 2^(L+1-m) * 2 := by rw [← Nat.pow_succ]; congr 1; omega
          have h2 : 2^(L+1-m) ≤ 2^(L+2) := Nat.pow_le_pow_right (by omega) (by omega)
          rw [sum_range_succ, Nat.succ_mul, show L + 2 - (m+1) = L + 1 - m by omega]
          omega
      have := key (L+1) (Nat.le_refl _)
      rw [show L + 2 - (L + 1) = 1 by omega] at this
      rw [Nat.succ_mul (L+1)]
      omega

theorem bitWidth_spec (x : Nat) : x < 2^bitWidth x ∧ ∀ L, x < 2^L → bitWidth x ≤ L := by
  unfold bitWidth
  by_cases h : x = 0
  · rw [if_pos h]
    exact ⟨by omega, fun L _ => Nat.zero_le L⟩
  · rw [if_neg h]
    refine ⟨Nat.lt_log2_self, fun L hL => ?_⟩
    by_contra hc
    have h1 : 2^L ≤ 2^Nat.log2 x := Nat.pow_le_pow_right (by omega) (by omega)
    have := Nat.log2_self_le h
    omega

/-- C150 (`DisjointSparseTable`): with `2^L` the least power of two that is at least `n`, the constructor on `n ≥ 1` elements calls `op` exactly `L 2^L + 2 - 2^(L+1)` times. -/
theorem C150_disjoint [Inhabited T] (op : T → T → T) (hassoc : ∀ x y z, op (op x y) z = op x (op y z)) (xs : List T) (hx : xs ≠ []) :
    ∃ t k L, dBuildC op xs = some (t, k) ∧ dBuild op xs = some t ∧ xs.length ≤ 2^L ∧ (∀ L', xs.length ≤ 2^L' → L ≤ L') ∧ k + 2^L * 2 = L * 2^L + 2 := by
  obtain ⟨t, e, _⟩ := C10_query op hassoc xs hx
  obtain ⟨k, ek⟩ := of_fst (dBuildC_fst op xs) e
  have hn : xs.length ≠ 0 := fun h => hx (List.length_eq_zero_iff.1 h)
  obtain ⟨b1, b2⟩ := bitWidth_spec (xs.length - 1)
  refine ⟨t, k, bitWidth (xs.length - 1), ek, e, by omega, fun L' h => b2 L' (by omega), ?_⟩
  unfold dBuildC at ek
  rw [if_neg hn] at ek
  generalize bitWidth (xs.length - 1) = L at *
  simp only [Option.bind_eq_some_iff, Option.some.injEq] at ek
  obtain ⟨t0, _, s, h3, h4⟩ := ek
  cases h4
  have h5 := forUp_exact (bodyC := fun i (s : List (List T) × Nat) => forRange 0 (2^(L-1-i)) (fun b s => dBlockC op i (b * (2^i*2)) s) s) (fun i => 2^(L-1-i) * (2 * 2^i - 2)) _ _ _ _
    (fun i s s' _ _ e => by
      have := forUp_exact (fun _ => 2 * 2^i - 2) _ _ _ _ (fun b s s' _ _ e => dBlockC_cost e) e
      rwa [sum_const, card_range, Nat.sub_zero, Nat.nsmul_eq_mul] at this) h3
  rw [h5, Nat.zero_add]
  exact sum_blocks L

/-- 6 elements: `7*2 + 2 - 8 = 8` calls for the sparse table and `3*8 + 2 - 16 = 10` for the disjoint one. -/
example : (sBuildC max [3, 1, 4, 1, 5, 9]).map Prod.snd = some 8 := by decide +kernel
example : (dBuildC (· + ·) [3, 1, 4, 1, 5, 9]).map Prod.snd = some 10 := by decide +kernel

end Verif.SparseTable
