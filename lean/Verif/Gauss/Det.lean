import Verif.Gauss.Solve
import Mathlib.LinearAlgebra.Matrix.Block
import Mathlib.LinearAlgebra.Matrix.NonsingularInverse
/-!
`det` and `inv`.
-/
namespace Verif.Gauss
open Verif Verif.MatrixM

variable {K : Type} [Field K] [DecidableEq K] {F A : Nat → Nat → K} {R W n i : Nat} {x a : Mat K}

/-- The left upper `n × n` part as a mathematical matrix. -/
def toM (n : Nat) (A : Nat → Nat → K) : Matrix (Fin n) (Fin n) K := Matrix.of fun i j => A i j

theorem toM_apply (A : Nat → Nat → K) (i j : Fin n) : toM n A i j = A i j := rfl

/-- The matrix with the eliminated entries counted as 0. -/
def virt (i : Nat) (F : Nat → Nat → K) (a b : Nat) : K := if b < i ∧ b < a then 0 else F a b

theorem virt_zero_det (hi : i < n) (h : ∀ a, i ≤ a → a < n → F a i = 0) : (toM n (virt i F)).det = 0 := by
  rw [Matrix.twoBlockTriangular_det _ (fun a : Fin n => (a : Nat) ≤ i)]
  · have htri : (Matrix.toSquareBlockProp (toM n (virt i F)) (fun a : Fin n => (a : Nat) ≤ i)).BlockTriangular id := by
      rintro ⟨a, ha⟩ ⟨b, hb⟩ hab
      have hab' : (b : Nat) < (a : Nat) := hab
      show virt i F a b = 0
      unfold virt
      rw [if_pos ⟨by omega, hab'⟩]
    rw [Matrix.det_of_isUpperTriangular htri, Finset.prod_eq_zero (Finset.mem_univ ⟨⟨i, hi⟩, le_refl i⟩), zero_mul]
    show virt i F i i = 0
    unfold virt
    rw [if_neg (by omega)]
    exact h i (le_refl _) hi
  · intro a ha b hb
    show virt i F a b = 0
    unfold virt
    by_cases hbi : (b : Nat) < i
    · rw [if_pos ⟨hbi, by omega⟩]
    · rw [if_neg (by omega), show (b : Nat) = i by omega]
      exact h a (by omega) a.2

theorem virt_swap_det {c : Nat} (hi : i < n) (hc : c < n) (hic : i < c) : (toM n (virt i (swapG F c i))).det = - (toM n (virt i F)).det := by
  have h1 : toM n (virt i (swapG F c i)) = (toM n (virt i F)).submatrix (Equiv.swap (⟨c, hc⟩ : Fin n) ⟨i, hi⟩) id := by
    ext a b
    rw [Matrix.submatrix_apply, toM_apply, toM_apply]
    unfold virt swapG
    simp only [id]
    by_cases hac : a = ⟨c, hc⟩
    · subst hac
      rw [Equiv.swap_apply_left]
      dsimp only
      by_cases hb : (b : Nat) < i
      · rw [if_pos ⟨hb, by omega⟩, if_pos ⟨hb, hb⟩]
      · rw [if_neg (c := (b : Nat) < i ∧ (b : Nat) < c) (by omega), if_neg (c := (b : Nat) < i ∧ (b : Nat) < i) (by omega)]; simp
    · by_cases hai : a = ⟨i, hi⟩
      · subst hai
        rw [Equiv.swap_apply_right]
        dsimp only
        by_cases hb : (b : Nat) < i
        · rw [if_pos ⟨hb, hb⟩, if_pos ⟨hb, by omega⟩]
        · rw [if_neg (c := (b : Nat) < i ∧ (b : Nat) < i) (by omega), if_neg (c := (b : Nat) < i ∧ (b : Nat) < c) (by omega), if_neg (show ¬ i = c by omega), if_pos (by rfl)]
      · rw [Equiv.swap_apply_of_ne_of_ne hac hai]
        have h1 : (a : Nat) ≠ c := fun e => hac (Fin.ext e)
        have h2 : (a : Nat) ≠ i := fun e => hai (Fin.ext e)
        rw [if_neg h1, if_neg h2]
  rw [h1, Matrix.det_permute, Equiv.Perm.sign_swap (by intro e; have := Fin.mk.inj_iff.1 e; omega)]
  simp

theorem virt_elim_det (hi : i < n) (hd : F i i ≠ 0) {F' : Nat → Nat → K} (h : ∀ a < n, ∀ b < n, F' a b = if i < a ∧ i < b then F a b - (F a i * (1 / F i i)) * F i b else F a b) :
    (toM n (virt (i+1) F')).det = (toM n (virt i F)).det := by
  refine Matrix.det_eq_of_forall_row_eq_smul_add_const (fun a : Fin n => if i < (a : Nat) then - (F a i * (1 / F i i)) else 0) ⟨i, hi⟩ (by simp) ?_
  intro a b
  rw [toM_apply, toM_apply, toM_apply]
  unfold virt
  dsimp only
  by_cases hbi : (b : Nat) < i
  · rw [if_pos (c := (b : Nat) < i ∧ (b : Nat) < i) ⟨hbi, hbi⟩, mul_zero, add_zero]
    by_cases hba : (b : Nat) < a
    · rw [if_pos (by omega), if_pos (by omega)]
    · rw [if_neg (by omega), if_neg (by omega), h a a.2 b b.2, if_neg (by omega)]
  · rw [if_neg (c := (b : Nat) < i ∧ (b : Nat) < i) (by omega), if_neg (c := (b : Nat) < i ∧ (b : Nat) < a) (by omega)]
    by_cases hai : i < (a : Nat)
    · rw [if_pos hai]
      by_cases hb : (b : Nat) = i
      · rw [if_pos (by omega), hb]
        field_simp
        ring
      · rw [if_neg (by omega), h a a.2 b b.2, if_pos (by omega)]
        ring
    · rw [if_neg hai, if_neg (by omega), h a a.2 b b.2, if_neg (by omega)]
      ring

theorem virt_last_det : (toM n (virt n F)).det = ∏ k ∈ Finset.range n, F k k := by
  have htri : (toM n (virt n F)).BlockTriangular id := by
    intro a b hab
    have hab' : (b : Nat) < (a : Nat) := hab
    show virt n F a b = 0
    unfold virt
    rw [if_pos ⟨b.2, hab'⟩]
  rw [Matrix.det_of_isUpperTriangular htri, Finset.prod_range]
  refine Finset.prod_congr rfl fun k _ => ?_
  rw [toM_apply]
  unfold virt
  rw [if_neg (by omega)]

theorem detElim_ok (h : Rep2 x R W F) (hi : i < n) (hn : n ≤ R) (hW : n ≤ W) (hd : F i i ≠ 0) :
    ∃ x' F', detElim n i x = some x' ∧ Rep2 x' R W F' ∧ ∀ a < n, ∀ b < n, F' a b = if i < a ∧ i < b then F a b - (F a i * (1 / F i i)) * F i b else F a b := by
  unfold detElim
  rw [h.rd (by omega) (by omega), Option.bind_some, recip_ok hd, Option.bind_some]
  have key := forRange_inv (σ := Mat K) (fun j x' => ∃ F', Rep2 x' R W F' ∧ ∀ a < n, ∀ b < n, F' a b = if i < a ∧ a < j ∧ i < b then F a b - (F a i * (1 / F i i)) * F i b else F a b)
    (body := fun j x => (rd2 x j i).bind (fun a => subRow x j i (i+1) n (a * (1 / F i i)))) (show i + 1 ≤ n from hi) (s := x) ⟨F, h, fun a _ b _ => by rw [if_neg (by omega)]⟩ ?_
  · obtain ⟨x', e, F', h1, h2⟩ := key
    refine ⟨x', F', e, h1, fun a ha b hb => ?_⟩
    rw [h2 a ha b hb]
    by_cases hc : i < a ∧ i < b
    · rw [if_pos hc, if_pos ⟨hc.1, ha, hc.2⟩]
    · rw [if_neg hc, if_neg (by omega)]
  · rintro j x' hj1 hj2 ⟨F', h1, h2⟩
    rw [h1.rd (by omega) (by omega), Option.bind_some]
    obtain ⟨x2, e2, h3⟩ := subRow_ok h1 (show j < R by omega) (show i < R by omega) (show j ≠ i by omega) (show i + 1 ≤ n by omega) hW (F' j i * (1 / F i i))
    refine ⟨x2, e2, _, h3, fun a ha b hb => ?_⟩
    rw [h2 j hj2 i hi, h2 j hj2 b hb, h2 i hi b hb, h2 a ha b hb]
    rw [if_neg (c := i < j ∧ j < j ∧ i < i) (by omega), if_neg (c := i < j ∧ j < j ∧ i < b) (by omega), if_neg (c := i < i ∧ i < j ∧ i < b) (by omega)]
    by_cases haj : a = j
    · subst haj
      by_cases hib : i < b
      · rw [if_pos (by omega), if_pos (by omega)]
      · rw [if_neg (by omega), if_neg (by omega), if_neg (by omega)]
    · rw [if_neg (by omega)]
      by_cases hc : i < a ∧ a < j ∧ i < b
      · rw [if_pos hc, if_pos (by omega)]
      · rw [if_neg hc, if_neg (by omega)]

theorem detStep_ok {ret : K} (h : Rep2 x R W F) (hi : i < n) (hn : n ≤ R) (hW : n ≤ W) (hdet : ret * (toM n (virt i F)).det = (toM n A).det) :
    ∃ x' ret' fin, detStep n i (x, ret, false) = some (x', ret', fin) ∧ (fin = true → (toM n A).det = 0) ∧ (fin = false → ∃ F', Rep2 x' R W F' ∧ ret' * (toM n (virt (i+1) F')).det = (toM n A).det) := by
  unfold detStep
  rw [if_neg (by simp)]
  obtain ⟨c, e, h1, h2, h3, h4⟩ := findRow_ok h (show i < W by omega) (n - i) i (by omega)
  dsimp only
  rw [e, Option.bind_some]
  by_cases hcn : c = n
  · rw [if_pos hcn]
    refine ⟨x, 0, true, rfl, fun _ => ?_, (fun h => by cases h)⟩
    rw [← hdet, virt_zero_det hi (fun a ha1 ha2 => h3 a ha1 (by omega)), mul_zero]
  · rw [if_neg hcn]
    have hd := h4 (by omega)
    have hsw : ∃ x1 F1 ret1, detSwap i c (x, ret) = some (x1, ret1) ∧ Rep2 x1 R W F1 ∧ F1 i i ≠ 0 ∧ ret1 * (toM n (virt i F1)).det = (toM n A).det := by
      unfold detSwap
      by_cases hci : c = i
      · rw [if_neg (fun e => e hci)]
        subst hci
        exact ⟨x, F, ret, rfl, h, hd, hdet⟩
      · rw [if_pos hci]
        obtain ⟨x1, e1, k1⟩ := swapRows_ok h (show c < R by omega) (show i < R by omega) hci
        dsimp only
        rw [e1]
        refine ⟨x1, _, -ret, rfl, k1, ?_, ?_⟩
        · unfold swapG; rw [if_neg (Ne.symm hci), if_pos rfl]; exact hd
        · rw [virt_swap_det hi (by omega) (by omega), neg_mul_neg]; exact hdet
    obtain ⟨x1, F1, ret1, e1, k1, k2, k3⟩ := hsw
    obtain ⟨x2, F2, e2, k4, k5⟩ := detElim_ok k1 hi hn hW k2
    rw [e1, Option.bind_some]
    dsimp only
    rw [e2]
    refine ⟨x2, ret1, false, rfl, (fun h => by cases h), fun _ => ⟨F2, k4, ?_⟩⟩
    rw [virt_elim_det hi k2 k5]
    exact k3

theorem det_ok (ha : Rep2 a R W A) (hn : n ≤ R) (hW : n ≤ W) : det n a = some (toM n A).det := by
  unfold det
  have key := forRange_inv (σ := Mat K × K × Bool) (fun i s => (s.2.2 = true → (toM n A).det = 0) ∧ (s.2.2 = false → ∃ F, Rep2 s.1 R W F ∧ s.2.1 * (toM n (virt i F)).det = (toM n A).det))
    (body := detStep n) (Nat.zero_le n) (s := (a, 1, false)) ⟨(fun h => by cases h), fun _ => ⟨A, ha, ?_⟩⟩ ?_
  · obtain ⟨⟨x, ret, fin⟩, e, h1, h2⟩ := key
    rw [e, Option.bind_some]
    dsimp only
    cases fin with
    | true => rw [if_pos rfl, h1 rfl]
    | false =>
      rw [if_neg (by simp)]
      obtain ⟨F, h3, h4⟩ := h2 rfl
      dsimp only at h3 h4
      rw [virt_last_det] at h4
      have key2 := forRange_inv (σ := K) (fun i p => p = ret * ∏ k ∈ Finset.range i, F k k) (body := fun i p => (rd2 x i i).map (fun v => p * v)) (Nat.zero_le n) (s := ret) (by simp) (fun i p _ hi hp => by
        refine ⟨p * F i i, by rw [h3.rd (by omega) (by omega)]; rfl, ?_⟩
        rw [hp, Finset.prod_range_succ, mul_assoc])
      obtain ⟨r, e2, h5⟩ := key2
      rw [e2, h5, h4]
  · dsimp only
    rw [one_mul]
    congr 1
  · rintro i ⟨x, ret, fin⟩ _ hi ⟨h1, h2⟩
    dsimp only at h1 h2
    cases fin with
    | true =>
      refine ⟨(x, ret, true), ?_, fun _ => h1 rfl, (fun h => by cases h)⟩
      unfold detStep
      rw [if_pos rfl]
    | false =>
      obtain ⟨F, h3, h4⟩ := h2 rfl
      obtain ⟨x', ret', fin', e, k1, k2⟩ := detStep_ok h3 hi hn hW h4
      exact ⟨(x', ret', fin'), e, k1, k2⟩

/-! ### inv -/

theorem withI_ok {C : Nat} (ha : Rep2 a R C A) (hr : n ≤ R) (hc : n ≤ C) :
    ∃ x F, withI R C n a = some x ∧ Rep2 x R (C*2) F ∧ ∀ i < n, (∀ j < n, F i j = A i j) ∧ ∀ j < n, F i (n+j) = if j = i then 1 else 0 := by
  unfold withI
  have key := forRange_inv (σ := Mat K) (fun k x' => ∃ F, Rep2 x' R (C*2) F ∧ (∀ i < k, (∀ j < n, F i j = A i j) ∧ ∀ j < n, F i (n+j) = if j = i then 1 else 0) ∧ ∀ i, k ≤ i → ∀ j, F i j = 0)
    (body := fun i x => (forRange 0 n (fun j x => (rd2 a i j).bind (fun v => wr2 x i j v)) x).bind (fun x => wr2 x i (n+i) 1))
    (Nat.zero_le n) (s := zero R (C*2)) ⟨_, zero_rep R (C*2), fun i hi => by omega, fun _ _ _ => rfl⟩ ?_
  · obtain ⟨x, e, F, h1, h2, _⟩ := key
    exact ⟨x, F, e, h1, h2⟩
  · rintro i x' _ hi ⟨F, h1, h2, h0⟩
    obtain ⟨x2, e2, h3⟩ := copyRow_ok h1 ha (show i < R by omega) hc (show n ≤ C * 2 by omega)
    rw [e2, Option.bind_some]
    obtain ⟨x3, e3, h4⟩ := h3.wr (show i < R by omega) (show n + i < C * 2 by omega) 1
    refine ⟨x3, e3, _, h4, fun k hk => ?_, fun k hk j => ?_⟩
    · rcases Nat.lt_succ_iff_lt_or_eq.1 hk with hk' | rfl
      · refine ⟨fun j hj => ?_, fun j hj => ?_⟩
        · rw [upd2_ne _ _ (by omega), if_neg (by omega)]; exact (h2 k hk').1 j hj
        · rw [upd2_ne _ _ (by omega), if_neg (by omega)]; exact (h2 k hk').2 j hj
      · refine ⟨fun j hj => ?_, fun j hj => ?_⟩
        · rw [upd2_ne _ _ (by omega), if_pos ⟨rfl, hj⟩]
        · by_cases hjk : j = k
          · subst hjk; rw [upd2_same, if_pos rfl]
          · rw [upd2_ne _ _ (by omega), if_neg (by omega), if_neg hjk]; exact h0 k (le_refl _) _
    · rw [upd2_ne _ _ (by omega), if_neg (by omega)]; exact h0 k (by omega) j

/-- A matrix with a non-zero kernel vector is not invertible. -/
theorem not_unit {V : Nat → K} (hV : Ker n n A V) {j : Nat} (hj : j < n) (hne : V j ≠ 0) : ¬ IsUnit (toM n A) := by
  intro hu
  have h1 : (toM n A).mulVec (fun i : Fin n => V i) = 0 := by
    funext i
    have := hV i i.2
    rw [Finset.sum_range] at this
    simpa [Matrix.mulVec, dotProduct, toM_apply] using this
  obtain ⟨u, hu'⟩ := hu
  have h2 : ((u⁻¹ : (Matrix (Fin n) (Fin n) K)ˣ) : Matrix (Fin n) (Fin n) K) * toM n A = 1 := by rw [← hu']; simp
  have h3 : (fun i : Fin n => V i) = 0 := by
    rw [← Matrix.one_mulVec (fun i : Fin n => V i), ← h2, ← Matrix.mulVec_mulVec, h1, Matrix.mulVec_zero]
  exact hne (congrFun h3 ⟨j, hj⟩)

theorem inv_ok {C : Nat} (ha : Rep2 a R C A) (hr : n ≤ R) (hc : n ≤ C) :
    ∃ ret ok F, inv R C a n = some (ret, ok) ∧ Rep2 ret R C F ∧ (ok = true → toM n A * toM n F = 1) ∧ (ok = false → ¬ IsUnit (toM n A)) := by
  obtain ⟨x, F0, e1, h1, h2⟩ := withI_ok ha hr hc
  obtain ⟨x', rank, p, G, q, e2, hq, h3, I, P⟩ := gauss_ok (l := n) (r := n) hr (show n + n ≤ C * 2 by omega) h1 none (Or.inl rfl)
  have hkA : ∀ y, Ker n n F0 y ↔ Ker n n A y := fun y => Ker.congr (fun i hi j hj => (h2 i hi).1 j hj)
  have hker : ∀ y, Ker n n G y ↔ Ker n n A y := fun y => (I.ker_iff y).trans (hkA y)
  unfold inv
  rw [e1, Option.bind_some, e2, Option.bind_some]
  dsimp only
  by_cases hrk : rank = n
  · rw [if_neg (fun e => e hrk)]
    subst hrk
    have hp : ∀ k < rank, p k = k := by
      intro k hk
      have := pe_room I (show k ≤ rank by omega)
      unfold pe at this
      rw [if_pos hk] at this
      omega
    have key := forRange_inv (σ := Mat K) (fun k r => ∃ F, Rep2 r R C F ∧ ∀ i < k, ∀ j < rank, F i j = G i (rank + j))
      (body := fun i ret => forRange 0 rank (fun j ret => (rd2 x' i (rank+j)).bind (fun v => wr2 ret i j v)) ret) (Nat.zero_le rank) (s := (zero R C : Mat K)) ⟨_, zero_rep R C, fun i hi => by omega⟩ ?_
    · obtain ⟨r, e3, F, k1, k2⟩ := key
      rw [e3]
      refine ⟨r, true, F, rfl, k1, fun _ => ?_, (fun h => by cases h)⟩
      ext ⟨i, hi⟩ ⟨j, hj⟩
      -- the kernel vector of column `rank + j`
      have hk : Ker rank (rank + rank) G (fun b => if b < rank then G b (rank + j) else if b = rank + j then -1 else 0) := by
        intro c hc
        rw [Finset.sum_range_add, Finset.sum_eq_single c, Finset.sum_eq_single j]
        · dsimp only
          rw [if_pos hc, if_neg (by omega), if_pos rfl]
          have := I.one c hc
          rw [hp c hc] at this
          rw [this]; ring
        · intro b _ hb
          dsimp only
          rw [if_neg (by omega), if_neg (by omega), mul_zero]
        · intro h; exact absurd (Finset.mem_range.2 hj) h
        · intro b hb hne
          have hb := Finset.mem_range.1 hb
          have := I.zero b hb c hc (Ne.symm hne)
          rw [hp b hb] at this
          rw [this, zero_mul]
        · intro h; exact absurd (Finset.mem_range.2 hc) h
      have hk0 := (I.ker _).1 hk i hi
      rw [Finset.sum_range_add, Finset.sum_eq_single (s := Finset.range rank) (f := fun b => F0 i (rank + b) * _) j] at hk0
      · rw [if_neg (by omega), if_pos rfl, (h2 i hi).2 j hj] at hk0
        rw [Matrix.mul_apply, Matrix.one_apply]
        have e4 : ∑ b : Fin rank, toM rank A ⟨i, hi⟩ b * toM rank F b ⟨j, hj⟩ = ∑ b ∈ Finset.range rank, F0 i b * (if b < rank then G b (rank + j) else if b = rank + j then -1 else 0) := by
          rw [Finset.sum_range]
          refine Finset.sum_congr rfl fun b _ => ?_
          rw [toM_apply, toM_apply, (h2 i hi).1 b b.2, if_pos b.2, k2 b b.2 j hj]
        rw [e4, eq_neg_of_add_eq_zero_left hk0, mul_neg, mul_one, neg_neg]
        by_cases hij : j = i
        · subst hij; rw [if_pos rfl, if_pos rfl]
        · rw [if_neg hij, if_neg (fun e => hij (Fin.mk.inj_iff.1 e).symm)]
      · intro b _ hb
        rw [if_neg (by omega), if_neg (by omega), mul_zero]
      · intro h; exact absurd (Finset.mem_range.2 hj) h
    · rintro i r _ hi ⟨F, k1, k2⟩
      have key2 := forRange_inv (σ := Mat K) (fun k r => ∃ F, Rep2 r R C F ∧ (∀ i' < i, ∀ j < rank, F i' j = G i' (rank + j)) ∧ ∀ j < k, F i j = G i (rank + j))
        (body := fun j ret => (rd2 x' i (rank+j)).bind (fun v => wr2 ret i j v)) (Nat.zero_le rank) (s := r) ⟨F, k1, k2, fun j hj => by omega⟩ ?_
      · obtain ⟨r2, e4, F2, k3, k4, k5⟩ := key2
        refine ⟨r2, e4, F2, k3, fun i' hi' j hj => ?_⟩
        rcases Nat.lt_succ_iff_lt_or_eq.1 hi' with h | rfl
        · exact k4 i' h j hj
        · exact k5 j hj
      · rintro j r' _ hj ⟨F', k3, k4, k5⟩
        rw [h3.rd (by omega) (by omega), Option.bind_some]
        obtain ⟨r2, e4, k6⟩ := k3.wr (show i < R by omega) (show j < C by omega) (G i (rank + j))
        refine ⟨r2, e4, _, k6, ?_, ?_⟩
        · intro i' hi' j' hj'
          rw [upd2_ne _ _ (by omega)]; exact k4 i' hi' j' hj'
        · intro j' hj'
          by_cases h : j' = j
          · subst h; exact upd2_same ..
          · rw [upd2_ne _ _ (by omega)]; exact k5 j' (by omega)
  · rw [if_pos hrk]
    refine ⟨_, false, _, rfl, zero_rep R C, (fun h => by cases h), fun _ => ?_⟩
    obtain ⟨V, hV⟩ := basis_ex I
    have hle := I.le
    have hex : ∃ j < n, V 0 j ≠ 0 := by
      by_contra hc
      have := hV.indep (fun _ => 1) 
      have hz : ∀ j < n, V 0 j = 0 := fun j hj => by
        by_contra h
        exact hc ⟨j, hj, h⟩
      have h0 := hV.indep (fun t => if t = 0 then 1 else 0) (fun j hj => by
        refine Finset.sum_eq_zero fun t _ => ?_
        by_cases ht : t = 0
        · subst ht; rw [hz j hj, mul_zero]
        · rw [if_neg ht, zero_mul]) 0 (by omega)
      simp at h0
    obtain ⟨j, hj, hne⟩ := hex
    exact not_unit ((hker _).1 (hV.mem 0 (by omega))) hj hne

end Verif.Gauss
