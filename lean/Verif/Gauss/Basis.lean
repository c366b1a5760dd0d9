import Verif.Gauss.Elim
import Mathlib.Algebra.BigOperators.Intervals
import Mathlib.Data.Finset.Card
import Mathlib.Data.Fintype.EquivFin
/-!
Solutions and kernel of a system in reduced echelon form.
-/
namespace Verif.Gauss
open Verif Verif.MatrixM

variable {K : Type} [Field K] [DecidableEq K] {G G0 : Nat → Nat → K} {row w l rank : Nat} {p : Nat → Nat}

/-- `x` solves the system `A x = b` with `m` equations and `n` unknowns. -/
def IsSol (m n : Nat) (A : Nat → Nat → K) (b : Nat → K) (x : Nat → K) : Prop := ∀ i < m, ∑ j ∈ Finset.range n, A i j * x j = b i

/-- `V 0, …, V (k-1)` is a basis of the solutions of `A x = 0`. -/
structure IsBasis (m n : Nat) (A : Nat → Nat → K) (k : Nat) (V : Nat → Nat → K) : Prop where
  mem : ∀ t < k, IsSol m n A (fun _ => 0) (V t)
  span : ∀ x, IsSol m n A (fun _ => 0) x → ∃ a : Nat → K, ∀ j < n, x j = ∑ t ∈ Finset.range k, a t * V t j
  indep : ∀ a : Nat → K, (∀ j < n, ∑ t ∈ Finset.range k, a t * V t j = 0) → ∀ t < k, a t = 0

/-- Not a pivot column. -/
def Free (rank : Nat) (p : Nat → Nat) (c : Nat) : Prop := ∀ k < rank, p k ≠ c

instance : DecidablePred (Free rank p) := fun _ => by unfold Free; infer_instance

/-- The free columns. -/
def frees (l rank : Nat) (p : Nat → Nat) : Finset Nat := (Finset.range l).filter (Free rank p)

theorem mem_frees {c : Nat} : c ∈ frees l rank p ↔ c < l ∧ Free rank p c := by
  unfold frees; rw [Finset.mem_filter, Finset.mem_range]

theorem row_sum (I : RI row w l rank p G0 G) (x : Nat → K) {i : Nat} (hi : i < rank) : ∑ j ∈ Finset.range l, G i j * x j = x (p i) + ∑ c ∈ frees l rank p, G i c * x c := by
  rw [← Finset.sum_filter_add_sum_filter_not (Finset.range l) (Free rank p), add_comm]
  congr 1
  rw [Finset.sum_eq_single (p i)]
  · rw [I.one i hi, one_mul]
  · intro j hj hne
    rw [Finset.mem_filter, Finset.mem_range] at hj
    have : ∃ k < rank, p k = j := by
      by_contra hc
      exact hj.2 (fun k hk e => hc ⟨k, hk, e⟩)
    obtain ⟨k, hk, rfl⟩ := this
    have hki : k ≠ i := fun e => hne (by rw [e])
    rw [I.zero k hk i (by have := I.ler; omega) (Ne.symm hki), zero_mul]
  · intro hn
    exfalso
    apply hn
    rw [Finset.mem_filter, Finset.mem_range]
    exact ⟨I.lt i hi, fun h => h i hi rfl⟩

theorem row_zero (I : RI row w l rank p G0 G) (x : Nat → K) {i : Nat} (h1 : rank ≤ i) (h2 : i < row) : ∑ j ∈ Finset.range l, G i j * x j = 0 :=
  Finset.sum_eq_zero fun j hj => by rw [I.low i h1 h2 j (Finset.mem_range.1 hj), zero_mul]

theorem RI.inj (I : RI row w l rank p G0 G) {a b : Nat} (ha : a < rank) (hb : b < rank) (h : p a = p b) : a = b := by
  rcases Nat.lt_trichotomy a b with h' | h' | h'
  · have := I.mono a b h' hb; omega
  · exact h'
  · have := I.mono b a h' ha; omega

theorem card_frees (I : RI row w l rank p G0 G) : (frees l rank p).card = l - rank := by
  have h1 : frees l rank p = Finset.range l \ (Finset.range rank).image p := by
    ext c
    rw [mem_frees, Finset.mem_sdiff, Finset.mem_range, Finset.mem_image]
    refine and_congr_right fun _ => ⟨fun h ⟨k, hk, e⟩ => h k (Finset.mem_range.1 hk) e, fun h k hk e => h ⟨k, Finset.mem_range.2 hk, e⟩⟩
  have h2 : (Finset.range rank).image p ⊆ Finset.range l := by
    intro c hc
    obtain ⟨k, hk, rfl⟩ := Finset.mem_image.1 hc
    exact Finset.mem_range.2 (I.lt k (Finset.mem_range.1 hk))
  rw [h1, Finset.card_sdiff_of_subset h2, Finset.card_range, Finset.card_image_of_injOn (fun a ha b hb e => I.inj (Finset.mem_range.1 ha) (Finset.mem_range.1 hb) e), Finset.card_range]

/-- The kernel vector of a free column. -/
structure VP (l rank : Nat) (p : Nat → Nat) (G : Nat → Nat → K) (c : Nat) (v : Nat → K) : Prop where
  one : v c = 1
  piv : ∀ k < rank, v (p k) = - G k c
  zero : ∀ q < l, Free rank p q → q ≠ c → v q = 0

/-- `fr` enumerates the free columns below `hi`. -/
structure Enum (l rank : Nat) (p : Nat → Nat) (hi k : Nat) (fr : Nat → Nat) : Prop where
  lt : ∀ t < k, fr t < hi ∧ Free rank p (fr t)
  inj : ∀ a < k, ∀ b < k, fr a = fr b → a = b
  surj : ∀ c < hi, Free rank p c → ∃ t < k, fr t = c

theorem Enum.sum {k : Nat} {fr : Nat → Nat} (E : Enum l rank p l k fr) (f : Nat → K) : ∑ c ∈ frees l rank p, f c = ∑ t ∈ Finset.range k, f (fr t) := by
  symm
  refine Finset.sum_nbij fr ?_ ?_ ?_ (fun _ _ => rfl)
  · intro t ht
    exact mem_frees.2 (E.lt t (Finset.mem_range.1 ht))
  · intro a ha b hb e
    exact E.inj a (by simpa using ha) b (by simpa using hb) e
  · intro c hc
    obtain ⟨h1, h2⟩ := mem_frees.1 hc
    obtain ⟨t, ht, rfl⟩ := E.surj c h1 h2
    exact ⟨t, by simpa using ht, rfl⟩

theorem enum_ex (I : RI row w l rank p G0 G) : ∃ fr, Enum l rank p l (l - rank) fr := by
  have e := (frees l rank p).equivFinOfCardEq (card_frees I)
  refine ⟨fun t => if h : t < l - rank then (e.symm ⟨t, h⟩ : Nat) else 0, ?_, ?_, ?_⟩
  · intro t ht
    rw [dif_pos ht]
    exact mem_frees.1 (e.symm ⟨t, ht⟩).2
  · intro a ha b hb h
    rw [dif_pos ha, dif_pos hb] at h
    have := e.symm.injective (Subtype.ext h)
    exact Fin.mk.inj_iff.1 this
  · intro c hc hf
    refine ⟨e ⟨c, mem_frees.2 ⟨hc, hf⟩⟩, (e _).2, ?_⟩
    rw [dif_pos (e _).2]
    simp

/-- The vectors of the free columns are a basis. -/
theorem basis_of (I : RI row w l rank p G0 G) {k : Nat} {fr : Nat → Nat} (E : Enum l rank p l k fr) {V : Nat → Nat → K} (hV : ∀ t < k, VP l rank p G (fr t) (V t)) : IsBasis row l G k V := by
  have hfree : ∀ a : Nat → K, ∀ t < k, ∑ t' ∈ Finset.range k, a t' * V t' (fr t) = a t := by
    intro a t ht
    rw [Finset.sum_eq_single t]
    · rw [(hV t ht).one, mul_one]
    · intro t' ht' hne
      have ht' := Finset.mem_range.1 ht'
      rw [(hV t' ht').zero _ (E.lt t ht).1 (E.lt t ht).2 (fun e => hne (E.inj t' ht' t ht e.symm)), mul_zero]
    · intro h; exact absurd (Finset.mem_range.2 ht) h
  refine ⟨?_, ?_, ?_⟩
  · intro t ht i hi
    by_cases hir : i < rank
    · rw [row_sum I _ hir, (hV t ht).piv i hir, Finset.sum_eq_single (fr t)]
      · rw [(hV t ht).one]; ring
      · intro c hc hne
        rw [(hV t ht).zero c (mem_frees.1 hc).1 (mem_frees.1 hc).2 hne, mul_zero]
      · intro h; exact absurd (mem_frees.2 (E.lt t ht)) h
    · exact row_zero I _ (by omega) hi
  · intro x hx
    refine ⟨fun t => x (fr t), fun j hj => ?_⟩
    by_cases hf : Free rank p j
    · obtain ⟨t, ht, rfl⟩ := E.surj j hj hf
      rw [hfree (fun t => x (fr t)) t ht]
    · have : ∃ k < rank, p k = j := by
        by_contra hc
        exact hf (fun k hk e => hc ⟨k, hk, e⟩)
      obtain ⟨i, hi, rfl⟩ := this
      have h1 := hx i (by have := I.ler; omega)
      rw [row_sum I _ hi, E.sum] at h1
      rw [eq_neg_of_add_eq_zero_left h1, ← Finset.sum_neg_distrib]
      refine Finset.sum_congr rfl fun t ht => ?_
      rw [(hV t (Finset.mem_range.1 ht)).piv i hi]; ring
  · intro a ha t ht
    rw [← hfree a t ht]
    exact ha _ (E.lt t ht).1

theorem isSol_zero {A : Nat → Nat → K} {x : Nat → K} {m n : Nat} : IsSol m n A (fun _ => 0) x ↔ Ker m n A x := Iff.rfl

/-- The kernel of the left part. -/
theorem ker_left {r : Nat} {x : Nat → K} {A : Nat → Nat → K} : Ker row (l + r) A (fun j => if j < l then x j else 0) ↔ Ker row l A x := by
  unfold Ker
  refine forall_congr' fun a => forall_congr' fun _ => ?_
  have h1 : ∑ b ∈ Finset.range (l + r), A a b * (if b < l then x b else 0) = ∑ b ∈ Finset.range l, A a b * x b := by
    rw [Finset.sum_range_add, Finset.sum_congr rfl (fun b hb => by rw [if_pos (Finset.mem_range.1 hb)]), Finset.sum_eq_zero (s := Finset.range r), add_zero]
    intro b _
    rw [if_neg (by omega), mul_zero]
  rw [h1]

/-- Solutions as kernel vectors of the augmented matrix. -/
theorem ker_aug {x : Nat → K} {A : Nat → Nat → K} : Ker row (l + 1) A (fun j => if j < l then x j else -1) ↔ IsSol row l A (fun i => A i l) x := by
  unfold Ker IsSol
  refine forall_congr' fun a => forall_congr' fun _ => ?_
  have h1 : ∑ b ∈ Finset.range (l + 1), A a b * (if b < l then x b else -1) = ∑ b ∈ Finset.range l, A a b * x b - A a l := by
    rw [Finset.sum_range_succ, Finset.sum_congr rfl (fun b hb => by rw [if_pos (Finset.mem_range.1 hb)]), if_neg (lt_irrefl _)]
    ring
  rw [h1, sub_eq_zero]

theorem RI.ker_iff {r : Nat} (I : RI row (l + r) l rank p G0 G) (x : Nat → K) : Ker row l G x ↔ Ker row l G0 x := by
  rw [← ker_left (r := r), I.ker, ker_left]

theorem RI.sol_iff (I : RI row (l + 1) l rank p G0 G) (x : Nat → K) : IsSol row l G (fun i => G i l) x ↔ IsSol row l G0 (fun i => G0 i l) x := by
  rw [← ker_aug, I.ker, ker_aug]

theorem IsBasis.of_iff {m n k : Nat} {A A' : Nat → Nat → K} {V : Nat → Nat → K} (h : ∀ x, Ker m n A x ↔ Ker m n A' x) (B : IsBasis m n A k V) : IsBasis m n A' k V :=
  ⟨fun t ht => (h _).1 (B.mem t ht), fun x hx => B.span x ((h x).2 hx), B.indep⟩

/-- The particular solution. -/
theorem sol_of (I : RI row w l rank p G0 G) {x : Nat → K} (h1 : ∀ k < rank, x (p k) = G k l) (h2 : ∀ c < l, Free rank p c → x c = 0) (h3 : ∀ i, rank ≤ i → i < row → G i l = 0) : IsSol row l G (fun i => G i l) x := by
  intro i hi
  by_cases hir : i < rank
  · rw [row_sum I _ hir, h1 i hir, Finset.sum_eq_zero, add_zero]
    intro c hc
    rw [h2 c (mem_frees.1 hc).1 (mem_frees.1 hc).2, mul_zero]
  · rw [row_zero I _ (by omega) hi]
    exact (h3 i (by omega) hi).symm

/-- No solution if some zero row has a non-zero right-hand side. -/
theorem no_sol (I : RI row w l rank p G0 G) {x : Nat → K} {i : Nat} (h1 : rank ≤ i) (h2 : i < row) (h3 : G i l ≠ 0) : ¬ IsSol row l G (fun i => G i l) x := by
  intro h
  have := h i h2
  rw [row_zero I _ h1 h2] at this
  exact h3 this.symm

open Classical in
/-- Some basis exists, with `l - rank` vectors. -/
theorem basis_ex (I : RI row w l rank p G0 G) : ∃ V, IsBasis row l G (l - rank) V := by
  obtain ⟨fr, E⟩ := enum_ex I
  refine ⟨fun t q => if q = fr t then 1 else if h : ∃ k < rank, p k = q then - G (Classical.choose h) (fr t) else 0, basis_of I E (fun t ht => ⟨by rw [if_pos rfl], ?_, ?_⟩)⟩
  · intro k hk
    have hne : p k ≠ fr t := fun e => (E.lt t ht).2 k hk e
    have hex : ∃ k' < rank, p k' = p k := ⟨k, hk, rfl⟩
    rw [if_neg hne, dif_pos hex]
    have hs := Classical.choose_spec hex
    rw [I.inj hs.1 hk hs.2]
  · intro q _ hf hne
    rw [if_neg hne, dif_neg (fun ⟨k, hk, e⟩ => hf k hk e)]

end Verif.Gauss
