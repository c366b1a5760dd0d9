import Verif.Fps.Props
import Verif.Common.Count
/-!
# C143: the number of steps of the sparse product
-/
namespace Verif.Fps
open Verif.Modular Verif.Ntt Finset

/-- `sparseRow` with the number of rounds, each one multiplication and addition (fps.hpp:130-132). -/
def sparseRowC (p i x : Nat) : List (Nat × Nat) → List Nat × Nat → Option (List Nat × Nat)
  | [], h => some h
  | j :: js, h => (addMul p (i + j.1) x j.2 h.1).bind (fun h' => sparseRowC p i x js (h', h.2 + 1))

/-- One round of the outer loop and the rounds of its inner loop (fps.hpp:130-132). -/
def sparseStepC (p : Nat) (f r : List Nat) (i : Nat) (h : List Nat × Nat) : Option (List Nat × Nat) :=
  (f[i]?).bind (fun x => if x ≠ 0 then sparseRowC p i x (terms r r.length) (h.1, h.2 + 1) else some (h.1, h.2 + 1))

/-- `mulSparse` with the number of rounds of its loops (fps.hpp:126-134): `term_ties` looks at every coefficient of `r` (fps.hpp:112-114). -/
def mulSparseC (p : Nat) (f r : List Nat) : Option (List Nat × Nat) :=
  match (terms r r.length).getLast? with
  | none => some ([], r.length)
  | some l => forRange 0 f.length (sparseStepC p f r) (List.replicate (f.length + l.1) 0, r.length)

theorem sparseRowC_fst (p i x : Nat) : ∀ ts h, (sparseRowC p i x ts h).map Prod.fst = sparseRow p i x ts h.1
  | [], _ => rfl
  | j :: js, h => by
      rw [sparseRowC, sparseRow]
      exact bind_same _ (fun h' => sparseRowC_fst p i x js (h', h.2 + 1))

theorem mulSparseC_fst (p : Nat) (f r : List Nat) : (mulSparseC p f r).map Prod.fst = mulSparse p f r := by
  unfold mulSparseC mulSparse
  cases (terms r r.length).getLast? with
  | none => rfl
  | some l =>
    refine forUp_fst (fun i s => ?_) _ _ (List.replicate (f.length + l.1) 0, r.length)
    unfold sparseStepC
    refine bind_same _ (fun x => ?_)
    split
    · exact sparseRowC_fst p i x _ (s.1, s.2 + 1)
    · rfl

theorem sparseRowC_cost (p i x : Nat) : ∀ ts h h', sparseRowC p i x ts h = some h' → h'.2 = h.2 + ts.length
  | [], h, h', e => by cases e; rfl
  | j :: js, h, h', e => by
      rw [sparseRowC, Option.bind_eq_some_iff] at e
      obtain ⟨h1, _, e⟩ := e
      have := sparseRowC_cost p i x js _ _ e
      rw [this, List.length_cons]
      dsimp only
      omega

theorem termsFrom_length : ∀ (f : List Nat) (o : Nat), (termsFrom o f).length = f.countP (· != 0)
  | [], _ => rfl
  | a :: f, o => by
      rw [termsFrom, List.countP_cons]
      by_cases h : a = 0
      · subst h
        simp [termsFrom_length f (o+1)]
      · simp [h, termsFrom_length f (o+1)]

theorem terms_length (r : List Nat) : (terms r r.length).length = r.countP (· != 0) := by
  rw [terms_eq, termsFrom_length, List.take_length]

theorem sum_terms (K : Nat) : ∀ f : List Nat, ∑ i ∈ range f.length, (1 + if f.getD i 0 ≠ 0 then K else 0) = f.length + f.countP (· != 0) * K
  | [] => by simp
  | a :: f => by
      rw [List.length_cons, sum_range_succ', List.countP_cons]
      have : ∑ i ∈ range f.length, (1 + if (a :: f).getD (i+1) 0 ≠ 0 then K else 0) = ∑ i ∈ range f.length, (1 + if f.getD i 0 ≠ 0 then K else 0) := rfl
      rw [this, sum_terms K f, List.getD_cons_zero]
      by_cases h : a = 0
      · subst h
        simp
        omega
      · simp [h, Nat.succ_mul]
        omega

/-- The number of non-zero terms. -/
def nonzero (f : List Nat) : Nat := f.countP (· != 0)

/-- C143, partial: the sparse product of `f` and `r ≠ 0` makes exactly `N K` multiplications, for the numbers `N` and `K` of non-zero terms, but also looks at each of the
coefficients of both, zero or not.  The documented bound `O(N K)` omits these; see `C143_violated`. -/
theorem C143_rounds_partial {p : Nat} (h0 : 0 < p) (hp : p < 2^31) (f r : List Nat) (hf : ∀ a ∈ f, a < p) (hr : ∀ a ∈ r, a < p) (hr0 : nonzero r ≠ 0) :
    ∃ h, mulSparseC p f r = some (h, f.length + r.length + nonzero f * nonzero r) ∧ mulSparse p f r = some h := by
  obtain ⟨h, e, _⟩ := C64_product_sparse h0 hp f r hf hr
  obtain ⟨k, ek⟩ := of_fst (mulSparseC_fst p f r) e
  refine ⟨h, ?_, e⟩
  rw [ek]
  unfold mulSparseC at ek
  cases hl : (terms r r.length).getLast? with
  | none =>
    have hn : terms r r.length = [] := List.getLast?_eq_none_iff.1 hl
    have := terms_length r
    rw [hn] at this
    exact absurd this.symm hr0
  | some l =>
    rw [hl] at ek
    have h1 := forUp_exact (fun i => 1 + if f.getD i 0 ≠ 0 then nonzero r else 0) _ _ _ _ (fun i s s' _ hi e => by
      unfold sparseStepC at e
      have hi : i < f.length := by omega
      rw [List.getElem?_eq_getElem hi, Option.bind_some] at e
      have hg : f.getD i 0 = f[i] := by rw [List.getD_eq_getElem?_getD, List.getElem?_eq_getElem hi]; rfl
      rw [hg]
      by_cases hz : f[i] ≠ 0
      · rw [if_pos hz] at e ⊢
        have := sparseRowC_cost _ _ _ _ _ _ e
        rw [this, terms_length]
        unfold nonzero
        dsimp only
        omega
      · rw [if_neg hz] at e ⊢
        cases e
        rfl) ek
    have h2 := sum_terms (nonzero r) f
    have h3 : ∑ i ∈ range (f.length - 0), (1 + if f.getD (0 + i) 0 ≠ 0 then nonzero r else 0) = ∑ i ∈ range f.length, (1 + if f.getD i 0 ≠ 0 then nonzero r else 0) :=
      sum_congr rfl (fun i _ => by rw [Nat.zero_add])
    dsimp only at h1
    rw [h3, h2] at h1
    have h4 : k = f.length + r.length + nonzero f * nonzero r := by
      unfold nonzero at h1 ⊢
      omega
    rw [h4]

/-- C143 is violated: the documented bound `O(N K)` (fps.hpp:122-125) fails, no factor `c` suffices: the factors `x^(c+1)` and `1` have one term each. -/
theorem C143_violated (c : Nat) : nonzero (List.replicate (c+1) 0 ++ [1]) = 1 ∧ nonzero [1] = 1 ∧
    ∃ h k, mulSparseC 998244353 (List.replicate (c+1) 0 ++ [1]) [1] = some (h, k) ∧ c * (1 * 1) < k := by
  have hn : nonzero (List.replicate (c+1) 0 ++ [1]) = 1 := by
    unfold nonzero
    rw [List.countP_append, List.countP_replicate]
    rfl
  refine ⟨hn, rfl, ?_⟩
  obtain ⟨h, e, _⟩ := C143_rounds_partial (p := 998244353) (by omega) (by omega) (List.replicate (c+1) 0 ++ [1]) [1]
    (fun a ha => by
      rcases List.mem_append.1 ha with ha | ha
      · have := List.eq_of_mem_replicate ha; omega
      · have := List.mem_singleton.1 ha; omega)
    (fun a ha => by have := List.mem_singleton.1 ha; omega) (by decide)
  refine ⟨h, _, e, ?_⟩
  rw [List.length_append, List.length_replicate]
  omega

/-- Three terms times two terms among ten coefficients: 6 multiplications, 16 rounds. -/
example : mulSparseC 17 [1, 0, 0, 5, 0, 2] [3, 0, 0, 4] = some ([3, 0, 0, 2, 0, 6, 3, 0, 8], 16) := by decide +kernel
example : nonzero [1, 0, 0, 5, 0, 2] = 3 ∧ nonzero [3, 0, 0, 4] = 2 ∧ nonzero [3, 0, 0, 4] ≠ 0 := by decide

end Verif.Fps
