import Verif.Fps.Model
import Verif.Ntt.Conv
/-!
The product of two series: lists of terms, the sparse and the dense product.
-/
namespace Verif.Fps
open Verif.Modular Verif.Ntt

/-- The terms of `f` with exponents counted from `o`. -/
def termsFrom (o : Nat) : List Nat → List (Nat × Nat)
  | [] => []
  | a :: f => if a ≠ 0 then (o, a) :: termsFrom (o+1) f else termsFrom (o+1) f

theorem termsFrom_eq : ∀ (f : List Nat) o, ((f.zipIdx o).filter (fun x => x.1 != 0)).map (fun x => (x.2, x.1)) = termsFrom o f
  | [], _ => rfl
  | a :: f, o => by
    rw [List.zipIdx_cons, List.filter_cons, termsFrom]
    by_cases h : a = 0
    · subst h
      simp [termsFrom_eq f (o+1)]
    · simp [h, termsFrom_eq f (o+1)]

theorem terms_eq (f : List Nat) (n : Nat) : terms f n = termsFrom 0 (f.take n) := termsFrom_eq _ _

theorem termsFrom_ge : ∀ (f : List Nat) o, ∀ t ∈ termsFrom o f, o ≤ t.1 ∧ t.1 < o + f.length ∧ t.2 ≠ 0 ∧ t.2 ∈ f
  | [], _, t, h => by simp [termsFrom] at h
  | a :: f, o, t, h => by
    have ih := termsFrom_ge f (o+1) t
    rw [termsFrom] at h
    rw [List.length_cons]
    have key : t ∈ termsFrom (o+1) f → o ≤ t.1 ∧ t.1 < o + (f.length + 1) ∧ t.2 ≠ 0 ∧ t.2 ∈ a :: f := by
      intro h
      obtain ⟨h1, h2, h3, h4⟩ := ih h
      exact ⟨by omega, by omega, h3, List.mem_cons_of_mem _ h4⟩
    split at h
    · rcases List.mem_cons.1 h with h' | h'
      · subst h'
        exact ⟨le_refl _, by omega, by assumption, List.mem_cons_self⟩
      · exact key h'
    · exact key h

theorem termsFrom_sorted : ∀ (f : List Nat) o, (termsFrom o f).Pairwise (fun a b => a.1 < b.1)
  | [], _ => List.Pairwise.nil
  | a :: f, o => by
    have ih := termsFrom_sorted f (o+1)
    rw [termsFrom]
    split
    · refine List.pairwise_cons.2 ⟨fun t ht => ?_, ih⟩
      have := (termsFrom_ge f (o+1) t ht).1
      dsimp only
      omega
    · exact ih

/-- The coefficients of a list of terms. -/
def S (p : Nat) : List (Nat × Nat) → Nat → ZMod p
  | [], _ => 0
  | t :: ts, i => (if i = t.1 then (t.2 : ZMod p) else 0) + S p ts i

theorem cf_cons (p a : Nat) (f : List Nat) (i : Nat) : cf p (a :: f) i = if i = 0 then (a : ZMod p) else cf p f (i-1) := by
  unfold cf
  cases i with
  | zero => rfl
  | succ i => rw [if_neg (by omega)]; rfl

theorem S_termsFrom {p : Nat} : ∀ (f : List Nat) o i, S p (termsFrom o f) i = if o ≤ i then cf p f (i - o) else 0
  | [], o, i => by
    rw [termsFrom, S]
    split
    · rw [cf_ge (by simp)]
    · rfl
  | a :: f, o, i => by
    have ih := S_termsFrom (p := p) f (o+1) i
    rw [termsFrom, cf_cons]
    by_cases ho : o ≤ i
    · rw [if_pos ho]
      by_cases h0 : i = o
      · subst h0
        rw [if_neg (by omega)] at ih
        rw [Nat.sub_self, if_pos rfl]
        split
        · rw [S, ih, if_pos rfl, add_zero]
        · rename_i ha
          have : a = 0 := by omega
          rw [ih, this, Nat.cast_zero]
      · rw [if_pos (by omega)] at ih
        rw [if_neg (show ¬ (i - o = 0) by omega), show i - o - 1 = i - (o+1) by omega]
        split
        · rw [S, ih, if_neg h0, zero_add]
        · exact ih
    · rw [if_neg (by omega)] at ih
      rw [if_neg ho]
      split
      · rw [S, ih, if_neg (by dsimp only; omega), add_zero]
      · exact ih

theorem cf_take (p n : Nat) (f : List Nat) (i : Nat) : cf p (f.take n) i = if i < n then cf p f i else 0 := by
  unfold cf
  rw [List.getD_eq_getElem?_getD, List.getD_eq_getElem?_getD, List.getElem?_take]
  split <;> simp

theorem S_terms {p : Nat} (f : List Nat) (n i : Nat) : S p (terms f n) i = if i < n then cf p f i else 0 := by
  rw [terms_eq, S_termsFrom, if_pos (Nat.zero_le _), Nat.sub_zero, cf_take]

theorem S_terms_full {p : Nat} (f : List Nat) (i : Nat) : S p (terms f f.length) i = cf p f i := by
  rw [S_terms]
  split
  · rfl
  · rw [cf_ge (by omega)]

theorem terms_lt {p : Nat} {f : List Nat} (hf : ∀ a ∈ f, a < p) {n : Nat} : ∀ t ∈ terms f n, t.1 < n ∧ t.1 < f.length ∧ t.2 ≠ 0 ∧ t.2 < p := by
  intro t ht
  rw [terms_eq] at ht
  obtain ⟨_, h2, h3, h4⟩ := termsFrom_ge _ _ t ht
  rw [List.length_take] at h2
  exact ⟨by omega, by omega, h3, hf _ (List.mem_of_mem_take h4)⟩

theorem terms_sorted (f : List Nat) (n : Nat) : (terms f n).Pairwise (fun a b => a.1 < b.1) := by
  rw [terms_eq]; exact termsFrom_sorted _ _

theorem sorted_last : ∀ {ts : List (Nat × Nat)} {l : Nat × Nat}, ts.Pairwise (fun a b => a.1 < b.1) → ts.getLast? = some l → ∀ t ∈ ts, t.1 ≤ l.1
  | [], l, _, h, t, ht => by simp at ht
  | [x], l, _, h, t, ht => by
    have : x = l := by simpa using h
    have : t = x := by simpa using ht
    subst this; subst l; exact le_refl _
  | x :: y :: ts, l, hp, h, t, ht => by
    have h' : (y :: ts).getLast? = some l := by rw [← h]; rfl
    have ih := sorted_last (List.pairwise_cons.1 hp).2 h'
    rcases List.mem_cons.1 ht with e | e
    · subst e
      exact le_trans (le_of_lt ((List.pairwise_cons.1 hp).1 y List.mem_cons_self)) (ih y List.mem_cons_self)
    · exact ih t e

theorem S_zero {p : Nat} : ∀ {ts : List (Nat × Nat)} {i : Nat}, (∀ t ∈ ts, t.1 ≠ i) → S p ts i = 0
  | [], _, _ => rfl
  | t :: ts, i, h => by
    have := h t List.mem_cons_self
    rw [S, if_neg (by omega), S_zero (fun u hu => h u (List.mem_cons_of_mem _ hu)), add_zero]

theorem sparseRow_spec {p : Nat} (hp : p < 2^31) {N i x : Nat} (hx : x < p) : ∀ (ts : List (Nat × Nat)), (∀ t ∈ ts, i + t.1 < N ∧ t.2 < p) →
    ∀ {h : List Nat} {φ : Nat → ZMod p}, RepZ p h N φ →
    ∃ h', sparseRow p i x ts h = some h' ∧ RepZ p h' N (fun k => φ k + (if i ≤ k then (x : ZMod p) * S p ts (k - i) else 0))
  | [], _, h, φ, R => ⟨h, rfl, R.congr (fun k _ => by rw [S, mul_zero, ite_self, add_zero])⟩
  | t :: ts, hts, h, φ, R => by
    obtain ⟨h1, h2⟩ := hts t List.mem_cons_self
    obtain ⟨h', e, R'⟩ := addMul_spec hp R h1 hx h2
    obtain ⟨h'', e', R''⟩ := sparseRow_spec hp hx ts (fun u hu => hts u (List.mem_cons_of_mem _ hu)) R'
    refine ⟨h'', by rw [sparseRow, e, Option.bind_some, e'], R''.congr ?_⟩
    intro k _
    rw [S]
    by_cases hk : k = i + t.1
    · subst hk
      rw [upd_same, if_pos (by omega), if_pos (by omega), if_pos (by omega)]
      ring
    · rw [upd_ne _ _ hk]
      by_cases h3 : i ≤ k
      · rw [if_pos h3, if_pos h3, if_neg (by omega), zero_add]
      · rw [if_neg h3, if_neg h3]

/-- A list holding the product of `f` and `r` completely. -/
structure Prod (p : Nat) (f r h : List Nat) (N : Nat) : Prop where
  rep : RepZ p h N (mulF (cf p f) (cf p r))
  out : ∀ k, N ≤ k → mulF (cf p f) (cf p r) k = 0

theorem Prod.cf_eq {p N : Nat} {f r h : List Nat} (P : Prod p f r h N) (k : Nat) : cf p h k = mulF (cf p f) (cf p r) k := by
  by_cases hk : k < N
  · exact P.rep.cf_eq hk
  · rw [P.out k (by omega), cf_ge (by rw [P.rep.len]; omega)]

theorem mulSparse_spec {p : Nat} (h0 : 0 < p) (hp : p < 2^31) {f r : List Nat} (hf : ∀ a ∈ f, a < p) (hr : ∀ a ∈ r, a < p) :
    ∃ h N, mulSparse p f r = some h ∧ Prod p f r h N ∧ N ≤ f.length + r.length - 1 := by
  unfold mulSparse
  cases hl : (terms r r.length).getLast? with
  | none =>
    have hn : terms r r.length = [] := List.getLast?_eq_none_iff.1 hl
    have hz : ∀ i, cf p r i = 0 := by
      intro i
      rw [← S_terms_full, hn, S]
    refine ⟨[], 0, rfl, ⟨⟨rfl, fun i hi => absurd hi (by omega)⟩, fun k _ => ?_⟩, Nat.zero_le _⟩
    rw [show cf p r = fun _ => 0 from funext hz, mulF_zero_right]
  | some l =>
    have hle := sorted_last (terms_sorted r r.length) hl
    have hlm : l ∈ terms r r.length := List.mem_of_getLast? hl
    have hlt := terms_lt hr l hlm
    have hB : ∀ i, l.1 + 1 ≤ i → cf p r i = 0 := by
      intro i hi
      rw [← S_terms_full]
      refine S_zero fun t ht => ?_
      have := hle t ht
      omega
    obtain ⟨h, e, R⟩ := outerLoop (p := p) (N := f.length + l.1) (m := f.length) (a := cf p f) (b := cf p r) (B := l.1 + 1) hB
      (body := fun i h => (f[i]?).bind (fun x => if x ≠ 0 then sparseRow p i x (terms r r.length) h else some h)) (by
        intro i h φ hi R
        obtain ⟨a, ea, la, ca⟩ := cf_mem hf hi
        have hS : ∀ k, i ≤ k → (if i ≤ k ∧ k < i + (l.1 + 1) then cf p f i * cf p r (k - i) else 0) = cf p f i * cf p r (k - i) := by
          intro k hk
          by_cases h : k < i + (l.1 + 1)
          · rw [if_pos ⟨hk, h⟩]
          · rw [if_neg (by omega), hB _ (by omega), mul_zero]
        by_cases ha : a = 0
        · refine ⟨h, by rw [ea, Option.bind_some, if_neg (by omega)], R.congr ?_⟩
          intro k _
          rw [← ca, ha, Nat.cast_zero, zero_mul, ite_self, add_zero]
        · obtain ⟨h', e, R'⟩ := sparseRow_spec hp (N := f.length + l.1) (i := i) la (terms r r.length) (fun t ht => ⟨by have := hle t ht; omega, (terms_lt hr t ht).2.2.2⟩) R
          refine ⟨h', by rw [ea, Option.bind_some, if_pos ha, e], R'.congr ?_⟩
          intro k _
          by_cases hk : i ≤ k
          · rw [if_pos hk, hS k hk, ca, S_terms_full]
          · rw [if_neg hk, if_neg (by omega)]) (fun i hi => cf_ge hi) (zeros_rep h0 _)
    refine ⟨h, _, e, ⟨R, fun k hk => ?_⟩, by omega⟩
    exact mulF_ge (A := f.length) (B := l.1 + 1) (fun i hi => cf_ge hi) hB (by omega)

theorem mulSet_spec {p g : Nat} (H : Root p g) {f r : List Nat} {k : Nat} (hf : ∀ a ∈ f, a < p) (hr : ∀ a ∈ r, a < p) (hf0 : 0 < f.length)
    (hk : k ≤ logN p) (hl : f.length + r.length - 1 ≤ 2^k) :
    ∃ h N, mulSet p g f r = some h ∧ Prod p f r h N ∧ N ≤ 2^k := by
  have h2 := H.prime.two_le
  unfold mulSet
  split
  · obtain ⟨h, N, e, P, hN⟩ := mulSparse_spec (p := p) (by omega) H.lt hf hr
    exact ⟨h, N, e, P, by omega⟩
  · rename_i hc
    have hr0 : 0 < r.length := by
      by_contra h
      have : r = [] := List.length_eq_zero_iff.1 (by omega)
      subst this
      exact hc (by decide)
    obtain ⟨h, N, e, h1, h2, R⟩ := convNtt_spec H (f.length+1) f r k hf hr hf0 hr0 (by omega) hk hl
    refine ⟨h, N, e, ⟨R, fun k hk => ?_⟩, h2⟩
    exact mulF_ge (A := f.length) (B := r.length) (fun i hi => cf_ge hi) (fun i hi => cf_ge hi) (by omega)

end Verif.Fps
