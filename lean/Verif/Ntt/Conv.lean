import Verif.Ntt.Fft
import Mathlib.Algebra.BigOperators.Group.Finset.Piecewise
/-!
Convolutions: the naive one, the splitting step and the one by transforms.
-/
namespace Verif.Ntt
open Verif.Modular

section
variable {R : Type} [CommRing R]

/-- Coefficient `k` of the product of two polynomials. -/
def mulF (a b : Nat → R) (k : Nat) : R := ∑ i ∈ Finset.range (k+1), a i * b (k - i)

theorem mulF_add_left (a a' b : Nat → R) (k : Nat) : mulF (fun i => a i + a' i) b k = mulF a b k + mulF a' b k := by
  unfold mulF
  rw [← Finset.sum_add_distrib]
  exact Finset.sum_congr rfl fun i _ => add_mul _ _ _

theorem mulF_add_right (a b b' : Nat → R) (k : Nat) : mulF a (fun i => b i + b' i) k = mulF a b k + mulF a b' k := by
  unfold mulF
  rw [← Finset.sum_add_distrib]
  exact Finset.sum_congr rfl fun i _ => mul_add _ _ _

theorem mulF_single_left (s : Nat) (x : R) (b : Nat → R) (k : Nat) : mulF (fun i => if i = s then x else 0) b k = if s ≤ k then x * b (k - s) else 0 := by
  unfold mulF
  simp only [ite_mul, zero_mul]
  rw [Finset.sum_ite_eq']
  simp only [Finset.mem_range, Nat.lt_succ_iff]

theorem mulF_single_right (a : Nat → R) (t : Nat) (y : R) (k : Nat) : mulF a (fun i => if i = t then y else 0) k = if t ≤ k then a (k - t) * y else 0 := by
  unfold mulF
  by_cases h : t ≤ k
  · rw [if_pos h, Finset.sum_eq_single (k - t)]
    · dsimp only; rw [if_pos (by omega)]
    · intro i hi hne
      have := Finset.mem_range.1 hi
      dsimp only; rw [if_neg (by omega), mul_zero]
    · intro hi
      exact absurd (Finset.mem_range.2 (by omega)) hi
  · rw [if_neg h]
    refine Finset.sum_eq_zero fun i hi => ?_
    dsimp only; rw [if_neg (by omega), mul_zero]

theorem mulF_congr {a a' b b' : Nat → R} {k : Nat} (ha : ∀ i, i ≤ k → a i = a' i) (hb : ∀ i, i ≤ k → b i = b' i) : mulF a b k = mulF a' b' k := by
  unfold mulF
  refine Finset.sum_congr rfl fun i hi => ?_
  have := Finset.mem_range.1 hi
  rw [ha i (by omega), hb _ (by omega)]

theorem mulF_zero_left (b : Nat → R) (k : Nat) : mulF (fun _ => 0) b k = 0 := by
  unfold mulF
  exact Finset.sum_eq_zero fun i _ => zero_mul _

theorem mulF_zero_right (a : Nat → R) (k : Nat) : mulF a (fun _ => 0) k = 0 := by
  unfold mulF
  exact Finset.sum_eq_zero fun i _ => mul_zero _

/-- No coefficients beyond the sum of the degrees. -/
theorem mulF_ge {a b : Nat → R} {A B k : Nat} (ha : ∀ i, A ≤ i → a i = 0) (hb : ∀ i, B ≤ i → b i = 0) (hk : A + B ≤ k + 1) : mulF a b k = 0 := by
  unfold mulF
  refine Finset.sum_eq_zero fun i hi => ?_
  by_cases h : A ≤ i
  · rw [ha i h, zero_mul]
  · rw [hb (k - i) (by omega), mul_zero]

theorem ev_congr {a b : Nat → R} {n : Nat} (h : ∀ i, i < n → a i = b i) (z : R) : ev a 0 n z = ev b 0 n z := by
  unfold ev
  refine Finset.sum_congr rfl fun i hi => ?_
  rw [Nat.zero_add, h i (Finset.mem_range.1 hi)]

/-- Without wrap-around, values multiply. -/
theorem ev_mul {a b : Nat → R} {A B n : Nat} (ha : ∀ i, A ≤ i → a i = 0) (hb : ∀ i, B ≤ i → b i = 0) (hn : A + B ≤ n + 1) (z : R) :
    ev (mulF a b) 0 n z = ev a 0 n z * ev b 0 n z := by
  have h1 : ev (mulF a b) 0 n z = ∑ k ∈ Finset.range n, ∑ i ∈ Finset.range n, (if i ≤ k then a i * b (k - i) * z^k else 0) := by
    unfold ev
    refine Finset.sum_congr rfl fun k hk => ?_
    have hk := Finset.mem_range.1 hk
    rw [Nat.zero_add, ← Finset.sum_filter]
    unfold mulF
    rw [Finset.sum_mul]
    refine Finset.sum_congr ?_ fun _ _ => rfl
    ext i
    simp only [Finset.mem_range, Finset.mem_filter]
    omega
  rw [h1, Finset.sum_comm]
  unfold ev
  rw [Finset.sum_mul]
  refine Finset.sum_congr rfl fun i hi => ?_
  have hi := Finset.mem_range.1 hi
  rw [Nat.zero_add]
  by_cases h : A ≤ i
  · rw [ha i h]
    simp
  have e : n = i + (n - i) := by omega
  have h2 : ∑ k ∈ Finset.range n, (if i ≤ k then a i * b (k - i) * z^k else 0) = ∑ j ∈ Finset.range (n - i), a i * z^i * (b j * z^j) := by
    conv_lhs => rw [e, Finset.sum_range_add]
    rw [Finset.sum_eq_zero (s := Finset.range i), zero_add]
    · refine Finset.sum_congr rfl fun j _ => ?_
      rw [if_pos (by omega), show i + j - i = j by omega, pow_add]
      ring
    · intro k hk
      have := Finset.mem_range.1 hk
      rw [if_neg (by omega)]
  have h3 : ∑ j ∈ Finset.range n, b (0 + j) * z^j = ∑ j ∈ Finset.range (n - i), b j * z^j := by
    conv_lhs => rw [show n = (n - i) + i by omega, Finset.sum_range_add]
    rw [Finset.sum_eq_zero (s := Finset.range i), add_zero]
    · refine Finset.sum_congr rfl fun j _ => by rw [Nat.zero_add]
    · intro j _
      rw [hb _ (by omega), zero_mul]
  rw [h2, h3, Finset.mul_sum]

end

section
variable {p : Nat}

/-- A loop whose rounds add `ψ j` to the entry `o + j`. -/
theorem rowLoop {N o m : Nat} {body : Nat → List Nat → Option (List Nat)} {ψ : Nat → ZMod p}
    (hb : ∀ j h φ, j < m → RepZ p h N φ → ∃ h', body j h = some h' ∧ RepZ p h' N (upd φ (o+j) (φ (o+j) + ψ j)))
    {h : List Nat} {φ : Nat → ZMod p} (R : RepZ p h N φ) :
    ∃ h', forRange 0 m body h = some h' ∧ RepZ p h' N (fun k => φ k + if o ≤ k ∧ k < o + m then ψ (k - o) else 0) := by
  obtain ⟨h', e, R'⟩ := forRange_inv (a := 0) (b := m) (s := h) (body := body)
    (P := fun j (h : List Nat) => RepZ p h N (fun k => φ k + if o ≤ k ∧ k < o + j then ψ (k - o) else 0)) (Nat.zero_le _)
    (R.congr (fun k _ => by rw [if_neg (by omega), add_zero])) (by
      intro j h _ hj Rj
      obtain ⟨h', e, R'⟩ := hb j h _ hj Rj
      refine ⟨h', e, R'.congr ?_⟩
      intro k _
      by_cases hk : k = o + j
      · subst hk
        rw [upd_same, if_neg (by omega), if_pos (by omega), add_zero, show o + j - o = j by omega]
      · rw [upd_ne _ _ hk]
        by_cases h2 : o ≤ k ∧ k < o + j
        · rw [if_pos h2, if_pos (by omega)]
        · rw [if_neg h2, if_neg (by omega)])
  exact ⟨h', e, R'⟩

theorem addMul_spec (hp : p < 2^31) {N k x y : Nat} {h : List Nat} {φ : Nat → ZMod p} (R : RepZ p h N φ) (hk : k < N) (hx : x < p) (hy : y < p) :
    ∃ h', addMul p k x y h = some h' ∧ RepZ p h' N (upd φ k (φ k + (x : ZMod p) * (y : ZMod p))) := by
  have hm : p ≤ 2^31 := by omega
  obtain ⟨z, ez, lz, cz⟩ := mul_cast hm hx hy
  obtain ⟨a, ea, la, ca⟩ := R.val k hk
  obtain ⟨h', eh, R'⟩ := R.wr hk (add_lt hm la lz)
  refine ⟨h', by unfold addMul; rw [ez, Option.bind_some, ea, Option.bind_some, eh], R'.congr ?_⟩
  intro q _
  rw [add_cast hm la lz, ca, cz]

theorem cf_mem {f : List Nat} (hf : ∀ a ∈ f, a < p) {i : Nat} (hi : i < f.length) : ∃ a, f[i]? = some a ∧ a < p ∧ (a : ZMod p) = cf p f i := by
  refine ⟨f[i], List.getElem?_eq_getElem hi, hf _ (List.getElem_mem hi), ?_⟩
  unfold cf
  rw [List.getD_eq_getElem _ _ hi]

theorem zeros_rep (h0 : 0 < p) (N : Nat) : RepZ p (List.replicate N 0) N (fun _ => 0) :=
  ⟨by simp, fun i hi => ⟨0, by simp [hi], h0, by simp⟩⟩

/-- The outer loop of the naive convolution. -/
theorem outerLoop {N m : Nat} {a b : Nat → ZMod p} {B : Nat} (hb0 : ∀ i, B ≤ i → b i = 0) {body : Nat → List Nat → Option (List Nat)}
    (hb : ∀ i h φ, i < m → RepZ p h N φ → ∃ h', body i h = some h' ∧ RepZ p h' N (fun k => φ k + if i ≤ k ∧ k < i + B then a i * b (k - i) else 0))
    (ha0 : ∀ i, m ≤ i → a i = 0)
    {h : List Nat} (R : RepZ p h N (fun _ => 0)) :
    ∃ h', forRange 0 m body h = some h' ∧ RepZ p h' N (mulF a b) := by
  obtain ⟨h', e, R'⟩ := forRange_inv (a := 0) (b := m) (s := h) (body := body)
    (P := fun i (h : List Nat) => RepZ p h N (mulF (fun q => if q < i then a q else 0) b)) (Nat.zero_le _)
    (R.congr (fun k _ => by
      rw [mulF_congr (a' := fun _ => (0 : ZMod p)) (b' := b) (fun i _ => by rw [if_neg (by omega)]) (fun _ _ => rfl), mulF_zero_left])) (by
      intro i h _ hi Ri
      obtain ⟨h', e, R'⟩ := hb i h _ hi Ri
      refine ⟨h', e, R'.congr ?_⟩
      intro k _
      have h1 : mulF (fun q => if q < i + 1 then a q else 0) b k =
          mulF (fun q => (if q < i then a q else 0) + (if q = i then a i else 0)) b k := by
        refine mulF_congr (fun q _ => ?_) (fun _ _ => rfl)
        by_cases h1 : q < i
        · rw [if_pos h1, if_pos (by omega), if_neg (by omega), add_zero]
        · by_cases h2 : q = i
          · subst h2; rw [if_neg h1, if_pos (by omega), if_pos rfl, zero_add]
          · rw [if_neg h1, if_neg (by omega), if_neg h2, add_zero]
      rw [h1, mulF_add_left, mulF_single_left]
      congr 1
      by_cases h3 : i ≤ k
      · rw [if_pos h3]
        by_cases h4 : k < i + B
        · rw [if_pos ⟨h3, h4⟩]
        · rw [if_neg (by omega), hb0 _ (by omega), mul_zero]
      · rw [if_neg h3, if_neg (by omega)])
  refine ⟨h', e, R'.congr ?_⟩
  intro k _
  refine mulF_congr (fun q _ => ?_) (fun _ _ => rfl)
  by_cases h : q < m
  · rw [if_pos h]
  · rw [if_neg h, ha0 q (by omega)]

theorem mulF_comm {R : Type} [CommRing R] (a b : Nat → R) (k : Nat) : mulF a b k = mulF b a k := by
  unfold mulF
  rw [← Finset.sum_range_reflect]
  refine Finset.sum_congr rfl fun i hi => ?_
  have := Finset.mem_range.1 hi
  rw [show k + 1 - 1 - i = k - i by omega, show k - (k - i) = i by omega, mul_comm]

/-- The naive convolution. -/
theorem convNaive_spec (h0 : 0 < p) (hp : p < 2^31) {f g : List Nat} (hf : ∀ a ∈ f, a < p) (hg : ∀ a ∈ g, a < p) :
    ∃ h, convNaive p f g = some h ∧
      RepZ p h (if f.length = 0 ∨ g.length = 0 then 0 else f.length + g.length - 1) (mulF (cf p f) (cf p g)) := by
  unfold convNaive
  by_cases hz : f.length = 0 ∨ g.length = 0
  · rw [if_pos hz, if_pos hz]
    exact ⟨[], rfl, rfl, fun i hi => absurd hi (Nat.not_lt_zero _)⟩
  rw [if_neg hz, if_neg hz]
  have hz' : 0 < f.length ∧ 0 < g.length := by omega
  have Z := zeros_rep h0 (f.length + g.length - 1)
  by_cases hlt : f.length < g.length
  · rw [if_pos hlt]
    obtain ⟨h, e, R⟩ := outerLoop (m := g.length) (B := f.length) (a := cf p g) (b := cf p f) (fun i hi => cf_ge hi)
      (body := fun j => forRange 0 f.length (fun i h => (f[i]?).bind (fun x => (g[j]?).bind (fun y => addMul p (i+j) x y h)))) (by
        intro j h φ hj R
        refine rowLoop (o := j) (ψ := fun i => cf p g j * cf p f i) ?_ R
        intro i h φ hi R
        obtain ⟨x, ex, lx, cx⟩ := cf_mem hf hi
        obtain ⟨y, ey, ly, cy⟩ := cf_mem hg hj
        obtain ⟨h', e, R'⟩ := addMul_spec hp R (k := i + j) (by omega) lx ly
        refine ⟨h', by rw [ex, Option.bind_some, ey, Option.bind_some, e], ?_⟩
        rw [Nat.add_comm j i, mul_comm (cf p g j), ← cx, ← cy]
        exact R')
      (fun i hi => cf_ge hi) Z
    exact ⟨h, e, R.congr (fun k _ => mulF_comm _ _ _)⟩
  · rw [if_neg hlt]
    exact outerLoop (m := f.length) (B := g.length) (a := cf p f) (b := cf p g) (fun i hi => cf_ge hi)
      (body := fun i => forRange 0 g.length (fun j h => (f[i]?).bind (fun x => (g[j]?).bind (fun y => addMul p (i+j) x y h)))) (by
        intro i h φ hi R
        refine rowLoop (o := i) (ψ := fun j => cf p f i * cf p g j) ?_ R
        intro j h φ hj R
        obtain ⟨x, ex, lx, cx⟩ := cf_mem hf hi
        obtain ⟨y, ey, ly, cy⟩ := cf_mem hg hj
        obtain ⟨h', e, R'⟩ := addMul_spec hp R (k := i + j) (by omega) lx ly
        refine ⟨h', by rw [ex, Option.bind_some, ey, Option.bind_some, e], ?_⟩
        rw [← cx, ← cy]
        exact R')
      (fun i hi => cf_ge hi) Z

theorem cf_dropLast {f : List Nat} {b : Nat} (hb : f.getLast? = some b) (i : Nat) :
    cf p f i = cf p f.dropLast i + (if i = f.length - 1 then (b : ZMod p) else 0) := by
  obtain ⟨f', rfl⟩ : ∃ f', f = f' ++ [b] := by
    obtain ⟨l, hl⟩ := List.getLast?_eq_some_iff.1 hb
    exact ⟨l, hl⟩
  rw [List.dropLast_concat]
  have hl : (f' ++ [b]).length - 1 = f'.length := by simp
  rw [hl]
  unfold cf
  rcases Nat.lt_trichotomy i f'.length with h | h | h
  · rw [List.getD_append _ _ _ _ h, if_neg (by omega), add_zero]
  · subst h
    rw [List.getD_append_right _ _ _ _ (Nat.le_refl _), Nat.sub_self, List.getD_eq_default _ _ (Nat.le_refl _), if_pos rfl]
    simp
  · rw [List.getD_eq_default _ _ (by simp; omega), List.getD_eq_default _ _ (by omega), if_neg (by omega)]
    simp

/-- What the recursive calls of the splitting step deliver. -/
def RecOk (p : Nat) (rec : List Nat → List Nat → Option (List Nat)) (f g : List Nat) (M : Nat) : Prop :=
  ∃ h N, rec f g = some h ∧ N ≤ M ∧ f.length + g.length - 1 ≤ N ∧ RepZ p h N (mulF (cf p f) (cf p g))

theorem convPeel_spec (h0 : 0 < p) (hp : p < 2^31) {rec : List Nat → List Nat → Option (List Nat)} {f g : List Nat} (hf : ∀ a ∈ f, a < p) (hg : ∀ a ∈ g, a < p)
    (hf0 : 0 < f.length) (hg0 : 0 < g.length)
    (hrec : 1 < f.length → 1 < g.length → RecOk p rec f.dropLast g.dropLast (f.length + g.length - 1)) :
    ∃ h, convPeel p rec f g = some h ∧ RepZ p h (f.length + g.length - 1) (mulF (cf p f) (cf p g)) := by
  have hm : p ≤ 2^31 := by omega
  obtain ⟨fb, efb⟩ : ∃ b, f.getLast? = some b := by
    rw [List.getLast?_eq_getLast_of_ne_nil (by intro h; rw [h] at hf0; simp at hf0)]; exact ⟨_, rfl⟩
  obtain ⟨gb, egb⟩ : ∃ b, g.getLast? = some b := by
    rw [List.getLast?_eq_getLast_of_ne_nil (by intro h; rw [h] at hg0; simp at hg0)]; exact ⟨_, rfl⟩
  have lfb := hf fb (List.mem_of_getLast? efb)
  have lgb := hg gb (List.mem_of_getLast? egb)
  have hf' : ∀ a ∈ f.dropLast, a < p := fun a ha => hf a (List.dropLast_subset f ha)
  have hg' : ∀ a ∈ g.dropLast, a < p := fun a ha => hg a (List.dropLast_subset g ha)
  have lf' : f.dropLast.length = f.length - 1 := List.length_dropLast
  have lg' : g.dropLast.length = g.length - 1 := List.length_dropLast
  have hz : ofInt p 0 = 0 := by have := ofInt_eq h0 0; simpa using this
  unfold convPeel
  rw [efb, Option.bind_some, egb, Option.bind_some]
  obtain ⟨z, ez, lz, cz⟩ := mul_cast hm lfb lgb
  rw [ez, Option.bind_some, hz]
  obtain ⟨h1, e1, R1⟩ := (zeros_rep h0 (f.length + g.length - 1)).wr (i := f.length + g.length - 2) (by omega) lz
  rw [e1, Option.bind_some]
  obtain ⟨h2, e2, R2⟩ := rowLoop (o := g.length - 1) (m := f.length - 1) (ψ := fun i => cf p f.dropLast i * (gb : ZMod p))
    (body := fun i h => (f.dropLast[i]?).bind (fun x => addMul p (i + g.length - 1) x gb h)) (by
      intro i h φ hi R
      obtain ⟨x, ex, lx, cx⟩ := cf_mem hf' (i := i) (by omega)
      obtain ⟨h', e, R'⟩ := addMul_spec hp R (k := i + g.length - 1) (by omega) lx lgb
      refine ⟨h', by rw [ex, Option.bind_some, e], ?_⟩
      rw [show g.length - 1 + i = i + g.length - 1 by omega, ← cx]
      exact R') R1
  rw [e2, Option.bind_some]
  obtain ⟨h3, e3, R3⟩ := rowLoop (o := f.length - 1) (m := g.length - 1) (ψ := fun i => cf p g.dropLast i * (fb : ZMod p))
    (body := fun i h => (g.dropLast[i]?).bind (fun x => addMul p (i + f.length - 1) x fb h)) (by
      intro i h φ hi R
      obtain ⟨x, ex, lx, cx⟩ := cf_mem hg' (i := i) (by omega)
      obtain ⟨h', e, R'⟩ := addMul_spec hp R (k := i + f.length - 1) (by omega) lx lfb
      refine ⟨h', by rw [ex, Option.bind_some, e], ?_⟩
      rw [show f.length - 1 + i = i + f.length - 1 by omega, ← cx]
      exact R') R2
  rw [e3, Option.bind_some]
  obtain ⟨fg, N, efg, hN, hNz, Rfg⟩ : ∃ fg N, convWith p rec f.dropLast g.dropLast = some fg ∧ N ≤ f.length + g.length - 1 ∧
      (∀ k, N ≤ k → mulF (cf p f.dropLast) (cf p g.dropLast) k = 0) ∧ RepZ p fg N (mulF (cf p f.dropLast) (cf p g.dropLast)) := by
    unfold convWith
    by_cases hz : f.dropLast.length = 0 ∨ g.dropLast.length = 0
    · rw [if_pos hz]
      refine ⟨[], 0, rfl, Nat.zero_le _, ?_, rfl, fun i hi => absurd hi (Nat.not_lt_zero _)⟩
      intro k _
      rcases hz with hz | hz
      · rw [mulF_congr (a' := fun _ => (0 : ZMod p)) (b' := cf p g.dropLast) (fun i _ => cf_ge (by omega)) (fun _ _ => rfl), mulF_zero_left]
      · rw [mulF_congr (a' := cf p f.dropLast) (b' := fun _ => (0 : ZMod p)) (fun _ _ => rfl) (fun i _ => cf_ge (by omega)), mulF_zero_right]
    · rw [if_neg hz]
      have hvan : ∀ N, f.dropLast.length + g.dropLast.length - 1 ≤ N → ∀ k, N ≤ k → mulF (cf p f.dropLast) (cf p g.dropLast) k = 0 :=
        fun N h1 k h2 => mulF_ge (fun i hi => cf_ge hi) (fun i hi => cf_ge hi) (by omega)
      by_cases hs : min f.dropLast.length g.dropLast.length ≤ 60
      · rw [if_pos hs]
        obtain ⟨h, e, R⟩ := convNaive_spec h0 hp hf' hg'
        rw [if_neg hz] at R
        exact ⟨h, _, e, by omega, hvan _ (Nat.le_refl _), R⟩
      · rw [if_neg hs]
        obtain ⟨h, N, e, hN, hN', R⟩ := hrec (by omega) (by omega)
        exact ⟨h, N, e, hN, hvan _ hN', R⟩
  rw [efg, Option.bind_some, Rfg.len]
  obtain ⟨h4, e4, R4⟩ := rowLoop (o := 0) (m := N) (ψ := mulF (cf p f.dropLast) (cf p g.dropLast)) (body := addStep p fg) (by
      intro i h φ hi R
      obtain ⟨y, ey, ly, cy⟩ := Rfg.val i hi
      obtain ⟨a, ea, la, ca⟩ := R.val i (by omega)
      obtain ⟨h', e, R'⟩ := R.wr (i := i) (by omega) (add_lt hm la ly)
      refine ⟨h', by unfold addStep; rw [ey, Option.bind_some, ea, Option.bind_some, e], ?_⟩
      rw [Nat.zero_add, ← ca, ← cy, ← add_cast hm la ly]
      exact R') R3
  refine ⟨h4, e4, R4.congr ?_⟩
  intro k hk
  have hA : mulF (cf p f) (cf p g) k = mulF (fun i => cf p f.dropLast i + (if i = f.length - 1 then (fb : ZMod p) else 0))
      (fun i => cf p g.dropLast i + (if i = g.length - 1 then (gb : ZMod p) else 0)) k :=
    mulF_congr (fun i _ => cf_dropLast efb i) (fun i _ => cf_dropLast egb i)
  rw [hA, mulF_add_left, mulF_add_right, mulF_add_right, mulF_single_right, mulF_single_left, mulF_single_left]
  have t4 : (if 0 ≤ k ∧ k < 0 + N then mulF (cf p f.dropLast) (cf p g.dropLast) (k - 0) else 0) = mulF (cf p f.dropLast) (cf p g.dropLast) k := by
    by_cases h : k < N
    · rw [if_pos (by omega), Nat.sub_zero]
    · rw [if_neg (by omega), hNz k (by omega)]
  have t2 : (if g.length - 1 ≤ k ∧ k < g.length - 1 + (f.length - 1) then cf p f.dropLast (k - (g.length - 1)) * (gb : ZMod p) else 0)
      = if g.length - 1 ≤ k then cf p f.dropLast (k - (g.length - 1)) * (gb : ZMod p) else 0 := by
    by_cases h : g.length - 1 ≤ k
    · rw [if_pos h]
      by_cases h' : k < g.length - 1 + (f.length - 1)
      · rw [if_pos ⟨h, h'⟩]
      · rw [if_neg (by omega), cf_ge (by omega), zero_mul]
    · rw [if_neg h, if_neg (by omega)]
  have t3 : (if f.length - 1 ≤ k ∧ k < f.length - 1 + (g.length - 1) then cf p g.dropLast (k - (f.length - 1)) * (fb : ZMod p) else 0)
      = if f.length - 1 ≤ k then (fb : ZMod p) * cf p g.dropLast (k - (f.length - 1)) else 0 := by
    by_cases h : f.length - 1 ≤ k
    · rw [if_pos h]
      by_cases h' : k < f.length - 1 + (g.length - 1)
      · rw [if_pos ⟨h, h'⟩, mul_comm]
      · rw [if_neg (by omega), cf_ge (by omega), mul_zero]
    · rw [if_neg h, if_neg (by omega)]
  have t1 : upd (fun _ => (0 : ZMod p)) (f.length + g.length - 2) (z : ZMod p) k
      = if f.length - 1 ≤ k then (fb : ZMod p) * (if k - (f.length - 1) = g.length - 1 then (gb : ZMod p) else 0) else 0 := by
    by_cases h : k = f.length + g.length - 2
    · rw [h, upd_same, if_pos (by omega), if_pos (by omega), cz]
    · rw [upd_ne _ _ h]
      by_cases h' : f.length - 1 ≤ k
      · rw [if_pos h', if_neg (by omega), mul_zero]
      · rw [if_neg h']
  rw [t1, t2, t3, t4]
  ring

theorem RepZ.take_ext {n : Nat} {f g : List Nat} {φ ψ : Nat → ZMod p} (hf : RepZ p f n φ) (hg : RepZ p g n ψ) (h : f = g) : ∀ i, i < n → φ i = ψ i := by
  intro i hi
  rw [← hf.cf_eq hi, ← hg.cf_eq hi, h]

theorem convMain_spec {r : Nat} (H : Root p r) {k : Nat} (hk : k ≤ logN p) {f g : List Nat} (hf : ∀ a ∈ f, a < p) (hg : ∀ a ∈ g, a < p)
    (hf0 : 0 < f.length) (hg0 : 0 < g.length) (hn : f.length + g.length - 1 ≤ 2^k) :
    ∃ h, convMain p r (2^k) f g = some h ∧ RepZ p h (2^k) (mulF (cf p f) (cf p g)) := by
  have h2 := H.prime.two_le
  have hp := H.lt
  have hm : p ≤ 2^31 := by omega
  obtain ⟨_, hL⟩ := logN_spec h2 H.lt
  have Rf := resize_rep (n := 2^k) (p := p) (by omega) hf (by omega)
  have Rg := resize_rep (n := 2^k) (p := p) (by omega) hg (by omega)
  have T : ∀ u : List Nat, RepZ p (resize p (2^k) u) (2^k) (cf p u) →
      ∃ a, nttConv p r (resize p (2^k) u) = some a ∧ RepZ p a (2^k) (fun j => ev (cf p u) 0 (2^k) (pts p r k j)) := by
    intro u R
    obtain ⟨⟨a, ea, Ra⟩, _⟩ := fft_spec H hk R.red (by rw [R.len]; exact ceilPow2_pow (by omega)) (by rw [R.len])
    exact ⟨a, ea, Ra.congr (fun j _ => ev_congr (fun i hi => R.cf_eq hi) _)⟩
  obtain ⟨a, ea, Ra⟩ := T f Rf
  obtain ⟨b, eb, Rb⟩ := T g Rg
  unfold convMain
  rw [ea, Option.bind_some]
  have fin : ∀ c, RepZ p c (2^k) (fun j => ev (cf p f) 0 (2^k) (pts p r k j) * ev (cf p g) 0 (2^k) (pts p r k j)) →
      ∃ h, inttConv p r c = some h ∧ RepZ p h (2^k) (mulF (cf p f) (cf p g)) := by
    intro c Rc
    refine (ifft_spec H hk).1 (Rc.congr (fun j _ => ?_))
    rw [ev_mul (A := f.length) (B := g.length) (fun i hi => cf_ge hi) (fun i hi => cf_ge hi) (by omega)]
  have loop : ∀ (body : Nat → List Nat → Option (List Nat)) (ψ ρ : Nat → ZMod p), (∀ i x c, i < 2^k → x < p → (x : ZMod p) = ψ i → c[i]? = some x →
        ∃ z, body i c = wr c i z ∧ z < p ∧ (z : ZMod p) = ρ i) → ∀ a, RepZ p a (2^k) ψ → ∃ c, forRange 0 (2^k) body a = some c ∧ RepZ p c (2^k) ρ := by
    intro body ψ ρ hb a R
    obtain ⟨c, e, Rc⟩ := forRange_inv (a := 0) (b := 2^k) (s := a) (body := body)
      (P := fun i (c : List Nat) => RepZ p c (2^k) (fun q => if q < i then ρ q else ψ q)) (Nat.zero_le _)
      (R.congr (fun q _ => by rw [if_neg (by omega)])) (by
        intro i c _ hi Rc
        obtain ⟨x, ex, lx, cx⟩ := Rc.val i hi
        rw [if_neg (by omega)] at cx
        obtain ⟨z, ez, lz, cz⟩ := hb i x c hi lx cx ex
        obtain ⟨c', ec, Rc'⟩ := Rc.wr hi lz
        refine ⟨c', by rw [ez, ec], Rc'.congr ?_⟩
        intro q _
        by_cases h : q = i
        · subst h; rw [upd_same, if_pos (by omega), cz]
        · rw [upd_ne _ _ h]
          by_cases h' : q < i
          · rw [if_pos h', if_pos (by omega)]
          · rw [if_neg h', if_neg (by omega)])
    exact ⟨c, e, Rc.congr (fun q hq => by rw [if_pos hq])⟩
  by_cases hs : resize p (2^k) f = resize p (2^k) g
  · rw [if_pos hs]
    obtain ⟨c, ec, Rc⟩ := loop (fun i f => (f[i]?).bind (fun x => (mul p x x).bind (fun z => wr f i z))) _ _ (by
      intro i x c hi lx cx ex
      obtain ⟨z, ez, lz, cz⟩ := mul_cast hm lx lx
      exact ⟨z, by rw [ex, Option.bind_some, ez, Option.bind_some], lz, by rw [cz, cx]⟩) a Ra
    rw [ec, Option.bind_some]
    refine fin c (Rc.congr (fun j _ => ?_))
    rw [ev_congr (RepZ.take_ext Rf Rg hs)]
  · rw [if_neg hs, eb, Option.bind_some]
    obtain ⟨c, ec, Rc⟩ := loop (mulStep p b) _ (fun j => ev (cf p f) 0 (2^k) (pts p r k j) * ev (cf p g) 0 (2^k) (pts p r k j)) (by
      intro i x c hi lx cx ex
      obtain ⟨y, ey, ly, cy⟩ := Rb.val i hi
      obtain ⟨z, ez, lz, cz⟩ := mul_cast hm lx ly
      exact ⟨z, by unfold mulStep; rw [ex, Option.bind_some, ey, Option.bind_some, ez, Option.bind_some], lz, by rw [cz, cx, cy]⟩) a Ra
    rw [ec, Option.bind_some]
    exact fin c Rc

/-- The convolution by transforms; the length of the result is between the number of coefficients and the next power of two. -/
theorem convNtt_spec {r : Nat} (H : Root p r) : ∀ t f g k, (∀ a ∈ f, a < p) → (∀ a ∈ g, a < p) → 0 < f.length → 0 < g.length → f.length ≤ t →
    k ≤ logN p → f.length + g.length - 1 ≤ 2^k →
    ∃ h N, convNtt p r t f g = some h ∧ f.length + g.length - 1 ≤ N ∧ N ≤ 2^k ∧ RepZ p h N (mulF (cf p f) (cf p g)) := by
  have h2 := H.prime.two_le
  have hp := H.lt
  obtain ⟨_, hL⟩ := logN_spec h2 H.lt
  intro t
  induction t with
  | zero => intro f g k _ _ h1 _ h3; omega
  | succ t ih =>
    intro f g k hf hg hf0 hg0 ht hk hn
    have hbig : 2^k ≤ 2^30 := Nat.pow_le_pow_right (by omega) (by omega)
    obtain ⟨j, ej, h1, hmin⟩ := ceilPow2_spec (x := f.length + g.length - 1) (by omega)
    have hjk := hmin k hn
    have hjle : 2^j ≤ 2^k := Nat.pow_le_pow_right (by omega) hjk
    rw [convNtt, show (f.length + g.length + 2^64 - 1) % 2^64 = f.length + g.length - 1 by omega, ej, Option.bind_some, shl_some (by omega), Option.bind_some]
    by_cases hc : (f.length + g.length + 2^64 - 3) % 2^64 < 2^j / 2
    · rw [if_pos hc]
      have hj0 : j ≠ 0 := by
        intro h; subst h; simp at hc
      have e2 : 2^j = 2^(j-1) * 2 := by rw [← pow_succ]; congr 1; omega
      have hlen : f.length + g.length ≥ 3 := by
        by_contra h
        have : f.length + g.length = 2 := by omega
        omega
      have hc' : f.length + g.length - 3 < 2^(j-1) := by omega
      have hgt : 2^(j-1) < f.length + g.length - 1 := by
        by_contra h
        have := hmin (j-1) (by omega)
        omega
      obtain ⟨h, e, R⟩ := convPeel_spec (rec := convNtt p r t) (by omega) hp hf hg hf0 hg0 (by
        intro hf1 hg1
        have lf' : f.dropLast.length = f.length - 1 := List.length_dropLast
        have lg' : g.dropLast.length = g.length - 1 := List.length_dropLast
        obtain ⟨h, N, e, n1, n2, R⟩ := ih f.dropLast g.dropLast (j-1) (fun a ha => hf a (List.dropLast_subset f ha))
          (fun a ha => hg a (List.dropLast_subset g ha)) (by omega) (by omega) (by omega) (by omega) (by omega)
        exact ⟨h, N, e, by omega, n1, R⟩)
      exact ⟨h, _, e, Nat.le_refl _, hn, R⟩
    · rw [if_neg hc]
      obtain ⟨h, e, R⟩ := convMain_spec H (k := j) (by omega) hf hg hf0 hg0 h1
      exact ⟨h, _, e, h1, hjle, R⟩

end
end Verif.Ntt
