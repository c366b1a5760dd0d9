import Verif.Dirichlet.Conv
import Mathlib.Algebra.Ring.Nat
/-!
# C58: Dirichlet convolution of prefix sums
-/
namespace Verif.Dirichlet
open Finset

variable {T : Type}

/-! ### Specification -/

/-- `f 1 + … + f n`. -/
def summatory [CommRing T] (f : Nat → T) (n : Nat) : T := ∑ i ∈ range n, f (i+1)

/-- The pair `(a, A)` holds `f` up to `k` and its summatory function at `N / j` for `1 ≤ j ≤ l`. -/
def Holds [CommRing T] (N k l : Nat) (a A : List T) (f : Nat → T) : Prop :=
  a.length = k+1 ∧ A.length = l+1 ∧ a[0]? = some 0 ∧ (∀ i, 1 ≤ i → i ≤ k → a[i]? = some (f i)) ∧
  ∀ j, 1 ≤ j → j ≤ l → A[j]? = some (summatory f (N / j))

/-! ### Hyperbola method -/

theorem summatory_zero [CommRing T] (f : Nat → T) (h0 : f 0 = 0) (n : Nat) : summatory f n = ∑ i ∈ range (n+1), f i := by
  unfold summatory
  rw [Finset.sum_range_succ', h0, add_zero]

theorem sum_dir [CommRing T] (f g : Nat → T) (hf : f 0 = 0) (hg : g 0 = 0) (n : Nat) :
    summatory (dirSpec f g) n = ∑ x ∈ range (n+1), ∑ y ∈ range (n+1), if x * y ≤ n then f x * g y else 0 := by
  have h1 : ∀ t ∈ range n, dirSpec f g (t+1) = ∑ x ∈ range (n+1), ∑ y ∈ range (n+1), if x * y = t+1 then f x * g y else 0 := by
    intro t ht
    rw [Finset.mem_range] at ht
    rw [dir_extend f g (by omega) (by omega)]
  unfold summatory
  rw [Finset.sum_congr rfl h1, Finset.sum_comm]
  apply Finset.sum_congr rfl
  intro x _
  rw [Finset.sum_comm]
  apply Finset.sum_congr rfl
  intro y _
  by_cases hx : x = 0
  · subst hx; rw [hf]; simp
  by_cases hy : y = 0
  · subst hy; rw [hg]; simp
  have hxy : 0 < x * y := Nat.mul_pos (by omega) (by omega)
  by_cases h : x * y ≤ n
  · rw [if_pos h, Finset.sum_eq_single (x * y - 1), if_pos (by omega)]
    · intro t _ ht; rw [if_neg (by omega)]
    · intro ht; rw [Finset.mem_range] at ht; omega
  · rw [if_neg h, Finset.sum_eq_zero]
    intro t ht
    rw [Finset.mem_range] at ht
    rw [if_neg (by omega)]

theorem inner_sum [CommRing T] (f g : Nat → T) (hg : g 0 = 0) {x n : Nat} (hx : 0 < x) :
    (∑ y ∈ range (n+1), if x * y ≤ n then f x * g y else 0) = f x * summatory g (n / x) := by
  rw [summatory_zero g hg, Finset.mul_sum]
  have hle : n / x + 1 ≤ n + 1 := Nat.succ_le_succ (Nat.div_le_self n x)
  have hd : ∀ y, y < n / x + 1 ↔ x * y ≤ n := fun y => by rw [Nat.lt_succ_iff, Nat.le_div_iff_mul_le hx, Nat.mul_comm]
  rw [sum_stop _ hle (fun y h1 _ => if_neg (fun h => Nat.not_lt_of_le h1 ((hd y).2 h)))]
  apply Finset.sum_congr rfl
  intro y hy
  rw [if_pos ((hd y).1 (Finset.mem_range.1 hy))]

theorem hyperbola [CommRing T] (f g : Nat → T) (hf : f 0 = 0) (hg : g 0 = 0) (n : Nat) :
    summatory (dirSpec f g) n =
      ∑ i ∈ range (Nat.sqrt n), (f (i+1) * summatory g (n / (i+1)) + (summatory f (n / (i+1)) - summatory f (Nat.sqrt n)) * g (i+1)) := by
  rw [sum_dir f g hf hg, Finset.sum_add_distrib]
  have hm : Nat.sqrt n ≤ n := Nat.sqrt_le_self n
  have hsq : n < (Nat.sqrt n + 1) * (Nat.sqrt n + 1) := Nat.lt_succ_sqrt n
  have hsq2 : Nat.sqrt n * Nat.sqrt n ≤ n := Nat.sqrt_le n
  generalize Nat.sqrt n = m at *
  rw [← Finset.sum_range_add_sum_Ico _ (by omega : m+1 ≤ n+1)]
  refine congrArg₂ (· + ·) ?_ ?_
  · rw [Finset.sum_range_succ']
    have : (∑ y ∈ range (n+1), if 0 * y ≤ n then f 0 * g y else 0) = 0 := by
      apply Finset.sum_eq_zero; intro y _; rw [hf]; simp
    rw [this, add_zero]
    apply Finset.sum_congr rfl
    intro i _
    exact inner_sum f g hg (by omega)
  · rw [Finset.sum_comm]
    have hz : ∀ y, m + 1 ≤ y → y < n + 1 → (∑ x ∈ Finset.Ico (m+1) (n+1), if x * y ≤ n then f x * g y else 0) = 0 := by
      intro y hy _
      apply Finset.sum_eq_zero
      intro x hx
      rw [Finset.mem_Ico] at hx
      rw [if_neg]
      intro h
      have := Nat.mul_le_mul hx.1 hy
      omega
    rw [sum_stop _ (by omega : m+1 ≤ n+1) hz, Finset.sum_range_succ']
    have : (∑ x ∈ Finset.Ico (m+1) (n+1), if x * 0 ≤ n then f x * g 0 else 0) = 0 := by
      apply Finset.sum_eq_zero; intro y _; rw [hg]; simp
    rw [this, add_zero]
    apply Finset.sum_congr rfl
    intro i hi
    rw [Finset.mem_range] at hi
    have hd : ∀ x, x < n / (i+1) + 1 ↔ x * (i+1) ≤ n := fun x => by rw [Nat.lt_succ_iff, Nat.le_div_iff_mul_le (by omega)]
    have hmd : m + 1 ≤ n / (i+1) + 1 := by
      apply (hd m).2
      exact Nat.le_trans (Nat.mul_le_mul_left m hi) hsq2
    have hle : n / (i+1) + 1 ≤ n + 1 := Nat.succ_le_succ (Nat.div_le_self n _)
    rw [summatory_zero f hf, summatory_zero f hf, ← Finset.sum_range_add_sum_Ico f hmd, add_sub_cancel_left, Finset.sum_mul,
      ← Finset.sum_Ico_consecutive _ hmd hle]
    have : (∑ x ∈ Finset.Ico (n / (i+1) + 1) (n+1), if x * (i+1) ≤ n then f x * g (i+1) else 0) = 0 := by
      apply Finset.sum_eq_zero
      intro x hx
      rw [Finset.mem_Ico] at hx
      exact if_neg (fun h => Nat.not_lt_of_le hx.1 ((hd x).2 h))
    rw [this, add_zero]
    apply Finset.sum_congr rfl
    intro x hx
    rw [Finset.mem_Ico] at hx
    rw [if_pos ((hd x).1 hx.2)]

/-! ### The loops -/

theorem prefix_ok [CommRing T] {k : Nat} {v : List T} {g : Nat → T} (hv : Rep v (k+1) g) (h0 : g 0 = 0) :
    ∃ v', forRange 1 (k+1) prefStep v = some v' ∧ Rep v' (k+1) (summatory g) := by
  obtain ⟨v', e, h⟩ := forRange_inv (body := prefStep) (s := v) (fun i v => Rep v (k+1) (fun x => if x < i then summatory g x else g x)) (Nat.le_add_left 1 k)
    (hv.congr (fun x _ => by
      by_cases hx : x < 1
      · have : x = 0 := by omega
        subst this; rw [if_pos hx, h0]; rfl
      · rw [if_neg hx]))
    (fun i v hi1 hi2 hv => by
      obtain ⟨v', e, h⟩ := hv.wr hi2 (summatory g i)
      refine ⟨v', ?_, h.congr (fun x _ => ?_)⟩
      · have hs : g i + summatory g (i-1) = summatory g i := by
          obtain ⟨t, rfl⟩ : ∃ t, i = t + 1 := ⟨i-1, by omega⟩
          unfold summatory
          rw [Nat.add_sub_cancel, Finset.sum_range_succ, add_comm]
        rw [prefStep, hv.val i hi2, Option.bind_some, hv.val (i-1) (by omega), Option.bind_some, if_neg (by omega), if_pos (by omega), hs, e]
      · by_cases hx : x = i
        · subst hx; rw [upd_same, if_pos (by omega)]
        · rw [upd_ne _ _ hx]
          by_cases hxi : x < i
          · rw [if_pos hxi, if_pos (by omega)]
          · rw [if_neg hxi, if_neg (by omega)])
  exact ⟨v', e, h.congr (fun x hx => if_pos hx)⟩

/-- The getter at an argument of the form `N / t`. -/
theorem getter_div [CommRing T] {N k l : Nat} {low A : List T} {f : Nat → T} (hlow : Rep low (k+1) (summatory f)) (hkl : N ≤ k * l)
    (hA : ∀ j, 1 ≤ j → j ≤ l → A[j]? = some (summatory f (N / j))) {t : Nat} (ht : 0 < t) (htN : t ≤ N) :
    getter N k low A (N / t) = some (summatory f (N / t)) := by
  unfold getter
  by_cases h : N / t ≤ k
  · rw [if_pos h, hlow.val _ (by omega)]
  · rw [if_neg h]
    have hq : 0 < N / t := Nat.div_pos htN ht
    have h1 : 1 ≤ N / (N / t) := Nat.div_pos (Nat.div_le_self N t) hq
    have h2 : N / (N / t) ≤ l := by
      have : N / (N / t) ≤ N / (k+1) := Nat.div_le_div_left (by omega) (by omega)
      refine Nat.le_trans this ?_
      apply Nat.lt_succ_iff.1
      rw [Nat.div_lt_iff_lt_mul (by omega)]
      rw [Nat.succ_mul, Nat.mul_succ, Nat.mul_comm l k]
      omega
    rw [hA _ h1 h2]
    have h3 : N / (N / (N / t)) = N / t := by
      apply Nat.le_antisymm
      · have : t ≤ N / (N / t) := by rw [Nat.le_div_iff_mul_le hq]; exact Nat.mul_div_le N t
        exact Nat.div_le_div_left this ht
      · rw [Nat.le_div_iff_mul_le h1]; exact Nat.mul_div_le N _
    rw [h3]

theorem getter_small [CommRing T] {N k : Nat} {low A : List T} {f : Nat → T} (hlow : Rep low (k+1) (summatory f)) {i : Nat} (hi : i ≤ k) :
    getter N k low A i = some (summatory f i) := by
  rw [getter, if_pos hi, hlow.val _ (by omega)]

theorem optRow_ok [CommRing T] {N k l : Nat} {gA gB : Nat → Option T} {a b : List T} {f g : Nat → T} (hsq : Nat.sqrt N ≤ k) (hf0 : f 0 = 0) (hg0 : g 0 = 0)
    (ha : ∀ i, 1 ≤ i → i ≤ k → a[i]? = some (f i)) (hb : ∀ i, 1 ≤ i → i ≤ k → b[i]? = some (g i))
    (hgA : ∀ t, 0 < t → t ≤ N → gA (N / t) = some (summatory f (N / t))) (hgB : ∀ t, 0 < t → t ≤ N → gB (N / t) = some (summatory g (N / t)))
    (hgS : ∀ i, i ≤ k → gA i = some (summatory f i)) {C : List T} {c : Nat → T} (hC : Rep C (l+1) c) {j : Nat} (hj1 : 1 ≤ j) (hj2 : j ≤ l) (hcj : c j = 0) :
    ∃ C', optRow N gA gB a b j C = some C' ∧ Rep C' (l+1) (upd c j (summatory (dirSpec f g) (N / j))) := by
  have hmk : Nat.sqrt (N / j) ≤ k := Nat.le_trans (Nat.sqrt_le_sqrt (Nat.div_le_self N j)) hsq
  have hmn : Nat.sqrt (N / j) ≤ N / j := Nat.sqrt_le_self _
  have hhyp := hyperbola f g hf0 hg0 (N / j)
  unfold optRow
  generalize Nat.sqrt (N / j) = m at *
  obtain ⟨C', e, h⟩ := forRange_inv (body := optInner gA gB a b (N / j) m j) (s := C)
    (fun i C => Rep C (l+1) (upd c j (∑ t ∈ range (i-1),
      (f (t+1) * summatory g (N / j / (t+1)) + (summatory f (N / j / (t+1)) - summatory f m) * g (t+1))))) (Nat.le_add_left 1 m)
    (hC.congr (fun x _ => by
      by_cases hx : x = j
      · subst hx; rw [upd_same, hcj]; rfl
      · rw [upd_ne _ _ hx]))
    (fun i C hi1 hi2 hC => by
      obtain ⟨s, rfl⟩ : ∃ s, i = s + 1 := ⟨i-1, by omega⟩
      rw [Nat.add_sub_cancel] at hC
      have hpos : 0 < j * (s+1) := Nat.mul_pos hj1 (by omega)
      have hleN : j * (s+1) ≤ N := by
        have h1 : s + 1 ≤ N / j := by omega
        rw [Nat.le_div_iff_mul_le hj1] at h1
        rwa [Nat.mul_comm]
      have e1 := hgA _ hpos hleN
      have e2 := hgB _ hpos hleN
      rw [← Nat.div_div_eq_div_mul] at e1 e2
      have hjl : j < l + 1 := by omega
      have hv := hC.val j hjl
      rw [upd_same] at hv
      obtain ⟨C1, w1, r1⟩ := hC.wr hjl ((∑ t ∈ range s,
        (f (t+1) * summatory g (N / j / (t+1)) + (summatory f (N / j / (t+1)) - summatory f m) * g (t+1))) + f (s+1) * summatory g (N / j / (s+1)))
      have hv1 := r1.val j hjl
      rw [upd_same] at hv1
      obtain ⟨C2, w2, r2⟩ := r1.wr hjl ((∑ t ∈ range s,
        (f (t+1) * summatory g (N / j / (t+1)) + (summatory f (N / j / (t+1)) - summatory f m) * g (t+1))) + f (s+1) * summatory g (N / j / (s+1))
          + (summatory f (N / j / (s+1)) - summatory f m) * g (s+1))
      refine ⟨C2, ?_, r2.congr (fun x _ => ?_)⟩
      · rw [optInner, ha _ hi1 (by omega), Option.bind_some, e2, Option.bind_some, hv, Option.bind_some, w1, Option.bind_some, e1, Option.bind_some,
          hgS m hmk, Option.bind_some, hb _ hi1 (by omega), Option.bind_some, hv1, Option.bind_some, w2]
      · by_cases hx : x = j
        · subst hx; rw [upd_same, upd_same, Nat.add_sub_cancel, Finset.sum_range_succ, add_assoc]
        · rw [upd_ne _ _ hx, upd_ne _ _ hx, upd_ne _ _ hx, upd_ne _ _ hx])
  refine ⟨C', e, h.congr (fun x _ => ?_)⟩
  rw [hhyp, Nat.add_sub_cancel]

theorem rows_ok [CommRing T] {l : Nat} {row : Nat → List T → Option (List T)} {F : Nat → T}
    (h : ∀ C c j, Rep C (l+1) c → 1 ≤ j → j ≤ l → c j = 0 → ∃ C', row j C = some C' ∧ Rep C' (l+1) (upd c j (F j))) :
    ∃ C, forRange 1 (l+1) row (List.replicate (l+1) (0:T)) = some C ∧ Rep C (l+1) (fun j => if j = 0 then 0 else F j) := by
  obtain ⟨C, e, hC⟩ := forRange_inv (body := row) (s := List.replicate (l+1) 0)
    (fun i C => Rep C (l+1) (fun j => if j ≠ 0 ∧ j < i then F j else 0)) (Nat.le_add_left 1 l)
    ((Rep.replicate (l+1) 0).congr (fun j _ => by rw [if_neg (by omega)]))
    (fun i C hi1 hi2 hC => by
      obtain ⟨C', e, h⟩ := h C _ i hC hi1 (by omega) (by rw [if_neg (by omega)])
      refine ⟨C', e, h.congr (fun j _ => ?_)⟩
      by_cases hj : j = i
      · subst hj; rw [upd_same, if_pos (by omega)]
      · rw [upd_ne _ _ hj]
        exact if_congr (by omega) rfl rfl)
  refine ⟨C, e, hC.congr (fun j hj => ?_)⟩
  by_cases h0 : j = 0
  · rw [if_pos h0, if_neg (by omega)]
  · rw [if_neg h0, if_pos ⟨h0, hj⟩]

/-- **C58.** If both pairs hold `f` and `g` with `sqrt N ≤ k` and `N ≤ k*l`, the result holds the Dirichlet convolution. -/
theorem C58_optimal [CommRing T] {N k l : Nat} {a A b B : List T} {f g : Nat → T} (hkl : N ≤ k * l) (hint : k * l < 2^31) (hk : k + 1 < 2^31)
    (hsq : Nat.sqrt N ≤ k) (hf : Holds N k l a A f) (hg : Holds N k l b B g) :
    ∃ c C, convolveOptimal N a A b B = some (c, C) ∧ Holds N k l c C (dirSpec f g) := by
  obtain ⟨f1, f2, f3, f4, f5⟩ := hf
  obtain ⟨g1, g2, g3, g4, g5⟩ := hg
  -- values at 0 do not matter
  let f' : Nat → T := fun i => if i = 0 then 0 else f i
  let g' : Nat → T := fun i => if i = 0 then 0 else g i
  have hsf : ∀ n, summatory f' n = summatory f n := fun n => Finset.sum_congr rfl (fun i _ => if_neg (by omega))
  have hsg : ∀ n, summatory g' n = summatory g n := fun n => Finset.sum_congr rfl (fun i _ => if_neg (by omega))
  have hdir : ∀ m, m ≠ 0 → dirSpec f' g' m = dirSpec f g m := by
    intro m hm
    unfold dirSpec
    apply Finset.sum_congr rfl; intro i _
    apply Finset.sum_congr rfl; intro j _
    refine if_ctx_congr Iff.rfl (fun h => ?_) (fun _ => rfl)
    have hi : i ≠ 0 := by rintro rfl; rw [Nat.zero_mul] at h; exact hm h.symm
    have hj : j ≠ 0 := by rintro rfl; rw [Nat.mul_zero] at h; exact hm h.symm
    show (if i = 0 then 0 else f i) * (if j = 0 then 0 else g j) = _
    rw [if_neg hi, if_neg hj]
  have hra : Rep a (k+1) f' := ⟨f1, fun i hi => by
    by_cases h : i = 0
    · subst h; exact f3
    · rw [f4 i (by omega) (by omega)]; show some (f i) = some (if i = 0 then 0 else f i); rw [if_neg h]⟩
  have hrb : Rep b (k+1) g' := ⟨g1, fun i hi => by
    by_cases h : i = 0
    · subst h; exact g3
    · rw [g4 i (by omega) (by omega)]; show some (g i) = some (if i = 0 then 0 else g i); rw [if_neg h]⟩
  obtain ⟨la, e1, h1⟩ := prefix_ok hra (if_pos rfl)
  obtain ⟨lb, e2, h2⟩ := prefix_ok hrb (if_pos rfl)
  obtain ⟨c, e3, h3⟩ := convolution_ok hra (fun j hj => hrb.val j (by omega)) hk
  have hA : ∀ j, 1 ≤ j → j ≤ l → A[j]? = some (summatory f' (N / j)) := fun j h1 h2 => by rw [hsf]; exact f5 j h1 h2
  have hB : ∀ j, 1 ≤ j → j ≤ l → B[j]? = some (summatory g' (N / j)) := fun j h1 h2 => by rw [hsg]; exact g5 j h1 h2
  obtain ⟨C, e4, h4⟩ := rows_ok (T := T) (l := l) (row := optRow N (getter N k la A) (getter N k lb B) a b) (F := fun j => summatory (dirSpec f' g') (N / j))
    (fun (C : List T) (c : Nat → T) j hC hj1 hj2 hc => optRow_ok (f := f') (g := g') (c := c) hsq (if_pos rfl) (if_pos rfl) (fun i _ h => hra.val i (by omega)) (fun i _ h => hrb.val i (by omega))
      (fun t ht htN => getter_div h1 hkl hA ht htN) (fun t ht htN => getter_div h2 hkl hB ht htN) (fun i hi => getter_small h1 hi) hC hj1 hj2 hc)
  refine ⟨c, C, ?_, h3.len, h4.len, ?_, ?_, ?_⟩
  · unfold convolveOptimal prefixes
    have ha0 : ¬ (a.isEmpty = true ∨ A.isEmpty = true) := by
      rw [List.isEmpty_iff_length_eq_zero, List.isEmpty_iff_length_eq_zero]; omega
    rw [if_neg ha0, f1, f2, Nat.add_sub_cancel, Nat.add_sub_cancel, int_some hint, Option.bind_some, if_neg (by omega), e1, Option.bind_some, e2,
      Option.bind_some, e3, Option.bind_some, e4]
    rfl
  · rw [h3.val 0 (by omega), if_pos rfl]
  · intro i hi1 hi2
    rw [h3.val i (by omega), if_neg (by omega), hdir i (by omega)]
  · intro j hj1 hj2
    rw [h4.val j (by omega), if_neg (by omega)]
    refine congrArg some (Finset.sum_congr rfl (fun i _ => hdir _ (by omega)))

/-! ### Convolution with the zeta function -/

theorem zetaPrime_ok [CommRing T] {k p : Nat} (hp : 2 ≤ p) {C : List T} {c : Nat → T} (hC : Rep C (k+1) c) :
    ∃ C', zetaPrime k p C = some C' ∧ Rep C' (k+1) (fun x => if x = 0 then c 0 else mulPart (fun _ => 1) c p x) := by
  have hstep : ∀ x, 0 < x → mulPart (fun _ => (1 : T)) c p x = c x + if p ∣ x then mulPart (fun _ => 1) c p (x / p) else 0 := by
    intro x hx
    rw [mulPart_eq (fun _ => (1:T)) c hp rfl hx]
    rfl
  obtain ⟨C', e, h⟩ := forRange_inv (body := zetaStep p) (s := C)
    (fun i C => Rep C (k+1) (fun x => if x ≠ 0 ∧ x < p * i then mulPart (fun _ => 1) c p x else c x)) (Nat.le_add_left 1 (k/p))
    (hC.congr (fun x _ => by
      by_cases h : x ≠ 0 ∧ x < p * 1
      · rw [if_pos h, hstep x (by omega), if_neg, add_zero]
        intro hd
        have := Nat.le_of_dvd (by omega) hd
        omega
      · rw [if_neg h]))
    (fun i C hi1 hi2 hC => by
      have hpi : p * i ≤ k := Nat.le_trans (Nat.mul_le_mul_left p (Nat.lt_succ_iff.1 hi2)) (Nat.mul_div_le k p)
      have hlt : 2 * i ≤ p * i := Nat.mul_le_mul_right i hp
      obtain ⟨C', e, h⟩ := hC.wr (i := p*i) (by omega) (c (p*i) + mulPart (fun _ => 1) c p i)
      refine ⟨C', ?_, h.congr (fun x _ => ?_)⟩
      · rw [zetaStep, hC.val (p*i) (by omega), Option.bind_some, hC.val i (by omega), Option.bind_some, if_neg (by omega), if_pos (by omega), e]
      · by_cases hx : x = p * i
        · subst hx
          rw [upd_same, if_pos ⟨by omega, by rw [Nat.mul_succ]; omega⟩, hstep (p*i) (by omega), if_pos (Nat.dvd_mul_right p i), Nat.mul_div_cancel_left i (by omega)]
        · rw [upd_ne _ _ hx]
          by_cases h1 : x ≠ 0 ∧ x < p * i
          · rw [if_pos h1, if_pos ⟨h1.1, by rw [Nat.mul_succ]; omega⟩]
          · rw [if_neg h1]
            by_cases h2 : x ≠ 0 ∧ x < p * (i+1)
            · rw [if_pos h2, hstep x (by omega), if_neg, add_zero]
              rintro ⟨q, rfl⟩
              have h3 : i ≤ q := Nat.le_of_mul_le_mul_left (by omega : p * i ≤ p * q) (by omega)
              have h4 : q < i + 1 := Nat.lt_of_mul_lt_mul_left h2.2
              exact hx (by rw [show q = i by omega])
            · rw [if_neg h2])
  refine ⟨C', e, h.congr (fun x hx => ?_)⟩
  have hgt := Nat.lt_mul_div_succ k (show 0 < p by omega)
  by_cases h0 : x = 0
  · rw [if_pos h0, if_neg (by omega), h0]
  · rw [if_neg h0, if_pos ⟨h0, by omega⟩]

theorem forListZeta_ok [CommRing T] {k : Nat} {b : Nat → T} :
    ∀ (ps : List Nat) (P : Nat → Prop) (C : List T) (c : Nat → T), Rep C (k+1) c → (∀ x, 0 < x → x ≤ k → c x = smoothSum P (fun _ => 1) b x) →
      (∀ p ∈ ps, p.Prime ∧ ¬ P p) → ps.Nodup →
      ∃ C' c', forList (zetaPrime k) ps C = some C' ∧ Rep C' (k+1) c' ∧ c' 0 = c 0 ∧
        ∀ x, 0 < x → x ≤ k → c' x = smoothSum (fun q => P q ∨ q ∈ ps) (fun _ => 1) b x := by
  intro ps
  induction ps with
  | nil =>
    intro P C c hC hc _ _
    refine ⟨C, c, rfl, hC, rfl, fun x h1 h2 => ?_⟩
    rw [hc x h1 h2]
    congr 1
    funext q; simp
  | cons p ps ih =>
    intro P C c hC hc hps hord
    obtain ⟨hp, hnp⟩ := hps p List.mem_cons_self
    obtain ⟨C1, e1, h1⟩ := zetaPrime_ok hp.two_le hC
    rw [List.nodup_cons] at hord
    obtain ⟨C2, c2, e2, h2, h3, h4⟩ := ih (fun q => P q ∨ q = p) C1 _ h1
      (fun x hx hxn => by
        rw [if_neg (by omega), mulPart_congr (fun _ => 1) hp.pos hx (fun y hy hyx => hc y hy (by omega))]
        exact smooth_step (n := k) (fun _ => 1) b ⟨rfl, fun _ _ _ _ => (one_mul 1).symm⟩ hp hnp hx hxn)
      (fun q hq => ⟨(hps q (List.mem_cons_of_mem p hq)).1, by
        rintro (h | h)
        · exact (hps q (List.mem_cons_of_mem p hq)).2 h
        · exact hord.1 (h ▸ hq)⟩)
      hord.2
    refine ⟨C2, c2, by rw [forList, e1, Option.bind_some, e2], h2, by rw [h3, if_pos rfl], fun x hx hxn => ?_⟩
    rw [h4 x hx hxn]
    congr 1
    funext q
    rw [List.mem_cons, or_assoc]

theorem dirSpec_comm [CommRing T] (f g : Nat → T) (m : Nat) : dirSpec f g m = dirSpec g f m := by
  unfold dirSpec
  rw [Finset.sum_comm]
  apply Finset.sum_congr rfl; intro i _
  apply Finset.sum_congr rfl; intro j _
  rw [Nat.mul_comm, mul_comm (f j) (g i)]

theorem summatory_one [CommRing T] (n : Nat) : summatory (fun i => if i = 0 then (0:T) else 1) n = (n : T) := by
  unfold summatory
  have : ∀ i ∈ range n, (if i + 1 = 0 then (0:T) else 1) = 1 := fun i _ => if_neg (by omega)
  rw [Finset.sum_congr rfl this]
  simp

theorem zetaRow_ok [CommRing T] {N k l : Nat} {gA : Nat → Option T} {a : List T} {f : Nat → T} (hsq : Nat.sqrt N ≤ k) (hf0 : f 0 = 0)
    (ha : ∀ i, 1 ≤ i → i ≤ k → a[i]? = some (f i))
    (hgA : ∀ t, 0 < t → t ≤ N → gA (N / t) = some (summatory f (N / t)))
    (hgS : ∀ i, i ≤ k → gA i = some (summatory f i)) {C : List T} {c : Nat → T} (hC : Rep C (l+1) c) {j : Nat} (hj1 : 1 ≤ j) (hj2 : j ≤ l) (hcj : c j = 0) :
    ∃ C', zetaRow N gA a j C = some C' ∧ Rep C' (l+1) (upd c j (summatory (dirSpec f (fun i => if i = 0 then 0 else 1)) (N / j))) := by
  have hmk : Nat.sqrt (N / j) ≤ k := Nat.le_trans (Nat.sqrt_le_sqrt (Nat.div_le_self N j)) hsq
  have hmn : Nat.sqrt (N / j) ≤ N / j := Nat.sqrt_le_self _
  have hhyp := hyperbola f (fun i => if i = 0 then 0 else 1) hf0 (if_pos rfl) (N / j)
  simp only [summatory_one] at hhyp
  unfold zetaRow
  generalize Nat.sqrt (N / j) = m at *
  obtain ⟨C', e, h⟩ := forRange_inv (body := zetaInner gA a (N / j) m j) (s := C)
    (fun i C => Rep C (l+1) (upd c j (∑ t ∈ range (i-1),
      (f (t+1) * ((N / j / (t+1) : Nat) : T) + (summatory f (N / j / (t+1)) - summatory f m))))) (Nat.le_add_left 1 m)
    (hC.congr (fun x _ => by
      by_cases hx : x = j
      · subst hx; rw [upd_same, hcj]; rfl
      · rw [upd_ne _ _ hx]))
    (fun i C hi1 hi2 hC => by
      obtain ⟨s, rfl⟩ : ∃ s, i = s + 1 := ⟨i-1, by omega⟩
      rw [Nat.add_sub_cancel] at hC
      have hpos : 0 < j * (s+1) := Nat.mul_pos hj1 (by omega)
      have hleN : j * (s+1) ≤ N := by
        have h1 : s + 1 ≤ N / j := by omega
        rw [Nat.le_div_iff_mul_le hj1] at h1
        rwa [Nat.mul_comm]
      have e1 := hgA _ hpos hleN
      rw [← Nat.div_div_eq_div_mul] at e1
      have hjl : j < l + 1 := by omega
      have hv := hC.val j hjl
      rw [upd_same] at hv
      obtain ⟨C1, w1, r1⟩ := hC.wr hjl ((∑ t ∈ range s,
        (f (t+1) * ((N / j / (t+1) : Nat) : T) + (summatory f (N / j / (t+1)) - summatory f m))) + f (s+1) * ((N / j / (s+1) : Nat) : T))
      have hv1 := r1.val j hjl
      rw [upd_same] at hv1
      obtain ⟨C2, w2, r2⟩ := r1.wr hjl ((∑ t ∈ range s,
        (f (t+1) * ((N / j / (t+1) : Nat) : T) + (summatory f (N / j / (t+1)) - summatory f m))) + f (s+1) * ((N / j / (s+1) : Nat) : T)
          + (summatory f (N / j / (s+1)) - summatory f m))
      refine ⟨C2, ?_, r2.congr (fun x _ => ?_)⟩
      · rw [zetaInner, ha _ hi1 (by omega), Option.bind_some, hv, Option.bind_some, w1, Option.bind_some, e1, Option.bind_some,
          hgS m hmk, Option.bind_some, hv1, Option.bind_some, w2]
      · by_cases hx : x = j
        · subst hx; rw [upd_same, upd_same, Nat.add_sub_cancel, Finset.sum_range_succ, add_assoc]
        · rw [upd_ne _ _ hx, upd_ne _ _ hx, upd_ne _ _ hx, upd_ne _ _ hx])
  refine ⟨C', e, h.congr (fun x _ => ?_)⟩
  rw [hhyp, Nat.add_sub_cancel]
  congr 1
  apply Finset.sum_congr rfl
  intro t _
  rw [if_neg (by omega), mul_one]

/-- **C58, zeta.** With any duplicate-free list containing all primes up to `k` (and only primes), the result holds the convolution of `f` with 1. -/
theorem C58_zeta [CommRing T] {N k l : Nat} {ps : List Nat} {a A : List T} {f : Nat → T} (hkl : N ≤ k * l) (hsq : Nat.sqrt N ≤ k)
    (hps : ∀ p ∈ ps, p.Prime) (hnd : ps.Nodup) (hall : ∀ p, p.Prime → p ≤ k → p ∈ ps) (hf : Holds N k l a A f) :
    ∃ c C, convolveZeta N ps a A = some (c, C) ∧ Holds N k l c C (dirSpec f (fun _ => 1)) := by
  obtain ⟨f1, f2, f3, f4, f5⟩ := hf
  let f' : Nat → T := fun i => if i = 0 then 0 else f i
  have hsf : ∀ n, summatory f' n = summatory f n := fun n => Finset.sum_congr rfl (fun i _ => if_neg (by omega))
  have hdir : ∀ m, m ≠ 0 → dirSpec f' (fun i => if i = 0 then 0 else 1) m = dirSpec f (fun _ => 1) m := by
    intro m hm
    unfold dirSpec
    apply Finset.sum_congr rfl; intro i _
    apply Finset.sum_congr rfl; intro j _
    refine if_ctx_congr Iff.rfl (fun h => ?_) (fun _ => rfl)
    have hi : i ≠ 0 := by rintro rfl; rw [Nat.zero_mul] at h; exact hm h.symm
    have hj : j ≠ 0 := by rintro rfl; rw [Nat.mul_zero] at h; exact hm h.symm
    show (if i = 0 then 0 else f i) * (if j = 0 then 0 else 1) = _
    rw [if_neg hi, if_neg hj]
  have hra : Rep a (k+1) f' := ⟨f1, fun i hi => by
    by_cases h : i = 0
    · subst h; exact f3
    · rw [f4 i (by omega) (by omega)]; show some (f i) = some (if i = 0 then 0 else f i); rw [if_neg h]⟩
  obtain ⟨la, e1, h1⟩ := prefix_ok hra (if_pos rfl)
  obtain ⟨c, c', e2, h2, h20, h21⟩ := forListZeta_ok (b := f') ps (fun _ => False) a f' hra
    (fun x hx _ => (smooth_none (fun _ => 1) f' rfl hx).symm) (fun p hp => ⟨hps p hp, fun h => h⟩) hnd
  have hA : ∀ j, 1 ≤ j → j ≤ l → A[j]? = some (summatory f' (N / j)) := fun j h1 h2 => by rw [hsf]; exact f5 j h1 h2
  obtain ⟨C, e4, h4⟩ := rows_ok (T := T) (l := l) (row := zetaRow N (getter N k la A) a)
    (F := fun j => summatory (dirSpec f' (fun i => if i = 0 then 0 else 1)) (N / j))
    (fun (C : List T) (c : Nat → T) j hC hj1 hj2 hc => zetaRow_ok (f := f') (c := c) hsq (if_pos rfl) (fun i _ h => hra.val i (by omega))
      (fun t ht htN => getter_div h1 hkl hA ht htN) (fun i hi => getter_small h1 hi) hC hj1 hj2 hc)
  refine ⟨c, C, ?_, h2.len, h4.len, ?_, ?_, ?_⟩
  · unfold convolveZeta prefixes
    have ha0 : ¬ (a.isEmpty = true ∨ A.isEmpty = true) := by
      rw [List.isEmpty_iff_length_eq_zero, List.isEmpty_iff_length_eq_zero]; omega
    rw [if_neg ha0, f1, f2, Nat.add_sub_cancel, Nat.add_sub_cancel, e1, Option.bind_some, e2, Option.bind_some, e4]
    rfl
  · rw [h2.val 0 (by omega), h20]; exact congrArg some (if_pos rfl)
  · intro i hi1 hi2
    rw [h2.val i (by omega), h21 i hi1 hi2, smooth_all _ _ hi1 (fun q hq hqi => Or.inr (hall q hq (by omega))), dirSpec_comm]
    refine congrArg some ?_
    have : dirSpec f' (fun _ => 1) i = dirSpec f' (fun i => if i = 0 then 0 else 1) i := by
      unfold dirSpec
      apply Finset.sum_congr rfl; intro x _
      apply Finset.sum_congr rfl; intro y _
      refine if_ctx_congr Iff.rfl (fun h => ?_) (fun _ => rfl)
      have hj : y ≠ 0 := by rintro rfl; rw [Nat.mul_zero] at h; omega
      dsimp only
      rw [if_neg hj]
    rw [this, hdir i (by omega)]
  · intro j hj1 hj2
    rw [h4.val j (by omega), if_neg (by omega)]
    refine congrArg some (Finset.sum_congr rfl (fun i _ => hdir _ (by omega)))

theorem le_mul_ceil {n k : Nat} (hk : 0 < k) : n ≤ k * ((n + k - 1) / k) := by
  have := Nat.lt_mul_div_succ (n + k - 1) hk
  rw [Nat.mul_succ] at this
  omega

theorem ceil_le {n k : Nat} (hk : 0 < k) (hn : 0 < n) : (n + k - 1) / k ≤ n := by
  apply Nat.lt_succ_iff.1
  rw [Nat.div_lt_iff_lt_mul hk, Nat.succ_mul]
  have := Nat.le_mul_of_pos_right n hk
  omega

/-- **C58, constructors.** Whatever positive `k` the floating-point power yields, `Zeta(n)` holds the constant 1 and `k*l ≥ n`. -/
theorem C58_zetaPair [CommRing T] {n k : Nat} (hk : 0 < k) (hint : n + k - 1 < 2^31) :
    ∃ a A, zetaPair (T := T) n k = some (a, A) ∧ Holds n k ((n + k - 1) / k) a A (fun _ => 1) ∧ n ≤ k * ((n + k - 1) / k) := by
  obtain ⟨a, e1, h1⟩ := (Rep.replicate (k+1) (1:T)).wr (i := 0) (by omega) 0
  generalize hl : (n + k - 1) / k = l
  obtain ⟨A, e2, h2⟩ := rows_ok (T := T) (l := l) (row := fun i A => wr A i ((n / i : Nat) : T)) (F := fun i => ((n / i : Nat) : T))
    (fun C c j hC _ hj _ => hC.wr (by omega) _)
  refine ⟨a, A, ?_, ⟨h1.len, h2.len, ?_, ?_, ?_⟩, hl ▸ le_mul_ceil hk⟩
  · unfold zetaPair
    rw [if_neg (by omega), int_some hint, Option.bind_some, e1, Option.bind_some, hl, e2]; rfl
  · rw [h1.val 0 (by omega), upd_same]
  · intro i hi1 hi2; rw [h1.val i (by omega), upd_ne _ _ (by omega)]
  · intro j hj1 hj2
    rw [h2.val j (by omega), if_neg (by omega)]
    refine congrArg some ?_
    unfold summatory
    simp

/-- **C58, constructors.** `Identity(n)` holds the unit of Dirichlet convolution. -/
theorem C58_identityPair [CommRing T] {n k : Nat} (hn : 0 < n) (hk : 0 < k) (hint : n + k - 1 < 2^31) :
    ∃ a A, identityPair (T := T) n k = some (a, A) ∧ Holds n k ((n + k - 1) / k) a A (fun i => if i = 1 then 1 else 0) ∧
      n ≤ k * ((n + k - 1) / k) := by
  have hc := ceil_le hk hn
  obtain ⟨a, e1, h1⟩ := (Rep.replicate (k+1) (0:T)).wr (i := 1) (by omega) 1
  generalize hl : (n + k - 1) / k = l at *
  obtain ⟨A, e2, h2⟩ := (Rep.replicate (l+1) (1:T)).wr (i := 0) (by omega) 0
  refine ⟨a, A, ?_, ⟨h1.len, h2.len, ?_, ?_, ?_⟩, hl ▸ le_mul_ceil hk⟩
  · unfold identityPair
    rw [if_neg (by omega), int_some hint, Option.bind_some, e1, Option.bind_some, hl, e2]; rfl
  · rw [h1.val 0 (by omega), upd_ne _ _ (by omega)]
  · intro i hi1 hi2; rw [h1.val i (by omega)]; rfl
  · intro j hj1 hj2
    rw [h2.val j (by omega), upd_ne _ _ (by omega)]
    refine congrArg some ?_
    have : 0 < n / j := Nat.div_pos (by omega) hj1
    unfold summatory
    rw [Finset.sum_eq_single 0]
    · rfl
    · intro i _ hi; exact if_neg (by omega)
    · intro h; rw [Finset.mem_range] at h; omega

/-- For `n = 0` the power is 0 and the code divides by it. -/
theorem C58_zero_undefined : zetaPair (T := Int) 0 0 = none ∧ identityPair (T := Int) 0 0 = none := by decide

/-- `sqrt N ≤ k` is needed: with `N = 16`, `k = 2`, `l = 8` the code reads `a[3]`. -/
theorem C58_needs_sqrt : convolveOptimal 16 [0, 1, (1 : Int)] [0, 16, 8, 5, 4, 3, 2, 2, 2] [0, 1, 1] [0, 16, 8, 5, 4, 3, 2, 2, 2] = none := by decide +kernel

example : convolveOptimal 10 [0, 1, 1, 1, (1 : Int)] [0, 10, 5, 3] [0, 1, 1, 1, 1] [0, 10, 5, 3] = some ([0, 1, 2, 2, 3], [0, 27, 10, 5]) := by decide +kernel
example : convolveZeta 10 [2, 3] [0, 1, 1, 1, (1 : Int)] [0, 10, 5, 3] = some ([0, 1, 2, 2, 3], [0, 27, 10, 5]) := by decide +kernel
example : Holds 10 4 3 [0, 1, 1, 1, (1 : Int)] [0, 10, 5, 3] (fun _ => 1) := by
  refine ⟨rfl, rfl, rfl, ?_, ?_⟩
  · intro i h1 h2
    have : i = 1 ∨ i = 2 ∨ i = 3 ∨ i = 4 := by omega
    rcases this with rfl | rfl | rfl | rfl <;> rfl
  · intro j h1 h2
    have : j = 1 ∨ j = 2 ∨ j = 3 := by omega
    rcases this with rfl | rfl | rfl <;> decide +kernel

end Verif.Dirichlet
