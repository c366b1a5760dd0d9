import Verif.Ntt.Props
import Mathlib.RingTheory.PowerSeries.Basic
import Mathlib.Algebra.BigOperators.Intervals
/-!
Model of `convolution_large` (`/repo/include/mtl/convolution.hpp:171-210`) and its correctness.
-/
namespace Verif.ConvBig
open Verif.Modular Verif.Ntt

/-- convolution.hpp:188-189 for one `i`: `c[i>>l][i&mask] = f[i]`. -/
def cutStep (l : Nat) (f : List Nat) (i : Nat) (c : List (List Nat)) : Option (List (List Nat)) :=
  (f[i]?).bind (fun x => (c[i / 2^l]?).bind (fun v => (wr v (i % 2^l) x).bind (fun w => wr c (i / 2^l) w)))

/-- convolution.hpp:182-193 for one of the two vectors: blocks of length `2^l`, padded with zeros to `2<<l`, are transformed. -/
def cut (p r l : Nat) (f : List Nat) : Option (List (List Nat)) :=
  (forRange 0 f.length (cutStep l f) (List.replicate ((f.length - 1) / 2^l + 1) (List.replicate (2^(l+1)) (ofInt p 0)))).bind (fun c =>
    forRange 0 c.length (fun i c => (c[i]?).bind (fun v => (nttConv p r v).bind (fun w => wr c i w))) c)

/-- convolution.hpp:201-202: `e[x] += c[j][x] * d[k][x]`. -/
def dotStep (p : Nat) (v w : List Nat) (x : Nat) (e : List Nat) : Option (List Nat) :=
  (v[x]?).bind (fun a => (w[x]?).bind (fun b => addMul p x a b e))

/-- convolution.hpp:197-203: the loop over `j` (the assertion of line 200 is the condition on `k = i - j`). -/
def diag (p l : Nat) (c d : List (List Nat)) (i : Nat) : Option (List Nat) :=
  forRange (i + 1 - d.length) (min c.length (i + 1)) (fun j e =>
    if i - j < d.length then (c[j]?).bind (fun v => (d[i - j]?).bind (fun w => forRange 0 (2^(l+1)) (dotStep p v w) e)) else none)
    (List.replicate (2^(l+1)) (ofInt p 0))

/-- convolution.hpp:206-207: `res[(i<<l) + x] += e[x]`. -/
def putStep (p o : Nat) (e : List Nat) (x : Nat) (res : List Nat) : Option (List Nat) :=
  (e[x]?).bind (fun y => (res[o + x]?).bind (fun a => wr res (o + x) (add p a y)))

/-- convolution.hpp:196-208: one round of the outer loop; `i<<l` is an `int`, the subtraction of line 205 is one of `size_t`. -/
def largeStep (p r l N : Nat) (c d : List (List Nat)) (i : Nat) (res : List Nat) : Option (List Nat) :=
  (diag p l c d i).bind (fun e0 => (inttConv p r e0).bind (fun e =>
    if i * 2^l < 2^31 then forRange 0 (min (2^(l+1)) ((N + 2^64 - i * 2^l) % 2^64)) (putStep p (i * 2^l) e) res else none))

/-- convolution.hpp:171-210 (`convolution_large`); `h` is `unsigned`: for `h = 0` the difference `h - 1` wraps around and the shifts by `l` are undefined. -/
def convLarge (p r : Nat) (f g : List Nat) : Option (List Nat) :=
  if f.length = 0 ∨ g.length = 0 then some []
  else if f.length + g.length - 1 < 2^(logN p) then conv p r f g
  else if logN p = 0 then none
  else
    (cut p r (logN p - 1) f).bind (fun c => (cut p r (logN p - 1) g).bind (fun d =>
      forRange 0 (c.length + d.length - 1) (largeStep p r (logN p - 1) (f.length + g.length - 1) c d)
        (List.replicate (f.length + g.length - 1) (ofInt p 0))))

section sums
variable {R : Type} [CommRing R]

/-- Block `j` of length `B` of a sequence. -/
def blk (B : Nat) (F : Nat → R) (j x : Nat) : R := if x < B then F (j * B + x) else 0

theorem mulF_coeff (a b : Nat → R) (k : Nat) : mulF a b k = PowerSeries.coeff k (PowerSeries.mk a * PowerSeries.mk b) := by
  rw [PowerSeries.coeff_mul, Finset.Nat.sum_antidiagonal_eq_sum_range_succ (fun i j => PowerSeries.coeff i (PowerSeries.mk a) * PowerSeries.coeff j (PowerSeries.mk b))]
  unfold mulF
  simp only [PowerSeries.coeff_mk]

theorem mk_blocks {B J : Nat} (hB : 0 < B) {F : Nat → R} (hF : ∀ i, J * B ≤ i → F i = 0) :
    PowerSeries.mk F = ∑ j ∈ Finset.range J, PowerSeries.X ^ (j * B) * PowerSeries.mk (blk B F j) := by
  ext t
  rw [map_sum, PowerSeries.coeff_mk]
  have hd := Nat.div_add_mod t B
  have hm := Nat.mod_lt t hB
  by_cases c : t / B < J
  · rw [Finset.sum_eq_single (t / B)]
    · rw [PowerSeries.coeff_X_pow_mul', if_pos (Nat.div_mul_le_self t B), PowerSeries.coeff_mk]
      have : t - t / B * B = t % B := by rw [Nat.mul_comm]; omega
      rw [this, blk, if_pos hm]
      congr 1
      rw [Nat.mul_comm]; exact hd.symm
    · intro j _ hj
      rw [PowerSeries.coeff_X_pow_mul']
      by_cases c1 : j * B ≤ t
      · rw [if_pos c1, PowerSeries.coeff_mk, blk, if_neg]
        intro c2
        apply hj
        symm
        rw [Nat.div_eq_iff hB]
        constructor
        · exact c1
        · omega
      · rw [if_neg c1]
    · intro h
      exact absurd (Finset.mem_range.mpr c) h
  · rw [hF t (by have := (Nat.le_div_iff_mul_le hB).mp (Nat.not_lt.mp c); exact this)]
    symm
    apply Finset.sum_eq_zero
    intro j hj
    rw [Finset.mem_range] at hj
    rw [PowerSeries.coeff_X_pow_mul']
    by_cases c1 : j * B ≤ t
    · rw [if_pos c1, PowerSeries.coeff_mk, blk, if_neg]
      intro c2
      have h1 : J * B ≤ t := (Nat.le_div_iff_mul_le hB).mp (Nat.not_lt.mp c)
      have h2 : (j + 1) * B ≤ J * B := Nat.mul_le_mul_right _ hj
      rw [Nat.add_mul, Nat.one_mul] at h2
      omega
    · rw [if_neg c1]

/-- Sums along the diagonals. -/
theorem diag_sum {J K : Nat} (hJ : 0 < J) (hK : 0 < K) (T : Nat → Nat → R) (h1 : ∀ j k, J ≤ j → T j k = 0) (h2 : ∀ j k, K ≤ k → T j k = 0) :
    ∑ i ∈ Finset.range (J + K - 1), ∑ j ∈ Finset.range (i + 1), T j (i - j) = ∑ j ∈ Finset.range J, ∑ k ∈ Finset.range K, T j k := by
  rw [Finset.sum_range_diag_flip]
  have e1 : ∑ j ∈ Finset.range J, ∑ k ∈ Finset.range (J + K - 1 - j), T j k = ∑ j ∈ Finset.range (J + K - 1), ∑ k ∈ Finset.range (J + K - 1 - j), T j k := by
    apply Finset.sum_subset
    · intro x; rw [Finset.mem_range, Finset.mem_range]; omega
    · intro x _ hx
      rw [Finset.mem_range] at hx
      exact Finset.sum_eq_zero (fun k _ => h1 x k (by omega))
  rw [← e1]
  apply Finset.sum_congr rfl
  intro j hj
  rw [Finset.mem_range] at hj
  symm
  apply Finset.sum_subset
  · intro x; rw [Finset.mem_range, Finset.mem_range]; omega
  · intro x _ hx
    rw [Finset.mem_range] at hx
    exact h2 j x (by omega)

/-- The product of two sequences from the products of their blocks. -/
theorem blocks_mul {B J K : Nat} (hB : 0 < B) (hJ : 0 < J) (hK : 0 < K) {F G : Nat → R} (hF : ∀ i, J * B ≤ i → F i = 0) (hG : ∀ i, K * B ≤ i → G i = 0) (t : Nat) :
    mulF F G t = ∑ i ∈ Finset.range (J + K - 1), if i * B ≤ t then ∑ j ∈ Finset.range (i + 1), mulF (blk B F j) (blk B G (i - j)) (t - i * B) else 0 := by
  have z1 : ∀ j x, J ≤ j → blk B F j x = 0 := by
    intro j x hj
    unfold blk
    split
    · exact hF _ (Nat.le_trans (Nat.mul_le_mul_right B hj) (Nat.le_add_right _ _))
    · rfl
  have z2 : ∀ j x, K ≤ j → blk B G j x = 0 := by
    intro j x hj
    unfold blk
    split
    · exact hG _ (Nat.le_trans (Nat.mul_le_mul_right B hj) (Nat.le_add_right _ _))
    · rfl
  rw [mulF_coeff, mk_blocks hB hF, mk_blocks hB hG, Finset.sum_mul_sum, map_sum]
  have e : ∀ j ∈ Finset.range J, PowerSeries.coeff t (∑ k ∈ Finset.range K, PowerSeries.X ^ (j * B) * PowerSeries.mk (blk B F j) * (PowerSeries.X ^ (k * B) * PowerSeries.mk (blk B G k)))
      = ∑ k ∈ Finset.range K, if (j + k) * B ≤ t then mulF (blk B F j) (blk B G k) (t - (j + k) * B) else 0 := by
    intro j _
    rw [map_sum]
    apply Finset.sum_congr rfl
    intro k _
    have : PowerSeries.X ^ (j * B) * PowerSeries.mk (blk B F j) * (PowerSeries.X ^ (k * B) * PowerSeries.mk (blk B G k))
        = PowerSeries.X ^ ((j + k) * B) * (PowerSeries.mk (blk B F j) * PowerSeries.mk (blk B G k)) := by
      rw [Nat.add_mul, pow_add]; ring
    rw [this, PowerSeries.coeff_X_pow_mul', mulF_coeff]
  rw [Finset.sum_congr rfl e, ← diag_sum hJ hK (fun j k => if (j + k) * B ≤ t then mulF (blk B F j) (blk B G k) (t - (j + k) * B) else 0)]
  · apply Finset.sum_congr rfl
    intro i _
    split
    · next c =>
      apply Finset.sum_congr rfl
      intro j hj
      rw [Finset.mem_range] at hj
      rw [show j + (i - j) = i by omega, if_pos c]
    · next c =>
      apply Finset.sum_eq_zero
      intro j hj
      rw [Finset.mem_range] at hj
      rw [show j + (i - j) = i by omega, if_neg c]
  · intro j k hj
    split
    · unfold mulF
      exact Finset.sum_eq_zero (fun i _ => by rw [z1 j i hj, zero_mul])
    · rfl
  · intro j k hk
    split
    · unfold mulF
      exact Finset.sum_eq_zero (fun i _ => by rw [z2 k _ hk, mul_zero])
    · rfl

end sums

variable {p : Nat}

theorem zeros_rep' (h0 : 0 < p) (N : Nat) : RepZ p (List.replicate N (ofInt p 0)) N (fun _ => 0) := by
  have : ofInt p 0 = 0 := cast_inj (ofInt_lt h0 0) h0 (by rw [ofInt_cast h0]; simp)
  rw [this]
  exact zeros_rep h0 N

/-- Position of an index in the blocks. -/
theorem pos_iff {B i j x : Nat} (hx : x < B) : j * B + x = i ↔ j = i / B ∧ x = i % B := by
  constructor
  · rintro rfl
    rw [Nat.mul_comm, Nat.mul_add_div (by omega), Nat.mul_add_mod, Nat.div_eq_of_lt hx, Nat.mod_eq_of_lt hx]
    exact ⟨rfl, rfl⟩
  · rintro ⟨rfl, rfl⟩
    rw [Nat.mul_comm]
    exact Nat.div_add_mod i B

/-- A vector of vectors whose entry `j` is represented by `Φ j`. -/
def Blocks (p J M : Nat) (c : List (List Nat)) (Φ : Nat → Nat → ZMod p) : Prop :=
  c.length = J ∧ ∀ j, j < J → ∃ v, c[j]? = some v ∧ RepZ p v M (Φ j)

theorem Blocks.set {J M : Nat} {c : List (List Nat)} {Φ Ψ : Nat → Nat → ZMod p} (h : Blocks p J M c Φ) {j : Nat} (hj : j < J) {w : List Nat} (hw : RepZ p w M (Ψ j))
    (he : ∀ i, i < J → i ≠ j → ∀ x, x < M → Φ i x = Ψ i x) : ∃ c', wr c j w = some c' ∧ Blocks p J M c' Ψ := by
  obtain ⟨hl, hv⟩ := h
  refine ⟨c.set j w, ?_, by simp [hl], ?_⟩
  · unfold wr; rw [if_pos (by omega)]
  · intro i hi
    by_cases e : i = j
    · subst e
      exact ⟨w, List.getElem?_set_self (by omega), hw⟩
    · rw [List.getElem?_set_ne (by omega)]
      obtain ⟨v, e1, R⟩ := hv i hi
      exact ⟨v, e1, R.congr (fun x hx => he i hi e x hx)⟩

theorem cut_spec {r l : Nat} (H : Root p r) (hl : l + 1 = logN p) {f : List Nat} (hf : ∀ a ∈ f, a < p) (h0 : 0 < f.length) :
    ∃ c, cut p r l f = some c ∧
      Blocks p ((f.length - 1) / 2^l + 1) (2^(l+1)) c (fun j q => ev (blk (2^l) (cf p f) j) 0 (2^(l+1)) (pts p r (l+1) q)) := by
  have h2 := H.prime.two_le
  obtain ⟨_, hL⟩ := logN_spec h2 H.lt
  have hB : 0 < 2^l := Nat.two_pow_pos l
  have hM : 2^(l+1) = 2^l * 2 := pow_succ 2 l
  unfold cut
  obtain ⟨c, e, hc⟩ := forRange_inv (a := 0) (b := f.length) (body := cutStep l f)
    (s := List.replicate ((f.length - 1) / 2^l + 1) (List.replicate (2^(l+1)) (ofInt p 0)))
    (P := fun i (c : List (List Nat)) => Blocks p ((f.length - 1) / 2^l + 1) (2^(l+1)) c (fun j x => if x < 2^l ∧ j * 2^l + x < i then cf p f (j * 2^l + x) else 0)) (Nat.zero_le _)
    (by
      refine ⟨by simp, fun j hj => ⟨_, by rw [List.getElem?_replicate, if_pos hj], ?_⟩⟩
      exact (zeros_rep' (by omega) _).congr (fun x _ => by beta_reduce; rw [if_neg (by omega)]))
    (by
      intro i c _ hi hc
      obtain ⟨a, ea, la, ca⟩ := cf_mem hf hi
      have hj : i / 2^l < (f.length - 1) / 2^l + 1 := Nat.lt_succ_of_le (Nat.div_le_div_right (by omega))
      have hx : i % 2^l < 2^l := Nat.mod_lt _ hB
      obtain ⟨v, ev, Rv⟩ := hc.2 _ hj
      obtain ⟨w, ew, Rw⟩ := Rv.wr (i := i % 2^l) (a := a) (by omega) la
      obtain ⟨c', ec, hc'⟩ := hc.set (Ψ := fun j x => if x < 2^l ∧ j * 2^l + x < i + 1 then cf p f (j * 2^l + x) else 0) hj (w := w) (Rw.congr (by
        intro x _
        have hp0 := (pos_iff (i := i) (j := i / 2^l) hx).2 ⟨rfl, rfl⟩
        by_cases e : x = i % 2^l
        · subst e
          rw [upd_same, if_pos ⟨hx, by omega⟩, ca, hp0]
        · rw [upd_ne _ _ e]
          beta_reduce
          by_cases c1 : x < 2^l ∧ i / 2^l * 2^l + x < i
          · rw [if_pos c1, if_pos ⟨c1.1, by omega⟩]
          · rw [if_neg c1, if_neg]
            omega)) (by
        intro j _ hne x _
        beta_reduce
        by_cases c0 : x < 2^l
        · have := mt (pos_iff (i := i) (j := j) c0).1 (fun h => hne h.1)
          by_cases c1 : j * 2^l + x < i
          · rw [if_pos ⟨c0, c1⟩, if_pos ⟨c0, by omega⟩]
          · rw [if_neg (by omega), if_neg (by omega)]
        · rw [if_neg (by omega), if_neg (by omega)])
      exact ⟨c', by unfold cutStep; rw [ea, Option.bind_some, ev, Option.bind_some, ew, Option.bind_some, ec], hc'⟩)
  rw [e, Option.bind_some]
  obtain ⟨c', e', hc'⟩ := forRange_inv (a := 0) (b := c.length) (s := c) (body := fun i c => (c[i]?).bind (fun v => (nttConv p r v).bind (fun w => wr c i w)))
    (P := fun i (c : List (List Nat)) => Blocks p ((f.length - 1) / 2^l + 1) (2^(l+1)) c (fun j q => if j < i then ev (blk (2^l) (cf p f) j) 0 (2^(l+1)) (pts p r (l+1) q)
      else blk (2^l) (cf p f) j q)) (Nat.zero_le _)
    (by
      refine ⟨hc.1, fun j hj => ?_⟩
      obtain ⟨v, e1, R⟩ := hc.2 j hj
      refine ⟨v, e1, R.congr (fun x _ => ?_)⟩
      beta_reduce
      rw [if_neg (Nat.not_lt_zero _), blk]
      by_cases c1 : x < 2^l
      · rw [if_pos c1]
        by_cases c2 : j * 2^l + x < f.length
        · rw [if_pos ⟨c1, c2⟩]
        · rw [if_neg (by omega), cf_ge (by omega)]
      · rw [if_neg c1, if_neg (by omega)])
    (by
      intro i c' _ hi hc'
      rw [hc.1] at hi
      obtain ⟨v, e1, R⟩ := hc'.2 i hi
      obtain ⟨⟨w, ew, Rw⟩, _⟩ := fft_spec H (k := l + 1) (by omega) R.red (by rw [R.len]; exact ceilPow2_pow (by omega)) (by rw [R.len])
      obtain ⟨c'', ec, hc''⟩ := hc'.set (Ψ := fun j q => if j < i + 1 then ev (blk (2^l) (cf p f) j) 0 (2^(l+1)) (pts p r (l+1) q) else blk (2^l) (cf p f) j q) hi (w := w)
        (Rw.congr (by
          intro q _
          beta_reduce
          rw [if_pos (by omega)]
          refine ev_congr (fun x hx => ?_) _
          rw [R.cf_eq hx]
          beta_reduce
          rw [if_neg (by omega)])) (by
          intro j _ hne x _
          beta_reduce
          by_cases c1 : j < i
          · rw [if_pos c1, if_pos (by omega)]
          · rw [if_neg c1, if_neg (by omega)])
      exact ⟨c'', by rw [e1, Option.bind_some]; show (nttConv p r v).bind _ = _; rw [show nttConv p r v = some w from ew, Option.bind_some, ec], hc''⟩)
  refine ⟨c', e', hc'.1, fun j hj => ?_⟩
  obtain ⟨v, e1, R⟩ := hc'.2 j hj
  exact ⟨v, e1, R.congr (fun x _ => by beta_reduce; rw [if_pos (by rw [hc.1]; exact hj)])⟩

theorem dot_spec (hp : p < 2^31) {M : Nat} {v w e : List Nat} {α β φ : Nat → ZMod p} (Rv : RepZ p v M α) (Rw : RepZ p w M β) (Re : RepZ p e M φ) :
    ∃ e', forRange 0 M (dotStep p v w) e = some e' ∧ RepZ p e' M (fun x => φ x + α x * β x) := by
  obtain ⟨e', h, R⟩ := forRange_inv (a := 0) (b := M) (s := e) (body := dotStep p v w)
    (P := fun i (e : List Nat) => RepZ p e M (fun x => if x < i then φ x + α x * β x else φ x)) (Nat.zero_le _)
    (Re.congr (fun x _ => by rw [if_neg (Nat.not_lt_zero _)])) (by
      intro i e _ hi R
      obtain ⟨a, ea, la, ca⟩ := Rv.val i hi
      obtain ⟨b, eb, lb, cb⟩ := Rw.val i hi
      obtain ⟨e', h, R'⟩ := addMul_spec hp R (k := i) hi la lb
      refine ⟨e', by unfold dotStep; rw [ea, Option.bind_some, eb, Option.bind_some, h], R'.congr (fun x _ => ?_)⟩
      by_cases c : x = i
      · subst c; rw [upd_same, if_neg (by omega), if_pos (by omega), ca, cb]
      · rw [upd_ne _ _ c]
        by_cases c1 : x < i
        · rw [if_pos c1, if_pos (by omega)]
        · rw [if_neg c1, if_neg (by omega)])
  exact ⟨e', h, R.congr (fun x hx => by rw [if_pos hx])⟩

theorem put_spec (hp : p < 2^31) {M N o L : Nat} {e res : List Nat} {ε φ : Nat → ZMod p} (Re : RepZ p e M ε) (Rr : RepZ p res N φ) (hL : L ≤ M) (ho : o + L ≤ N) :
    ∃ res', forRange 0 L (putStep p o e) res = some res' ∧ RepZ p res' N (fun t => φ t + if o ≤ t ∧ t < o + L then ε (t - o) else 0) := by
  obtain ⟨e', h, R⟩ := forRange_inv (a := 0) (b := L) (s := res) (body := putStep p o e)
    (P := fun i (res : List Nat) => RepZ p res N (fun t => φ t + if o ≤ t ∧ t < o + i then ε (t - o) else 0)) (Nat.zero_le _)
    (Rr.congr (fun x _ => by rw [if_neg (by omega), add_zero])) (by
      intro i res _ hi R
      obtain ⟨a, ea, la, ca⟩ := Re.val i (by omega)
      obtain ⟨b, eb, lb, cb⟩ := R.val (o + i) (by omega)
      obtain ⟨e', h, R'⟩ := R.wr (i := o + i) (a := add p b a) (by omega) (add_lt (by omega) lb la)
      refine ⟨e', by unfold putStep; rw [ea, Option.bind_some, eb, Option.bind_some, h], R'.congr (fun x _ => ?_)⟩
      by_cases c : x = o + i
      · subst c
        rw [upd_same, if_pos (by omega), add_cast (by omega) lb la, ca, cb, if_neg (by omega), add_zero, Nat.add_sub_cancel_left]
      · rw [upd_ne _ _ c]
        by_cases c1 : o ≤ x ∧ x < o + i
        · rw [if_pos c1, if_pos (by omega)]
        · rw [if_neg c1, if_neg (by omega)])
  exact ⟨e', h, R⟩

theorem diag_spec {r l : Nat} (H : Root p r) {J K : Nat} {c d : List (List Nat)} {F G : Nat → ZMod p}
    (hc : Blocks p J (2^(l+1)) c (fun j q => ev (blk (2^l) F j) 0 (2^(l+1)) (pts p r (l+1) q)))
    (hd : Blocks p K (2^(l+1)) d (fun j q => ev (blk (2^l) G j) 0 (2^(l+1)) (pts p r (l+1) q)))
    (hF : ∀ i, J * 2^l ≤ i → F i = 0) (hG : ∀ i, K * 2^l ≤ i → G i = 0) {i : Nat} (hi : i < J + K - 1) :
    ∃ e, diag p l c d i = some e ∧
      RepZ p e (2^(l+1)) (fun q => ev (fun x => ∑ j ∈ Finset.range (i + 1), mulF (blk (2^l) F j) (blk (2^l) G (i - j)) x) 0 (2^(l+1)) (pts p r (l+1) q)) := by
  have h2 := H.prime.two_le
  unfold diag
  rw [hc.1, hd.1]
  obtain ⟨e, he, R⟩ := forRange_inv (a := i + 1 - K) (b := min J (i + 1)) (s := List.replicate (2^(l+1)) (ofInt p 0))
    (body := fun j e => if i - j < K then (c[j]?).bind (fun v => (d[i - j]?).bind (fun w => forRange 0 (2^(l+1)) (dotStep p v w) e)) else none)
    (P := fun t (e : List Nat) => RepZ p e (2^(l+1)) (fun q => ∑ j ∈ Finset.Ico (i + 1 - K) t,
      ev (blk (2^l) F j) 0 (2^(l+1)) (pts p r (l+1) q) * ev (blk (2^l) G (i - j)) 0 (2^(l+1)) (pts p r (l+1) q))) (by omega)
    ((zeros_rep' (by omega) _).congr (fun x _ => by rw [Finset.Ico_self, Finset.sum_empty])) (by
      intro j e h1 h2 R
      obtain ⟨v, e1, Rv⟩ := hc.2 j (by omega)
      obtain ⟨w, e2, Rw⟩ := hd.2 (i - j) (by omega)
      obtain ⟨e', e3, R'⟩ := dot_spec H.lt Rv Rw R
      refine ⟨e', by rw [if_pos (by omega), e1, Option.bind_some, e2, Option.bind_some, e3], R'.congr (fun q _ => ?_)⟩
      rw [Finset.sum_Ico_succ_top h1])
  refine ⟨e, he, R.congr (fun q _ => ?_)⟩
  have key : ∀ j, ev (blk (2^l) F j) 0 (2^(l+1)) (pts p r (l+1) q) * ev (blk (2^l) G (i - j)) 0 (2^(l+1)) (pts p r (l+1) q)
      = ev (mulF (blk (2^l) F j) (blk (2^l) G (i - j))) 0 (2^(l+1)) (pts p r (l+1) q) := by
    intro j
    rw [ev_mul (A := 2^l) (B := 2^l) (fun x hx => by rw [blk, if_neg (by omega)]) (fun x hx => by rw [blk, if_neg (by omega)]) (by rw [pow_succ]; omega)]
  have e1 : ∑ j ∈ Finset.Ico (i + 1 - K) (min J (i + 1)), ev (blk (2^l) F j) 0 (2^(l+1)) (pts p r (l+1) q) * ev (blk (2^l) G (i - j)) 0 (2^(l+1)) (pts p r (l+1) q)
      = ∑ j ∈ Finset.range (i + 1), ev (blk (2^l) F j) 0 (2^(l+1)) (pts p r (l+1) q) * ev (blk (2^l) G (i - j)) 0 (2^(l+1)) (pts p r (l+1) q) := by
    apply Finset.sum_subset
    · intro x; rw [Finset.mem_Ico, Finset.mem_range]; omega
    · intro j hj hn
      rw [Finset.mem_range] at hj
      rw [Finset.mem_Ico] at hn
      have z : ∀ {Q J : Nat} {F : Nat → ZMod p}, (∀ i, J * 2^l ≤ i → F i = 0) → J ≤ Q → ∀ z, ev (blk (2^l) F Q) 0 (2^(l+1)) z = 0 := by
        intro Q J F hF hJ z
        unfold ev
        apply Finset.sum_eq_zero
        intro x _
        have : blk (2^l) F Q (0 + x) = 0 := by
          unfold blk
          split
          · exact hF _ (Nat.le_trans (Nat.mul_le_mul_right _ hJ) (Nat.le_add_right _ _))
          · rfl
        rw [this, zero_mul]
      by_cases c1 : J ≤ j
      · rw [z hF c1, zero_mul]
      · rw [z hG (Q := i - j) (by omega), mul_zero]
  rw [e1, Finset.sum_congr rfl (fun j _ => key j)]
  unfold ev
  rw [Finset.sum_comm]
  apply Finset.sum_congr rfl
  intro j _
  rw [Finset.sum_mul]

theorem mulF_blk_zero {l : Nat} (F G : Nat → ZMod p) (j k x : Nat) (hx : 2^(l+1) ≤ x) : mulF (blk (2^l) F j) (blk (2^l) G k) x = 0 :=
  mulF_ge (A := 2^l) (B := 2^l) (fun x hx => by rw [blk, if_neg (by omega)]) (fun x hx => by rw [blk, if_neg (by omega)]) (by rw [pow_succ] at hx; omega)

theorem convLarge_ok {r : Nat} (H : Root p r) (hp2 : p ≠ 2) {f g : List Nat} (hf : ∀ a ∈ f, a < p) (hg : ∀ a ∈ g, a < p) (hf0 : f ≠ []) (hg0 : g ≠ [])
    (hl : f.length + g.length ≤ 2^31) : ∃ h, convLarge p r f g = some h ∧ IsProduct p f g h := by
  have h2 := H.prime.two_le
  obtain ⟨⟨q, hq, ho⟩, hL⟩ := logN_spec h2 H.lt
  have hp := List.length_pos_iff.2 hf0
  have hp' := List.length_pos_iff.2 hg0
  unfold convLarge
  rw [if_neg (by omega)]
  by_cases c : f.length + g.length - 1 < 2^(logN p)
  · rw [if_pos c]
    exact (C54_convolution H (k := logN p) ⟨q, hq⟩ f g hf hg).2 hf0 hg0 (Or.inr (Or.inr (by omega)))
  · have hlz : logN p ≠ 0 := by
      intro h
      rw [h, pow_zero, Nat.one_mul] at hq
      rcases H.prime.eq_two_or_odd with h | h <;> omega
    rw [if_neg c, if_neg hlz]
    obtain ⟨l, hll⟩ : ∃ l, l + 1 = logN p := ⟨logN p - 1, by omega⟩
    rw [show logN p - 1 = l by omega]
    obtain ⟨cs, e1, h1⟩ := cut_spec H hll hf hp
    obtain ⟨ds, e2, h3⟩ := cut_spec H hll hg hp'
    rw [e1, Option.bind_some, e2, Option.bind_some, h1.1, h3.1]
    have hB : 0 < 2^l := Nat.two_pow_pos l
    have len : ∀ n : Nat, 0 < n → n ≤ ((n - 1) / 2^l + 1) * 2^l := by
      intro n hn
      have := Nat.lt_div_mul_add (a := n - 1) hB
      rw [Nat.add_mul, Nat.one_mul]
      omega
    have len2 : ∀ n : Nat, (n - 1) / 2^l * 2^l ≤ n - 1 := fun n => Nat.div_mul_le_self _ _
    have hF : ∀ i, ((f.length - 1) / 2^l + 1) * 2^l ≤ i → cf p f i = 0 := fun i hi => cf_ge (Nat.le_trans (len _ hp) hi)
    have hG : ∀ i, ((g.length - 1) / 2^l + 1) * 2^l ≤ i → cf p g i = 0 := fun i hi => cf_ge (Nat.le_trans (len _ hp') hi)
    have hJ := len2 f.length
    have hK := len2 g.length
    generalize hJe : (f.length - 1) / 2^l = J at *
    generalize hKe : (g.length - 1) / 2^l = K at *
    obtain ⟨res, e, R⟩ := forRange_inv (a := 0) (b := J + 1 + (K + 1) - 1) (s := List.replicate (f.length + g.length - 1) (ofInt p 0))
      (body := largeStep p r l (f.length + g.length - 1) cs ds)
      (P := fun i (res : List Nat) => RepZ p res (f.length + g.length - 1) (fun t => ∑ i' ∈ Finset.range i,
        if i' * 2^l ≤ t then ∑ j ∈ Finset.range (i' + 1), mulF (blk (2^l) (cf p f) j) (blk (2^l) (cf p g) (i' - j)) (t - i' * 2^l) else 0)) (Nat.zero_le _)
      ((zeros_rep' (by omega) _).congr (fun x _ => by rw [Finset.range_zero, Finset.sum_empty])) (by
        intro i res _ hi R
        have hib : i * 2^l ≤ (J + K) * 2^l := Nat.mul_le_mul_right _ (by omega)
        rw [Nat.add_mul] at hib
        obtain ⟨e0, e3, R0⟩ := diag_spec H h1 h3 hF hG hi
        obtain ⟨e, e4, Re⟩ := (ifft_spec H (k := l + 1) (by omega)).1 R0
        have hmod : (f.length + g.length - 1 + 2^64 - i * 2^l) % 2^64 = f.length + g.length - 1 - i * 2^l := by omega
        obtain ⟨res', e5, R'⟩ := put_spec H.lt Re R (L := min (2^(l+1)) (f.length + g.length - 1 - i * 2^l)) (o := i * 2^l) (by omega) (by omega)
        refine ⟨res', ?_, R'.congr (fun t ht => ?_)⟩
        · unfold largeStep
          rw [e3, Option.bind_some, show inttConv p r e0 = some e from e4, Option.bind_some, if_pos (by omega), hmod, e5]
        · rw [Finset.sum_range_succ (n := i) (f := fun i' => if i' * 2^l ≤ t then ∑ j ∈ Finset.range (i' + 1), mulF (blk (2^l) (cf p f) j) (blk (2^l) (cf p g) (i' - j)) (t - i' * 2^l) else 0)]
          congr 1
          by_cases c1 : i * 2^l ≤ t
          · rw [if_pos c1]
            by_cases c2 : t < i * 2^l + min (2^(l+1)) (f.length + g.length - 1 - i * 2^l)
            · rw [if_pos ⟨c1, c2⟩]
            · rw [if_neg (by omega)]
              symm
              apply Finset.sum_eq_zero
              intro j _
              exact mulF_blk_zero _ _ _ _ _ (by omega)
          · rw [if_neg (by omega), if_neg c1])
    refine ⟨res, e, isProduct_of_rep (N := f.length + g.length - 1) (by omega) (R.congr (fun t _ => ?_)) (Nat.le_refl _) (by omega)⟩
    exact (blocks_mul hB (Nat.succ_pos _) (Nat.succ_pos _) hF hG t).symm

end Verif.ConvBig
