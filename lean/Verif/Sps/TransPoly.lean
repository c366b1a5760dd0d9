import Verif.Sps.Props
import Verif.Ntt.Props
import Verif.Enumerate.Props
import Mathlib.Data.Nat.Choose.Basic
/-!
**C122.** `TransposedSpsCompositionPoly` (`/repo/include/mtl/sps.hpp:305-334`) for `T = Modular<p>`.

A vector of `Modular` is the list of its `val_`s.  `TransposedSpsCompositionEgf` is the function of C95 on the residues; `convolution_fft` of two vectors of
`Modular` is `convolution_ntt` (convolution.hpp:98-101), that of C54.
-/
namespace Verif.Sps
open Finset Verif.Modular Verif.Ntt

/-- sps.hpp:318. -/
def tFactStep (p i : Nat) (v : List Nat) : Option (List Nat) :=
  (v[i-1]?).bind (fun x => (mul p x (ofInt p i)).bind (fun y => wr v i y))

/-- sps.hpp:322. -/
def tIfactStep (p i : Nat) (v : List Nat) : Option (List Nat) :=
  (v[i+1]?).bind (fun x => (mul p x (ofInt p ((i+1 : Nat) : Int))).bind (fun y => wr v i y))

/-- sps.hpp:327-328, on `(g, pow)`. -/
def tPowStep (p c : Nat) (fi : List Nat) (i : Nat) (s : List Nat × Nat) : Option (List Nat × Nat) :=
  (fi[i]?).bind (fun x => (mul p s.2 x).bind (fun z => (wr s.1 i z).bind (fun g => (mul p s.2 c).map (fun w => (g, w)))))

/-- sps.hpp:332. -/
def tScaleStep (p : Nat) (fact : List Nat) (i : Nat) (x : List Nat) : Option (List Nat) :=
  (x[i]?).bind (fun a => (fact[i]?).bind (fun b => (mul p a b).bind (fun z => wr x i z)))

/-- sps.hpp:315-323: the tables `fact` and `fact_inv`. -/
def tTables (p m : Nat) : Option (List Nat × List Nat) :=
  (wr (List.replicate m 0) 0 (ofInt p 1)).bind (fun f0 => (forRange 1 m (tFactStep p) f0).bind (fun fact =>
    (fact[m-1]?).bind (fun a => (inv p a).bind (fun b => (wr (List.replicate m 0) (m-1) b).bind (fun f1 =>
      (forRangeDown 0 (m-1) (tIfactStep p) f1).map (fun fi => (fact, fi)))))))

/-- sps.hpp:310-334; `r` is the primitive root used by the transforms. -/
def transPoly (p r L m : Nat) (s x : List Nat) : Option (List Nat) :=
  if m = 0 then some [] else
  (s[0]?).bind (fun c => (wr s 0 (sub p c c)).bind (fun s =>
    (transEgfVec L (s.map (fun a : Nat => (a : ZMod p))) (x.map (fun a : Nat => (a : ZMod p)))).bind (fun y =>
      (tTables p m).bind (fun t =>
        (forRange 0 m (tPowStep p c t.2) (List.replicate m 0, ofInt p 1)).bind (fun g =>
          (convNtt p r y.length (y.map ZMod.val) g.1).bind (fun h =>
            forRange 0 m (tScaleStep p t.1) (Ntt.resize p m h)))))))

/-! ### Tables -/

theorem tTables_ok {p : Nat} [hp : Fact p.Prime] (hlt : p < 2^31) {m : Nat} (hm0 : 0 < m) (hm : m ≤ p) :
    ∃ t, tTables p m = some t ∧ RepZ p t.1 m (fun i => (i.factorial : ZMod p)) ∧ RepZ p t.2 m (fun i => (i.factorial : ZMod p)⁻¹) := by
  have h2 := hp.out.two_le
  have hle : p ≤ 2^31 := by omega
  have h1 : ofInt p 1 < p := ofInt_lt (by omega) 1
  have c1 : (ofInt p 1 : ZMod p) = 1 := by rw [ofInt_cast (by omega)]; simp
  obtain ⟨f0, e0, R0⟩ := (zeros_rep (p := p) (by omega) m).wr hm0 h1
  obtain ⟨fact, e1, R1⟩ := forRange_inv (body := tFactStep p) (s := f0)
    (fun i v => RepZ p v m (fun x => if x < i then (x.factorial : ZMod p) else 0)) (show 1 ≤ m by omega)
    (R0.congr (fun x _ => by
      by_cases hx : x = 0
      · subst hx; rw [upd_same, if_pos (by omega), c1]; simp
      · rw [upd_ne _ _ hx, if_neg (by omega)]))
    (by
      intro i v hi1 hi2 R
      obtain ⟨x, ex, hx, cx⟩ := R.val (i-1) (by omega)
      obtain ⟨y, ey, hy, cy⟩ := mul_cast hle hx (ofInt_lt (m := p) (by omega) (i : Int))
      obtain ⟨v', ev, Rv⟩ := R.wr hi2 hy
      refine ⟨v', by rw [tFactStep, ex, Option.bind_some, ey, Option.bind_some, ev], Rv.congr (fun k hk => ?_)⟩
      by_cases hki : k = i
      · subst hki
        rw [upd_same, if_pos (by omega), cy, cx, if_pos (by omega), ofInt_cast (by omega), Int.cast_natCast]
        obtain ⟨j, rfl⟩ : ∃ j, k = j + 1 := ⟨k - 1, by omega⟩
        rw [Nat.add_sub_cancel, Nat.factorial_succ, ← Nat.cast_mul, Nat.mul_comm]
      · rw [upd_ne _ _ hki]
        beta_reduce
        exact if_congr (by omega) rfl rfl)
  have R1' : RepZ p fact m (fun i => (i.factorial : ZMod p)) := R1.congr (fun i hi => by rw [if_pos hi])
  obtain ⟨a, ea, ha, ca⟩ := R1'.val (m-1) (by omega)
  have hne : ∀ i, i < m → (i.factorial : ZMod p) ≠ 0 := fun i hi => Enumerate.fact_ne_zero (by omega)
  obtain ⟨b, eb, hb, cb⟩ := inv_spec hle ha (by
    rintro rfl
    rw [Nat.cast_zero] at ca
    exact hne (m-1) (by omega) ca.symm)
  obtain ⟨f1, e2, R2⟩ := (zeros_rep (p := p) (by omega) m).wr (show m - 1 < m by omega) hb
  obtain ⟨fi, e3, R3⟩ := forRangeDown_inv (body := tIfactStep p) (s := f1)
    (fun i v => RepZ p v m (fun x => if i ≤ x then (x.factorial : ZMod p)⁻¹ else 0)) (Nat.zero_le (m-1))
    (R2.congr (fun x hx => by
      by_cases hxm : x = m - 1
      · subst hxm; rw [upd_same, if_pos (by omega), cb, ca]
      · rw [upd_ne _ _ hxm, if_neg (by omega)]))
    (by
      intro i v _ hi R
      obtain ⟨x, ex, hx, cx⟩ := R.val (i+1) (by omega)
      obtain ⟨y, ey, hy, cy⟩ := mul_cast hle hx (ofInt_lt (m := p) (by omega) ((i+1 : Nat) : Int))
      obtain ⟨v', ev, Rv⟩ := R.wr (show i < m by omega) hy
      refine ⟨v', by rw [tIfactStep, ex, Option.bind_some, ey, Option.bind_some, ev], Rv.congr (fun k hk => ?_)⟩
      by_cases hki : k = i
      · subst hki
        rw [upd_same, if_pos (by omega), cy, cx, if_pos (by omega), ofInt_cast (by omega), Int.cast_natCast]
        apply eq_inv_of_mul_eq_one_left
        rw [mul_assoc, ← Nat.cast_mul, ← Nat.factorial_succ, inv_mul_cancel₀ (hne (k+1) (by omega))]
      · rw [upd_ne _ _ hki]
        beta_reduce
        exact if_congr (by omega) rfl rfl)
  refine ⟨(fact, fi), ?_, R1', R3.congr (fun i _ => by rw [if_pos (by omega)])⟩
  rw [tTables, e0, Option.bind_some, e1, Option.bind_some, ea, Option.bind_some, eb, Option.bind_some, e2, Option.bind_some, e3, Option.map_some]

/-! ### Algebra -/

theorem powCoef_choose {R : Type} [CommRing R] (c : R) : ∀ i j, powCoef c i j = (i.choose j : R) * c ^ (i - j) := by
  intro i
  induction i with
  | zero =>
    intro j
    cases j with
    | zero => simp [powCoef]
    | succ j => simp [powCoef]
  | succ i ih =>
    intro j
    cases j with
    | zero => rw [powCoef, ih]; simp [pow_succ]
    | succ j =>
      rw [powCoef, ih, ih, Nat.choose_succ_succ, Nat.add_sub_add_right]
      by_cases h : j + 1 ≤ i
      · rw [show i - j = (i - (j+1)) + 1 by omega, pow_succ]; push_cast; ring
      · rw [Nat.choose_eq_zero_of_lt (show i < j + 1 by omega)]; push_cast; ring

theorem coef_eq {p : Nat} [Fact p.Prime] (c : ZMod p) {k : Nat} (hk : k < p) (j : Nat) :
    powCoef c k j * (j.factorial : ZMod p) = if j ≤ k then (k.factorial : ZMod p) * (c ^ (k - j) * ((k - j).factorial : ZMod p)⁻¹) else 0 := by
  rw [powCoef_choose]
  by_cases h : j ≤ k
  · rw [if_pos h]
    have hne := Enumerate.fact_ne_zero (p := p) (n := k - j) (by omega)
    have h1 : (k.choose j : ZMod p) * (j.factorial : ZMod p) * ((k-j).factorial : ZMod p) = (k.factorial : ZMod p) := by
      rw [← Nat.cast_mul, ← Nat.cast_mul, Nat.choose_mul_factorial_mul_factorial h]
    rw [← h1]
    field_simp
  · rw [if_neg h, Nat.choose_eq_zero_of_lt (by omega)]; simp

/-- The sums over the partitions with `j` blocks. -/
def kblk {R : Type} [CommRing R] (n : Nat) (x a : Finset Nat → R) (j : Nat) : R :=
  ∑ S ∈ (range n).powerset, x S * ∑ P ∈ (setPartitions S).filter (fun P => P.card = j), ∏ B ∈ P, a B

theorem parts_le {n : Nat} {S : Finset Nat} (hS : S ∈ (range n).powerset) {P : Finset (Finset Nat)} (hP : P ∈ setPartitions S) : P.card ≤ n := by
  have h1 := card_parts_le hP
  have h2 := Finset.card_le_card (Finset.mem_powerset.1 hS)
  rw [Finset.card_range] at h2
  omega

theorem kblk_zero {R : Type} [CommRing R] {n : Nat} (x a : Finset Nat → R) {j : Nat} (hj : n < j) : kblk n x a j = 0 := by
  unfold kblk
  apply Finset.sum_eq_zero
  intro S hS
  rw [Finset.filter_eq_empty_iff.2 (fun P hP => by have := parts_le hS hP; omega)]
  simp

theorem pair_psum {R : Type} [CommRing R] (n : Nat) (x a : Finset Nat → R) (F : Nat → R) :
    ∑ S ∈ (range n).powerset, x S * psum F a S = ∑ j ∈ range (n+1), F j * kblk n x a j := by
  unfold kblk
  simp only [Finset.mul_sum]
  rw [Finset.sum_comm]
  apply Finset.sum_congr rfl
  intro S hS
  unfold psum
  rw [← Finset.sum_fiberwise_of_maps_to (t := range (n+1)) (g := fun P => P.card) (fun P hP => by
    rw [Finset.mem_range]; have := parts_le hS hP; omega), Finset.mul_sum]
  apply Finset.sum_congr rfl
  intro j _
  rw [Finset.mul_sum]
  apply Finset.sum_congr rfl
  intro P hP
  rw [(Finset.mem_filter.1 hP).2]; ring

/-- The binomial theorem for powers of `c + a`, paired with `x`. -/
theorem pair_pow {p : Nat} [Fact p.Prime] {n k : Nat} (hk : k < p) {x A a : Finset Nat → ZMod p} {c : ZMod p} (h0 : A ∅ = c) (ha0 : a ∅ = 0) (ha : ∀ S, S ≠ ∅ → a S = A S) :
    ∑ S ∈ (range n).powerset, x S * cpow A k S =
      (∑ j ∈ range (k+1), kblk n x a j * (c ^ (k - j) * ((k - j).factorial : ZMod p)⁻¹)) * (k.factorial : ZMod p) := by
  have e : ∀ S ∈ (range n).powerset, x S * cpow A k S = x S * psum (fun j => powCoef c k j * (j.factorial : ZMod p)) a S := by
    intro S _
    rw [cpow_psum h0 ha0 ha]
  rw [Finset.sum_congr rfl e, pair_psum, Finset.sum_mul]
  have e1 : ∑ j ∈ range (n+1), powCoef c k j * (j.factorial : ZMod p) * kblk n x a j = ∑ j ∈ range (n+1+(k+1)), powCoef c k j * (j.factorial : ZMod p) * kblk n x a j := by
    apply Finset.sum_subset (Finset.range_mono (by omega))
    intro j _ hj
    rw [Finset.mem_range] at hj
    rw [kblk_zero _ _ (by omega), mul_zero]
  rw [e1, ← Finset.sum_subset (s₁ := range (k+1)) (Finset.range_mono (by omega))]
  · apply Finset.sum_congr rfl
    intro j hj
    rw [Finset.mem_range] at hj
    rw [coef_eq c hk, if_pos (by omega)]; ring
  · intro j _ hj
    rw [Finset.mem_range] at hj
    rw [coef_eq c hk, if_neg (by omega), zero_mul]

/-! ### The function -/

/-- `TransposedSpsCompositionPoly(s, x, m)`: the entry `k` is the sum over all `S` of `x[S]` times the entry of `S` in the `k`-th power of `s` for subset
convolution.  `p` is a prime with `n + m` entries within the lengths of the transforms. -/
theorem C122_trans_poly {p r k : Nat} (H : Root p r) (hk : 2^k ∣ p - 1) (L n m : Nat) (hL : n ≤ L) (hn : n < 31) (hm : n + m ≤ 2^k) (s x : List Nat)
    (hs : s.length = 2^n) (hx : 2^n ≤ x.length) (hsp : ∀ a ∈ s, a < p) :
    ∃ y, transPoly p r L m s x = some y ∧ y.length = m ∧
      ∀ i, i < m → ∃ v, y[i]? = some v ∧ v < p ∧
        (v : ZMod p) = ∑ S ∈ (range n).powerset, ((x.getD (mask S) 0 : Nat) : ZMod p) * cpow (fun S => ((s.getD (mask S) 0 : Nat) : ZMod p)) i S := by
  haveI hF : Fact p.Prime := ⟨H.prime⟩
  have h2 := H.prime.two_le
  have hlt := H.lt
  have hle : p ≤ 2^31 := by omega
  have hkp : 2^k ≤ p - 1 := Nat.le_of_dvd (by omega) hk
  have hpn := Nat.two_pow_pos n
  unfold transPoly
  by_cases hm0 : m = 0
  · subst hm0
    exact ⟨[], by rw [if_pos rfl], rfl, fun i hi => absurd hi (by omega)⟩
  rw [if_neg hm0]
  obtain ⟨c, ec⟩ : ∃ c, s[0]? = some c := ⟨_, List.getElem?_eq_getElem (by omega)⟩
  have hc : c < p := hsp c (List.mem_of_getElem? ec)
  have hz : sub p c c = 0 := by rw [sub_eq hle hc hc, Nat.add_sub_of_le (by omega)]; simp
  have ew : wr s 0 (sub p c c) = some (s.set 0 0) := by unfold wr; rw [if_pos (by omega), hz]
  rw [ec, Option.bind_some, ew, Option.bind_some]
  obtain ⟨y, ey, hy, hyv⟩ := C95_egf_vector (T := ZMod p) L n hL hn ((s.set 0 0).map (fun a : Nat => (a : ZMod p))) (x.map (fun a : Nat => (a : ZMod p)))
    (by simp [hs]) (by simpa using hx) (by
      rw [List.getElem?_map, List.getElem?_set_self (by omega)]; simp)
  rw [ey, Option.bind_some]
  obtain ⟨t, et, Rf, Ri⟩ := tTables_ok (p := p) hlt (show 0 < m by omega) (by omega)
  rw [et, Option.bind_some]
  obtain ⟨⟨g, w⟩, eg, Rg, -⟩ := forRange_inv (body := tPowStep p c t.2) (s := (List.replicate m 0, ofInt p 1))
    (fun i v => RepZ p v.1 m (fun x => if x < i then (c : ZMod p) ^ x * (x.factorial : ZMod p)⁻¹ else 0) ∧ v.2 < p ∧ (v.2 : ZMod p) = (c : ZMod p) ^ i) (Nat.zero_le m)
    ⟨(zeros_rep (by omega) m).congr (fun x _ => by rw [if_neg (by omega)]), ofInt_lt (by omega) 1, by
      show ((ofInt p 1 : Nat) : ZMod p) = _
      rw [ofInt_cast (by omega)]; simp⟩
    (by
      rintro i ⟨v, w⟩ _ hi ⟨R, hw, cw⟩
      dsimp only at R hw cw
      obtain ⟨a, ea, ha, ca⟩ := Ri.val i hi
      obtain ⟨z, ez, hz, cz⟩ := mul_cast hle hw ha
      obtain ⟨v', ev, Rv⟩ := R.wr hi hz
      obtain ⟨w', ew, hw', cw'⟩ := mul_cast hle hw hc
      refine ⟨(v', w'), ?_, Rv.congr (fun j hj => ?_), hw', by show (w' : ZMod p) = _; rw [cw', cw, pow_succ]⟩
      · unfold tPowStep
        dsimp only
        rw [ea, Option.bind_some, ez, Option.bind_some, ev, Option.bind_some, ew, Option.map_some]
      · by_cases hji : j = i
        · subst hji; rw [upd_same, if_pos (by omega), cz, cw, ca]
        · rw [upd_ne _ _ hji]
          beta_reduce
          exact if_congr (by omega) rfl rfl)
  dsimp only at Rg
  rw [eg, Option.bind_some]
  dsimp only
  have Rg' : RepZ p g m (fun x => (c : ZMod p) ^ x * (x.factorial : ZMod p)⁻¹) := Rg.congr (fun x hx => by rw [if_pos hx])
  have hyp : ∀ a ∈ y.map ZMod.val, a < p := by
    intro a ha
    obtain ⟨b, _, rfl⟩ := List.mem_map.1 ha
    exact ZMod.val_lt b
  obtain ⟨h, N, eh, hN, -, Rh⟩ := convNtt_spec H y.length (y.map ZMod.val) g k hyp Rg'.red (by rw [List.length_map]; omega) (by rw [Rg'.len]; omega)
    (by rw [List.length_map]) (supported H hk) (by rw [List.length_map, Rg'.len, hy]; omega)
  rw [eh, Option.bind_some]
  rw [List.length_map, Rg'.len, hy] at hN
  have Rr : RepZ p (Ntt.resize p m h) m (mulF (cf p (y.map ZMod.val)) (cf p g)) := by
    unfold Ntt.resize
    rw [show m - h.length = 0 by rw [Rh.len]; omega, List.replicate_zero, List.append_nil]
    refine ⟨by rw [List.length_take, Rh.len]; omega, fun i hi => ?_⟩
    rw [List.getElem?_take_of_lt hi]
    exact Rh.val i (by omega)
  obtain ⟨q, eq, Rq⟩ := forRange_inv (body := tScaleStep p t.1) (s := Ntt.resize p m h)
    (fun i v => RepZ p v m (fun x => if x < i then mulF (cf p (y.map ZMod.val)) (cf p g) x * (x.factorial : ZMod p) else mulF (cf p (y.map ZMod.val)) (cf p g) x)) (Nat.zero_le m)
    (Rr.congr (fun x _ => by rw [if_neg (by omega)]))
    (by
      intro i v _ hi R
      obtain ⟨a, ea, ha, ca⟩ := R.val i hi
      rw [if_neg (by omega)] at ca
      obtain ⟨b, eb, hb, cb⟩ := Rf.val i hi
      obtain ⟨z, ez, hz, cz⟩ := mul_cast hle ha hb
      obtain ⟨v', ev, Rv⟩ := R.wr hi hz
      refine ⟨v', ?_, Rv.congr (fun j hj => ?_)⟩
      · unfold tScaleStep
        rw [ea, Option.bind_some, eb, Option.bind_some, ez, Option.bind_some, ev]
      · by_cases hji : j = i
        · subst hji; rw [upd_same, if_pos (by omega), cz, ca, cb]
        · rw [upd_ne _ _ hji]
          beta_reduce
          exact if_congr (by omega) rfl rfl)
  refine ⟨q, eq, Rq.len, fun i hi => ?_⟩
  obtain ⟨v, ev, hv, cv⟩ := Rq.val i hi
  refine ⟨v, ev, hv, ?_⟩
  rw [cv, if_pos hi]
  have hcx : ∀ S, at_ (x.map (fun a : Nat => (a : ZMod p))) S = ((x.getD (mask S) 0 : Nat) : ZMod p) := by
    intro S
    unfold at_
    rw [List.getD_eq_getElem?_getD, List.getElem?_map, List.getD_eq_getElem?_getD]
    cases x[mask S]? <;> simp
  have hcs : ∀ S, at_ ((s.set 0 0).map (fun a : Nat => (a : ZMod p))) S = (((s.set 0 0).getD (mask S) 0 : Nat) : ZMod p) := by
    intro S
    unfold at_
    rw [List.getD_eq_getElem?_getD, List.getElem?_map, List.getD_eq_getElem?_getD]
    cases (s.set 0 0)[mask S]? <;> simp
  rw [pair_pow (c := (c : ZMod p)) (a := at_ ((s.set 0 0).map (fun a : Nat => (a : ZMod p)))) (show i < p by omega)]
  · congr 1
    unfold mulF
    apply Finset.sum_congr rfl
    intro j hj
    rw [Finset.mem_range] at hj
    rw [Rg'.cf_eq (show i - j < m by omega)]
    congr 1
    unfold cf kblk
    by_cases hjn : j ≤ n
    · have := hyv j hjn
      rw [List.getD_eq_getElem?_getD, List.getElem?_map, this, Option.map_some, Option.getD_some, ZMod.natCast_val, ZMod.cast_id]
      apply Finset.sum_congr rfl
      intro S _
      rw [hcx]
    · rw [List.getD_eq_default _ _ (by rw [List.length_map]; omega), Nat.cast_zero]
      exact (kblk_zero _ _ (by omega)).symm
  · show ((s.getD (mask ∅) 0 : Nat) : ZMod p) = _
    rw [mask_empty, List.getD_eq_getElem?_getD, ec]; rfl
  · rw [hcs, mask_empty, List.getD_eq_getElem?_getD, List.getElem?_set_self (by omega)]; simp
  · intro S hS
    rw [hcs]
    have hne : mask S ≠ 0 := by
      obtain ⟨a, ha⟩ := Finset.nonempty_iff_ne_empty.2 hS
      unfold mask
      have := Finset.single_le_sum (f := fun i => 2^i) (fun i _ => Nat.zero_le _) ha
      have := Nat.two_pow_pos a
      omega
    rw [List.getD_eq_getElem?_getD, List.getElem?_set_ne (Ne.symm hne), List.getD_eq_getElem?_getD]

/-- Three powers of a series on the subsets of `{0, 1}` modulo 17. -/
example : transPoly 17 3 2 3 [5, 1, 2, 3] [1, 0, 0, 1] = some [1, 8, 8] := by decide +kernel
example : (∑ S ∈ (range 2).powerset, (([1, 0, 0, 1] : List Nat).getD (mask S) 0) * ([5, 1, 2, 3] : List Nat).getD (mask S) 0) % 17 = 8 := by decide +kernel

example : ∃ y, transPoly 17 3 2 3 [5, 1, 2, 3] [1, 0, 0, 1] = some y ∧ y.length = 3 ∧
    ∀ i, i < 3 → ∃ v : Nat, y[i]? = some v ∧ v < 17 ∧
      (v : ZMod 17) = ∑ S ∈ (range 2).powerset, ((([1, 0, 0, 1] : List Nat).getD (mask S) 0 : Nat) : ZMod 17) * cpow (fun S => ((([5, 1, 2, 3] : List Nat).getD (mask S) 0 : Nat) : ZMod 17)) i S :=
  C122_trans_poly root17 (k := 3) (by decide) 2 2 3 (by decide) (by decide) (by decide) [5, 1, 2, 3] [1, 0, 0, 1] rfl (by decide) (by decide)

end Verif.Sps
