import Verif.Sps.Loops
import Mathlib.RingTheory.PowerSeries.Basic
import Mathlib.Algebra.BigOperators.NatAntidiagonal
/-!
Inverse, logarithm, polynomial composition and the transposed maps.
-/
namespace Verif.Sps
open Finset Verif.Bitwise Verif.SubsetConv

variable {T : Type} {L : Nat}

/-! ### Inverse -/

theorem rmul_coeff [CommRing T] (u v : Nat → T) (d : Nat) : rmul u v d = PowerSeries.coeff d (PowerSeries.mk u * PowerSeries.mk v) := by
  rw [PowerSeries.coeff_mul, Finset.Nat.sum_antidiagonal_eq_sum_range_succ_mk]
  unfold rmul
  apply Finset.sum_congr rfl
  intro r _
  rw [PowerSeries.coeff_mk, PowerSeries.coeff_mk]

theorem rmul_mk [CommRing T] (u v : Nat → T) : PowerSeries.mk (rmul u v) = PowerSeries.mk u * PowerSeries.mk v := by
  ext d
  rw [PowerSeries.coeff_mk, rmul_coeff]

/-- The first `j+1` coefficients of the inverse of `1 + z 1 x + ...`. -/
def invs [CommRing T] (z : Nat → T) : Nat → Nat → T
  | 0 => fun d => if d = 0 then 1 else 0
  | j+1 => fun d => if d = j+1 then - ∑ k ∈ range (j+1), invs z j k * z (j+1-k) else invs z j d

/-- The coefficients of the inverse. -/
def ginv [CommRing T] (z : Nat → T) (d : Nat) : T := invs z d d

theorem invs_eq [CommRing T] (z : Nat → T) : ∀ j k, k ≤ j → invs z j k = ginv z k := by
  intro j
  induction j with
  | zero => intro k hk; obtain rfl : k = 0 := by omega
            rfl
  | succ j ih =>
    intro k hk
    by_cases h : k = j+1
    · subst h; rfl
    · show (if k = j+1 then _ else invs z j k) = _
      rw [if_neg h, ih k (by omega)]

theorem ginv_zero [CommRing T] (z : Nat → T) : ginv z 0 = 1 := rfl

theorem ginv_succ [CommRing T] (z : Nat → T) (j : Nat) : ginv z (j+1) = - ∑ k ∈ range (j+1), ginv z k * z (j+1-k) := by
  show (if j+1 = j+1 then _ else _) = _
  rw [if_pos rfl]
  congr 1
  apply Finset.sum_congr rfl
  intro k hk
  rw [Finset.mem_range] at hk
  rw [invs_eq z j k (by omega)]

theorem ginv_mul [CommRing T] {z : Nat → T} (h : z 0 = 1) (d : Nat) : rmul (ginv z) z d = if d = 0 then 1 else 0 := by
  cases d with
  | zero =>
    unfold rmul
    rw [Finset.sum_range_one, ginv_zero, Nat.sub_zero, h, mul_one, if_pos rfl]
  | succ j =>
    unfold rmul
    rw [Finset.sum_range_succ, Nat.sub_self, h, mul_one, ginv_succ, if_neg (by omega)]
    ring

theorem ginv_mk [CommRing T] {z : Nat → T} (h : z 0 = 1) : PowerSeries.mk (ginv z) * PowerSeries.mk z = 1 := by
  rw [← rmul_mk]
  ext d
  rw [PowerSeries.coeff_mk, ginv_mul h, PowerSeries.coeff_one]

theorem cls_inv [CommRing T] : ∀ (n : Nat) (s : Nat → T) (Z : Nat → Nat → T), n ≤ 64 → Cls n 0 s Z → (∀ x, x < 2^n → Z x 0 = 1) →
    ∃ t, Cls n 0 t (fun x => ginv (Z x)) := by
  intro n
  induction n with
  | zero =>
    intro s Z _ _ _
    exact ⟨fun _ => 1, cls_zero_iff.2 rfl⟩
  | succ n ih =>
    intro s Z hn hZ h1
    rw [Nat.pow_succ] at h1
    rw [cls_succ (by omega)] at hZ
    obtain ⟨hl, hu⟩ := hZ
    have hZu : Cls n 0 s (fun x => Z (2^n + x)) := by
      refine (hl.add hu.weaken).congr (fun x _ => ?_) (fun x d _ _ => ?_)
      · rw [add_zero]
      · ring
    obtain ⟨t, ht⟩ := ih s Z (by omega) hl (fun x hx => h1 x (by omega))
    obtain ⟨t', ht'⟩ := ih s _ (by omega) hZu (fun x hx => h1 _ (by omega))
    have p1 := cls_mul n 1 0 _ _ _ _ (by omega) hu ht
    have p2 := cls_mul n (1+0) 0 _ _ _ _ (by omega) p1 ht'
    have p3 := (Cls.zero (T := T) n 1).sub p2
    refine ⟨fun x => if x < 2^n then t x else 0 - sp n (sp n (fun x => s (2^n + x)) t) t' (x - 2^n), ?_⟩
    rw [cls_succ (by omega)]
    constructor
    · exact ht.congr (fun x hx => by rw [if_pos hx]) (fun _ _ _ _ => rfl)
    · refine p3.congr (fun x hx => ?_) (fun x d hx _ => ?_)
      · rw [if_neg (by omega), Nat.add_sub_cancel_left]
      · have g1 := ginv_mk (h1 x (by omega))
        have g2 := ginv_mk (h1 (2^n + x) (by omega))
        have hy : PowerSeries.mk (fun d => Z (2^n + x) d - Z x d) = PowerSeries.mk (Z (2^n + x)) - PowerSeries.mk (Z x) := by
          ext e; simp
        have e1 : rmul (rmul (fun d => Z (2^n + x) d - Z x d) (ginv (Z x))) (ginv (Z (2^n + x))) d =
            PowerSeries.coeff d ((PowerSeries.mk (Z (2^n + x)) - PowerSeries.mk (Z x)) * PowerSeries.mk (ginv (Z x)) * PowerSeries.mk (ginv (Z (2^n + x)))) := by
          rw [rmul_coeff, rmul_mk, hy]
        have e2 : (PowerSeries.mk (Z (2^n + x)) - PowerSeries.mk (Z x)) * PowerSeries.mk (ginv (Z x)) * PowerSeries.mk (ginv (Z (2^n + x))) =
            PowerSeries.mk (ginv (Z x)) - PowerSeries.mk (ginv (Z (2^n + x))) := by
          calc _ = PowerSeries.mk (ginv (Z x)) * (PowerSeries.mk (ginv (Z (2^n + x))) * PowerSeries.mk (Z (2^n + x))) -
                PowerSeries.mk (ginv (Z (2^n + x))) * (PowerSeries.mk (ginv (Z x)) * PowerSeries.mk (Z x)) := by ring
            _ = _ := by rw [g1, g2, mul_one, mul_one]
        show 0 - rmul (rmul (fun d => Z (2^n + x) d - Z x d) (ginv (Z x))) (ginv (Z (2^n + x))) d = _
        rw [e1, e2, map_sub, PowerSeries.coeff_mk, PowerSeries.coeff_mk]
        ring

theorem mob_const [CommRing T] (c : T) : ∀ (n x : Nat), x < 2^n → mob n (fun _ => c) x = if x = 0 then c else 0 := by
  intro n
  induction n with
  | zero => intro x hx; obtain rfl : x = 0 := by simpa using hx
            rfl
  | succ n ih =>
    intro x hx
    by_cases h : x < 2^n
    · rw [mob_low _ h, ih x h]
    · rw [Nat.pow_succ] at hx
      obtain ⟨y, rfl⟩ : ∃ y, x = 2^n + y := ⟨x - 2^n, by omega⟩
      have hp := Nat.two_pow_pos n
      rw [mob_high _ (by omega), if_neg (by omega)]
      simp only [sub_self]
      exact mob_zero n y

theorem invOuter_ok [CommRing T] {z g : Arr T L} {j : Nat} (hj : j + 1 ≤ L) (hg : ∀ d, d < j + 1 → av g d = ginv (av z) d) :
    ∃ g', invOuter z (j+1) g = some g' ∧ ∀ d, d < j + 2 → av g' d = ginv (av z) d := by
  obtain ⟨g1, e1, h1⟩ := aset_eq g (d := j+1) hj 0
  obtain ⟨g2, e2, h2⟩ := forRange_inv (body := invInner z (j+1)) (s := g1)
    (fun k g => (∀ d, d < j+1 → av g d = ginv (av z) d) ∧ av g (j+1) = - ∑ r ∈ range k, ginv (av z) r * av z (j+1-r)) (Nat.zero_le (j+1))
    ⟨fun d hd => by rw [h1 d (by omega), if_neg (by omega), hg d hd], by rw [h1 _ hj, if_pos rfl]; simp⟩
    (by
      rintro k g _ hk ⟨ha, hb⟩
      obtain ⟨g3, e3, h3⟩ := aset_eq g (d := j+1) hj (av g (j+1) - av g k * av z (j+1-k))
      refine ⟨g3, ?_, ?_, ?_⟩
      · rw [invInner, aget_eq g hj, Option.bind_some, aget_eq g (by omega), Option.bind_some, aget_eq z (by omega), Option.bind_some, e3]
      · intro d hd
        rw [h3 d (by omega), if_neg (by omega), ha d hd]
      · rw [h3 _ hj, if_pos rfl, hb, ha k hk, Finset.sum_range_succ]; ring)
  refine ⟨g2, by rw [invOuter, e1, Option.bind_some, e2], ?_⟩
  intro d hd
  by_cases h : d = j+1
  · subst h; rw [h2.2, ginv_succ]
  · exact h2.1 d (by omega)

theorem spsInv_ok [CommRing T] {n : Nat} (hL : n ≤ L) (hn : n < 31) {s : List T} (hs : s.length ≤ 2^n) (h0 : s[0]? = some 1) :
    ∃ o t, spsInv L n s = some o ∧ Rep o (2^n) t ∧ ∀ x, x < 2^n → sp n (fun y => s.getD y 0) t x = if x = 0 then 1 else 0 := by
  obtain ⟨zs, e1, h1⟩ := rankedZeta_ok hL hn s hs
  have hc0 : Cls n 0 (fun y => s.getD y 0) (low (subsetSum n (ranked (L := L) (fun z => s.getD z 0)))) :=
    (cls_zeta n (fun z => s.getD z 0)).congr (fun _ _ => rfl) (fun x d _ hd => (subsetSum_av n _ x (by omega)).symm)
  generalize hF : subsetSum n (ranked (L := L) (fun z => s.getD z 0)) = F at h1 hc0
  have hone : ∀ x, x < 2^n → av (F x) 0 = 1 := by
    have hz := mob_inj n (fun x => av (F x) 0 - 1) (fun x hx => by
      rw [mob_sub, mob_const _ n x hx]
      by_cases hx0 : x = 0
      · have h00 : pc 0 = 0 := ones_zero 64
        have h2 := (hc0 0 (Nat.two_pow_pos n)).2
        rw [h00] at h2
        rw [hx0, if_pos rfl, h2]
        show s.getD 0 0 - 1 = 0
        rw [List.getD_eq_getElem?_getD, h0]
        simp
      · have hpc : 0 < pc x := by
          rcases Nat.eq_zero_or_pos (pc x) with h | h
          · exact absurd (ones_eq_zero 64 x (Nat.lt_trans hx (Nat.pow_lt_pow_right (by omega) (by omega))) h) hx0
          · exact h
        rw [if_neg hx0, (hc0 x hx).1 0 (by omega), sub_zero])
    intro x hx
    have := hz x hx
    exact sub_eq_zero.1 this
  obtain ⟨s', e2, G, h2, _, hG⟩ := forRange_inv (body := invRow (L := L) n) (s := (zs, fun _ => (0 : T)))
    (fun i s => ∃ G, Rep s.1 (2^n) G ∧ (∀ x, i ≤ x → G x = F x) ∧ ∀ x d, x < i → d ≤ n → av (G x) d = ginv (av (F x)) d) (Nat.zero_le (2^n))
    ⟨F, h1, fun _ _ => rfl, fun x d hx => absurd hx (by omega)⟩
    (by
      rintro i ⟨zs, g⟩ _ hi ⟨G, hz, ho, hv⟩
      obtain ⟨g1, e3, h3⟩ := aset_eq g (d := 0) (Nat.zero_le L) 1
      obtain ⟨g2, e4, h4⟩ := forRange_inv (body := invOuter (F i)) (s := g1)
        (fun j g => ∀ d, d < j → av g d = ginv (av (F i)) d) (show 1 ≤ n+1 by omega)
        (fun d hd => by
          obtain rfl : d = 0 := by omega
          rw [h3 0 (Nat.zero_le L), if_pos rfl, ginv_zero])
        (fun j g h1 h2 hg => by
          obtain ⟨j, rfl⟩ : ∃ j', j = j'+1 := ⟨j-1, by omega⟩
          exact invOuter_ok (by omega) hg)
      obtain ⟨zs', e5, h5⟩ := hz.wr hi g2
      refine ⟨(zs', g2), ?_, upd G i g2, h5, ?_, ?_⟩
      · rw [invRow, hz.val i hi, ho i (Nat.le_refl i), Option.bind_some, e3, Option.bind_some, e4, Option.bind_some, e5]; rfl
      · intro x hx
        rw [upd_ne _ _ (by omega), ho x (by omega)]
      · intro x d hx hd
        by_cases hxi : x = i
        · subst hxi; rw [upd_same, h4 d (by omega)]
        · rw [upd_ne _ _ hxi, hv x d (by omega) hd])
  obtain ⟨t, ht⟩ := cls_inv n _ _ (by omega) hc0 hone
  obtain ⟨o, e3, h3⟩ := rankedMobius_cls hL h2 (ht.congr (fun _ _ => rfl) (fun x d hx hd => (hG x d hx (by omega)).symm))
  refine ⟨o, t, by rw [spsInv, e1, Option.bind_some, e2, Option.bind_some, e3], h3, ?_⟩
  intro x hx
  have hm := (cls_mul n 0 0 _ _ _ _ (by omega) ht hc0 x hx).2
  rw [mob_congr hx (g := fun _ => if pc x + (0+0) = 0 then 1 else 0) (fun y hy => ginv_mul (hone y hy) _), mob_const _ n x hx] at hm
  rw [sp_conv n _ _ x hx, conv_comm, ← sp_conv n t (fun y => s.getD y 0) x hx, ← hm]
  by_cases hx0 : x = 0
  · rw [if_pos hx0, if_pos hx0, hx0, if_pos (by rw [show pc 0 = 0 from ones_zero 64])]
  · rw [if_neg hx0, if_neg hx0]

/-! ### Logarithm -/

theorem psum_congr_fun [CommRing T] (F : Nat → T) {a b : Finset Nat → T} {S : Finset Nat} (h : ∀ U, U ⊆ S → a U = b U) : psum F a S = psum F b S := by
  unfold psum
  apply Finset.sum_congr rfl
  intro P hP
  rw [Finset.prod_congr rfl (fun B hB => h B ((mem_parts.1 hP).1 B hB))]

theorem resize_ok [Zero T] {A : List T} {m : Nat} : Rep (resize A m) m (fun x => A.getD x 0) := by
  unfold resize
  refine ⟨by rw [List.length_append, List.length_take, List.length_replicate]; omega, ?_⟩
  intro i hi
  rw [List.getD_eq_getElem?_getD]
  by_cases h : i < A.length
  · rw [List.getElem?_append_left (by rw [List.length_take]; omega), List.getElem?_take_of_lt hi, List.getElem?_eq_getElem h]; rfl
  · rw [List.getElem?_append_right (by rw [List.length_take]; omega), List.getElem?_replicate, if_pos (by rw [List.length_take]; omega),
      List.getElem?_eq_none (by omega)]; rfl

theorem spsLog_ok [CommRing T] [DecidableEq T] {n : Nat} (hL : n ≤ L) (hn : n < 31) {s : List T} (h0 : s[0]? = some 1) :
    ∃ out f, spsLog L n s = some out ∧ f 0 = 0 ∧ (∀ k, f (k+1) = - (k.factorial : T)) ∧
      Rep out (2^n) (fun x => psum f (fun U => if U = ∅ then 0 else - s.getD (mask U) 0) (setOf x)) := by
  have hlen : 0 < s.length := by
    rcases Nat.eq_zero_or_pos s.length with h | h
    · rw [List.getElem?_eq_none (by omega)] at h0; exact absurd h0 (by simp)
    · exact h
  obtain ⟨⟨f, fc⟩, e1, hf, hfc⟩ := forRange_inv (body := logRound (T := T)) (s := (List.replicate (n+1) 0, 1))
    (fun i t => Rep t.1 (n+1) (fun k => if 0 < k ∧ k < i then - ((k-1).factorial : T) else 0) ∧ t.2 = ((i-1).factorial : T)) (show 1 ≤ n+1 by omega)
    ⟨(Rep.replicate (n+1) 0).congr (fun k _ => by rw [if_neg (by omega)]), by simp⟩
    (by
      rintro i ⟨f, fc⟩ h1 h2 ⟨hf, hfc⟩
      dsimp only at hf hfc
      obtain ⟨f', e, hf'⟩ := hf.wr h2 (-fc)
      refine ⟨(f', fc * (i : Nat)), by rw [logRound, e]; rfl, hf'.congr (fun k hk => ?_), ?_⟩
      · by_cases hki : k = i
        · subst hki; rw [upd_same, if_pos (by omega), hfc]
        · rw [upd_ne _ _ hki]
          exact if_congr (by omega) rfl rfl
      · show fc * _ = _
        rw [hfc]
        obtain ⟨j, rfl⟩ : ∃ j, i = j+1 := ⟨i-1, by omega⟩
        rw [Nat.add_sub_cancel, Nat.add_sub_cancel, Nat.factorial_succ]
        push_cast; ring)
  dsimp only at hf
  obtain ⟨s1, e2, h2⟩ := (Rep.ofList s 0).wr hlen (0 : T)
  have h3 : Rep (if s1.length ≠ 2^n then resize s1 (2^n) else s1) (2^n) (fun x => s1.getD x 0) := by
    split
    · exact resize_ok
    · rename_i h
      have : s1.length = 2^n := by omega
      have := Rep.ofList s1 (0 : T)
      rwa [‹s1.length = 2^n›] at this
  have h3v : ∀ x, x ≠ 0 → s1.getD x 0 = s.getD x 0 := by
    intro x hx
    by_cases hxl : x < s.length
    · rw [List.getD_eq_getElem?_getD, h2.val x hxl, upd_ne _ _ hx]; rfl
    · rw [List.getD_eq_getElem?_getD, List.getD_eq_getElem?_getD, List.getElem?_eq_none (by rw [h2.len]; omega), List.getElem?_eq_none (by omega)]
  have h3z : s1.getD 0 0 = 0 := by
    rw [List.getD_eq_getElem?_getD, h2.val 0 hlen, upd_same]; rfl
  obtain ⟨s2, e3, h4⟩ := forRange_inv (body := negStep (T := T)) (s := if s1.length ≠ 2^n then resize s1 (2^n) else s1)
    (fun i t => Rep t (2^n) (fun x => if x = 0 then 0 else if x < i then - s.getD x 0 else s.getD x 0)) (show 1 ≤ 2^n from Nat.two_pow_pos n)
    (h3.congr (fun x _ => by
      by_cases hx : x = 0
      · rw [if_pos hx, hx, h3z]
      · rw [if_neg hx, if_neg (by omega), h3v x hx]))
    (by
      rintro i t h1 h2 ht
      obtain ⟨t', e, h'⟩ := ht.wr h2 (- s.getD i 0)
      refine ⟨t', ?_, h'.congr ?_⟩
      · rw [negStep, ht.val i h2, Option.bind_some, if_neg (by omega), if_neg (by omega), e]
      · intro x hx
        by_cases hxi : x = i
        · subst hxi; rw [upd_same, if_neg (by omega), if_pos (by omega)]
        · rw [upd_ne _ _ hxi]
          by_cases hx0 : x = 0
          · rw [if_pos hx0, if_pos hx0]
          · rw [if_neg hx0, if_neg hx0]
            exact if_congr (by omega) rfl rfl)
  obtain ⟨out, e4, h5⟩ := compEgf_ok (L := L) (F := f) (A := s2) (by omega) hn (Nat.le_of_eq h4.len.symm)
    (by rw [h4.val 0 (Nat.two_pow_pos n), if_pos rfl]) (Or.inr (by rw [hf.len]; omega))
  refine ⟨out, fun k => if 0 < k then - ((k-1).factorial : T) else 0, ?_, rfl, fun k => if_pos (Nat.succ_pos k), h5.congr ?_⟩
  · rw [spsLog, if_pos ⟨hL, hn, h0⟩, e1, Option.bind_some, e2, Option.bind_some, e3, Option.bind_some, e4]
  · intro x hx
    unfold val
    have hs := setOf_sub hx
    rw [psum_congr_fun (b := fun U => if U = ∅ then 0 else - s.getD (mask U) 0) _ (fun U hU => ?_)]
    · refine psum_congr _ _ _ _ (fun k hk => ?_)
      have hc := Finset.card_le_card hs
      rw [Finset.card_range] at hc
      rw [Nat.zero_add]
      show f.getD k 0 = _
      rw [List.getD_eq_getElem?_getD, hf.val k (by omega)]
      exact if_congr (by omega) rfl rfl
    · have hm := mask_lt (Finset.Subset.trans hU hs)
      show s2.getD (mask U) 0 = _
      rw [List.getD_eq_getElem?_getD (l := s2), h4.val _ hm.1]
      show (if mask U = 0 then _ else _) = _
      by_cases hU0 : U = ∅
      · rw [if_pos hU0, hU0, if_pos mask_empty]
      · rw [if_neg hU0, if_neg, if_pos hm.1]
        intro h
        rw [h] at hm
        exact hU0 hm.2.symm

/-! ### Polynomial composition -/

theorem mulPow_ok [CommRing T] {d i : Nat} {c : T} {pw : List T} (h : Rep pw (d+1) (powCoef c i)) :
    ∃ pw', forRangeDown 0 (d+1) (mulPow c) pw = some pw' ∧ Rep pw' (d+1) (powCoef c (i+1)) := by
  obtain ⟨pw', e, h'⟩ := forRangeDown_inv (body := mulPow c) (s := pw)
    (fun j p => Rep p (d+1) (fun x => if x < j then powCoef c i x else powCoef c (i+1) x)) (Nat.zero_le (d+1))
    (h.congr (fun x hx => by rw [if_pos hx]))
    (by
      rintro j p _ hj hp
      obtain ⟨p', e, h'⟩ := hp.wr hj (powCoef c (i+1) j)
      refine ⟨p', ?_, h'.congr ?_⟩
      · rw [mulPow, hp.val j hj, Option.bind_some]
        cases j with
        | zero =>
          rw [if_pos (by rfl), if_pos (by omega), add_zero]; exact e
        | succ j =>
          rw [if_neg (by omega), Nat.add_sub_cancel, hp.val j (by omega), Option.bind_some, if_pos (by omega), if_pos (by omega)]
          exact e
      · intro x hx
        by_cases hxj : x = j
        · subst hxj; rw [upd_same, if_neg (by omega)]
        · rw [upd_ne _ _ hxj]
          exact if_congr (by omega) rfl rfl)
  exact ⟨pw', e, h'.congr (fun x _ => by rw [if_neg (by omega)])⟩

theorem compPoly_ok [CommRing T] [DecidableEq T] {n : Nat} (hL : n ≤ L + 1) (hn : n < 31) {F A : List T} {c : T} (h0 : A[0]? = some c) (hc : c ≠ 0)
    (hF : F.length ≤ 1 ∨ n < F.length) :
    ∃ out, compPoly L n F A = some out ∧
      Rep out (2^n) (fun x => ∑ i ∈ range F.length, F.getD i 0 * cpow (fun U => A.getD (mask U) 0) i (setOf x)) := by
  by_cases hE : F = []
  · subst hE
    exact ⟨_, by rw [compPoly, if_pos hn]; rfl, (Rep.replicate (2^n) 0).congr (fun x _ => by simp)⟩
  have hFl : 0 < F.length := List.length_pos_iff.2 hE
  have hlen : 0 < A.length := by
    rcases Nat.eq_zero_or_pos A.length with h | h
    · rw [List.getElem?_eq_none (by omega)] at h0; exact absurd h0 (by simp)
    · exact h
  obtain ⟨d, hd⟩ : ∃ d, d = min (F.length - 1) n := ⟨_, rfl⟩
  have hRF : Rep F F.length (fun x => F.getD x 0) := Rep.ofList F 0
  obtain ⟨A1, e1, h1⟩ := (Rep.ofList A 0).wr hlen (0 : T)
  have h2 : Rep (resize A1 (2^n)) (2^n) (fun x => if x = 0 then 0 else A.getD x 0) := resize_ok.congr (fun x hx => by
    by_cases hx0 : x = 0
    · subst hx0; rw [if_pos rfl, List.getD_eq_getElem?_getD, h1.val 0 hlen, upd_same]; rfl
    · rw [if_neg hx0]
      by_cases hxl : x < A.length
      · rw [List.getD_eq_getElem?_getD, h1.val x hxl, upd_ne _ _ hx0]; rfl
      · rw [List.getD_eq_getElem?_getD, List.getD_eq_getElem?_getD, List.getElem?_eq_none (by rw [h1.len]; omega), List.getElem?_eq_none (by omega)])
  obtain ⟨pw, e2, h3⟩ := (Rep.replicate (d+1) (0 : T)).wr (show 0 < d+1 by omega) 1
  obtain ⟨⟨g, pw'⟩, e3, hg, _⟩ := forRange_inv (body := shiftRound F c d) (s := (List.replicate (d+1) 0, pw))
    (fun i t => Rep t.1 (d+1) (fun j => ∑ r ∈ range i, F.getD r 0 * powCoef c r j) ∧ Rep t.2 (d+1) (powCoef c i)) (Nat.zero_le F.length)
    ⟨(Rep.replicate (d+1) 0).congr (fun _ _ => by simp), h3.congr (fun j _ => by
      by_cases hj : j = 0
      · subst hj; rw [upd_same]; rfl
      · rw [upd_ne _ _ hj]
        show 0 = if j = 0 then _ else _
        rw [if_neg hj])⟩
    (by
      rintro i ⟨g, pw⟩ _ hi ⟨hg, hp⟩
      dsimp only at hg hp
      obtain ⟨g', e4, h4⟩ := forRange_inv (body := addPow (F.getD i 0) pw) (s := g)
        (fun j g => Rep g (d+1) (fun x => if x < j then ∑ r ∈ range (i+1), F.getD r 0 * powCoef c r x else ∑ r ∈ range i, F.getD r 0 * powCoef c r x))
        (Nat.zero_le (d+1)) (hg.congr (fun x _ => by rw [if_neg (by omega)]))
        (by
          rintro j g _ hj hgj
          obtain ⟨g', e, h'⟩ := hgj.wr hj (∑ r ∈ range i, F.getD r 0 * powCoef c r j + F.getD i 0 * powCoef c i j)
          refine ⟨g', ?_, h'.congr ?_⟩
          · rw [addPow, hgj.val j hj, Option.bind_some, hp.val j hj, Option.bind_some, if_neg (by omega), e]
          · intro x hx
            by_cases hxj : x = j
            · subst hxj; rw [upd_same, if_pos (by omega), Finset.sum_range_succ]
            · rw [upd_ne _ _ hxj]
              exact if_congr (by omega) rfl rfl)
      obtain ⟨pw', e5, h5⟩ := mulPow_ok hp
      refine ⟨(g', pw'), ?_, h4.congr (fun x hx => by rw [if_pos hx]), h5⟩
      rw [shiftRound, hRF.val i hi, Option.bind_some, e4, Option.bind_some, e5]; rfl)
  dsimp only at hg
  obtain ⟨⟨g2, fc⟩, e4, hg2, _⟩ := forRange_inv (body := factRound (T := T)) (s := (g, 1))
    (fun j t => Rep t.1 (d+1) (fun x => (∑ r ∈ range F.length, F.getD r 0 * powCoef c r x) * if x < j then (x.factorial : T) else 1) ∧ t.2 = (j.factorial : T))
    (Nat.zero_le (d+1)) ⟨hg.congr (fun x _ => by rw [if_neg (by omega), mul_one]), by simp⟩
    (by
      rintro j ⟨g, fc⟩ _ hj ⟨hg, hfc⟩
      dsimp only at hg hfc
      obtain ⟨g', e, h'⟩ := hg.wr hj ((∑ r ∈ range F.length, F.getD r 0 * powCoef c r j) * 1 * fc)
      refine ⟨(g', fc * ((j+1 : Nat) : T)), ?_, h'.congr ?_, ?_⟩
      · rw [factRound, hg.val j hj, Option.bind_some, if_neg (by omega), e]; rfl
      · intro x hx
        by_cases hxj : x = j
        · subst hxj; rw [upd_same, if_pos (by omega), hfc, mul_one]
        · rw [upd_ne _ _ hxj]
          congr 1
          exact if_congr (by omega) rfl rfl
      · show fc * _ = _
        rw [hfc, Nat.factorial_succ]; push_cast; ring)
  dsimp only at hg2
  obtain ⟨out, e5, h5⟩ := compEgf_ok (L := L) (F := g2) (A := resize A1 (2^n)) hL hn (Nat.le_of_eq h2.len.symm)
    (by rw [h2.val 0 (Nat.two_pow_pos n), if_pos rfl]) (by rw [hg2.len]; omega)
  refine ⟨out, ?_, h5.congr ?_⟩
  · have hisE : F.isEmpty = false := by
      cases F with
      | nil => exact absurd rfl hE
      | cons _ _ => rfl
    rw [compPoly, if_pos hn, hisE, if_neg (by simp)]
    dsimp only
    rw [← hd, h0, Option.bind_some, e1, Option.bind_some, if_neg hc, e2, Option.bind_some, e3, Option.bind_some, e4, Option.bind_some, e5]
  · intro x hx
    have hs := setOf_sub hx
    have hcx := Finset.card_le_card hs
    rw [Finset.card_range] at hcx
    have hAc : A.getD (mask ∅) 0 = c := by rw [mask_empty, List.getD_eq_getElem?_getD, h0]; rfl
    have hpow := cpow_psum (A := fun U => A.getD (mask U) 0) (a := fun U => if U = ∅ then 0 else A.getD (mask U) 0) hAc (by simp)
      (fun S hS => by rw [if_neg hS])
    simp only [hpow, ← psum_smul]
    have hsum : ∀ N, ∑ i ∈ range N, psum (fun k => F.getD i 0 * (powCoef c i k * (k.factorial : T))) (fun U => if U = ∅ then 0 else A.getD (mask U) 0) (setOf x) =
        psum (fun k => (∑ r ∈ range N, F.getD r 0 * powCoef c r k) * (k.factorial : T)) (fun U => if U = ∅ then 0 else A.getD (mask U) 0) (setOf x) := by
      intro N
      induction N with
      | zero => simp only [Finset.sum_range_zero, zero_mul]; rw [psum_zero]
      | succ N ih =>
        rw [Finset.sum_range_succ, ih, ← psum_add]
        refine psum_congr _ _ _ _ (fun k _ => ?_)
        rw [Finset.sum_range_succ]; ring
    rw [hsum]
    unfold val
    rw [psum_congr_fun (b := fun U => if U = ∅ then 0 else A.getD (mask U) 0) _ (fun U hU => ?_)]
    · refine psum_congr _ _ _ _ (fun k hk => ?_)
      rw [Nat.zero_add]
      show g2.getD k 0 = _
      rw [List.getD_eq_getElem?_getD (l := g2)]
      by_cases hkd : k < d + 1
      · rw [hg2.val k hkd, if_pos hkd]; rfl
      · have hl : F.length = 1 := by omega
        rw [List.getElem?_eq_none (by rw [hg2.len]; omega), hl, Finset.sum_range_one]
        show (0 : T) = _ * (if k = 0 then 1 else 0) * _
        rw [if_neg (by omega)]; ring
    · have hm := mask_lt (Finset.Subset.trans hU hs)
      show (resize A1 (2^n)).getD (mask U) 0 = _
      rw [List.getD_eq_getElem?_getD (l := resize A1 (2^n)), h2.val _ hm.1]
      show (if mask U = 0 then _ else _) = _
      by_cases hU0 : U = ∅
      · rw [if_pos hU0, hU0, if_pos mask_empty]
      · rw [if_neg hU0, if_neg]
        intro h
        rw [h] at hm
        exact hU0 hm.2.symm

/-! ### Transposed maps -/

theorem sum_two [AddCommMonoid T] (n : Nat) (h : Nat → T) : ∑ x ∈ range (2^(n+1)), h x = ∑ x ∈ range (2^n), h x + ∑ x ∈ range (2^n), h (2^n + x) := by
  rw [← two_pow_two, Finset.sum_range_add]

theorem sum_blocks [AddCommMonoid T] (h : Nat → T) : ∀ N, ∑ x ∈ range (2^N), h x = h 0 + ∑ i ∈ range N, ∑ v ∈ range (2^i), h (2^i + v) := by
  intro N
  induction N with
  | zero => simp
  | succ N ih => rw [sum_two, ih, Finset.sum_range_succ, add_assoc]

theorem sum_mask [AddCommMonoid T] (h : Nat → T) : ∀ n, ∑ x ∈ range (2^n), h x = ∑ S ∈ (range n).powerset, h (mask S) := by
  intro n
  induction n generalizing h with
  | zero => simp [mask_empty]
  | succ n ih =>
    rw [sum_two, ih h, ih (fun x => h (2^n + x)), Finset.range_add_one, Finset.sum_powerset_insert Finset.notMem_range_self]
    congr 1
    apply Finset.sum_congr rfl
    intro S hS
    rw [mask_insert (notMem_range_self (Finset.mem_powerset.1 hS))]

/-- Multiplying and transposing. -/
theorem sp_adjoint [CommRing T] : ∀ (n : Nat) (s f b : Nat → T),
    ∑ u ∈ range (2^n), sp n s (fun y => f (2^n - 1 - y)) (2^n - 1 - u) * b u = ∑ j ∈ range (2^n), f j * sp n s b j := by
  intro n
  induction n with
  | zero =>
    intro s f b
    simp only [Nat.pow_zero, Finset.sum_range_one]
    show s 0 * f 0 * b 0 = f 0 * (s 0 * b 0)
    ring
  | succ n ih =>
    intro s f b
    have hp := Nat.two_pow_pos n
    have hq := two_pow_two n
    have h1 : ∀ u, u ∈ range (2^n) → sp (n+1) s (fun y => f (2^(n+1) - 1 - y)) (2^(n+1) - 1 - u) * b u =
        sp n s (fun y => f (2^n - 1 - y)) (2^n - 1 - u) * b u + sp n (fun y => s (2^n + y)) (fun y => f (2^n + (2^n - 1 - y))) (2^n - 1 - u) * b u := by
      intro u hu
      rw [Finset.mem_range] at hu
      rw [sp, if_neg (by omega), show 2^(n+1) - 1 - u - 2^n = 2^n - 1 - u by omega, add_mul]
      congr 2
      · refine sp_congr n (fun _ _ => rfl) (fun y hy => ?_) (by omega)
        congr 1; omega
      · refine sp_congr n (fun _ _ => rfl) (fun y hy => ?_) (by omega)
        congr 1; omega
    have h2 : ∀ v, v ∈ range (2^n) → sp (n+1) s (fun y => f (2^(n+1) - 1 - y)) (2^(n+1) - 1 - (2^n + v)) * b (2^n + v) =
        sp n s (fun y => f (2^n + (2^n - 1 - y))) (2^n - 1 - v) * b (2^n + v) := by
      intro v hv
      rw [Finset.mem_range] at hv
      rw [sp, if_pos (by omega), show 2^(n+1) - 1 - (2^n + v) = 2^n - 1 - v by omega]
      congr 1
      refine sp_congr n (fun _ _ => rfl) (fun y hy => ?_) (by omega)
      congr 1; omega
    have h3 : ∀ j, j ∈ range (2^n) → f j * sp (n+1) s b j = f j * sp n s b j := by
      intro j hj
      rw [sp, if_pos (Finset.mem_range.1 hj)]
    have h4 : ∀ j, j ∈ range (2^n) → f (2^n + j) * sp (n+1) s b (2^n + j) =
        f (2^n + j) * sp n s (fun y => b (2^n + y)) j + f (2^n + j) * sp n (fun y => s (2^n + y)) b j := by
      intro j hj
      rw [sp, if_neg (by omega), Nat.add_sub_cancel_left, mul_add]
    rw [sum_two, sum_two, Finset.sum_congr rfl h1, Finset.sum_congr rfl h2, Finset.sum_congr rfl h3, Finset.sum_congr rfl h4,
      Finset.sum_add_distrib, Finset.sum_add_distrib, ih s f b, ih _ (fun y => f (2^n + y)) b, ih s (fun y => f (2^n + y)) (fun y => b (2^n + y))]
    ring

theorem and_high {n t y : Nat} (ht : t < 2^n) (hy : y < 2^n) : (t &&& (2^n + y) = t ↔ t &&& y = t) ∧ ((2^n + t) &&& y ≠ 2^n + t) ∧
    ((2^n + t) &&& (2^n + y) = 2^n + t ↔ t &&& y = t) ∧ (2^n + y) ^^^ t = 2^n + (y ^^^ t) ∧ (2^n + y) ^^^ (2^n + t) = y ^^^ t := by
  have or1 : ∀ {z}, z < 2^n → 2^n + z = 2^n ||| z := by
    intro z hz
    have := Nat.two_pow_add_eq_or_of_lt hz 1
    rwa [Nat.mul_one] at this
  have hb : ∀ {z}, z < 2^n → ∀ i, (2^n + z).testBit i = (decide (n = i) || z.testBit i) := by
    intro z hz i
    rw [or1 hz, Nat.testBit_or, Nat.testBit_two_pow]
  have hz : ∀ {z}, z < 2^n → z.testBit n = false := fun h => Nat.testBit_lt_two_pow h
  have hx : y ^^^ t < 2^n := Nat.xor_lt_two_pow hy ht
  refine ⟨?_, ?_, ?_, ?_, ?_⟩
  · have : t &&& (2^n + y) = t &&& y := by
      apply Nat.eq_of_testBit_eq
      intro i
      rw [Nat.testBit_and, Nat.testBit_and, hb hy]
      by_cases h : n = i
      · subst h; simp [hz ht]
      · simp [h]
    rw [this]
  · intro h
    have h1 : (2^n + t) &&& y ≤ y := Nat.and_le_right
    omega
  · have : (2^n + t) &&& (2^n + y) = 2^n + (t &&& y) := by
      have hl : t &&& y < 2^n := Nat.lt_of_le_of_lt Nat.and_le_left ht
      apply Nat.eq_of_testBit_eq
      intro i
      rw [Nat.testBit_and, hb ht, hb hy, hb hl, Nat.testBit_and]
      by_cases h : n = i
      · subst h; simp
      · simp [h]
    rw [this]; omega
  · apply Nat.eq_of_testBit_eq
    intro i
    rw [Nat.testBit_xor, hb hy, hb hx, Nat.testBit_xor]
    by_cases h : n = i
    · subst h; simp [hz ht]
    · simp [h]
  · apply Nat.eq_of_testBit_eq
    intro i
    rw [Nat.testBit_xor, hb hy, hb ht, Nat.testBit_xor]
    by_cases h : n = i
    · subst h; simp [hz ht, hz hy]
    · simp [h]

theorem subsetSpec_sp [CommRing T] : ∀ (n : Nat) (a b : Nat → T) (x : Nat), x < 2^n → subsetSpec n a b x = sp n a b x := by
  intro n
  induction n with
  | zero =>
    intro a b x hx
    obtain rfl : x = 0 := by simpa using hx
    unfold subsetSpec
    simp only [Nat.pow_zero, Finset.sum_range_one]
    rfl
  | succ n ih =>
    intro a b x hx
    unfold subsetSpec
    rw [sum_two, sp]
    split
    · rename_i h
      rw [← ih a b x h]
      rw [Finset.sum_eq_zero (s := range (2^n)) (f := fun t => if 2^n + t &&& x = 2^n + t then _ else 0), add_zero]
      · rfl
      · intro t ht
        rw [if_neg (and_high (Finset.mem_range.1 ht) h).2.1]
    · rename_i h
      rw [← two_pow_two] at hx
      obtain ⟨y, rfl⟩ : ∃ y, x = 2^n + y := ⟨x - 2^n, by omega⟩
      have hy : y < 2^n := by omega
      rw [Nat.add_sub_cancel_left, ← ih _ _ y hy, ← ih _ _ y hy]
      unfold subsetSpec
      congr 1
      · apply Finset.sum_congr rfl
        intro t ht
        have hh := and_high (Finset.mem_range.1 ht) hy
        rw [hh.2.2.2.1]
        exact if_congr hh.1 rfl rfl
      · apply Finset.sum_congr rfl
        intro t ht
        have hh := and_high (Finset.mem_range.1 ht) hy
        rw [hh.2.2.2.2]
        exact if_congr hh.2.2.1 rfl rfl

theorem sp_comm [CommRing T] {n : Nat} (a b : Nat → T) {x : Nat} (hx : x < 2^n) : sp n a b x = sp n b a x := by
  rw [sp_conv n a b x hx, conv_comm, ← sp_conv n b a x hx]

theorem transConv_ok [CommRing T] {n : Nat} (hL : n ≤ L) (hn : n < 31) {s x : List T} (hs : s.length ≤ 2^n) (hx : x.length = 2^n) :
    ∃ y, transConv L s x = some y ∧ Rep y (2^n) (fun u => sp n (fun i => s.getD i 0) (fun i => x.getD (2^n - 1 - i) 0) (2^n - 1 - u)) := by
  have hm : max x.reverse.length s.length = 2^n := by rw [List.length_reverse, hx]; omega
  have hp := Nat.two_pow_pos n
  obtain ⟨C, e, hC⟩ := C31_subset_convolution L x.reverse s (by omega) (by rw [hm, lg_pow]; exact hL) (by rw [hm, lg_pow]; exact hn)
  rw [hm, lg_pow] at hC
  refine ⟨C.reverse, by rw [transConv, e]; rfl, (Bitwise.Rep.reverse hC).congr ?_⟩
  intro u hu
  rw [subsetSpec_sp n _ _ _ (by omega), sp_comm _ _ (by omega)]
  refine sp_congr n (fun _ _ => rfl) (fun i hi => ?_) (by omega)
  rw [List.getD_eq_getElem?_getD, List.getD_eq_getElem?_getD, List.getElem?_reverse (by omega), hx]

/-- Rows standing for the blocks of `s`. -/
def Blocks [CommRing T] (s : Nat → T) (FS : Nat → Arr T L) (n : Nat) : Prop := ∀ j, j < n → Cls j 0 (fun x => s (2^j + x)) (blockAt FS j)

theorem blocks_ok [CommRing T] {n : Nat} (hL : n ≤ L) (hn : n < 31) {A : List T} (hA : 2^n ≤ A.length) :
    ∃ zA FA, forRange 0 n (zetaBlock (L := L) A) (zeros n) = some zA ∧ Rep zA (2^n) FA ∧ Blocks (fun x => A.getD x 0) FA n := by
  have hRA : Rep A A.length (fun x => A.getD x 0) := Rep.ofList A 0
  obtain ⟨zA, e1, FA, hzA, hcA⟩ := forRange_inv (body := zetaBlock (L := L) A) (s := zeros n)
    (fun i z => ∃ FA, Rep z (2^n) FA ∧ Blocks (fun x => A.getD x 0) FA i) (Nat.zero_le n)
    ⟨_, Rep.replicate (2^n) _, fun j hj => absurd hj (by omega)⟩
    (by
      rintro i z _ hi ⟨FA, hz, hc⟩
      have hp : 2^(i+1) ≤ 2^n := Nat.pow_le_pow_right (by omega) (by omega)
      obtain ⟨z', F', e, hz', hc', ho⟩ := zetaBlock_ok (L := L) (by omega) (by omega) hRA (Nat.le_trans hp hA) hz hp
      refine ⟨z', e, F', hz', fun j hj => ?_⟩
      by_cases hji : j = i
      · subst hji; exact hc'
      · refine (hc j (by omega)).congr (fun _ _ => rfl) (fun x d hx _ => ?_)
        show av (FA (2^j + x)) d = av (F' (2^j + x)) d
        have h1 : 2^(j+1) ≤ 2^i := Nat.pow_le_pow_right (by omega) (by omega)
        rw [← two_pow_two] at h1
        rw [ho _ (by omega)])
  exact ⟨zA, FA, e1, hzA, hcA⟩

theorem transBlock_ok [CommRing T] {i n : Nat} (hL : n ≤ L) (hn : n < 31) (hi : i < n) {zs zf : List (Arr T L)} {FS FF : Nat → Arr T L} {s f : Nat → T} {fl : List T}
    (hs : Rep zs (2^n) FS) (hb : Blocks s FS n) (hf : Rep fl (2^n) f) (hz : Rep zf (2^n) FF) :
    ∃ fl' zf' FF', transBlock zs i (fl, zf) = some (fl', zf') ∧ Rep zf' (2^n) FF' ∧
      Rep fl' (2^n) (over f (fun u => sp i (fun y => s (2^i + y)) (fun y => f (2^i + (2^i - 1 - y))) (2^i - 1 - u)) (2^i) (2^i)) := by
  have hp : 2^i + 2^i ≤ 2^n := by rw [two_pow_two]; exact Nat.pow_le_pow_right (by omega) (by omega)
  have hp0 := Nat.two_pow_pos i
  obtain ⟨a, e1, ha⟩ := blk_ok hf (o := 2^i) (len := 2^i) hp
  obtain ⟨z, G, e2, hz2, hG⟩ := rankedZeta_cls (L := L) (by omega) (by omega) (Bitwise.Rep.reverse ha)
  obtain ⟨zf1, e3, h3⟩ := put_ok hz hz2 (o := 2^i) hp
  obtain ⟨b, e4, h4⟩ := blk_ok hs (o := 2^i) (len := 2^i) hp
  obtain ⟨c, e5, h5⟩ := blk_ok h3 (o := 2^i) (len := 2^i) hp
  obtain ⟨p, H, e6, h6, hH⟩ := pointwiseTo_ok (by omega) h4 h5 h5
  obtain ⟨zf2, e7, h7⟩ := put_ok h3 h6 (o := 2^i) hp
  obtain ⟨q, e8, h8⟩ := blk_ok h7 (o := 2^i) (len := 2^i) hp
  have hc := cls_mul i 0 0 _ _ _ _ (by omega) (hb i hi) hG
  obtain ⟨o, e9, h9⟩ := rankedMobius_cls (by omega) h8 (hc.congr (fun _ _ => rfl) (fun x d hx hd => by
    show rmul (av (FS (2^i + x))) (av (G x)) d = av (over _ H (2^i) (2^i) (2^i + x)) d
    rw [over_in hx, hH x d hx (by omega), over_in hx]))
  obtain ⟨fl', e10, h10⟩ := put_ok hf (Bitwise.Rep.reverse h9) (o := 2^i) hp
  refine ⟨fl', zf2, _, ?_, h7, h10⟩
  rw [transBlock]
  dsimp only
  rw [e1, Option.bind_some, e2, Option.bind_some, e3, Option.bind_some, e4, Option.bind_some, e5, Option.bind_some, e6, Option.bind_some,
    e7, Option.bind_some, e8, Option.bind_some, e9, Option.bind_some, e10]
  rfl

theorem foldLoop_ok [CommRing T] {N w : Nat} (hw : w + w ≤ N) {g : List T} {f : Nat → T} (h : Rep g N f) :
    ∃ g', forRange 0 w (foldStep w) g = some g' ∧ Rep g' N (fun x => if x < w then f x + f (w + x) else if x < w + w then 0 else f x) := by
  obtain ⟨g', e, h'⟩ := forRange_inv (body := foldStep (T := T) w) (s := g)
    (fun j g => Rep g N (fun x => if x < j then f x + f (w + x) else if w ≤ x ∧ x < w + j then 0 else f x)) (Nat.zero_le w)
    (h.congr (fun x _ => by rw [if_neg (by omega), if_neg (by omega)]))
    (by
      rintro j g _ hj hg
      obtain ⟨g1, e1, h1⟩ := hg.wr (i := j) (by omega) (f j + f (w + j))
      obtain ⟨g2, e2, h2⟩ := h1.wr (i := j + w) (by omega) 0
      refine ⟨g2, ?_, h2.congr ?_⟩
      · rw [foldStep, hg.val j (by omega), Option.bind_some, hg.val (j+w) (by omega), Option.bind_some, if_neg (by omega), if_neg (by omega),
          if_neg (by omega), if_neg (by omega), Nat.add_comm j w, e1, Option.bind_some, Nat.add_comm w j, e2]
      · intro x hx
        by_cases h1 : x = j + w
        · subst h1; rw [upd_same, if_neg (by omega), if_pos (by omega)]
        · rw [upd_ne _ _ h1]
          by_cases h2 : x = j
          · subst h2; rw [upd_same, if_pos (by omega)]
          · rw [upd_ne _ _ h2]
            exact if_congr (by omega) rfl (if_congr (by omega) rfl rfl))
  refine ⟨g', e, h'.congr (fun x _ => ?_)⟩
  by_cases hx : x < w
  · rw [if_pos hx, if_pos hx]
  · rw [if_neg hx, if_neg hx]
    exact if_congr (by omega) rfl rfl

/-- All folds: pairing with `b` afterwards adds up the blocks. -/
theorem folds_ok [CommRing T] {N n : Nat} (hN : 2^n ≤ N) {g : List T} {f : Nat → T} (h : Rep g N f) (h0 : f 0 = 0) :
    ∃ g' f', forRange 0 n (fun i g => forRange 0 (2^i) (foldStep (2^i)) g) g = some g' ∧ Rep g' N f' ∧
      ∀ b : Nat → T, ∑ u ∈ range (2^(n-1)), f' u * b u = ∑ i ∈ range n, ∑ v ∈ range (2^i), f (2^i + v) * b v := by
  obtain ⟨g', e, f', h', _, hz, hb⟩ := forRange_inv (body := fun i g => forRange 0 (2^i) (foldStep (T := T) (2^i)) g) (s := g)
    (fun i g => ∃ f', Rep g N f' ∧ (∀ x, 2^i ≤ x → f' x = f x) ∧ (∀ x, 2^(i-1) ≤ x → x < 2^i → f' x = 0) ∧
      ∀ b : Nat → T, ∑ u ∈ range (2^i), f' u * b u = ∑ j ∈ range i, ∑ v ∈ range (2^j), f (2^j + v) * b v) (Nat.zero_le n)
    ⟨f, h, fun _ _ => rfl, fun x _ hx => by
      have : x = 0 := by simpa using hx
      rw [this, h0], fun b => by simp [h0]⟩
    (by
      rintro i g _ hi ⟨f1, hg, ho, hz, hb⟩
      have hp : 2^(i+1) ≤ 2^n := Nat.pow_le_pow_right (by omega) (by omega)
      rw [← two_pow_two] at hp
      obtain ⟨g', e, h'⟩ := foldLoop_ok (w := 2^i) (Nat.le_trans hp hN) hg
      refine ⟨g', e, _, h', ?_, ?_, ?_⟩
      · intro x hx
        rw [← two_pow_two] at hx
        rw [if_neg (by omega), if_neg (by omega), ho x (by omega)]
      · intro x h1 h2
        rw [Nat.add_sub_cancel] at h1
        rw [← two_pow_two] at h2
        rw [if_neg (by omega), if_pos h2]
      · intro b
        rw [sum_two, Finset.sum_range_succ, ← hb b, ← Finset.sum_add_distrib, ← Finset.sum_add_distrib]
        apply Finset.sum_congr rfl
        intro u hu
        rw [Finset.mem_range] at hu
        rw [if_pos hu, if_neg (by omega), if_pos (by omega), ho (2^i + u) (by omega)]; ring)
  refine ⟨g', f', e, h', fun b => ?_⟩
  rw [← hb b]
  cases n with
  | zero => rfl
  | succ n =>
    rw [Nat.add_sub_cancel, sum_two]
    symm
    rw [Finset.sum_eq_zero (f := fun x => f' (2^n + x) * b (2^n + x)), add_zero]
    intro x hx
    rw [Finset.mem_range] at hx
    rw [hz _ (by rw [Nat.add_sub_cancel]; omega) (by rw [← two_pow_two]; omega), zero_mul]

/-- The number of partitions into `m` blocks, weighted: `val` of the indicator of `m`. -/
def EE [CommRing T] (s : Nat → T) (m : Nat) : Nat → T := val (fun k => if k = m then 1 else 0) s 0

theorem EE_zero [CommRing T] (s : Nat → T) (m : Nat) : EE s m 0 = if m = 0 then 1 else 0 := by
  unfold EE
  rw [val_zero]
  exact if_congr (by omega) rfl rfl

theorem EE_succ [CommRing T] (s : Nat → T) (m : Nat) {i x : Nat} (hx : x < 2^i) : EE s (m+1) (2^i + x) = sp i (fun y => s (2^i + y)) (EE s m) x := by
  unfold EE
  rw [val_high _ _ _ hx]
  congr 1
  funext y
  unfold val
  refine psum_congr _ _ _ _ (fun k _ => ?_)
  exact if_congr (by omega) rfl rfl

theorem EE_high_zero [CommRing T] (s : Nat → T) {i x : Nat} (hx : x < 2^i) : EE s 0 (2^i + x) = 0 := by
  unfold EE
  rw [val_high _ _ _ hx, sp_conv i _ _ x hx]
  unfold conv
  apply Finset.sum_eq_zero
  intro U _
  have hz : ∀ y, val (fun k => if k = 0 then (1 : T) else 0) s (0+1) y = 0 := by
    intro y
    unfold val
    have := psum_congr (fun U => s (mask U)) (setOf y) (fun j => if 0 + 1 + j = 0 then (1 : T) else 0) (fun _ => 0) (fun k _ => by rw [if_neg (by omega)])
    rw [this, psum_zero]
  exact mul_eq_zero_of_right _ (hz _)

theorem EE_zero_pos [CommRing T] (s : Nat → T) {x : Nat} (hx : x ≠ 0) : EE s 0 x = 0 := by
  have h1 := Nat.log2_self_le hx
  have h2 : x < 2^(x.log2+1) := Nat.lt_log2_self
  rw [← two_pow_two] at h2
  obtain ⟨y, hy⟩ : ∃ y, x = 2^(x.log2) + y := ⟨x - 2^x.log2, by omega⟩
  rw [hy]
  exact EE_high_zero s (by omega)

theorem transEgf_ok [CommRing T] [DecidableEq T] {n : Nat} (hL : n ≤ L) (hn : n < 31) {s x : List T} (hs : 2^n ≤ s.length) (hx : 2^n ≤ x.length)
    (h0 : s[0]? = some 0) :
    ∃ y, transEgf L n s x = some y ∧ Rep y (n+1) (fun k => ∑ u ∈ range (2^n), x.getD u 0 * EE (fun i => s.getD i 0) k u) := by
  generalize hss : (fun i => s.getD i 0) = ss
  have hRx : Rep x x.length (fun u => x.getD u 0) := Rep.ofList x 0
  have hp := Nat.two_pow_pos n
  obtain ⟨y0, e0, hy0⟩ := (Rep.replicate (n+1) (0 : T)).wr (i := 0) (by omega) (x.getD 0 0)
  have key0 : ∀ (N : Nat) (f : Nat → T), ∑ u ∈ range (2^N), f u * EE ss 0 u = f 0 := by
    intro N f
    rw [Finset.sum_eq_single 0, EE_zero, if_pos rfl, mul_one]
    · intro u _ hu
      rw [EE_zero_pos ss hu, mul_zero]
    · intro h
      exact absurd (Finset.mem_range.2 (Nat.two_pow_pos N)) h
  by_cases hn0 : n = 0
  · subst hn0
    refine ⟨y0, ?_, hy0.congr ?_⟩
    · rw [transEgf, if_pos ⟨h0, hL, hn⟩, hRx.val 0 (by omega), Option.bind_some, e0, Option.bind_some, if_pos rfl]
    · intro k hk
      obtain rfl : k = 0 := by omega
      rw [upd_same, key0]
  obtain ⟨fl, e1, hf⟩ := blk_ok hRx (o := 0) (len := 2^n) (by omega)
  obtain ⟨zs, FS, e2, hzs, hB⟩ := blocks_ok (L := L) hL hn hs
  rw [hss] at hB
  obtain ⟨t, e3, f', FF, Y, _, _, hY, _, hYv⟩ := forRange_inv (body := transRound n zs) (s := (fl, zeros n, y0))
    (fun k t => ∃ f FF Y, Rep t.1 (2^n) f ∧ Rep t.2.1 (2^n) FF ∧ Rep t.2.2 (n+1) Y ∧
      (∀ m, ∑ u ∈ range (2^n), x.getD u 0 * EE ss (k+m) u = ∑ u ∈ range (2^(n-k)), f u * EE ss m u) ∧
      ∀ j, j ≤ k → Y j = ∑ u ∈ range (2^n), x.getD u 0 * EE ss j u) (Nat.zero_le n)
    ⟨_, _, _, hf, Rep.replicate (2^n) _, hy0, fun m => by
      rw [Nat.sub_zero]
      apply Finset.sum_congr rfl
      intro u _
      rw [Nat.zero_add, Nat.zero_add], fun j hj => by
      obtain rfl : j = 0 := by omega
      rw [upd_same, key0]⟩
    (by
      rintro k ⟨fl, zf, y⟩ _ hk ⟨f, FF, Y, hf, hz, hy, hE, hY⟩
      obtain ⟨fl1, e4, h4⟩ := hf.wr hp (0 : T)
      have hpk : 2^(n-k) ≤ 2^n := Nat.pow_le_pow_right (by omega) (by omega)
      obtain ⟨t1, e5, f1, FF1, h5, hz5, hv5, _, hz0⟩ := forRange_inv (body := transBlock zs) (s := (fl1, zf))
        (fun i t => ∃ f1 FF1, Rep t.1 (2^n) f1 ∧ Rep t.2 (2^n) FF1 ∧
          (∀ j, j < i → ∀ u, u < 2^j → f1 (2^j + u) = sp j (fun y => ss (2^j + y)) (fun y => f (2^j + (2^j - 1 - y))) (2^j - 1 - u)) ∧
          (∀ u, 2^i ≤ u → f1 u = f u) ∧ f1 0 = 0) (Nat.zero_le (n-k))
        ⟨_, FF, h4, hz, fun j hj => absurd hj (by omega), fun u hu => by rw [upd_ne _ _ (by rw [Nat.pow_zero] at hu; omega)], upd_same _ _ _⟩
        (by
          rintro i ⟨fl, zf⟩ _ hi ⟨f1, FF1, hf1, hz1, hv, ho, hz0⟩
          obtain ⟨fl', zf', FF', e, h1, h2⟩ := transBlock_ok hL hn (show i < n by omega) hzs hB hf1 hz1
          have hpi := Nat.two_pow_pos i
          refine ⟨(fl', zf'), e, _, FF', h2, h1, ?_, ?_, ?_⟩
          · intro j hj u hu
            by_cases hji : j = i
            · subst hji
              rw [over_in hu]
              refine sp_congr j (fun _ _ => rfl) (fun y hy => ?_) (by omega)
              rw [ho _ (by omega)]
            · have h3 : 2^(j+1) ≤ 2^i := Nat.pow_le_pow_right (by omega) (by omega)
              rw [← two_pow_two] at h3
              rw [over_out (by omega), hv j (by omega) u hu]
          · intro u hu
            rw [← two_pow_two] at hu
            rw [over_out (by omega), ho u (by omega)]
          · rw [over_out (by omega), hz0])
      obtain ⟨g, f2, e6, h6, hb6⟩ := folds_ok hpk h5 hz0
      have hsum : ∀ m, ∑ u ∈ range (2^(n-k)), f u * EE ss (m+1) u = ∑ u ∈ range (2^(n-(k+1))), f2 u * EE ss m u := by
        intro m
        rw [show n - (k+1) = n - k - 1 by omega, hb6, sum_blocks, EE_zero, if_neg (by omega), mul_zero, zero_add]
        apply Finset.sum_congr rfl
        intro i hi
        rw [Finset.mem_range] at hi
        rw [Finset.sum_congr (f := fun v => f1 (2^i + v) * EE ss m v) rfl (g := fun v => sp i (fun y => ss (2^i + y)) (fun y => f (2^i + (2^i - 1 - y))) (2^i - 1 - v) * EE ss m v)
            (fun v hv => by rw [hv5 i hi v (Finset.mem_range.1 hv)]),
          sp_adjoint i (fun y => ss (2^i + y)) (fun y => f (2^i + y)) (EE ss m)]
        apply Finset.sum_congr rfl
        intro v hv
        rw [EE_succ ss m (Finset.mem_range.1 hv)]
      have hsum' : ∀ m, ∑ u ∈ range (2^n), x.getD u 0 * EE ss (k+1+m) u = ∑ u ∈ range (2^(n-(k+1))), f2 u * EE ss m u := by
        intro m
        rw [← hsum m, ← hE (m+1), show k + 1 + m = k + (m+1) by omega]
      obtain ⟨y', e7, h7⟩ := hy.wr (i := k+1) (by omega) (f2 0)
      refine ⟨(g, t1.2, y'), ?_, f2, FF1, _, h6, hz5, h7, hsum', ?_⟩
      · rw [transRound]
        dsimp only
        rw [e4, Option.bind_some, e5, Option.bind_some, e6, Option.bind_some, h6.val 0 hp, Option.bind_some, e7]; rfl
      · intro j hj
        by_cases hjk : j = k+1
        · subst hjk
          have := hsum' 0
          rw [key0, Nat.add_zero] at this
          rw [upd_same, this]
        · rw [upd_ne _ _ hjk, hY j (by omega)])
  refine ⟨t.2.2, ?_, hY.congr (fun k hk => hYv k (by omega))⟩
  rw [transEgf, if_pos ⟨h0, hL, hn⟩, hRx.val 0 (by omega), Option.bind_some, e0, Option.bind_some, if_neg hn0, e1, Option.bind_some, e2, Option.bind_some, e3]
  rfl

end Verif.Sps
