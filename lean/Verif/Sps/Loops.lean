import Verif.Sps.Part
/-!
The building blocks of the set power series functions.
-/
namespace Verif.Sps
open Finset Verif.Bitwise Verif.SubsetConv

variable {T : Type} {L : Nat} {α : Type}

/-! ### Blocks -/

theorem blk_ok {z : List α} {N : Nat} {F : Nat → α} (h : Rep z N F) {o len : Nat} (hl : o + len ≤ N) :
    ∃ b, blk z o len = some b ∧ Rep b len (fun x => F (o+x)) := by
  refine ⟨_, by rw [blk, if_pos (by rw [h.len]; exact hl)], ?_, ?_⟩
  · rw [List.length_take, List.length_drop, h.len]; omega
  · intro x hx
    rw [List.getElem?_take_of_lt hx, List.getElem?_drop, h.val _ (by omega)]

/-- The function after a block has been written. -/
def over (F G : Nat → α) (o m : Nat) : Nat → α := fun x => if o ≤ x ∧ x < o + m then G (x - o) else F x

theorem over_in {F G : Nat → α} {o m x : Nat} (h : x < m) : over F G o m (o + x) = G x := by
  unfold over; rw [if_pos (by omega), Nat.add_sub_cancel_left]

theorem over_out {F G : Nat → α} {o m x : Nat} (h : ¬ (o ≤ x ∧ x < o + m)) : over F G o m x = F x := by
  unfold over; rw [if_neg h]

theorem put_ok {z : List α} {N : Nat} {F : Nat → α} (h : Rep z N F) {c : List α} {m : Nat} {G : Nat → α} (hc : Rep c m G) {o : Nat} (hl : o + m ≤ N) :
    ∃ z', put z o c = some z' ∧ Rep z' N (over F G o m) := by
  refine ⟨_, by rw [put, if_pos (by rw [h.len, hc.len]; exact hl)], ?_, ?_⟩
  · simp only [List.length_append, List.length_take, List.length_drop, h.len, hc.len]; omega
  · intro x hx
    by_cases h1 : x < o
    · rw [over_out (by omega), List.append_assoc, List.getElem?_append_left (by rw [List.length_take, h.len]; omega), List.getElem?_take_of_lt h1, h.val x hx]
    · by_cases h2 : x < o + m
      · obtain ⟨y, rfl⟩ : ∃ y, x = o + y := ⟨x - o, by omega⟩
        rw [over_in (by omega), List.append_assoc, List.getElem?_append_right (by rw [List.length_take, h.len]; omega), List.length_take, h.len,
          show o + y - min o N = y by omega, List.getElem?_append_left (by rw [hc.len]; omega), hc.val y (by omega)]
      · rw [over_out (by omega), List.getElem?_append_right (by rw [List.length_append, List.length_take, h.len, hc.len]; omega), List.length_append,
          List.length_take, h.len, hc.len, List.getElem?_drop, show o + m + (x - (min o N + m)) = x by omega, h.val x hx]

/-- Low part as a ranked function. -/
abbrev low [Zero T] (F : Nat → Arr T L) : Nat → Nat → T := fun x d => av (F x) d

/-- Block `i` as a ranked function. -/
abbrev blockAt [Zero T] (F : Nat → Arr T L) (i : Nat) : Nat → Nat → T := fun x d => av (F (2^i + x)) d

/-! ### Merge and split -/

theorem av_shiftUp [CommRing T] (a : Arr T L) {d : Nat} (h : d ≤ L) : av (shiftUp a) d = if d = 0 then 0 else av a (d-1) := by
  unfold av shiftUp
  rw [dif_pos (by omega), dif_pos (by omega)]

theorem av_add [CommRing T] (a b : Arr T L) (d : Nat) : av (a + b) d = av a d + av b d := by
  unfold av
  split
  · rfl
  · rw [add_zero]

theorem av_shiftDown [CommRing T] (a : Arr T L) {d : Nat} (h : d < L) : av (shiftDown a) d = av a (d+1) := by
  unfold av shiftDown
  dsimp only
  rw [dif_pos (by omega), dif_pos h, dif_pos (by omega)]

theorem av_sub [CommRing T] (a b : Arr T L) (d : Nat) : av (a - b) d = av a d - av b d := by
  unfold av
  split
  · rfl
  · rw [sub_zero]

theorem merge_raw [CommRing T] {n N : Nat} (hL : n + 1 ≤ L) (hN : 2^(n+1) ≤ N) {z : List (Arr T L)} {F : Nat → Arr T L} (h : Rep z N F) :
    ∃ z', merge (n+1) z = some z' ∧ Rep z' N (over F (fun x => shiftUp (F (2^n + x)) + F x) (2^n) (2^n)) := by
  rw [Nat.pow_succ] at hN
  obtain ⟨z', e, h'⟩ := forRange_inv (body := mergeStep (2^n)) (s := z)
    (fun i z => Rep z N (over F (fun x => shiftUp (F (2^n + x)) + F x) (2^n) i)) (Nat.zero_le (2^n))
    (h.congr (fun x _ => by rw [over_out (by omega)]))
    (fun i z _ hi hz => by
      obtain ⟨z', e, h'⟩ := hz.wr (i := 2^n + i) (by omega) (shiftUp (F (2^n + i)) + F i)
      refine ⟨z', ?_, h'.congr ?_⟩
      · rw [mergeStep, show i + 2^n = 2^n + i by omega, hz.val _ (by omega), Option.bind_some, hz.val _ (by omega), Option.bind_some,
          over_out (by omega), over_out (by omega)]
        exact e
      · intro x hx
        by_cases hxi : x = 2^n + i
        · subst hxi
          rw [over_in (by omega), upd_same]
        · rw [upd_ne _ _ (by omega)]
          by_cases hin : 2^n ≤ x ∧ x < 2^n + i
          · obtain ⟨y, rfl⟩ : ∃ y, x = 2^n + y := ⟨x - 2^n, by omega⟩
            rw [over_in (by omega), over_in (by omega)]
          · rw [over_out hin, over_out (by omega)])
  refine ⟨z', ?_, h'⟩
  rw [merge, if_pos hL, if_neg (by omega), Nat.add_sub_cancel, e]

theorem merge_ok [CommRing T] {n N : Nat} (hn : n < 64) (hL : n + 1 ≤ L) (hN : 2^(n+1) ≤ N) {z : List (Arr T L)} {F : Nat → Arr T L} (h : Rep z N F) {a : Nat → T}
    (h1 : Cls n 0 a (low F)) (h2 : Cls n 0 (fun x => a (2^n + x)) (blockAt F n)) :
    ∃ z' F', merge (n+1) z = some z' ∧ Rep z' N F' ∧ Cls (n+1) 0 a (low F') ∧ ∀ x, 2^(n+1) ≤ x → F' x = F x := by
  obtain ⟨z', e, h'⟩ := merge_raw hL hN h
  refine ⟨z', _, e, h', ?_, ?_⟩
  · refine cls_merge hn h1 h2 ?_ ?_
    · intro x d hx _
      show av (over _ _ _ _ x) d = av (F x) d
      rw [over_out (by omega)]
    · intro x d hx hd
      show av (over _ _ _ _ (2^n + x)) d = _
      rw [over_in hx, av_add, av_shiftUp _ (by omega)]
  · intro x hx
    rw [Nat.pow_succ] at hx
    rw [over_out (by omega)]

theorem split_ok [CommRing T] {n N : Nat} (hn : n < 64) (hL : n + 1 ≤ L) (hN : 2^(n+1) ≤ N) {z : List (Arr T L)} {F : Nat → Arr T L} (h : Rep z N F) {a : Nat → T}
    (h1 : Cls (n+1) 0 a (low F)) :
    ∃ z' F', split (n+1) z = some z' ∧ Rep z' N F' ∧ Cls n 0 a (low F') ∧ Cls n 0 (fun x => a (2^n + x)) (blockAt F' n) := by
  rw [Nat.pow_succ] at hN
  obtain ⟨z', e, F', h', hF1, hF2⟩ := forRange_inv (body := splitStep (n+1) (2^n)) (s := z)
    (fun i z => ∃ F', Rep z N F' ∧ (∀ x, ¬ (2^n ≤ x ∧ x < 2^n + i) → F' x = F x) ∧
      ∀ x d, x < i → d ≤ n → av (F' (2^n + x)) d = av (F (2^n + x)) (d+1) - av (F x) (d+1)) (Nat.zero_le (2^n))
    ⟨F, h, fun _ _ => rfl, fun x d hx => absurd hx (by omega)⟩
    (by
      rintro i z _ hi ⟨F', hz, h1, h2⟩
      obtain ⟨a', e1, ha⟩ := aset_eq (shiftDown (F (2^n + i) - F i)) (d := n+1) hL 0
      obtain ⟨z', e, h'⟩ := hz.wr (i := 2^n + i) (by omega) a'
      refine ⟨z', ?_, upd F' (2^n + i) a', h', ?_, ?_⟩
      · rw [splitStep, show i + 2^n = 2^n + i by omega, hz.val _ (by omega), Option.bind_some, hz.val _ (by omega), Option.bind_some,
          h1 (2^n + i) (by omega), h1 i (by omega), e1, Option.bind_some, e]
      · intro x hx
        rw [upd_ne _ _ (by omega), h1 x (by omega)]
      · intro x d hx hd
        by_cases hxi : x = i
        · subst hxi
          rw [upd_same, ha d (by omega), if_neg (by omega), av_shiftDown _ (by omega), av_sub]
        · rw [upd_ne _ _ (by omega)]
          exact h2 x d (by omega) hd)
  refine ⟨z', F', ?_, h', ?_⟩
  · rw [split, if_pos hL, if_neg (by omega), Nat.add_sub_cancel, e]
  · refine cls_split hn h1 ?_ ?_
    · intro x d hx _
      show av (F' x) d = av (F x) d
      rw [hF1 x (by omega)]
    · intro x d hx hd
      exact hF2 x d hx hd

/-! ### Transforms on blocks -/

theorem pointwiseTo_ok [CommRing T] {n : Nat} (hL : n ≤ L) {zA zB out : List (Arr T L)} {F G O : Nat → Arr T L} (hA : Rep zA (2^n) F) (hB : Rep zB (2^n) G)
    (hO : Rep out (2^n) O) : ∃ C H, pointwiseTo n zA zB out = some C ∧ Rep C (2^n) H ∧
      ∀ x d, x < 2^n → d ≤ n → av (H x) d = rmul (av (F x)) (av (G x)) d := by
  obtain ⟨s, e, ⟨H, h1, h3⟩⟩ := forRange_inv (body := rowTo n zA zB) (s := (out, fun _ => (0 : T)))
    (fun i s => ∃ H : Nat → Arr T L, Rep s.1 (2^n) H ∧
      ∀ x d, x < i → d ≤ n → av (H x) d = rmul (av (F x)) (av (G x)) d) (Nat.zero_le (2^n))
    ⟨O, hO, fun x d hx => absurd hx (by omega)⟩
    (by
      rintro i ⟨C, tmp⟩ _ hi ⟨H, h1, h3⟩
      obtain ⟨t1, t2, z, e1, e2, e3, hz⟩ := row_ok hL (F i) (G i) tmp (H i)
      obtain ⟨C', e4, h4⟩ := h1.wr hi z
      refine ⟨(C', t2), ?_, upd H i z, h4, ?_⟩
      · unfold rowTo
        rw [hA.val i hi, Option.bind_some, hB.val i hi, Option.bind_some, h1.val i hi, Option.bind_some, e1, Option.bind_some, e2, Option.bind_some,
          e3, Option.bind_some, e4]
        rfl
      · intro x d hx hd
        by_cases hxi : x = i
        · subst hxi
          rw [upd_same]; exact hz d hd
        · rw [upd_ne _ _ hxi]
          exact h3 x d (by omega) hd)
  refine ⟨s.1, H, ?_, h1, fun x d hx hd => h3 x d hx hd⟩
  rw [pointwiseTo, if_pos ⟨hL, hA.len, hB.len⟩, e]; rfl

theorem rankedZeta_cls [CommRing T] {n : Nat} (hL : n ≤ L) (hn : n < 31) {A : List T} {a : Nat → T} (hA : Rep A (2^n) a) :
    ∃ zA F, rankedZeta (L := L) n A = some zA ∧ Rep zA (2^n) F ∧ Cls n 0 a (low F) := by
  obtain ⟨zA, e, h⟩ := rankedZeta_ok hL hn A (Nat.le_of_eq hA.len)
  refine ⟨zA, _, e, h, ?_⟩
  refine (cls_zeta n (fun z => A.getD z 0)).congr ?_ ?_
  · intro x hx
    rw [List.getD_eq_getElem?_getD, hA.val x hx]; rfl
  · intro x d _ hd
    exact (subsetSum_av n _ x (by omega)).symm

theorem rankedMobius_cls [CommRing T] {n : Nat} (hL : n ≤ L) {z : List (Arr T L)} {F : Nat → Arr T L} (h : Rep z (2^n) F) {a : Nat → T}
    (hc : Cls n 0 a (low F)) : ∃ o, rankedMobius n z = some o ∧ Rep o (2^n) a := by
  obtain ⟨M, e2, h3⟩ := transform_ok mobiusStep_ok h
  obtain ⟨C, e3, h4⟩ := forRange_inv (body := outEntry M) (s := []) (fun i C => Rep C i a) (Nat.zero_le (2^n))
    ⟨rfl, fun i hi => absurd hi (by omega)⟩
    (fun i C _ hi hC => by
      have hle : BitManip.ones 64 i ≤ n := ones_le_of_lt 64 n i hi
      have hv : av (tr (fun a _ => a) (fun a b => b - a) n F i) (BitManip.ones 64 i) = a i := by
        rw [tr_av (by omega)]
        have := (hc i hi).2
        rw [Nat.add_zero] at this
        exact this
      refine ⟨C ++ [a i], ?_, ?_, ?_⟩
      · rw [outEntry, h3.val i hi, Option.bind_some, BitManip.C27_popcnt, aget_eq _ (by omega), hv]; rfl
      · rw [List.length_append, hC.len]; rfl
      · intro x hx
        by_cases hxi : x = i
        · subst hxi
          rw [List.getElem?_append_right (by rw [hC.len]), hC.len, Nat.sub_self]; rfl
        · rw [List.getElem?_append_left (by rw [hC.len]; omega)]
          exact hC.val x (by omega))
  refine ⟨C, ?_, h4⟩
  rw [rankedMobius, if_pos ⟨hL, h.len⟩, e2, Option.bind_some, e3]

theorem two_pow_two (i : Nat) : 2^i + 2^i = 2^(i+1) := by rw [Nat.pow_succ]; omega

theorem zetaBlock_ok [CommRing T] {i M N : Nat} (hL : i ≤ L) (hi : i < 31) {A : List T} {a : Nat → T} (hA : Rep A M a) (hM : 2^(i+1) ≤ M)
    {z : List (Arr T L)} {F : Nat → Arr T L} (h : Rep z N F) (hN : 2^(i+1) ≤ N) :
    ∃ z' F', zetaBlock A i z = some z' ∧ Rep z' N F' ∧ Cls i 0 (fun x => a (2^i + x)) (blockAt F' i) ∧
      ∀ x, ¬ (2^i ≤ x ∧ x < 2^(i+1)) → F' x = F x := by
  rw [← two_pow_two] at *
  obtain ⟨b, e1, hb⟩ := blk_ok hA (o := 2^i) (len := 2^i) hM
  obtain ⟨y, G, e2, hy, hG⟩ := rankedZeta_cls hL hi hb
  obtain ⟨z', e3, hz⟩ := put_ok h hy (o := 2^i) hN
  refine ⟨z', _, by rw [zetaBlock, e1, Option.bind_some, e2, Option.bind_some, e3], hz, ?_, fun x hx => over_out hx⟩
  refine hG.congr (fun _ _ => rfl) ?_
  intro x d hx _
  show _ = av (over _ _ _ _ (2^i + x)) d
  rw [over_in hx]

theorem pointBlock_ok [CommRing T] {i N : Nat} (hL : i ≤ L) (hi : i < 31) {zA zB zC : List (Arr T L)} {FA FB FC : Nat → Arr T L} (hA : Rep zA N FA)
    (hB : Rep zB N FB) (hC : Rep zC N FC) (hN : 2^(i+1) ≤ N) {a b : Nat → T} (ha : Cls i 0 a (blockAt FA i)) (hb : Cls i 0 b (low FB)) :
    ∃ z' F', pointBlock i zA zB zC = some z' ∧ Rep z' N F' ∧ Cls i 0 (sp i a b) (blockAt F' i) ∧ ∀ x, ¬ (2^i ≤ x ∧ x < 2^(i+1)) → F' x = FC x := by
  rw [← two_pow_two] at *
  obtain ⟨b1, e1, h1⟩ := blk_ok hA (o := 2^i) (len := 2^i) hN
  obtain ⟨b2, e2, h2⟩ := blk_ok hB (o := 0) (len := 2^i) (by omega)
  obtain ⟨b3, e3, h3⟩ := blk_ok hC (o := 2^i) (len := 2^i) hN
  obtain ⟨p, H, e4, hp, hH⟩ := pointwiseTo_ok hL h1 h2 h3
  obtain ⟨z', e5, hz⟩ := put_ok hC hp (o := 2^i) hN
  refine ⟨z', _, by rw [pointBlock, e1, Option.bind_some, e2, Option.bind_some, e3, Option.bind_some, e4, Option.bind_some, e5], hz, ?_, fun x hx => over_out hx⟩
  refine (cls_mul i 0 0 a b _ _ (by omega) ha hb).congr (fun _ _ => rfl) ?_
  intro x d hx hd
  show _ = av (over _ _ _ _ (2^i + x)) d
  rw [over_in hx, hH x d hx (by omega), Nat.zero_add]

theorem mobiusBlock_ok [CommRing T] {i M N : Nat} (hL : i ≤ L) {zB : List (Arr T L)} {FB : Nat → Arr T L} (hB : Rep zB N FB) (hN : 2^(i+1) ≤ N) {out : List T}
    {o : Nat → T} (hO : Rep out M o) (hM : 2^(i+1) ≤ M) {a : Nat → T} (ha : Cls i 0 a (blockAt FB i)) :
    ∃ out', mobiusBlock i zB out = some out' ∧ Rep out' M (over o a (2^i) (2^i)) := by
  rw [← two_pow_two] at *
  obtain ⟨b1, e1, h1⟩ := blk_ok hB (o := 2^i) (len := 2^i) hN
  obtain ⟨p, e2, h2⟩ := rankedMobius_cls hL h1 ha
  obtain ⟨z', e5, hz⟩ := put_ok hO h2 (o := 2^i) hM
  exact ⟨z', by rw [mobiusBlock, e1, Option.bind_some, e2, Option.bind_some, e5], hz⟩

theorem cls_zero_iff [CommRing T] {a : Nat → T} {Z : Nat → Nat → T} : Cls 0 0 a Z ↔ Z 0 0 = a 0 := by
  have h0 : pc 0 = 0 := ones_zero 64
  constructor
  · intro h
    obtain ⟨_, h2⟩ := h 0 (by decide)
    rw [h0] at h2
    exact h2
  · intro h x hx
    obtain rfl : x = 0 := by simpa using hx
    rw [h0]
    exact ⟨fun d hd => absurd hd (by omega), h⟩

theorem set00_ok [CommRing T] {N : Nat} (hN : 0 < N) {z : List (Arr T L)} {F : Nat → Arr T L} (h : Rep z N F) (v : T) :
    ∃ z' F', set00 z v = some z' ∧ Rep z' N F' ∧ av (F' 0) 0 = v ∧ ∀ x, x ≠ 0 → F' x = F x := by
  obtain ⟨a', e1, ha⟩ := aset_eq (F 0) (d := 0) (Nat.zero_le L) v
  obtain ⟨z', e, h'⟩ := h.wr hN a'
  refine ⟨z', _, ?_, h', ?_, fun x hx => upd_ne _ _ hx⟩
  · rw [set00, h.val 0 hN, Option.bind_some, e1, Option.bind_some, e]
  · rw [upd_same, ha 0 (Nat.zero_le L), if_pos rfl]

/-! ### `SpsExp` -/

/-- The rows below `2^i` are merged except for the topmost element; `R` is what they stand for. -/
def Half [CommRing T] (R : Nat → T) (F : Nat → Arr T L) : Nat → Prop
  | 0 => Cls 0 0 R (low F)
  | i+1 => Cls i 0 R (low F) ∧ Cls i 0 (fun x => R (2^i + x)) (blockAt F i)

theorem half_merge [CommRing T] {i N : Nat} (hi : i < 64) (hL : i ≤ L) (hN : 2^i ≤ N) {z : List (Arr T L)} {F : Nat → Arr T L} (h : Rep z N F) {R : Nat → T}
    (hh : Half R F i) : ∃ z' F', merge i z = some z' ∧ Rep z' N F' ∧ Cls i 0 R (low F') ∧ ∀ x, 2^i ≤ x → F' x = F x := by
  cases i with
  | zero => exact ⟨z, F, by rw [merge, if_pos hL, if_pos rfl], h, hh, fun _ _ => rfl⟩
  | succ i => exact merge_ok (by omega) hL hN h hh.1 hh.2

theorem spsExp_ok [CommRing T] [DecidableEq T] {n : Nat} (hL : n ≤ L) (hn : n < 31) {A : List T} (hA : A.length = 2^n) (h0 : A[0]? = some 0) :
    ∃ out, spsExp L n A = some out ∧ Rep out (2^n) (val (fun _ => 1) (fun x => A.getD x 0) 0) := by
  have hRA : Rep A (2^n) (fun x => A.getD x 0) := by rw [← hA]; exact Rep.ofList A 0
  obtain ⟨z1, F1, e1, h1, h1v, _⟩ := set00_ok (L := L) (Nat.two_pow_pos n) (Rep.replicate (2^n) (fun _ => (0 : T))) 1
  generalize hR : val (fun _ => 1) (fun x => A.getD x 0) 0 = R
  have hstep : ∀ i x, x < 2^i → R (2^i + x) = sp i (fun y => A.getD (2^i + y) 0) R x := by
    intro i x hx
    rw [← hR, val_high _ _ 0 hx]; rfl
  have hR0 : R 0 = 1 := by rw [← hR, val_zero]
  obtain ⟨s, e2, FA, FB, hsA, hsB, hh⟩ := forRange_inv (body := expUp (L := L) A) (s := (zeros n, z1))
    (fun i s => ∃ FA FB, Rep s.1 (2^n) FA ∧ Rep s.2 (2^n) FB ∧ Half R FB i) (Nat.zero_le n)
    ⟨_, F1, Rep.replicate (2^n) (fun _ => (0 : T)), h1, cls_zero_iff.2 (by rw [hR0]; exact h1v)⟩
    (by
      rintro i ⟨zA, zB⟩ _ hi ⟨FA, FB, hA', hB', hh⟩
      have hp : 2^(i+1) ≤ 2^n := Nat.pow_le_pow_right (by omega) (by omega)
      have hp' : 2^i ≤ 2^n := Nat.pow_le_pow_right (by omega) (by omega)
      obtain ⟨zA', FA', e3, hA'', hcA, _⟩ := zetaBlock_ok (L := L) (by omega) (by omega) hRA hp hA' hp
      obtain ⟨zB1, FB1, e4, hB1, hcB, _⟩ := half_merge (by omega) (by omega) hp' hB' hh
      obtain ⟨zB2, FB2, e5, hB2, hc2, ho2⟩ := pointBlock_ok (by omega) (by omega) hA'' hB1 hB1 hp hcA hcB
      refine ⟨(zA', zB2), ?_, FA', FB2, hA'', hB2, ?_, ?_⟩
      · have e4' : (if 0 < i then merge i zB else some zB) = some zB1 := by
          split
          · exact e4
          · rename_i hi0
            obtain rfl : i = 0 := by omega
            rw [← e4, merge, if_pos (by omega), if_pos rfl]
        rw [expUp, e3, Option.bind_some, e4', Option.bind_some, e5]; rfl
      · refine hcB.congr (fun _ _ => rfl) (fun x d hx _ => ?_)
        show av (FB1 x) d = av (FB2 x) d
        rw [ho2 x (by omega)]
      · exact hc2.congr (fun x hx => (hstep i x hx).symm) (fun _ _ _ _ => rfl))
  obtain ⟨t, e3, FB', o, ht1, ht2, _, hto⟩ := forRangeDown_inv (body := expDown (L := L)) (s := (s.2, List.replicate (2^n) (0 : T)))
    (fun i t => ∃ FB o, Rep t.1 (2^n) FB ∧ Rep t.2 (2^n) o ∧ Half R FB i ∧ ∀ x, 2^i ≤ x → x < 2^n → o x = R x) (Nat.zero_le n)
    ⟨FB, _, hsB, Rep.replicate (2^n) 0, hh, fun x h1 h2 => absurd h2 (by omega)⟩
    (by
      rintro i ⟨zB, out⟩ _ hi ⟨FB, o, hB', hO, hh, ho⟩
      have hp : 2^(i+1) ≤ 2^n := Nat.pow_le_pow_right (by omega) (by omega)
      obtain ⟨out', e4, hO'⟩ := mobiusBlock_ok (by omega) hB' hp hO hp hh.2
      have hval : ∀ x, 2^i ≤ x → x < 2^n → over o (fun x => R (2^i + x)) (2^i) (2^i) x = R x := by
        intro x h1 h2
        by_cases hx : x < 2^(i+1)
        · obtain ⟨y, rfl⟩ : ∃ y, x = 2^i + y := ⟨x - 2^i, by omega⟩
          rw [over_in (by rw [Nat.pow_succ] at hx; omega)]
        · rw [over_out (by rw [two_pow_two]; omega)]
          exact ho x (by omega) h2
      cases i with
      | zero =>
        refine ⟨(zB, out'), ?_, FB, _, hB', hO', hh.1, hval⟩
        rw [expDown, e4, Option.bind_some, if_neg (by omega)]; rfl
      | succ j =>
        obtain ⟨zB', FB', e5, hB'', hc1, hc2⟩ := split_ok (by omega) (by omega) (Nat.pow_le_pow_right (by omega) (by omega)) hB' hh.1
        refine ⟨(zB', out'), ?_, FB', _, hB'', hO', ⟨hc1, hc2⟩, hval⟩
        rw [expDown, e4, Option.bind_some, if_pos (by omega), e5]; rfl)
  obtain ⟨out, e4, hout⟩ := ht2.wr (Nat.two_pow_pos n) (1 : T)
  refine ⟨out, ?_, hout.congr ?_⟩
  · rw [spsExp, if_pos ⟨hL, hn, hA, h0⟩]
    show ((set00 (List.replicate (2^n) _) 1).bind _) = _
    rw [e1, Option.bind_some, e2, Option.bind_some, e3, Option.bind_some, e4]
  · intro x hx
    by_cases hx0 : x = 0
    · subst hx0; rw [upd_same, hR0]
    · rw [upd_ne _ _ hx0]
      exact hto x (by rw [Nat.pow_zero]; omega) hx

/-! ### `SpsCompositionEgf` -/

theorem compEgf_ok [CommRing T] [DecidableEq T] {n : Nat} (hL : n ≤ L + 1) (hn : n < 31) {F A : List T} (hA : 2^n ≤ A.length) (h0 : A[0]? = some 0)
    (hF : F.length ≤ 1 ∨ n < F.length) :
    ∃ out, compEgf L n F A = some out ∧ Rep out (2^n) (val (fun k => F.getD k 0) (fun x => A.getD x 0) 0) := by
  by_cases hE : F = []
  · subst hE
    refine ⟨List.replicate (2^n) 0, by rw [compEgf, if_pos ⟨hn, hA, h0⟩]; rfl, (Rep.replicate (2^n) 0).congr ?_⟩
    intro x _
    unfold val
    simp only [List.getD_nil]
    exact (psum_zero _ _).symm
  have hFl : 0 < F.length := List.length_pos_iff.2 hE
  have hRA : Rep A A.length (fun x => A.getD x 0) := Rep.ofList A 0
  have hRF : Rep F F.length (fun x => F.getD x 0) := Rep.ofList F 0
  have hz0 : Rep (zeros (T := T) (L := L) n) (2^n) (fun _ => fun _ => (0 : T)) := Rep.replicate (2^n) _
  generalize hRR : val (fun k => F.getD k 0) (fun x => A.getD x 0) = R
  have hR0 : ∀ k, R k 0 = F.getD k 0 := fun k => by rw [← hRR, val_zero]
  have hstep : ∀ k i x, x < 2^i → R k (2^i + x) = sp i (fun y => A.getD (2^i + y) 0) (R (k+1)) x := by
    intro k i x hx
    rw [← hRR, val_high _ _ k hx]
  obtain ⟨d, hd⟩ : ∃ d, d = min n (F.length - 1) := ⟨_, rfl⟩
  have hdF : d < F.length := by omega
  have hdn : d = n ∨ (d = 0 ∧ F.length = 1) := by omega
  -- the transforms of `A`
  obtain ⟨zA, e1, FA, hzA, hcA⟩ := forRange_inv (body := zetaBlock (L := L) A) (s := zeros n)
    (fun i z => ∃ FA, Rep z (2^n) FA ∧ ∀ j, j < i → Cls j 0 (fun x => A.getD (2^j + x) 0) (blockAt FA j)) (Nat.zero_le n)
    ⟨_, hz0, fun j hj => absurd hj (by omega)⟩
    (by
      rintro i z _ hi ⟨FA, hz, hc⟩
      have hp : 2^(i+1) ≤ 2^n := Nat.pow_le_pow_right (by omega) (by omega)
      obtain ⟨z', F', e, hz', hc', ho⟩ := zetaBlock_ok (L := L) (by omega) (by omega) hRA (Nat.le_trans hp hA) hz hp
      refine ⟨z', e, F', hz', fun j hj => ?_⟩
      by_cases hji : j = i
      · subst hji; exact hc'
      · refine (hc j (by omega)).congr (fun _ _ => rfl) (fun x d hx _ => ?_)
        show av (FA (2^j + x)) d = av (F' (2^j + x)) d
        have h1 : 2^(j+1) ≤ 2^i := Nat.pow_le_pow_right (by omega) (by omega)
        rw [← two_pow_two] at h1
        rw [ho _ (by omega)])
  obtain ⟨zB, FB, e2, hzB, hvB, hoB⟩ := set00_ok (Nat.two_pow_pos n) hz0 (F.getD d 0)
  -- the loop over `k`
  obtain ⟨s, e3, FB', FC', hs1, hs2, hv', hc'⟩ := forRangeDown_inv (body := compStep n d F zA) (s := (zB, zeros n))
    (fun k s => ∃ FB FC, Rep s.1 (2^n) FB ∧ Rep s.2 (2^n) FC ∧ av (FB 0) 0 = F.getD k 0 ∧
      ∀ i, i < n - k → Cls i 0 (fun x => R k (2^i + x)) (blockAt FB i)) (Nat.zero_le d)
    ⟨FB, _, hzB, hz0, hvB, fun i hi => by
      rcases hdn with h | ⟨h, hl⟩
      · omega
      · refine (Cls.zero i 0).congr (fun x hx => ?_) (fun x e hx _ => ?_)
        · rw [hstep d i x hx, sp_conv i _ _ x hx]
          have hz : ∀ y, R (d+1) y = 0 := by
            intro y
            rw [← hRR]
            unfold val
            have := psum_congr (fun U => A.getD (mask U) 0) (setOf y) (fun j => F.getD (d + 1 + j) 0) (fun _ => 0) (fun k _ => by
              rw [List.getD_eq_getElem?_getD, List.getElem?_eq_none (by omega)]; rfl)
            rw [this, psum_zero]
          unfold conv
          symm
          apply Finset.sum_eq_zero
          intro U _
          show _ * R (d+1) _ = 0
          rw [hz, mul_zero]
        · show 0 = av (FB (2^i + x)) e
          rw [hoB _ (by have := Nat.two_pow_pos i; omega)]
          unfold av
          split <;> rfl⟩
    (by
      rintro k ⟨zB, zC⟩ _ hk ⟨FB, FC, hB', hC', hv, hc⟩
      have hdn' : d = n := by omega
      obtain ⟨zC1, FC1, e3, hC1, hvC1, _⟩ := set00_ok (Nat.two_pow_pos n) hC' (F.getD k 0)
      obtain ⟨s', e4, FB2, FC2, hB2, hC2, hvC2, hcC2, _, _⟩ := forRange_inv (body := compInner zA k d) (s := (zB, zC1))
        (fun i s => ∃ FB FC, Rep s.1 (2^n) FB ∧ Rep s.2 (2^n) FC ∧ av (FC 0) 0 = F.getD k 0 ∧
          (∀ j, j < i → Cls j 0 (fun x => R k (2^j + x)) (blockAt FC j)) ∧ Cls (i-1) 0 (R (k+1)) (low FB) ∧
          ∀ j, i - 1 ≤ j → j < n - (k+1) → Cls j 0 (fun x => R (k+1) (2^j + x)) (blockAt FB j)) (Nat.zero_le (n-k))
        ⟨FB, FC1, hB', hC1, hvC1, fun j hj => absurd hj (by omega), cls_zero_iff.2 (by rw [hR0]; exact hv), fun j _ hj => hc j hj⟩
        (by
          rintro i ⟨zB, zC⟩ _ hi ⟨FB, FC, hB, hC, hv, hc, hl, hb⟩
          have hp : 2^(i+1) ≤ 2^n := Nat.pow_le_pow_right (by omega) (by omega)
          have hp' : 2^i ≤ 2^n := Nat.pow_le_pow_right (by omega) (by omega)
          -- merged or not, the rows below `2^i` stand for `R (k+1)`
          have hm : ∃ zB1 FB1, (if k + 1 < d then merge i zB else some zB) = some zB1 ∧ Rep zB1 (2^n) FB1 ∧ Cls i 0 (R (k+1)) (low FB1) ∧
              ∀ x, 2^i ≤ x → FB1 x = FB x := by
            by_cases hkd : k + 1 < d
            · have hh : Half (R (k+1)) FB i := by
                cases i with
                | zero => exact hl
                | succ i => exact ⟨hl, hb i (by omega) (by omega)⟩
              obtain ⟨zB1, FB1, e, h1, h2, h3⟩ := half_merge (by omega) (by omega) hp' hB hh
              exact ⟨zB1, FB1, by rw [if_pos hkd, e], h1, h2, h3⟩
            · obtain rfl : i = 0 := by omega
              exact ⟨zB, FB, by rw [if_neg hkd], hB, hl, fun _ _ => rfl⟩
          obtain ⟨zB1, FB1, e5, hB1, hcB1, hoB1⟩ := hm
          obtain ⟨zC2, FC2, e6, hC2, hcC2, hoC2⟩ := pointBlock_ok (by omega) (by omega) hzA hB1 hC hp (hcA i (by omega)) hcB1
          refine ⟨(zB1, zC2), ?_, FB1, FC2, hB1, hC2, ?_, ?_, ?_, ?_⟩
          · rw [compInner, e5, Option.bind_some, e6]; rfl
          · rw [hoC2 0 (by have := Nat.two_pow_pos i; omega)]; exact hv
          · intro j hj
            by_cases hji : j = i
            · subst hji
              exact hcC2.congr (fun x hx => (hstep k j x hx).symm) (fun _ _ _ _ => rfl)
            · refine (hc j (by omega)).congr (fun _ _ => rfl) (fun x e hx _ => ?_)
              show av (FC (2^j + x)) e = av (FC2 (2^j + x)) e
              have h1 : 2^(j+1) ≤ 2^i := Nat.pow_le_pow_right (by omega) (by omega)
              rw [← two_pow_two] at h1
              rw [hoC2 _ (by omega)]
          · rw [Nat.add_sub_cancel]; exact hcB1
          · intro j h1 h2
            rw [Nat.add_sub_cancel] at h1
            refine (hb j (by omega) h2).congr (fun _ _ => rfl) (fun x e hx _ => ?_)
            show av (FB (2^j + x)) e = av (FB1 (2^j + x)) e
            have h3 : 2^i ≤ 2^j := Nat.pow_le_pow_right (by omega) h1
            rw [hoB1 _ (by omega)])
      refine ⟨(s'.2, s'.1), ?_, FC2, FB2, hC2, hB2, hvC2, hcC2⟩
      rw [compStep, hRF.val k (by omega), Option.bind_some, e3, Option.bind_some, e4]; rfl)
  -- the results
  obtain ⟨out, e4, o, ho, hov⟩ := forRangeDown_inv (body := fun i out => mobiusBlock i s.1 out) (s := List.replicate (2^n) (0 : T))
    (fun i out => ∃ o, Rep out (2^n) o ∧ ∀ x, 2^i ≤ x → x < 2^n → o x = R 0 x) (Nat.zero_le n)
    ⟨_, Rep.replicate (2^n) 0, fun x h1 h2 => absurd h2 (by omega)⟩
    (by
      rintro i out _ hi ⟨o, hO, ho⟩
      have hp : 2^(i+1) ≤ 2^n := Nat.pow_le_pow_right (by omega) (by omega)
      obtain ⟨out', e4, hO'⟩ := mobiusBlock_ok (by omega) hs1 hp hO hp (hc' i (by omega))
      refine ⟨out', e4, _, hO', ?_⟩
      intro x h1 h2
      by_cases hx : x < 2^(i+1)
      · obtain ⟨y, rfl⟩ : ∃ y, x = 2^i + y := ⟨x - 2^i, by omega⟩
        rw [over_in (by rw [Nat.pow_succ] at hx; omega)]
      · rw [over_out (by rw [two_pow_two]; omega)]
        exact ho x (by omega) h2)
  obtain ⟨out', e5, hout⟩ := ho.wr (Nat.two_pow_pos n) (F.getD 0 0)
  refine ⟨out', ?_, hout.congr ?_⟩
  · have hisE : F.isEmpty = false := by
      cases F with
      | nil => exact absurd rfl hE
      | cons _ _ => rfl
    rw [compEgf, if_pos ⟨hn, hA, h0⟩, hisE, if_neg (by simp)]
    dsimp only
    rw [← hd, e1, Option.bind_some, hRF.val d hdF, Option.bind_some, e2, Option.bind_some, e3, Option.bind_some, e4, Option.bind_some,
      get00, hs1.val 0 (Nat.two_pow_pos n), Option.bind_some, aget_eq _ (Nat.zero_le L), Option.bind_some, hv', hRF.val 0 hFl, if_pos rfl, e5]
  · intro x hx
    by_cases hx0 : x = 0
    · subst hx0; rw [upd_same, hR0]
    · rw [upd_ne _ _ hx0]
      exact hov x (by rw [Nat.pow_zero]; omega) hx

end Verif.Sps
