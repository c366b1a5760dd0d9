import Verif.DynBitmap.Model
/-!
C107: `Bitmap` (the one with updates) behaves like a sequence of bits with `get`, `set`, `rank` and `select`.
-/
namespace Verif.DynBitmap
open Verif Verif.BitManip Verif.Succinct

theorem tbRow_spec : ∀ i, i < 256 → ∀ r, r < 9 → 0 < r → r ≤ ones 8 i →
    ∃ row, tbRow i = some row ∧ ∃ t, row[r]? = some (some t) ∧ t < 8 ∧ i.testBit t = true ∧ ones t i = r - 1 := by
  have h : ∀ i, i < 256 → ∀ r, r < 9 → 0 < r → r ≤ ones 8 i →
    (((tbRow i).bind (fun row => row[r]?)).bind id).any (fun t => decide (t < 8 ∧ i.testBit t = true ∧ ones t i = r - 1)) = true := by decide +kernel
  intro i hi r hr h0 hle
  have := h i hi r hr h0 hle
  cases e : tbRow i with
  | none => rw [e] at this; cases this
  | some row =>
    rw [e, Option.bind_some] at this
    cases e2 : row[r]? with
    | none => rw [e2] at this; cases this
    | some t =>
      rw [e2, Option.bind_some] at this
      cases t with
      | none => cases this
      | some t =>
        rw [id, Option.any_some, decide_eq_true_eq] at this
        exact ⟨row, rfl, t, e2, this⟩

/-- Bit `p`. -/
def bit (ws : List Nat) (p : Nat) : Bool := sbit 64 ⟨0, ws⟩ p

theorem bit_eq (ws : List Nat) (p : Nat) : bit ws p = (ws.getD (p / 64) 0).testBit (p % 64) := rfl

/-- `t` holds the bits `l`. -/
structure Ok (t : St) (l : List Bool) : Prop where
  len : t.bv.length = words l.length
  lt : ∀ w ∈ t.bv, w < 2^64
  bits : ∀ p, bit t.bv p = l.getD p false
  fen : Fenwick.Inv t.bv.length t.rsq (fun q => ((ones 64 (t.bv.getD q 0) : Nat) : Int))

theorem word_lt {ws : List Nat} (h : ∀ w ∈ ws, w < 2^64) (q : Nat) : ws.getD q 0 < 2^64 := by
  rw [List.getD_eq_getElem?_getD]
  cases e : ws[q]? with
  | none => exact Nat.two_pow_pos 64
  | some w => exact h w (List.mem_of_getElem? e)

theorem mk_ok (n : Nat) : Ok (mk n false) (List.replicate n false) := by
  have hz : ∀ q, (List.replicate (words n) 0).getD q 0 = 0 := by
    intro q
    rw [List.getD_eq_getElem?_getD, List.getElem?_replicate]
    split <;> rfl
  refine ⟨by simp [mk], ?_, fun p => ?_, ?_⟩
  · intro w hw
    have := List.eq_of_mem_replicate hw
    simp at this
    rw [this]; decide
  · rw [bit_eq]
    show ((List.replicate (words n) 0).getD _ 0).testBit _ = _
    rw [hz, Nat.zero_testBit, List.getD_eq_getElem?_getD, List.getElem?_replicate]
    split <;> rfl
  · have := Fenwick.ofSize_inv (T := Int) (words n)
    show Fenwick.Inv (List.replicate (words n) 0).length (Fenwick.ofSize (words n)) (fun q => ((ones 64 ((List.replicate (words n) 0).getD q 0) : Nat) : Int))
    rw [List.length_replicate]
    refine this.congr (fun p _ => ?_)
    rw [hz, ones_zero]; rfl

theorem ones_upd {w w' r : Nat} {b : Bool} (h : ∀ j, w'.testBit j = if j = r then b else w.testBit j) :
    ∀ n, ((ones n w' : Nat) : Int) = (ones n w : Nat) + if r < n then ((b.toNat : Int) - ((w.testBit r).toNat : Int)) else 0
  | 0 => by simp [ones]
  | n+1 => by
    have ih := ones_upd h n
    rw [ones_last, ones_last, h n]
    push_cast
    rw [ih]
    by_cases c : n = r
    · subst c
      rw [if_pos rfl, if_neg (by omega), if_pos (by omega)]
      omega
    · rw [if_neg c]
      by_cases c2 : r < n
      · rw [if_pos c2, if_pos (by omega)]; omega
      · rw [if_neg c2, if_neg (by omega)]; omega

theorem div_lt_words {i n : Nat} (h : i < n) : i / 64 < words n := by unfold words; omega

theorem get_ok {t : St} {l : List Bool} (ok : Ok t l) {i : Nat} (hi : i < l.length) : get t i = some (l.getD i false) := by
  have hw := div_lt_words hi
  rw [← ok.len] at hw
  unfold get
  rw [List.getElem?_eq_getElem hw, Option.map_some, ← ok.bits, bit_eq, List.getD_eq_getElem?_getD, List.getElem?_eq_getElem hw]; rfl

theorem set_ok {t : St} {l : List Bool} (ok : Ok t l) {i : Nat} (hi : i < l.length) (hn : l.length < 2^31) (b : Bool) : ∃ t', set t i b = some t' ∧ Ok t' (l.set i b) := by
  have hw := div_lt_words hi
  have hw31 : words l.length < 2^31 := by unfold words; omega
  rw [← ok.len] at hw hw31
  have hlt := ok.lt _ (List.getElem_mem hw)
  obtain ⟨f, ef, hf⟩ := Fenwick.add_spec (by omega) ok.fen (i / 64) ((b.toNat : Int) - ((l.getD i false).toNat : Int))
  unfold set
  rw [get_ok ok hi, Option.bind_some, ef, Option.bind_some, List.getElem?_eq_getElem hw, Option.bind_some]
  have hb : l.getD i false = (t.bv[i / 64]).testBit (i % 64) := by rw [← ok.bits, bit_eq, List.getD_eq_getElem?_getD, List.getElem?_eq_getElem hw]; rfl
  generalize hw0 : t.bv[i / 64] = w at *
  have hm : i % 64 < 64 := Nat.mod_lt _ (by omega)
  have hw' : ∀ j, (if b then w ||| 2^(i % 64) else w &&& BitManip.compl (2^(i % 64))).testBit j = if j = i % 64 then b else w.testBit j := by
    intro j
    cases b
    · simp only [Bool.false_eq_true, if_false]
      rw [Nat.testBit_and]
      by_cases c : j < 64
      · rw [compl_testBit (Nat.pow_lt_pow_right (by omega) hm) c, Nat.testBit_two_pow]
        by_cases c2 : j = i % 64
        · rw [if_pos c2]; simp [c2]
        · rw [if_neg c2]; simp [Ne.symm c2]
      · rw [Nat.testBit_lt_two_pow (Nat.lt_of_lt_of_le hlt (Nat.pow_le_pow_right (by omega) (by omega)))]
        simp
    · simp only [if_true]
      rw [Nat.testBit_or, Nat.testBit_two_pow]
      by_cases c2 : j = i % 64
      · rw [if_pos c2]; simp [c2]
      · rw [if_neg c2]; simp [Ne.symm c2]
  have hwlt : (if b then w ||| 2^(i % 64) else w &&& BitManip.compl (2^(i % 64))) < 2^64 := by
    cases b
    · exact Nat.lt_of_le_of_lt Nat.and_le_left hlt
    · exact Nat.or_lt_two_pow hlt (Nat.pow_lt_pow_right (by omega) hm)
  generalize (if b then w ||| 2^(i % 64) else w &&& BitManip.compl (2^(i % 64))) = w' at *
  rw [wr_some hw, Option.map_some]
  have hgd : ∀ q, (t.bv.set (i / 64) w').getD q 0 = if q = i / 64 then w' else t.bv.getD q 0 := by
    intro q
    rw [List.getD_eq_getElem?_getD, List.getElem?_set]
    by_cases c : i / 64 = q
    · subst c
      rw [if_pos rfl, if_pos rfl, if_pos hw]; rfl
    · rw [if_neg c, if_neg (Ne.symm c), List.getD_eq_getElem?_getD]
  refine ⟨_, rfl, by simpa using ok.len, ?_, ?_, ?_⟩
  · intro v hv
    rcases List.mem_or_eq_of_mem_set hv with hv | rfl
    · exact ok.lt v hv
    · exact hwlt
  · intro p
    rw [bit_eq, hgd]
    have hp := ok.bits p
    rw [bit_eq] at hp
    rw [List.getD_eq_getElem?_getD (l := l.set i b), List.getElem?_set]
    by_cases c : p = i
    · subst c
      rw [if_pos rfl, if_pos rfl, hw', if_pos rfl, if_pos hi]; rfl
    · rw [if_neg (Ne.symm c), ← List.getD_eq_getElem?_getD, ← hp]
      by_cases c2 : p / 64 = i / 64
      · rw [if_pos c2, hw', if_neg (by omega), c2]
        congr 1
        rw [List.getD_eq_getElem?_getD, List.getElem?_eq_getElem hw, ← hw0]; rfl
      · rw [if_neg c2]
  · show Fenwick.Inv (t.bv.set (i / 64) w').length f _
    rw [List.length_set]
    refine hf.congr (fun q _ => ?_)
    unfold Fenwick.bump
    show _ = ((ones 64 ((t.bv.set (i / 64) w').getD q 0) : Nat) : Int)
    rw [hgd]
    by_cases c : q = i / 64
    · subst c
      rw [if_pos rfl, if_pos rfl, ones_upd hw' 64, if_pos hm, hb]
      show ((ones 64 (t.bv.getD (i / 64) 0) : Nat) : Int) + _ = _
      rw [List.getD_eq_getElem?_getD, List.getElem?_eq_getElem hw, hw0]
      rfl
    · rw [if_neg c, if_neg c]

theorem setAll_ok : ∀ (ops : List (Nat × Bool)) {t : St} {l : List Bool}, Ok t l → l.length < 2^31 → (∀ o ∈ ops, o.1 < l.length) →
    ∃ t', setAll t ops = some t' ∧ Ok t' (ops.foldl (fun l o => l.set o.1 o.2) l)
  | [], t, l, ok, _, _ => ⟨t, rfl, ok⟩
  | (i, b) :: ops, t, l, ok, hn, ho => by
    obtain ⟨t1, e1, ok1⟩ := set_ok ok (ho (i, b) (by simp)) hn b
    obtain ⟨t2, e2, ok2⟩ := setAll_ok ops ok1 (by simpa using hn) (fun o h => by simpa using ho o (by simp [h]))
    exact ⟨t2, by rw [setAll, e1, Option.bind_some, e2], ok2⟩

theorem setFrom_ok : ∀ (l a : List Bool) {t : St}, Ok t (a ++ List.replicate l.length false) → a.length + l.length < 2^31 → ∃ t', setFrom t a.length l = some t' ∧ Ok t' (a ++ l)
  | [], a, t, ok, _ => ⟨t, rfl, by simpa using ok⟩
  | b :: l, a, t, ok, hn => by
    obtain ⟨t1, e1, ok1⟩ := set_ok ok (i := a.length) (by simp) (by simpa using hn) b
    have e : (a ++ List.replicate (b :: l).length false).set a.length b = (a ++ [b]) ++ List.replicate l.length false := by
      rw [List.set_append, if_neg (by omega), Nat.sub_self, List.length_cons, List.replicate_succ, List.set_cons_zero]; simp
    rw [e] at ok1
    obtain ⟨t2, e2, ok2⟩ := setFrom_ok l (a ++ [b]) ok1 (by simp at hn ⊢; omega)
    rw [List.length_append] at e2
    exact ⟨t2, by rw [setFrom, e1, Option.bind_some]; exact e2, by simpa using ok2⟩

theorem ofBits_ok (l : List Bool) (hn : l.length < 2^31) : ∃ t, ofBits l = some t ∧ Ok t l := by
  obtain ⟨t, e, ok⟩ := setFrom_ok l [] (t := mk l.length false) (by simpa using mk_ok l.length) (by simpa using hn)
  exact ⟨t, e, by simpa using ok⟩

open Finset in
theorem pre_eq (ws : List Nat) (q : Nat) : (∑ p ∈ Finset.range q, ((ones 64 (ws.getD p 0) : Nat) : Int)) = (cnt (bit ws) true (64 * q) : Nat) := by
  induction q with
  | zero => rfl
  | succ q ih =>
    rw [Finset.sum_range_succ, ih, Nat.mul_add]
    have := cnt_word 64 ⟨0, ws⟩ (by omega) q 64 (Nat.le_refl _)
    show _ = ((cnt (sbit 64 ⟨0, ws⟩) true (64 * q + 64) : Nat) : Int)
    rw [this]
    push_cast
    rfl

theorem sumBefore_ok {t : St} {l : List Bool} (ok : Ok t l) (hn : l.length < 2^31) {q : Nat} (hq : q ≤ t.bv.length) :
    (if q > 0 then Fenwick.sum t.rsq (q - 1) else some 0) = some ((cnt (bit t.bv) true (64 * q) : Nat) : Int) := by
  have hw31 : words l.length < 2^31 := by unfold words; omega
  rw [← ok.len] at hw31
  by_cases c : q > 0
  · rw [if_pos c, Fenwick.sum_spec (by omega) ok.fen (by omega), Nat.sub_add_cancel c, pre_eq]
  · rw [if_neg c, show q = 0 by omega]; rfl

theorem mask_ones (w r : Nat) (hr : r < 64) : popcnt (w &&& (2^r - 1)) = ones r w := by
  rw [popcnt_eq, Nat.and_two_pow_sub_one_eq_mod, ones_small (S := r) (Nat.mod_lt _ (Nat.two_pow_pos r)) (by omega), ones_mod]

theorem cnt_bits {t : St} {l : List Bool} (ok : Ok t l) {i : Nat} (hi : i ≤ l.length) : cnt (bit t.bv) true i = lrank l true i :=
  cnt_list (fun p hp => by rw [ok.bits, List.getD_eq_getElem?_getD, List.getElem?_eq_getElem hp]; rfl) true i hi

theorem rank_ok {t : St} {l : List Bool} (ok : Ok t l) (hn : l.length < 2^31) {i : Nat} (hi : i ≤ l.length) (h64 : i < l.length ∨ l.length % 64 ≠ 0 ∨ i = 0) :
    rank t i = some ((lrank l true i : Nat) : Int) := by
  unfold rank
  by_cases c : i = 0
  · rw [if_pos c, c]; rfl
  · have hw : i / 64 < t.bv.length := by rw [ok.len, words]; omega
    rw [if_neg c, sumBefore_ok ok hn (Nat.le_of_lt hw), Option.bind_some, List.getElem?_eq_getElem hw, Option.map_some, mask_ones _ _ (Nat.mod_lt _ (by omega)), ← cnt_bits ok hi]
    have := cnt_word 64 ⟨0, t.bv⟩ (by omega) (i / 64) (i % 64) (Nat.le_of_lt (Nat.mod_lt _ (by omega)))
    rw [Nat.div_add_mod] at this
    unfold bit
    rw [this, List.getD_eq_getElem?_getD, List.getElem?_eq_getElem hw]
    push_cast
    rfl

theorem byteLoop_ok (w : Nat) (m : Nat) (h1 : 1 ≤ m) (hle : m ≤ ones 64 w) : ∃ k, byteLoop (selBs w) m 4 8 0 = some k ∧ k < 8 ∧ pre w k < m ∧ m ≤ pre w (k + 1) := by
  have key : ∀ (e f b : Nat), e < f → b + 2^e ≤ 8 → pre w b < m → m ≤ pre w (b + 2^e) → ∃ k, byteLoop (selBs w) m f (2^e) b = some k ∧ k < 8 ∧ pre w k < m ∧ m ≤ pre w (k + 1) := by
    intro e
    induction e with
    | zero =>
      intro f b hf hb h1 h2
      obtain ⟨f, rfl⟩ : ∃ g, f = g + 1 := ⟨f - 1, by omega⟩
      exact ⟨b, by rw [byteLoop, if_neg (by simp)], by omega, h1, h2⟩
    | succ e ih =>
      intro f b hf hb h1 h2
      obtain ⟨f, rfl⟩ : ∃ g, f = g + 1 := ⟨f - 1, by omega⟩
      have hp := Nat.two_pow_pos e
      have e2 : 2^(e+1) = 2 * 2^e := by rw [Nat.pow_succ]; omega
      have e3 : 2^(e+1) / 2 = 2^e := by omega
      rw [byteLoop, if_pos (by omega), e3, byteAt_bs w (b + 2^e) (by omega)]
      by_cases c : pre w (b + 2^e) < m
      · rw [if_pos (by omega)]
        exact ih f (b + 2^e) (by omega) (by omega) c (by rw [show b + 2^e + 2^e = b + 2^(e+1) by omega]; exact h2)
      · rw [if_neg (by omega)]
        exact ih f b (by omega) (by omega) h1 (by omega)
  exact key 3 4 0 (by omega) (by omega) (by show 0 < m; omega) hle

theorem inWord_ok (w m k : Nat) (hk : k < 8) (h1 : pre w k < m) (h2 : m ≤ pre w (k + 1)) :
    ∃ p, inWord w (selBs w) m k = some p ∧ p < 64 ∧ w.testBit p = true ∧ ones p w = m - 1 := by
  have hps := pre_succ w k
  have := ones_le 8 (byteAt w k)
  obtain ⟨row, er, t, et, ht, hb, hc⟩ := tbRow_spec (byteAt w k) (byteAt_lt _ _) (m - pre w k) (by omega) (by omega) (by omega)
  refine ⟨8 * k + t, ?_, by omega, ?_, ?_⟩
  · unfold inWord
    rw [byteAt_bs w k hk, if_pos (by omega), er, Option.bind_some, show ((m : Int) - (pre w k : Nat)).toNat = m - pre w k by omega, et]; rfl
  · rw [← testBit_byteAt ht]; exact hb
  · rw [ones_byte_pos (by omega), hc]; omega

theorem select_ok {t : St} {l : List Bool} (ok : Ok t l) (hn : l.length < 2^31) {k : Nat} (hk : k < l.count true) :
    ∃ p : Nat, select t k = some (p : Int) ∧ p < l.length ∧ l[p]? = some true ∧ lrank l true p = k := by
  have hcl : lrank l true l.length = l.count true := by unfold lrank; rw [List.take_length]
  obtain ⟨s, es, hs, hlo, hhi⟩ := Fenwick.lowerBound_spec ok.fen (fun p _ => Int.natCast_nonneg _) ((k : Int) + 1)
  have hpre : ∀ q, Fenwick.pre (fun q => ((ones 64 (t.bv.getD q 0) : Nat) : Int)) q = (cnt (bit t.bv) true (64 * q) : Nat) := fun q => pre_eq t.bv q
  have hsl : s < t.bv.length := by
    by_contra hc
    have e : s = t.bv.length := by omega
    have h0 : 0 < s := by
      rcases Nat.eq_zero_or_pos s with h | h
      · have hw := ok.len
        rw [← e, h, words] at hw
        have : l = [] := List.length_eq_zero_iff.1 (by omega)
        rw [this] at hk
        simp at hk
      · exact h
    have h1 := hlo (s - 1) (by omega)
    rw [Nat.sub_add_cancel h0, hpre] at h1
    have h2 : l.length ≤ 64 * s := by rw [e, ok.len, words]; omega
    have h3 := cnt_mono (bit t.bv) true h2
    rw [cnt_bits ok (Nat.le_refl _), hcl] at h3
    omega
  have h1 : cnt (bit t.bv) true (64 * s) ≤ k := by
    rcases Nat.eq_zero_or_pos s with h | h
    · rw [h]; exact Nat.zero_le _
    · have := hlo (s - 1) (by omega)
      rw [Nat.sub_add_cancel h, hpre] at this
      omega
  have h2 : k + 1 ≤ cnt (bit t.bv) true (64 * (s + 1)) := by
    have := hhi hsl
    rw [hpre] at this
    omega
  have hwd := cnt_word 64 ⟨0, t.bv⟩ (by omega) s
  have h3 : cnt (bit t.bv) true (64 * (s + 1)) = cnt (bit t.bv) true (64 * s) + ones 64 (t.bv.getD s 0) := hwd 64 (Nat.le_refl _)
  unfold select
  rw [es, Option.bind_some, sumBefore_ok ok hn hs, Option.bind_some, List.getElem?_eq_getElem hsl, Option.bind_some]
  have hg : t.bv.getD s 0 = t.bv[s] := by rw [List.getD_eq_getElem?_getD, List.getElem?_eq_getElem hsl]; rfl
  rw [hg] at h3
  have em : (k : Int) + 1 - (cnt (bit t.bv) true (64 * s) : Nat) = ((k + 1 - cnt (bit t.bv) true (64 * s) : Nat) : Int) := by omega
  rw [em]
  obtain ⟨b, eb, hb8, hb1, hb2⟩ := byteLoop_ok t.bv[s] (k + 1 - cnt (bit t.bv) true (64 * s)) (by omega) (by omega)
  obtain ⟨p, ep, hp, hpt, hpo⟩ := inWord_ok t.bv[s] _ b hb8 hb1 hb2
  rw [eb, Option.bind_some, ep, Option.map_some]
  have hbit : bit t.bv (64 * s + p) = true := by
    rw [bit_eq, Nat.mul_add_div (by omega), Nat.div_eq_of_lt hp, Nat.add_zero, Nat.mul_add_mod, Nat.mod_eq_of_lt hp, hg]; exact hpt
  have hlen : 64 * s + p < l.length := by
    by_contra hc
    rw [ok.bits, List.getD_eq_getElem?_getD, List.getElem?_eq_none (by omega)] at hbit
    cases hbit
  refine ⟨64 * s + p, rfl, hlen, ?_, ?_⟩
  · rw [ok.bits, List.getD_eq_getElem?_getD, List.getElem?_eq_getElem hlen] at hbit
    rw [List.getElem?_eq_getElem hlen]
    exact congrArg some hbit
  · rw [← cnt_bits ok (Nat.le_of_lt hlen)]
    have := hwd p (Nat.le_of_lt hp)
    rw [hg] at this
    show cnt (sbit 64 ⟨0, t.bv⟩) true _ = _
    rw [this, hpo]
    show cnt (bit t.bv) true (64 * s) + _ = k
    omega

/-- Ways to construct that work. -/
inductive Start where
  | size (n : Nat)
  | range (l : List Bool)

/-- The bits at the start. -/
def Start.bits : Start → List Bool
  | .size n => List.replicate n false
  | .range l => l

/-- Construct, then update. -/
def run (s : Start) (ops : List (Nat × Bool)) : Option St :=
  (match s with | .size n => some (mk n false) | .range l => ofBits l).bind fun t => setAll t ops

/-- The same on a list of bits. -/
def plain (s : Start) (ops : List (Nat × Bool)) : List Bool := ops.foldl (fun l o => l.set o.1 o.2) s.bits

theorem run_ok (s : Start) (ops : List (Nat × Bool)) (hn : s.bits.length < 2^31) (ho : ∀ o ∈ ops, o.1 < s.bits.length) : ∃ t, run s ops = some t ∧ Ok t (plain s ops) := by
  cases s with
  | size n =>
    obtain ⟨t, e, ok⟩ := setAll_ok ops (mk_ok n) hn ho
    exact ⟨t, e, ok⟩
  | range l =>
    obtain ⟨t0, e0, ok0⟩ := ofBits_ok l hn
    obtain ⟨t, e, ok⟩ := setAll_ok ops ok0 hn ho
    exact ⟨t, by show (ofBits l).bind _ = _; rw [e0]; exact e, ok⟩

theorem plain_len (s : Start) (ops : List (Nat × Bool)) : (plain s ops).length = s.bits.length := by
  unfold plain
  generalize s.bits = l
  induction ops generalizing l with
  | nil => rfl
  | cons o ops ih => rw [List.foldl_cons, ih, List.length_set]

/-- C107: after `Bitmap(size)` or `Bitmap(begin, end)` and any updates in range, `get`, `rank` and `select` are those of the sequence of bits.
Full statement: also for `Bitmap(size, true)`, and for `rank(size)`.  Missing: `rank(size)` for sizes that are multiples of 64, `Bitmap(size, true)`; see below. -/
theorem C107_bitmap_partial (s : Start) (ops : List (Nat × Bool)) (hn : s.bits.length < 2^31) (ho : ∀ o ∈ ops, o.1 < s.bits.length) :
    ∃ t, run s ops = some t ∧ (∀ i, i < s.bits.length → get t i = (plain s ops)[i]?) ∧
      (∀ i, i ≤ s.bits.length → (i < s.bits.length ∨ s.bits.length % 64 ≠ 0 ∨ i = 0) → rank t i = some (((plain s ops).take i).count true : Nat)) ∧
      ∀ k, k < (plain s ops).count true → ∃ p : Nat, select t k = some (p : Int) ∧ (plain s ops)[p]? = some true ∧ ((plain s ops).take p).count true = k := by
  obtain ⟨t, e, ok⟩ := run_ok s ops hn ho
  have hl := plain_len s ops
  refine ⟨t, e, fun i hi => ?_, fun i hi h => ?_, fun k hk => ?_⟩
  · rw [get_ok ok (by omega), List.getD_eq_getElem?_getD, List.getElem?_eq_getElem (by omega)]; rfl
  · exact rank_ok ok (by omega) (by omega) (by omega)
  · obtain ⟨p, h1, _, h2, h3⟩ := select_ok ok (by omega) hk
    exact ⟨p, h1, h2, h3⟩

example : ∃ t, run (.size 130) [(3, true), (100, true), (3, false), (64, true)] = some t ∧ rank t 101 = some 2 ∧ select t 1 = some 100 ∧ get t 64 = some true := by
  obtain ⟨t, e, h1, h2, h3⟩ := C107_bitmap_partial (.size 130) [(3, true), (100, true), (3, false), (64, true)] (by simp [Start.bits]) (by simp [Start.bits])
  refine ⟨t, e, ?_, ?_, ?_⟩
  · rw [h2 101 (by decide +kernel) (by decide +kernel)]; decide +kernel
  · obtain ⟨p, q1, q2, q3⟩ := h3 1 (by decide +kernel)
    have key : ∀ p, p < 130 → (plain (.size 130) [(3, true), (100, true), (3, false), (64, true)])[p]? = some true → ((plain (.size 130) [(3, true), (100, true), (3, false), (64, true)]).take p).count true = 1 → p = 100 := by decide +kernel
    have hp : p < 130 := by
      have := (List.getElem?_eq_some_iff.1 q2).1
      rw [plain_len] at this
      exact this
    rw [q1, key p hp q2 q3]; rfl
  · rw [h1 64 (by decide +kernel)]; decide +kernel

/-- C107 fails: when the size is a multiple of 64, `rank(size)` reads past the array, whatever the contents. -/
theorem C107_rank_end_violated (s : Start) (ops : List (Nat × Bool)) (hn : s.bits.length < 2^31) (ho : ∀ o ∈ ops, o.1 < s.bits.length) (h0 : 0 < s.bits.length) (h64 : s.bits.length % 64 = 0) :
    ∃ t, run s ops = some t ∧ rank t s.bits.length = none := by
  obtain ⟨t, e, ok⟩ := run_ok s ops hn ho
  refine ⟨t, e, ?_⟩
  have hl := ok.len
  rw [plain_len, words] at hl
  unfold rank
  rw [if_neg (by omega), List.getElem?_eq_none (by omega)]
  cases (if s.bits.length / 64 > 0 then Fenwick.sum t.rsq (s.bits.length / 64 - 1) else some 0) <;> rfl

/-- C107 fails for `Bitmap(size, true)`: all bits read as 1, but the counts are 0. -/
theorem C107_init_violated : (∀ i, i < 100 → get (mk 100 true) i = some true) ∧ rank (mk 100 true) 64 = some 0 := by decide +kernel

/-- C107 fails: `select` past the last 1 reads past the array. -/
theorem C107_select_end_violated : select (mk 100 false) 0 = none := by decide +kernel

end Verif.DynBitmap
