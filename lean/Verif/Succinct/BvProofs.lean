import Verif.Succinct.BvTrick
/-!
Correctness of `BV::build`, `rank` and `select` on any source whose bits beyond `size()` are zero.
-/
namespace Verif.Succinct
open Verif.BitManip

/-! ### Specification -/

/-- Number of positions `q < p` with `f q = B`. -/
def cnt (f : Nat → Bool) (B : Bool) : Nat → Nat
  | 0 => 0
  | p+1 => cnt f B p + (if f p = B then 1 else 0)

/-- Bit `p` of a source. -/
def sbit (S : Nat) (src : Src) (p : Nat) : Bool := (src.ws.getD (p / S) 0).testBit (p % S)

/-- The words are exactly those needed for `n` bits, and bits from `n` on are zero. -/
structure SrcOk (S : Nat) (src : Src) : Prop where
  s1 : 1 ≤ S
  s64 : S ≤ 64
  len : src.ws.length = (src.n + (S - 1)) / S
  lt : ∀ w ∈ src.ws, w < 2^S
  clean : ∀ p, src.n ≤ p → sbit S src p = false

theorem cnt_le_succ (f : Nat → Bool) (B : Bool) (p : Nat) : cnt f B p ≤ cnt f B (p+1) ∧ cnt f B (p+1) ≤ cnt f B p + 1 := by
  rw [cnt]; split <;> omega

theorem cnt_add (f : Nat → Bool) (B : Bool) (p : Nat) : ∀ d, cnt f B p ≤ cnt f B (p+d) ∧ cnt f B (p+d) ≤ cnt f B p + d
  | 0 => ⟨Nat.le_refl _, Nat.le_refl _⟩
  | d+1 => by
      have h1 := cnt_add f B p d
      have h2 := cnt_le_succ f B (p+d)
      rw [show p + (d+1) = p + d + 1 by omega]
      omega

theorem cnt_mono (f : Nat → Bool) (B : Bool) {p q : Nat} (h : p ≤ q) : cnt f B p ≤ cnt f B q := by
  have := (cnt_add f B p (q - p)).1
  rwa [show p + (q - p) = q by omega] at this

theorem cnt_sum (f : Nat → Bool) : ∀ p, cnt f true p + cnt f false p = p
  | 0 => rfl
  | p+1 => by
      have ih := cnt_sum f p
      rw [cnt, cnt]
      cases f p <;> simp <;> omega

theorem cnt_lt {f : Nat → Bool} {B : Bool} {p q : Nat} (h : cnt f B p < cnt f B q) : p < q := by
  by_contra hc
  have := cnt_mono f B (show q ≤ p by omega)
  omega

/-! ### Words -/

theorem ones_zero : ∀ n, ones n 0 = 0
  | 0 => rfl
  | n+1 => by simp [ones, ones_zero n]

theorem ones_small {w S n : Nat} (hw : w < 2^S) (hn : S ≤ n) : ones n w = ones S w := by
  rw [show n = S + (n - S) by omega, ones_add, Nat.div_eq_of_lt hw, ones_zero]; omega

theorem cnt_word (S : Nat) (src : Src) (h1 : 1 ≤ S) (q : Nat) : ∀ r, r ≤ S →
    cnt (sbit S src) true (S * q + r) = cnt (sbit S src) true (S * q) + ones r (src.ws.getD q 0)
  | 0, _ => by simp [ones]
  | r+1, h => by
      have ih := cnt_word S src h1 q r (by omega)
      rw [← Nat.add_assoc, cnt, ih, ones_last, sbit, Nat.mul_add_div (by omega), Nat.div_eq_of_lt (by omega), Nat.add_zero, Nat.mul_add_mod,
        Nat.mod_eq_of_lt (by omega)]
      cases (src.ws.getD q 0).testBit r <;> simp <;> omega

theorem SrcOk.word {S : Nat} {src : Src} (h : SrcOk S src) (q : Nat) : src.ws.getD q 0 < 2^S := by
  rw [List.getD_eq_getElem?_getD]
  cases e : src.ws[q]? with
  | none => exact Nat.two_pow_pos S
  | some w => exact h.lt w (List.mem_of_getElem? e)

theorem getD_of_some {l : List Nat} {q w : Nat} (h : l[q]? = some w) : l.getD q 0 = w := by
  rw [List.getD_eq_getElem?_getD, h]; rfl

/-- Count of small block `s` of large block `l`, relative to the start of the large block. -/
def gs (S : Nat) (src : Src) (B : Bool) (l s : Nat) : Nat := cnt (sbit S src) B (8 * S * l + S * s) - cnt (sbit S src) B (8 * S * l)

theorem gs_add (S : Nat) (src : Src) (B : Bool) (l s : Nat) :
    cnt (sbit S src) B (8 * S * l + S * s) = cnt (sbit S src) B (8 * S * l) + gs S src B l s := by
  have := (cnt_add (sbit S src) B (8 * S * l) (S * s)).1
  unfold gs; omega

theorem gs_zero (S : Nat) (src : Src) (B : Bool) (l : Nat) : gs S src B l 0 = 0 := by unfold gs; simp

theorem gs_step (S : Nat) (src : Src) (B : Bool) (l s : Nat) : gs S src B l s ≤ gs S src B l (s+1) ∧ gs S src B l (s+1) ≤ gs S src B l s + S := by
  have h := cnt_add (sbit S src) B (8 * S * l + S * s) S
  rw [show 8 * S * l + S * s + S = 8 * S * l + S * (s+1) by ring, gs_add, gs_add] at h
  omega

theorem gs_le (S : Nat) (src : Src) (B : Bool) (l s : Nat) : gs S src B l s ≤ S * s := by
  have := (cnt_add (sbit S src) B (8 * S * l) (S * s)).2
  unfold gs; omega

theorem gs_compl (S : Nat) (src : Src) (l s : Nat) : gs S src true l s + gs S src false l s = S * s := by
  have h1 := cnt_sum (sbit S src) (8 * S * l + S * s)
  have h2 := cnt_sum (sbit S src) (8 * S * l)
  rw [gs_add, gs_add] at h1
  omega

theorem block_word (S l s : Nat) : 8 * S * l + S * s = S * (l * 8 + s) := by ring

theorem gs_succ {S : Nat} {src : Src} (h : SrcOk S src) (l s : Nat) :
    gs S src true l (s+1) = gs S src true l s + ones S (src.ws.getD (l * 8 + s) 0) := by
  have e := cnt_word S src h.s1 (l * 8 + s) S (Nat.le_refl _)
  rw [← block_word, show 8 * S * l + S * s + S = 8 * S * l + S * (s + 1) by ring, gs_add, gs_add] at e
  omega

/-! ### The inner loop of `build` -/

/-- The first `s` counts, most significant first. -/
def R (g : Nat → Nat) : Nat → Nat
  | 0 => 0
  | s+1 => R g s * 512 + g (s+1)

theorem R7 (g : Nat → Nat) : R g 7 = F (fun j => g (7 - j)) 7 := by
  simp only [R, F]; ring

theorem R_lt (g : Nat → Nat) : ∀ s, (∀ i, i ≤ s → g i < 512) → R g s < 512^s
  | 0, _ => by simp [R]
  | s+1, h => by
      have ih := R_lt g s (fun i hi => h i (by omega))
      have := h (s+1) (by omega)
      rw [R, Nat.pow_succ]
      omega

theorem inner_ok {S : Nat} {src : Src} (h : SrcOk S src) (l : Nat) :
    forRange 0 8 (bvInner src l) (0, 0) = some (F (fun j => gs S src true l (7 - j)) 7, gs S src true l 8) := by
  have hs1 := h.s1
  have hs64 := h.s64
  have hle := gs_le S src true l
  have hb : ∀ s, s ≤ 7 → gs S src true l s < 512 := by
    intro s hs
    have h1 := hle s
    have : S * s ≤ 64 * 7 := Nat.mul_le_mul hs64 hs
    omega
  obtain ⟨t, e, ht⟩ := forRange_inv
    (P := fun s t => t = (if s ≤ 7 then R (gs S src true l) s * 2^(9 * (7 - s)) else R (gs S src true l) 7, gs S src true l s))
    (body := bvInner src l) (s := (0, 0)) (a := 0) (b := 8) (by omega) (by rw [gs_zero]; simp [R])
    (by
      intro s t _ hs8 ht
      have hstep := gs_succ h l s
      have hsum : (if l * 8 + s < src.ws.length then (src.ws[l * 8 + s]?).map (fun w => t.2 + popcnt w) else some t.2) =
          some (gs S src true l (s+1)) := by
        rw [ht]
        by_cases c : l * 8 + s < src.ws.length
        · rw [if_pos c, List.getElem?_eq_getElem c, Option.map_some, popcnt_eq]
          have hw : src.ws.getD (l * 8 + s) 0 = src.ws[l * 8 + s] := getD_of_some (List.getElem?_eq_getElem c)
          rw [ones_small (h.lt _ (List.getElem_mem c)) hs64, hstep, hw]
        · rw [if_neg c, hstep, List.getD_eq_getElem?_getD, List.getElem?_eq_none (by omega)]
          simp [ones_zero]
      refine ⟨_, ?_, rfl⟩
      unfold bvInner
      rw [hsum, Option.map_some, ht]
      refine congrArg some ?_
      congr 1
      dsimp only
      by_cases c : s < 7
      · rw [if_pos c, if_pos (by omega), if_pos (by omega), R]
        have hg := hb (s+1) (by omega)
        have h2 : gs S src true l (s+1) <<< ((7 - (s+1)) * 9) < 2^(9 * (7 - s)) := by
          rw [Nat.shiftLeft_eq, show 9 * (7 - s) = 9 + (7 - (s+1)) * 9 by omega, Nat.pow_add 2 9]
          exact Nat.mul_lt_mul_of_pos_right hg (Nat.two_pow_pos _)
        have h3 : u64 (gs S src true l (s+1) <<< ((7 - (s+1)) * 9)) = gs S src true l (s+1) <<< ((7 - (s+1)) * 9) := by
          unfold u64
          exact Nat.mod_eq_of_lt (Nat.lt_of_lt_of_le h2 (Nat.pow_le_pow_right (by omega) (by omega)))
        rw [h3, ← Nat.shiftLeft_eq (R (gs S src true l) s), ← Nat.shiftLeft_add_eq_or_of_lt h2, Nat.shiftLeft_eq, Nat.shiftLeft_eq,
          show 9 * (7 - s) = 9 + 9 * (7 - (s+1)) by omega, Nat.pow_add 2 9, show (7 - (s+1)) * 9 = 9 * (7 - (s+1)) by omega]
        ring
      · have : s = 7 := by omega
        subst this
        simp)
  rw [e, ht, if_neg (by omega), R7]

/-! ### Sample lists -/

/-- `s` samples the blocks where `G` crosses multiples of `Lb`. -/
structure IdxOk (G : Nat → Nat) (Lb l : Nat) (s : List Nat) : Prop where
  len : s.length = G l / Lb + 1
  first : s[0]? = some 0
  cross : ∀ k, 1 ≤ k → k ≤ G l / Lb → ∃ b, s[k]? = some b ∧ b < l ∧ G b < k * Lb ∧ k * Lb ≤ G (b+1)

theorem IdxOk.init (G : Nat → Nat) (Lb : Nat) (h0 : G 0 = 0) : IdxOk G Lb 0 [0] :=
  ⟨by simp [h0], rfl, fun k h1 h2 => by rw [h0, Nat.zero_div] at h2; omega⟩

theorem IdxOk.step {G : Nat → Nat} {Lb l : Nat} {s : List Nat} (h : IdxOk G Lb l s) (hL : 0 < Lb) (h1 : G l ≤ G (l+1)) (h2 : G (l+1) ≤ G l + Lb) :
    IdxOk G Lb (l+1) (if G l / Lb ≠ G (l+1) / Lb then s ++ [l] else s) := by
  have hle : G l / Lb ≤ G (l+1) / Lb := Nat.div_le_div_right h1
  have hle2 : G (l+1) / Lb ≤ G l / Lb + 1 := by
    have := Nat.div_le_div_right (c := Lb) h2
    rwa [Nat.add_div_right _ hL] at this
  by_cases c : G l / Lb = G (l+1) / Lb
  · rw [if_neg (by simpa using c)]
    refine ⟨by rw [← c]; exact h.len, h.first, ?_⟩
    intro k k1 k2
    obtain ⟨b, e, hb, x, y⟩ := h.cross k k1 (by omega)
    exact ⟨b, e, by omega, x, y⟩
  · rw [if_pos c]
    have hlen := h.len
    refine ⟨by rw [List.length_append, hlen, List.length_singleton]; omega, by rw [List.getElem?_append_left (by rw [hlen]; exact Nat.succ_pos _)]; exact h.first, ?_⟩
    intro k k1 k2
    by_cases hk : k ≤ G l / Lb
    · obtain ⟨b, e, hb, x, y⟩ := h.cross k k1 hk
      exact ⟨b, by rw [List.getElem?_append_left (by omega)]; exact e, by omega, x, y⟩
    · have hk' : k = G l / Lb + 1 := by omega
      refine ⟨l, by rw [List.getElem?_append_right (by omega), show k - s.length = 0 by omega]; rfl, by omega, ?_, ?_⟩
      · rw [hk', Nat.mul_comm]; exact Nat.lt_mul_div_succ _ hL
      · have : k = G (l+1) / Lb := by omega
        rw [this]; exact Nat.div_mul_le_self _ _

/-! ### `build` -/

/-- Count of `B` before large block `l`. -/
def gl (S : Nat) (src : Src) (B : Bool) (l : Nat) : Nat := cnt (sbit S src) B (8 * S * l)

theorem gl_step (S : Nat) (src : Src) (B : Bool) (l : Nat) : gl S src B l ≤ gl S src B (l+1) ∧ gl S src B (l+1) ≤ gl S src B l + 8 * S := by
  have := cnt_add (sbit S src) B (8 * S * l) (8 * S)
  unfold gl
  rw [show 8 * S * (l+1) = 8 * S * l + 8 * S by ring]
  exact this

theorem gl_compl (S : Nat) (src : Src) (l : Nat) : 8 * S * l - gl S src true l = gl S src false l := by
  have := cnt_sum (sbit S src) (8 * S * l)
  unfold gl; omega

/-- Contents of `_r` after `l` large blocks. -/
def rf (S : Nat) (src : Src) (l i : Nat) : Nat :=
  if i % 2 = 0 then (if i / 2 ≤ l then gl S src true (i / 2) else 0) else (if i / 2 < l then F (fun j => gs S src true (i / 2) (7 - j)) 7 else 0)

structure BvOk (S : Nat) (src : Src) (bv : Bv) : Prop where
  r : Rep bv.r ((numL S src + 1) * 2) (rf S src (numL S src))
  s : ∃ s, bv.s = s ++ [numL S src] ∧ IdxOk (gl S src true) (8 * S) (numL S src) s
  zs : ∃ s, bv.zs = s ++ [numL S src] ∧ IdxOk (gl S src false) (8 * S) (numL S src) s

theorem build_ok {S : Nat} {src : Src} (h : SrcOk S src) : ∃ bv, build S src = some bv ∧ BvOk S src bv := by
  have hs1 := h.s1
  obtain ⟨t, e, ht⟩ := forRange_inv
    (P := fun l (t : Bv × Nat) => Rep t.1.r ((numL S src + 1) * 2) (rf S src l) ∧ IdxOk (gl S src true) (8 * S) l t.1.s ∧
      IdxOk (gl S src false) (8 * S) l t.1.zs ∧ t.2 = gl S src true l)
    (body := bvOuter S src) (s := (⟨List.replicate ((numL S src + 1) * 2) 0, [0], [0]⟩, 0)) (a := 0) (b := numL S src) (Nat.zero_le _)
    ⟨(Rep.replicate _ 0).congr (by
        intro i _
        unfold rf
        by_cases c : i % 2 = 0
        · rw [if_pos c]
          by_cases c2 : i / 2 ≤ 0
          · rw [if_pos c2, show i / 2 = 0 by omega]; rfl
          · rw [if_neg c2]
        · rw [if_neg c, if_neg (by omega)]), IdxOk.init _ _ rfl, IdxOk.init _ _ rfl, rfl⟩
    (by
      intro l t _ hl ⟨hr, hi, hz, hsum⟩
      have hrow : t.1.r[l * 2 + 1]? = some 0 := by
        rw [hr.val _ (by omega), rf, if_neg (by omega), if_neg (by omega)]
      have hnew : t.2 + gs S src true l 8 = gl S src true (l+1) := by
        rw [hsum]
        have := gs_add S src true l 8
        unfold gl
        rw [show 8 * S * (l+1) = 8 * S * l + S * 8 by ring, this]
      obtain ⟨r1, e1, hr1⟩ := hr.wr (i := l * 2 + 1) (by omega) (F (fun j => gs S src true l (7 - j)) 7)
      obtain ⟨r2, e2, hr2⟩ := hr1.wr (i := (l + 1) * 2) (by omega) (gl S src true (l+1))
      refine ⟨(⟨r2, if t.2 / (8 * S) ≠ gl S src true (l+1) / (8 * S) then t.1.s ++ [l] else t.1.s,
        if (8 * S * l - t.2) / (8 * S) ≠ (8 * S * (l + 1) - gl S src true (l+1)) / (8 * S) then t.1.zs ++ [l] else t.1.zs⟩, gl S src true (l+1)), ?_, ?_⟩
      · unfold bvOuter
        rw [hrow, Option.bind_some, inner_ok h l, Option.bind_some]
        dsimp only
        rw [e1, Option.bind_some, hnew, e2, Option.map_some]
      · refine ⟨hr2.congr ?_, ?_, ?_, rfl⟩
        · intro i _
          unfold upd rf
          by_cases c1 : i = (l + 1) * 2
          · rw [if_pos c1, if_pos (by omega), if_pos (by omega), show i / 2 = l + 1 by omega]
          · rw [if_neg c1]
            by_cases c2 : i = l * 2 + 1
            · rw [if_pos c2, if_neg (by omega), if_pos (by omega), show i / 2 = l by omega]
            · rw [if_neg c2]
              by_cases c3 : i % 2 = 0
              · rw [if_pos c3, if_pos c3]
                by_cases c4 : i / 2 ≤ l
                · rw [if_pos c4, if_pos (by omega)]
                · rw [if_neg c4, if_neg (by omega)]
              · rw [if_neg c3, if_neg c3]
                by_cases c4 : i / 2 < l
                · rw [if_pos c4, if_pos (by omega)]
                · rw [if_neg c4, if_neg (by omega)]
        · have := hi.step (by omega) (gl_step S src true l).1 (gl_step S src true l).2
          rw [← hsum] at this
          exact this
        · have := hz.step (by omega) (gl_step S src false l).1 (gl_step S src false l).2
          rw [← gl_compl, ← gl_compl, ← hsum] at this
          exact this)
  refine ⟨⟨t.1.r, t.1.s ++ [numL S src], t.1.zs ++ [numL S src]⟩, ?_, ⟨ht.1, ⟨_, rfl, ht.2.1⟩, ⟨_, rfl, ht.2.2.1⟩⟩⟩
  unfold build
  rw [e]; rfl

/-! ### Reading -/

theorem getL_ok {S : Nat} {src : Src} {bv : Bv} (hb : BvOk S src bv) (B : Bool) {l : Nat} (hl : l ≤ numL S src) :
    getL S bv B l = some (gl S src B l) := by
  have hv : bv.r[l * 2]? = some (gl S src true l) := by
    rw [hb.r.val _ (by omega), rf, if_pos (by omega), if_pos (by omega), show l * 2 / 2 = l by omega]
  unfold getL
  rw [hv, Option.map_some]
  cases B
  · rw [if_neg (by simp), Nat.mul_comm l, gl_compl]
  · rfl

theorem F_field {f : Nat → Nat} {k j : Nat} (h : ∀ i, i < k → f i < 512) (hj : j < k) : F f k / 512^j % 512 = f j := by
  have h1 := F_mod h (k - (j+1)) (j+1) (by omega)
  have h2 := F_lt j (fun i hi => h i (by omega))
  rw [Nat.pow_succ, Nat.mod_mul] at h1
  have h3 := F_mod h (k - j) j (by omega)
  rw [h3, F, Nat.mul_comm (f j)] at h1
  exact Nat.eq_of_mul_eq_mul_left (Nat.lt_of_le_of_lt (Nat.zero_le _) h2) (by omega)

theorem gs_lt {S : Nat} {src : Src} (h : SrcOk S src) (B : Bool) (l : Nat) {s : Nat} (hs : s ≤ 7) : gs S src B l s < 512 := by
  have h1 := gs_le S src B l s
  have : S * s ≤ 64 * 7 := Nat.mul_le_mul h.s64 hs
  omega

theorem row_ok {S : Nat} {src : Src} {bv : Bv} (hb : BvOk S src bv) {l : Nat} (hl : l < numL S src) :
    bv.r[l * 2 + 1]? = some (F (fun j => gs S src true l (7 - j)) 7) := by
  rw [hb.r.val _ (by omega), rf, if_neg (by omega), if_pos (by omega), show (l * 2 + 1) / 2 = l by omega]

theorem getS_ok {S : Nat} {src : Src} {bv : Bv} (h : SrcOk S src) (hb : BvOk S src bv) (B : Bool) {l s : Nat} (hl : l < numL S src) (hs : s ≤ 7) :
    getS S bv B l s = some (gs S src B l s) := by
  have hf : ∀ i, i < 7 → (fun j => gs S src true l (7 - j)) i < 512 := fun i hi => gs_lt h true l (by omega)
  have hfield : (F (fun j => gs S src true l (7 - j)) 7 >>> ((7 - s) * 9)) % 2^9 = gs S src true l s := by
    rw [Nat.shiftRight_eq_div_pow, Nat.mul_comm (7 - s) 9, Nat.pow_mul]
    by_cases c : s = 0
    · subst c
      rw [gs_zero, Nat.div_eq_of_lt (F_lt 7 hf), Nat.zero_mod]
    · have := F_field hf (show 7 - s < 7 by omega)
      rw [show 7 - (7 - s) = s by omega] at this
      exact this
  unfold getS
  rw [row_ok hb hl, Option.map_some, hfield]
  cases B
  · rw [if_neg (by simp)]
    have := gs_compl S src l s
    refine congrArg some ?_
    rw [Nat.mul_comm s]; omega
  · rfl

theorem numL_lt {S : Nat} {src : Src} (hs : 1 ≤ S) {i : Nat} (hi : i < src.n) : i / (8 * S) < numL S src := by
  unfold numL
  rw [Nat.div_lt_iff_lt_mul (by omega)]
  have := Nat.lt_mul_div_succ (src.n + (8 * S - 1)) (show 0 < 8 * S by omega)
  rw [Nat.mul_add] at this
  rw [Nat.mul_comm]
  omega

theorem numL_cover {S : Nat} {src : Src} (hs : 1 ≤ S) : src.n ≤ 8 * S * numL S src := by
  unfold numL
  have := Nat.lt_mul_div_succ (src.n + (8 * S - 1)) (show 0 < 8 * S by omega)
  rw [Nat.mul_add] at this
  omega

theorem word_in {S : Nat} {src : Src} (h : SrcOk S src) {q : Nat} (hq : S * q < src.n) : q < src.ws.length := by
  have hs := h.s1
  rw [h.len]
  have := Nat.lt_mul_div_succ (src.n + (S - 1)) (show 0 < S by omega)
  rw [Nat.mul_add] at this
  by_contra hc
  have : S * ((src.n + (S - 1)) / S) ≤ S * q := Nat.mul_le_mul_left _ (by omega)
  omega

/-- Nothing is counted beyond `size()`. -/
theorem cnt_beyond {S : Nat} {src : Src} (h : SrcOk S src) : ∀ d, cnt (sbit S src) true (src.n + d) = cnt (sbit S src) true src.n
  | 0 => rfl
  | d+1 => by
      rw [← Nat.add_assoc, cnt, cnt_beyond h d, h.clean _ (by omega)]; rfl

theorem rank1_ok {S : Nat} {src : Src} {bv : Bv} (h : SrcOk S src) (hb : BvOk S src bv) (i : Nat) :
    rank1 S src bv i = some (cnt (sbit S src) true (min i src.n)) := by
  have hs1 := h.s1
  unfold rank1
  by_cases c : src.n ≤ i
  · rw [if_pos c, hb.r.len, show (numL S src + 1) * 2 - 2 = numL S src * 2 by omega, hb.r.val _ (by omega), rf, if_pos (by omega), if_pos (by omega),
      show numL S src * 2 / 2 = numL S src by omega, gl]
    have hc := numL_cover (src := src) hs1
    have := cnt_beyond h (8 * S * numL S src - src.n)
    rw [show src.n + (8 * S * numL S src - src.n) = 8 * S * numL S src by omega] at this
    rw [this, Nat.min_eq_right c]
  · have hi : i < src.n := by omega
    have hmod : i % S < S := Nat.mod_lt _ (by omega)
    have hdiv : S * (i / S) + i % S = i := Nat.div_add_mod i S
    have hq := word_in h (q := i / S) (by omega)
    have hl := numL_lt hs1 hi
    have hsq : i % (8 * S) / S < 8 := by
      rw [Nat.div_lt_iff_lt_mul (by omega)]
      exact Nat.mod_lt _ (by omega)
    have hw := h.lt _ (List.getElem_mem hq)
    have hs64 := h.s64
    rw [if_neg c, List.getElem?_eq_getElem hq, Option.bind_some, maskW, if_neg (by omega), if_pos (by omega), Option.bind_some,
      getL_ok hb true (by omega), Option.bind_some, getS_ok h hb true hl (by omega), Option.map_some, Nat.and_two_pow_sub_one_eq_mod, popcnt_eq,
      ones_small (Nat.mod_lt _ (Nat.two_pow_pos _)) (show i % S ≤ 64 by omega), ones_mod, gl, ← gs_add]
    have hblk : 8 * S * (i / (8 * S)) + S * (i % (8 * S) / S) = S * (i / S) := by
      have e1 : i / S = 8 * (i / (8 * S)) + i % (8 * S) / S := by
        conv_lhs => rw [← Nat.div_add_mod i (8 * S)]
        rw [show 8 * S * (i / (8 * S)) = S * (8 * (i / (8 * S))) by ring, Nat.mul_add_div (by omega)]
      rw [e1]; ring
    have := cnt_word S src hs1 (i / S) (i % S) (by omega)
    rw [hblk, ← getD_of_some (List.getElem?_eq_getElem hq), ← this, hdiv, Nat.min_eq_left (by omega)]

theorem rank0_ok {S : Nat} {src : Src} {bv : Bv} (h : SrcOk S src) (hb : BvOk S src bv) {i : Nat} (hi : i ≤ src.n) :
    rank0 S src bv i = some (cnt (sbit S src) false i) := by
  unfold rank0
  have := cnt_sum (sbit S src) i
  rw [rank1_ok h hb, Option.bind_some, Nat.min_eq_left hi, if_pos (by omega)]
  refine congrArg some ?_
  omega

theorem rankB_ok {S : Nat} {src : Src} {bv : Bv} (h : SrcOk S src) (hb : BvOk S src bv) (B : Bool) {i : Nat} (hi : i ≤ src.n) :
    rankB S src bv B i = some (cnt (sbit S src) B i) := by
  cases B
  · exact rank0_ok h hb hi
  · have := rank1_ok h hb i
    rwa [Nat.min_eq_left hi] at this

/-! ### `select` -/

theorem gl_mono (S : Nat) (src : Src) (B : Bool) {a b : Nat} (h : a ≤ b) : gl S src B a ≤ gl S src B b :=
  cnt_mono _ _ (Nat.mul_le_mul_left _ h)

theorem searchL_ok {S : Nat} {src : Src} {bv : Bv} (hb : BvOk S src bv) (B : Bool) (n : Nat) :
    ∀ (fuel l r : Nat), r - l ≤ fuel + 1 → l < r → r ≤ numL S src + 1 → gl S src B l < n → (∀ c, r ≤ c → c ≤ numL S src → n ≤ gl S src B c) →
    ∃ l', searchL S bv B n fuel l r = some l' ∧ l' ≤ numL S src ∧ gl S src B l' < n ∧ ∀ c, l' + 1 ≤ c → c ≤ numL S src → n ≤ gl S src B c
  | 0, l, r, hf, hlr, hr, hl, hc => by
      have : r = l + 1 := by omega
      subst this
      exact ⟨l, by rw [searchL, if_neg (by omega)], by omega, hl, hc⟩
  | fuel+1, l, r, hf, hlr, hr, hl, hc => by
      rw [searchL]
      by_cases c : l + 1 < r
      · rw [if_pos c, getL_ok hb B (by omega), Option.bind_some]
        by_cases c2 : gl S src B (l + (r - l) / 2) < n
        · rw [if_pos c2]
          exact searchL_ok hb B n fuel _ r (by omega) (by omega) hr c2 hc
        · rw [if_neg c2]
          refine searchL_ok hb B n fuel l _ (by omega) (by omega) (by omega) hl ?_
          intro x hx _
          have := gl_mono S src B hx
          omega
      · rw [if_neg c]
        have : r = l + 1 := by omega
        subst this
        exact ⟨l, rfl, by omega, hl, hc⟩

theorem cap_eq : ∀ S, S < 65 → capMask S = F (fun j => S * (7 - j)) 7 := by decide +kernel

/-- The word of small-block counts of either kind of bit. -/
theorem row_B {S : Nat} {src : Src} (h : SrcOk S src) (B : Bool) (l : Nat) :
    (if B then F (fun j => gs S src true l (7 - j)) 7 else u64 (capMask S + 2^64 - F (fun j => gs S src true l (7 - j)) 7)) =
      F (fun j => gs S src B l (7 - j)) 7 := by
  cases B
  · rw [if_neg (by simp), cap_eq S (by have := h.s64; omega)]
    have hadd : ∀ k, k ≤ 7 → F (fun j => gs S src true l (7 - j)) k + F (fun j => gs S src false l (7 - j)) k = F (fun j => S * (7 - j)) k := by
      intro k
      induction k with
      | zero => intro _; rfl
      | succ k ih =>
        intro hk
        have h1 := ih (by omega)
        have h2 := gs_compl S src l (7 - k)
        simp only [F]
        rw [← h2, Nat.add_mul]
        omega
    have h7 := hadd 7 (by omega)
    have hlt := F_lt (f := fun j => gs S src false l (7 - j)) 7 (fun i hi => gs_lt h false l (by omega))
    have : (512:Nat)^7 < 2^64 := by decide
    unfold u64
    rw [← h7]
    omega
  · rfl

theorem selTail_ok {S : Nat} {src : Src} {bv : Bv} (h : SrcOk S src) (hb : BvOk S src bv) (B : Bool) {ith l s : Nat} (hl : l < numL S src) (hs : s ≤ 7)
    (hg : gl S src B l < ith + 1) (h1 : gs S src B l s < ith + 1 - gl S src B l) (h2 : ith + 1 - gl S src B l ≤ gs S src B l (s+1))
    (htot : ith < cnt (sbit S src) B src.n) :
    ∃ p, selTail S src bv B l (ith + 1 - gl S src B l) s = some p ∧ p < src.n ∧ sbit S src p = B ∧ cnt (sbit S src) B p = ith := by
  have hs1 := h.s1
  have hs64 := h.s64
  have e1 := gs_add S src B l s
  have e2 := gs_add S src B l (s+1)
  have hgl : gl S src B l = cnt (sbit S src) B (8 * S * l) := rfl
  have hq : l * 8 + s < src.ws.length := by
    refine word_in h ?_
    rw [← block_word]
    exact cnt_lt (f := sbit S src) (B := B) (by omega)
  unfold selTail
  rw [getS_ok h hb B hl hs, Option.bind_some, if_pos h1, List.getElem?_eq_getElem hq, Option.bind_some]
  have hw := h.lt _ (List.getElem_mem hq)
  have hwd : src.ws.getD (l * 8 + s) 0 = src.ws[l * 8 + s] := getD_of_some (List.getElem?_eq_getElem hq)
  have hcw := fun r hr => cnt_word S src hs1 (l * 8 + s) r hr
  rw [hwd] at hcw
  generalize src.ws[l * 8 + s] = w at *
  have hw64 : w < 2^64 := Nat.lt_of_lt_of_le hw (Nat.pow_le_pow_right (by omega) hs64)
  have hones := ones_small hw hs64
  have hS := hcw S (Nat.le_refl _)
  rw [← block_word] at hS hcw
  rw [show 8 * S * l + S * s + S = 8 * S * l + S * (s+1) by ring] at hS
  have hc1 := cnt_sum (sbit S src) (8 * S * l + S * s)
  have hc2 := cnt_sum (sbit S src) (8 * S * l + S * (s+1))
  have hmul : S * (s + 1) = S * s + S := by ring
  have pos : ∀ p, p < S → sbit S src (8 * S * l + S * s + p) = w.testBit p := by
    intro p hp
    rw [sbit, block_word, Nat.mul_add_div (by omega), Nat.div_eq_of_lt hp, Nat.add_zero, Nat.mul_add_mod, Nat.mod_eq_of_lt hp, hwd]
  have fin : ∀ p, p < S → w.testBit p = B → cnt (sbit S src) B (8 * S * l + S * s + p) = ith →
      l * (8 * S) + s * S + p < src.n ∧ sbit S src (l * (8 * S) + s * S + p) = B ∧ cnt (sbit S src) B (l * (8 * S) + s * S + p) = ith := by
    intro p hp hb2 hc
    rw [show l * (8 * S) + s * S + p = 8 * S * l + S * s + p by ring]
    exact ⟨cnt_lt (f := sbit S src) (B := B) (by omega), by rw [pos p hp, hb2], hc⟩
  cases B
  · obtain ⟨p, ep, hp, hbp, hcp⟩ := (C41_select64 w hw64 (ith + 1 - gl S src false l - gs S src false l s - 1)).2 (by
      have := ones_le S w
      omega)
    have hpS : p < S := by
      by_contra hc
      have ho : ones p w ≤ ones S w + (p - S) := by
        rw [show p = S + (p - S) by omega, ones_add]
        have := ones_le (p - S) (w / 2^S)
        rw [Nat.add_sub_cancel_left]
        omega
      have := ones_le S w
      omega
    refine ⟨_, by rw [ep]; rfl, fin p hpS hbp ?_⟩
    have hr := hcw p (by omega)
    have hc3 := cnt_sum (sbit S src) (8 * S * l + S * s + p)
    have := ones_le p w
    omega
  · obtain ⟨p, ep, hp, hbp, hcp⟩ := (C41_select64 w hw64 (ith + 1 - gl S src true l - gs S src true l s - 1)).1 (by omega)
    have hpS : p < S := by
      by_contra hc
      have := Nat.testBit_lt_two_pow (Nat.lt_of_lt_of_le hw (Nat.pow_le_pow_right (n := 2) (by omega) (show S ≤ p by omega)))
      rw [this] at hbp
      cases hbp
    refine ⟨_, by rw [ep]; rfl, fin p hpS hbp ?_⟩
    have hr := hcw p (by omega)
    omega

theorem idx_ok {S : Nat} {src : Src} {bv : Bv} (hb : BvOk S src bv) (B : Bool) :
    ∃ s, (if B then bv.s else bv.zs) = s ++ [numL S src] ∧ IdxOk (gl S src B) (8 * S) (numL S src) s := by
  cases B
  · exact hb.zs
  · exact hb.s

theorem select_ok {S : Nat} {src : Src} {bv : Bv} (h : SrcOk S src) (hb : BvOk S src bv) (B : Bool) (ith : Nat) :
    (ith < cnt (sbit S src) B src.n → ∃ p, selectB S src bv B ith = some p ∧ p < src.n ∧ sbit S src p = B ∧ cnt (sbit S src) B p = ith) ∧
    (cnt (sbit S src) B src.n ≤ ith → selectB S src bv B ith = some src.n) := by
  have hs1 := h.s1
  have hs64 := h.s64
  unfold selectB
  rw [rankB_ok h hb B (Nat.le_refl _), Option.bind_some]
  constructor
  swap
  · intro hle; rw [if_pos (by omega)]
  intro hlt
  rw [if_neg (by omega)]
  obtain ⟨sl, es, hi⟩ := idx_ok hb B
  rw [es]
  have hL : 0 < 8 * S := by omega
  have htot : ith + 1 ≤ gl S src B (numL S src) := by
    have := cnt_mono (sbit S src) B (numL_cover (src := src) hs1)
    unfold gl; omega
  have hk : (ith + 1) / (8 * S) ≤ gl S src B (numL S src) / (8 * S) := Nat.div_le_div_right htot
  have hdm := Nat.div_add_mod (ith + 1) (8 * S)
  have hml := Nat.mod_lt (ith + 1) hL
  generalize hkk : (ith + 1) / (8 * S) = k at *
  have hN : 0 < numL S src := by
    rcases Nat.eq_zero_or_pos (numL S src) with h0 | h0
    · rw [h0] at htot
      have : gl S src B 0 = 0 := rfl
      omega
    · exact h0
  -- lower end
  obtain ⟨l0, el, hl0, hg0⟩ : ∃ l0, (sl ++ [numL S src])[k]? = some l0 ∧ l0 < numL S src ∧ gl S src B l0 < ith + 1 := by
    have hlen := hi.len
    rw [List.getElem?_append_left (by omega)]
    rcases Nat.eq_zero_or_pos k with h0 | h0
    · subst h0
      exact ⟨0, hi.first, hN, Nat.succ_pos _⟩
    · obtain ⟨b, eb, hbl, c1, c2⟩ := hi.cross k h0 hk
      rw [Nat.mul_comm] at c1
      exact ⟨b, eb, hbl, by omega⟩
  -- upper end
  obtain ⟨r0, er, hr0, hlr, hup⟩ : ∃ r0, (sl ++ [numL S src])[k+1]? = some r0 ∧ r0 ≤ numL S src ∧ l0 < r0 + 1 ∧
      ∀ c, r0 + 1 ≤ c → c ≤ numL S src → ith + 1 ≤ gl S src B c := by
    have hlen := hi.len
    by_cases hk1 : k + 1 ≤ gl S src B (numL S src) / (8 * S)
    · obtain ⟨b, eb, hbl, c1, c2⟩ := hi.cross (k+1) (by omega) hk1
      rw [Nat.mul_comm, Nat.mul_add] at c2
      refine ⟨b, by rw [List.getElem?_append_left (by omega)]; exact eb, by omega, ?_, ?_⟩
      · by_contra hc
        have := gl_mono S src B (show b + 1 ≤ l0 by omega)
        omega
      · intro c hc _
        have := gl_mono S src B hc
        omega
    · refine ⟨numL S src, by rw [List.getElem?_append_right (by omega), show k + 1 - sl.length = 0 by omega]; rfl, Nat.le_refl _, by omega, ?_⟩
      intro c h1 h2; omega
  rw [el, Option.bind_some, er, Option.bind_some]
  obtain ⟨l, esl, hlN, hgl, hnext⟩ := searchL_ok hb B (ith + 1) (r0 + 1) l0 (r0 + 1) (by omega) hlr (by omega) hg0 hup
  have hlN' : l < numL S src := by
    by_contra hc
    have := gl_mono S src B (show numL S src ≤ l by omega)
    omega
  have hn1 := hnext (l+1) (Nat.le_refl _) (by omega)
  have hst := gl_step S src B l
  rw [esl, Option.bind_some, getL_ok hb B hlN, Option.bind_some, if_pos hgl, row_ok hb hlN', Option.bind_some, row_B h B l]
  have h8 : gs S src B l 8 = gl S src B (l+1) - gl S src B l := by
    unfold gs gl; rw [show 8 * S * (l+1) = 8 * S * l + S * 8 by ring]
  obtain ⟨s, hs8, c1, c2⟩ := cross (gs S src B l) (ith + 1 - gl S src B l) (by rw [gs_zero]; omega) 8 (by omega)
  have hfind := findS_spec (gs S src B l) (ith + 1 - gl S src B l - 1) s (by omega) (gs_zero _ _ _ _) (fun t _ => (gs_step S src B l t).1)
    (fun t _ => by have := (gs_step S src B l t).2; omega) (by omega) (by omega) (fun _ => by omega)
  rw [show ith + 1 - gl S src B l - 1 + 1 = ith + 1 - gl S src B l by omega] at hfind
  rw [hfind, Option.bind_some]
  exact selTail_ok h hb B hlN' (by omega) hgl c1 c2 hlt

end Verif.Succinct
