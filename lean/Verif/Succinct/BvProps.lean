import Verif.Succinct.BvProofs
import Verif.Succinct.BitmapProps
/-!
C41: rank and select of `BitVector` (`Bitmap` with `BV<Bitmap, 64>`).
-/
namespace Verif.Succinct
open Verif.BitManip

/-! ### Specification on sequences -/

/-- Number of `b` among the first `i` elements. -/
def lrank (l : List Bool) (b : Bool) (i : Nat) : Nat := (l.take i).count b

/-- `p` is the position of the `k`-th (from 0) `b`, or the length if there is none. -/
def IsSelect (l : List Bool) (b : Bool) (k p : Nat) : Prop :=
  (k < l.count b → p < l.length ∧ l[p]? = some b ∧ lrank l b p = k) ∧ (l.count b ≤ k → p = l.length)

/-- Calls after which the bits beyond the end are still zero. -/
def Tidy (l : List Bool) : Op → Prop
  | .pop => l.getLast? = some false
  | .resize n b | .assign n b => b = false ∨ n % 64 = 0
  | _ => True

def AllTidy : List Bool → List Op → Prop
  | _, [] => True
  | l, o :: os => Tidy l o ∧ AllTidy (spec l o).1 os

/-! ### Bits beyond the end -/

def Clean (s : Bm) : Prop := ∀ p, s.sz ≤ p → bitAt s.arr p ≠ some true

theorem clean_wr {s : Bm} (h : Clean s) {q : Nat} {w w' : W} {a' : List W} (ew : s.arr[q]? = some w) (e : wr s.arr q w' = some a')
    (hw : ∀ p, s.sz ≤ p → p / 64 = q → w'.getLsbD (p % 64) = true → w.getLsbD (p % 64) = true) : Clean ⟨a', s.sz⟩ := by
  intro p hp hb
  have hp' : s.sz ≤ p := hp
  have hb' : bitAt a' p = some true := hb
  rw [bitAt_wr e p] at hb'
  by_cases c : p / 64 = q
  · rw [if_pos c] at hb'
    have := hw p hp' c (Option.some.inj hb')
    refine h p hp' ?_
    rw [bitAt, c, ew, Option.map_some, this]
  · rw [if_neg c] at hb'
    exact h p hp' hb'

theorem clean_put1 {s s' : Bm} (h : Clean s) {i : Nat} (hi : i < s.sz) {f : W → W}
    (hf : ∀ (w : W) (j : Nat), j < 64 → j ≠ i % 64 → (f w).getLsbD j = w.getLsbD j)
    (e : (s.arr[i / 64]?).bind (fun w => (wr s.arr (i / 64) (f w)).map (fun a => (⟨a, s.sz⟩ : Bm))) = some s') : Clean s' := by
  obtain ⟨w, ew, e⟩ := Option.bind_eq_some_iff.mp e
  obtain ⟨a, ea, rfl⟩ := Option.map_eq_some_iff.mp e
  refine clean_wr h ew ea ?_
  intro p hp hq hb
  rwa [hf w _ (Nat.mod_lt _ (by omega)) (by omega)] at hb

theorem clean_put {s s' : Bm} (h : Clean s) {i : Nat} (hi : i < s.sz) {b : Bool} (e : s.put i b = some s') : Clean s' :=
  clean_put1 h hi (f := fun w => if b then w ||| (1#64 <<< (i % 64)) else w &&& ~~~(1#64 <<< (i % 64)))
    (fun w j hj hne => by rw [setw hj, if_neg hne]) e

theorem clean_orAt {s s' : Bm} (h : Clean s) {i : Nat} (hi : i < s.sz) {b : Bool} (e : s.orAt i b = some s') : Clean s' :=
  clean_put1 h hi (f := fun w => if b then w ||| (1#64 <<< (i % 64)) else w)
    (fun w j hj hne => by
      cases b
      · rfl
      · have := setw (w := w) (b := true) (i := i % 64) hj
        rw [if_pos rfl, if_neg hne] at this
        exact this) e

theorem clean_andAt {s s' : Bm} (h : Clean s) {i : Nat} (hi : i < s.sz) {b : Bool} (e : s.andAt i b = some s') : Clean s' :=
  clean_put1 h hi (f := fun w => if b then w else w &&& ~~~(1#64 <<< (i % 64)))
    (fun w j hj hne => by
      cases b
      · have := setw (w := w) (b := false) (i := i % 64) hj
        rw [if_neg (by simp), if_neg hne] at this
        exact this
      · rfl) e

theorem bitAt_ge {a : List W} {p : Nat} (h : a.length ≤ p / 64) : bitAt a p = none := by
  rw [bitAt, List.getElem?_eq_none h]; rfl

theorem clean_push {s s' : Bm} (h : Clean s) (hlen : s.arr.length = req s.sz) {b : Bool} (e : s.pushBack b = some s') : Clean s' := by
  unfold Bm.pushBack at e
  by_cases hr : s.sz % 64 = 0
  · rw [if_pos hr] at e
    cases e
    intro p hp hb
    have hp' : s.sz + 1 ≤ p := hp
    have hb' : bitAt (s.arr ++ [if b then 1#64 else 0#64]) p = some true := hb
    have hl : s.arr.length = s.sz / 64 := by rw [hlen, req]; omega
    by_cases c : p / 64 = s.arr.length
    · rw [bitAt, c, List.getElem?_append_right (Nat.le_refl _), Nat.sub_self] at hb'
      have hz : (if b then 1#64 else 0#64 : W).getLsbD (p % 64) = true := Option.some.inj hb'
      have hne : p % 64 ≠ 0 := by omega
      cases b
      · rw [if_neg (by simp), BitVec.getLsbD_zero] at hz; cases hz
      · rw [if_pos rfl, BitVec.getLsbD_one] at hz; simp [hne] at hz
    · rw [bitAt_ge (by rw [List.length_append, List.length_singleton]; omega)] at hb'
      cases hb'
  · rw [if_neg hr] at e
    obtain ⟨w, ew, e⟩ := Option.bind_eq_some_iff.mp e
    obtain ⟨a, ea, rfl⟩ := Option.map_eq_some_iff.mp e
    have hl : s.arr.length - 1 = s.sz / 64 := by rw [hlen, req]; omega
    have h1 : Clean ⟨s.arr, s.sz + 1⟩ := fun p hp => h p (by have : s.sz + 1 ≤ p := hp; omega)
    refine clean_wr h1 ew ea ?_
    intro p hp hq hb
    have hp' : s.sz + 1 ≤ p := hp
    rwa [setw (Nat.mod_lt _ (by omega)), if_neg (by omega)] at hb

theorem clean_pop {s s' : Bm} {l : List Bool} (h : Clean s) (hr : Rel s l) (hlast : l.getLast? = some false) (e : s.popBack = some s') : Clean s' := by
  unfold Bm.popBack at e
  split at e
  · cases e
  · cases e
    intro p hp hb
    have hp' : s.sz - 1 ≤ p := hp
    by_cases c : p = s.sz - 1
    · have := hr.bits p (by omega)
      rw [List.getLast?_eq_getElem?, hr.size] at hlast
      rw [c, hlast] at this
      have hb' : bitAt s.arr p = some true := hb
      rw [c, this] at hb'
      cases hb'
    · exact h p (by omega) hb

theorem clean_mk (n : Nat) (b : Bool) (hb : b = false ∨ n % 64 = 0) : Clean (Bm.mk' n b) := by
  intro p hp he
  have hp' : n ≤ p := hp
  have he' : bitAt (List.replicate (req n) (fill b)) p = some true := he
  rcases hb with rfl | hb
  · by_cases c : p / 64 < req n
    · rw [bitAt_replicate false c] at he'; cases he'
    · rw [bitAt_ge (by simp; omega)] at he'; cases he'
  · rw [bitAt_ge (by rw [List.length_replicate, req]; omega)] at he'; cases he'

theorem clean_grow {s s' : Bm} {l : List Bool} (h : Clean s) (hr : Rel s l) {n : Nat} (hn : l.length ≤ n) {b : Bool} (hb : b = false ∨ n % 64 = 0)
    (e : s.resize n b = some s') : Clean s' := by
  have hsz := hr.size
  obtain ⟨s1, e1, r1⟩ := grow_ok hr hn b
  rw [e] at e1
  cases e1
  have hsn : s'.sz = n := by rw [← r1.size]; simp; omega
  intro p hp he
  rcases hb with rfl | hb
  · unfold Bm.resize at e
    rw [if_neg (by omega)] at e
    obtain ⟨a, ea, rfl⟩ := Option.map_eq_some_iff.mp e
    have hp' : n ≤ p := hp
    have he' : bitAt a p = some true := he
    have base : ∀ p, s.sz ≤ p → bitAt (vresize s.arr (req n) (fill false)) p ≠ some true := by
      intro p hp
      unfold vresize
      split
      · intro hb
        unfold bitAt at hb
        rw [List.getElem?_take] at hb
        split at hb
        · exact h p hp hb
        · cases hb
      · intro hb
        by_cases c : p / 64 < s.arr.length
        · rw [bitAt_append c] at hb; exact h p hp hb
        · rw [bitAt, List.getElem?_append_right (by omega), List.getElem?_replicate] at hb
          split at hb
          · rw [Option.map_some, fill_bit false (Nat.mod_lt _ (by omega))] at hb; cases hb
          · cases hb
    unfold fixWord at ea
    split at ea
    · cases ea
      exact base p (by omega) he'
    · obtain ⟨w, ew, ea⟩ := Option.bind_eq_some_iff.mp ea
      have hc : Clean ⟨vresize s.arr (req n) (fill false), s.sz⟩ := fun p hp => base p hp
      have := clean_wr (s := ⟨vresize s.arr (req n) (fill false), s.sz⟩) hc ew ea (by
        intro p _ _ hb
        rw [if_neg (by simp), BitVec.getLsbD_and, Bool.and_eq_true] at hb
        exact hb.1)
      exact this p (by show s.sz ≤ p; omega) he'
  · rw [hsn] at hp
    rw [bitAt_ge (by rw [r1.len, hsn, req]; omega)] at he
    cases he

theorem clean_rangeSet {s s' : Bm} {l : List Bool} (h : Clean s) (hr : Rel s l) {b e : Nat} {x : W} (he : e ≤ l.length) (hw : e - b ≤ 64)
    (hx : x.toNat < 2 ^ (e - b)) (er : s.rangeSet b e x = some s') : Clean s' := by
  have hsz := hr.size
  unfold Bm.rangeSet at er
  split at er
  · cases er; exact h
  next hbe =>
  split at er
  swap
  · cases er
  have hxb : ∀ j, e - b ≤ j → x.getLsbD j = false := by
    intro j hj
    exact Nat.testBit_lt_two_pow (Nat.lt_of_lt_of_le hx (Nat.pow_le_pow_right (by omega) hj))
  obtain ⟨w, ew, er⟩ := Option.bind_eq_some_iff.mp er
  obtain ⟨a, ea, er⟩ := Option.bind_eq_some_iff.mp er
  have h1 : Clean ⟨a, s.sz⟩ := by
    refine clean_wr h ew ea ?_
    intro p hp hq hb
    rw [BitVec.getLsbD_or, BitVec.getLsbD_and, BitVec.getLsbD_shiftLeft, hxb (p % 64 - b % 64) (by omega)] at hb
    simp only [Bool.and_false, Bool.or_false, Bool.and_eq_true] at hb
    exact hb.1
  split at er
  · obtain ⟨v, ev, er⟩ := Option.bind_eq_some_iff.mp er
    obtain ⟨a2, ea2, rfl⟩ := Option.map_eq_some_iff.mp er
    refine clean_wr h1 ev ea2 ?_
    intro p hp hq hb
    have hp' : s.sz ≤ p := hp
    rw [BitVec.getLsbD_or, BitVec.getLsbD_and, BitVec.getLsbD_ushiftRight, hxb (64 - b % 64 + p % 64) (by omega)] at hb
    simp only [Bool.or_false, Bool.and_eq_true] at hb
    exact hb.1
  · cases er; exact h1

theorem step_clean {s : Bm} {l : List Bool} (h : Rel s l) (hc : Clean s) (o : Op) (he : Enabled l o) (hs : Safe l o) (ht : Tidy l o) {r : Bm × Out}
    (e : step s o = some r) : Clean r.1 := by
  have hsz := h.size
  cases o with
  | push b => obtain ⟨s', e1, rfl⟩ := Option.map_eq_some_iff.mp e; exact clean_push hc h.len e1
  | pop => obtain ⟨s', e1, rfl⟩ := Option.map_eq_some_iff.mp e; exact clean_pop hc h ht e1
  | resize n b => obtain ⟨s', e1, rfl⟩ := Option.map_eq_some_iff.mp e; exact clean_grow hc h hs ht e1
  | assign n b => cases e; exact clean_mk n b ht
  | get i => obtain ⟨s', e1, rfl⟩ := Option.map_eq_some_iff.mp e; exact hc
  | put i b => obtain ⟨s', e1, rfl⟩ := Option.map_eq_some_iff.mp e; exact clean_put hc (by rw [← hsz]; exact he) e1
  | orAt i b => obtain ⟨s', e1, rfl⟩ := Option.map_eq_some_iff.mp e; exact clean_orAt hc (by rw [← hsz]; exact he) e1
  | andAt i b => obtain ⟨s', e1, rfl⟩ := Option.map_eq_some_iff.mp e; exact clean_andAt hc (by rw [← hsz]; exact he) e1
  | set i b =>
      obtain ⟨s', e1, rfl⟩ := Option.map_eq_some_iff.mp e
      unfold Bm.set at e1
      obtain ⟨s1, e2, e3⟩ := Option.bind_eq_some_iff.mp e1
      split at e2
      next hge =>
        have c1 := clean_grow hc h (n := i + 1) (by omega) (Or.inl rfl) e2
        obtain ⟨s2, e4, r4⟩ := grow_ok h (n := i + 1) (by omega) false
        rw [e2] at e4
        cases e4
        exact clean_put c1 (by rw [← r4.size]; simp; omega) e3
      next hge =>
        cases e2
        exact clean_put hc (by omega) e3
  | rangeSet b e' x => obtain ⟨s', e1, rfl⟩ := Option.map_eq_some_iff.mp e; exact clean_rangeSet hc h he.1 he.2.1 he.2.2 e1
  | rangeGet b e' => obtain ⟨s', e1, rfl⟩ := Option.map_eq_some_iff.mp e; exact hc
  | size => cases e; exact hc

theorem run_clean : ∀ (os : List Op) {s s' : Bm} {outs : List Out} {l : List Bool}, Rel s l → Clean s → AllEnabled l os → AllSafe l os → AllTidy l os →
    run s os = some (s', outs) → Clean s'
  | [], s, s', outs, l, _, hc, _, _, _, e => by cases e; exact hc
  | o :: os, s, s', outs, l, h, hc, he, hs, ht, e => by
      obtain ⟨s1, e1, r1⟩ := step_ok h o he.1 hs.1
      have c1 := step_clean h hc o he.1 hs.1 ht.1 e1
      rw [run, e1, Option.bind_some] at e
      obtain ⟨q, eq, hq⟩ := Option.map_eq_some_iff.mp e
      have h1 : q.1 = s' := congrArg Prod.fst hq
      have : run s1 os = some (s', q.2) := by rw [← h1]; exact eq
      exact run_clean os r1 c1 he.2 hs.2 ht.2 this

theorem ofList_clean : ∀ (l : List Bool) {s s' : Bm} {l0 : List Bool}, Rel s l0 → Clean s → s.ofList l = some s' → Clean s'
  | [], s, s', l0, _, hc, e => by cases e; exact hc
  | b :: l, s, s', l0, h, hc, e => by
      obtain ⟨s1, e1, r1⟩ := push_ok h b
      rw [Bm.ofList, e1, Option.bind_some] at e
      exact ofList_clean l r1 (clean_push hc h.len e1) e

/-! ### From bitmaps to sources -/

/-- `Bitmap` as seen by `BV`: `size()`, `word_size()` and `get_word`. -/
def Bm.src (s : Bm) : Src := ⟨s.sz, s.arr.map (fun w => w.toNat)⟩

theorem sbit_bm (s : Bm) (p : Nat) : sbit 64 s.src p = (bitAt s.arr p).getD false := by
  unfold sbit Bm.src bitAt
  rw [List.getD_eq_getElem?_getD, List.getElem?_map]
  cases s.arr[p / 64]? with
  | none => exact Nat.zero_testBit _
  | some w => rfl

theorem src_ok {s : Bm} {l : List Bool} (h : Rel s l) (hc : Clean s) : SrcOk 64 s.src := by
  refine ⟨by omega, by omega, ?_, ?_, ?_⟩
  · show (s.arr.map _).length = _
    rw [List.length_map, h.len]; rfl
  · intro w hw
    obtain ⟨v, _, rfl⟩ := List.mem_map.mp hw
    exact v.isLt
  · intro p hp
    have hp' : s.sz ≤ p := hp
    rw [sbit_bm]
    cases e : bitAt s.arr p with
    | none => rfl
    | some b =>
      cases b
      · rfl
      · exact absurd e (hc p hp')

theorem cnt_list {f : Nat → Bool} {l : List Bool} (h : ∀ p, p < l.length → l[p]? = some (f p)) (b : Bool) : ∀ i, i ≤ l.length → cnt f b i = lrank l b i
  | 0, _ => by simp [cnt, lrank]
  | i+1, hi => by
      have ih := cnt_list h b i (by omega)
      have e := h i (by omega)
      unfold lrank at *
      rw [cnt, ih, List.take_succ, e, Option.toList_some, List.count_append]
      congr 1
      by_cases c : f i = b
      · rw [if_pos c, c]; simp
      · rw [if_neg c]; simp [c]

/-- What C41 says of a source holding the sequence `l`. -/
def RankSelect (S : Nat) (src : Src) (l : List Bool) : Prop :=
  ∃ bv, build S src = some bv ∧
    (∀ i, i ≤ l.length → rank1 S src bv i = some (lrank l true i) ∧ rank0 S src bv i = some (lrank l false i)) ∧
    (∀ i, l.length ≤ i → rank1 S src bv i = some (l.count true)) ∧
    ∀ (b : Bool) (k : Nat), ∃ p, selectB S src bv b k = some p ∧ IsSelect l b k p

theorem rankSelect_of {S : Nat} {src : Src} (h : SrcOk S src) {l : List Bool} (hlen : l.length = src.n) (hbits : ∀ p, p < l.length → l[p]? = some (sbit S src p)) :
    RankSelect S src l := by
  obtain ⟨bv, eb, hb⟩ := build_ok h
  have hc := fun b i hi => cnt_list hbits b i hi
  have hall : ∀ b, lrank l b l.length = l.count b := fun b => by unfold lrank; rw [List.take_length]
  refine ⟨bv, eb, ?_, ?_, ?_⟩
  · intro i hi
    rw [rank1_ok h hb, rank0_ok h hb (by omega), Nat.min_eq_left (by omega), hc true i hi, hc false i hi]
    exact ⟨rfl, rfl⟩
  · intro i hi
    rw [rank1_ok h hb, Nat.min_eq_right (by omega), ← hlen, hc true _ (Nat.le_refl _), hall]
  · intro b k
    obtain ⟨h1, h2⟩ := select_ok h hb b k
    rw [← hlen, hc b _ (Nat.le_refl _), hall] at h1 h2
    by_cases c : k < l.count b
    · obtain ⟨p, ep, hp, hbp, hcp⟩ := h1 c
      refine ⟨p, ep, fun _ => ⟨by omega, by rw [hbits p (by omega), hbp], by rw [← hc b p (by omega), hcp]⟩, fun hge => by omega⟩
    · exact ⟨_, h2 (by omega), fun hlt => by omega, fun _ => rfl⟩

/-- C41 for `BV` over any source: for every word size up to 64 and every list of words holding the sequence `l` (word `q` holds bits `S q ... S q + S - 1`, with
zeros beyond the end), `rank1`, `rank0` and both `select`s give the right numbers. -/
theorem C41_bv (S : Nat) (h1 : 1 ≤ S) (h64 : S ≤ 64) (l : List Bool) (ws : List Nat) (hlen : ws.length = (l.length + (S - 1)) / S) (hlt : ∀ w ∈ ws, w < 2^S)
    (hbits : ∀ p, p / S < ws.length → (ws.getD (p / S) 0).testBit (p % S) = l.getD p false) : RankSelect S ⟨l.length, ws⟩ l := by
  have hb : ∀ p, sbit S ⟨l.length, ws⟩ p = l.getD p false := by
    intro p
    by_cases c : p / S < ws.length
    · exact hbits p c
    · unfold sbit
      have hp : l.length ≤ p := by
        rw [hlen] at c
        by_contra hc
        have := Nat.lt_mul_div_succ (l.length + (S - 1)) (show 0 < S by omega)
        rw [Nat.mul_add] at this
        have h2 : S * ((l.length + (S - 1)) / S) ≤ S * (p / S) := Nat.mul_le_mul_left _ (by omega)
        have h3 := Nat.div_add_mod p S
        omega
      rw [List.getD_eq_getElem?_getD, List.getElem?_eq_none (by show ws.length ≤ _; omega), List.getD_eq_getElem?_getD, List.getElem?_eq_none hp]
      exact Nat.zero_testBit _
  refine rankSelect_of ⟨h1, h64, hlen, hlt, ?_⟩ rfl ?_
  · intro p hp
    have hp' : l.length ≤ p := hp
    rw [hb, List.getD_eq_getElem?_getD, List.getElem?_eq_none hp']; rfl
  · intro p hp
    rw [hb, List.getD_eq_getElem?_getD, List.getElem?_eq_getElem hp]; rfl

example : ([5, 1] : List Nat).length = ([true, false, true, true].length + (3 - 1)) / 3 ∧ (∀ w ∈ ([5, 1] : List Nat), w < 2^3) ∧
    ∀ p, p < 6 → (([5, 1] : List Nat).getD (p / 3) 0).testBit (p % 3) = [true, false, true, true].getD p false := by decide

/-- C41 (partial: histories that leave no ones beyond the end).  For a `BitVector` made by either constructor and any permitted history of modifications, `build()`
succeeds and afterwards `rank1`, `rank0`, `select1`, `select0` agree with the sequence of booleans.  The full statement fails when ones are left beyond the end
(`C41_violated`), e.g. by `BitVector(size, true)`. -/
theorem C41_bitvector_partial (n : Nat) (b : Bool) (l : List Bool) (os : List Op) :
    ((b = false ∨ n % 64 = 0) → AllEnabled (List.replicate n b) os → AllSafe (List.replicate n b) os → AllTidy (List.replicate n b) os →
      ∃ s outs, run (Bm.mk' n b) os = some (s, outs) ∧ RankSelect 64 s.src (srun (List.replicate n b) os).1) ∧
    (AllEnabled l os → AllSafe l os → AllTidy l os →
      ∃ s0 s outs, Bm.ofList (Bm.mk' 0 false) l = some s0 ∧ run s0 os = some (s, outs) ∧ RankSelect 64 s.src (srun l os).1) := by
  have fin : ∀ {s : Bm} {l' : List Bool}, Rel s l' → Clean s → RankSelect 64 s.src l' := by
    intro s l' r c
    refine rankSelect_of (src_ok r c) r.size ?_
    intro p hp
    rw [sbit_bm, r.bits p (by rw [← r.size]; exact hp), List.getElem?_eq_getElem hp]; rfl
  constructor
  · intro hb he hs ht
    obtain ⟨s, e, r⟩ := run_ok os (mk_ok n b) he hs
    exact ⟨s, _, e, fin r (run_clean os (mk_ok n b) (clean_mk n b hb) he hs ht e)⟩
  · intro he hs ht
    obtain ⟨s0, e0, r0⟩ := ofList_ok l (mk_ok 0 false)
    rw [List.replicate_zero, List.nil_append] at r0
    have c0 := ofList_clean l (mk_ok 0 false) (clean_mk 0 false (Or.inl rfl)) e0
    obtain ⟨s, e, r⟩ := run_ok os r0 he hs
    exact ⟨s0, s, _, e0, e, fin r (run_clean os r0 c0 he hs ht e)⟩

/-- A history meeting the hypotheses. -/
def tidyOps : List Op := [.resize 128 true, .push true, .push false, .pop, .set 200 true, .rangeSet 60 70 0x155#64, .andAt 0 false]

example : AllEnabled (List.replicate 3 false) tidyOps ∧ AllSafe (List.replicate 3 false) tidyOps ∧ AllTidy (List.replicate 3 false) tidyOps := by
  simp only [tidyOps, AllEnabled, AllSafe, AllTidy, Enabled, Safe, Tidy, spec]
  decide +kernel

/-- C41 is violated: on `BitVector(10, true)`, after `build()`, `rank1(10)` is 64 and `select1(12)` is 12, not `size()` = 10. -/
theorem C41_violated : (build 64 (Bm.mk' 10 true).src).map (fun bv => (rank1 64 (Bm.mk' 10 true).src bv 10, selectB 64 (Bm.mk' 10 true).src bv true 12)) =
    some (some 64, some 12) ∧ lrank (List.replicate 10 true) true 10 = 10 ∧ ¬ IsSelect (List.replicate 10 true) true 12 12 := by
  refine ⟨by decide +kernel, by decide +kernel, fun h => ?_⟩
  have := h.2 (by decide)
  revert this; decide

end Verif.Succinct
