import Verif.Succinct.BitmapModel
/-!
C42: `Bitmap` behaves as a vector of booleans.
-/
namespace Verif.Succinct

/-! ### Specification: operations on a list of booleans -/

inductive Op
  | push (b : Bool) | pop | resize (n : Nat) (b : Bool) | assign (n : Nat) (b : Bool) | get (i : Nat) | put (i : Nat) (b : Bool)
  | orAt (i : Nat) (b : Bool) | andAt (i : Nat) (b : Bool) | set (i : Nat) (b : Bool) | rangeSet (b e : Nat) (x : W) | rangeGet (b e : Nat) | size

/-- What a call gives back. -/
inductive Out
  | unit | bool (b : Bool) | num (n : Nat)
deriving DecidableEq

/-- The number whose binary digits, lowest first, are `l`. -/
def toNum : List Bool → Nat
  | [] => 0
  | b :: l => b.toNat + 2 * toNum l

/-- Preconditions of the calls. -/
def Enabled (l : List Bool) : Op → Prop
  | .pop => l ≠ []
  | .get i | .put i _ | .orAt i _ | .andAt i _ => i < l.length
  | .rangeSet b e x => e ≤ l.length ∧ e - b ≤ 64 ∧ x.toNat < 2 ^ (e - b)
  | .rangeGet b e => e ≤ l.length ∧ e - b ≤ 64
  | _ => True

/-- The effect of each call on the sequence. -/
def spec (l : List Bool) : Op → List Bool × Out
  | .push b => (l ++ [b], .unit)
  | .pop => (l.dropLast, .unit)
  | .resize n b => (l.take n ++ List.replicate (n - l.length) b, .unit)
  | .assign n b => (List.replicate n b, .unit)
  | .get i => (l, .bool (l.getD i false))
  | .put i b => (l.set i b, .unit)
  | .orAt i b => (l.set i (l.getD i false || b), .unit)
  | .andAt i b => (l.set i (l.getD i false && b), .unit)
  | .set i b => ((l ++ List.replicate (i + 1 - l.length) false).set i b, .unit)
  | .rangeSet b e x => ((List.range l.length).map (fun i => if b ≤ i ∧ i < e then x.getLsbD (i - b) else l.getD i false), .unit)
  | .rangeGet b e => (l, .num (toNum ((l.take e).drop b)))
  | .size => (l, .num l.length)

/-- The same call on the model. -/
def step (s : Bm) : Op → Option (Bm × Out)
  | .push b => (s.pushBack b).map (fun s => (s, .unit))
  | .pop => s.popBack.map (fun s => (s, .unit))
  | .resize n b => (s.resize n b).map (fun s => (s, .unit))
  | .assign n b => some (s.assign n b, .unit)
  | .get i => (s.get i).map (fun b => (s, .bool b))
  | .put i b => (s.put i b).map (fun s => (s, .unit))
  | .orAt i b => (s.orAt i b).map (fun s => (s, .unit))
  | .andAt i b => (s.andAt i b).map (fun s => (s, .unit))
  | .set i b => (s.set i b).map (fun s => (s, .unit))
  | .rangeSet b e x => (s.rangeSet b e x).map (fun s => (s, .unit))
  | .rangeGet b e => (s.rangeGet b e).map (fun x => (s, .num x.toNat))
  | .size => some (s, .num s.sz)

def run : Bm → List Op → Option (Bm × List Out)
  | s, [] => some (s, [])
  | s, o :: os => (step s o).bind (fun r => (run r.1 os).map (fun q => (q.1, r.2 :: q.2)))

def srun : List Bool → List Op → List Bool × List Out
  | l, [] => (l, [])
  | l, o :: os => ((srun (spec l o).1 os).1, (spec l o).2 :: (srun (spec l o).1 os).2)

/-- Every call of the history meets its precondition. -/
def AllEnabled : List Bool → List Op → Prop
  | _, [] => True
  | l, o :: os => Enabled l o ∧ AllEnabled (spec l o).1 os

/-- The calls on which the code is right: no shrinking past a word boundary. -/
def Safe (l : List Bool) : Op → Prop
  | .pop => (l.length - 1) % 64 ≠ 0
  | .resize n _ => l.length ≤ n
  | _ => True

def AllSafe : List Bool → List Op → Prop
  | _, [] => True
  | l, o :: os => Safe l o ∧ AllSafe (spec l o).1 os

/-! ### Bits of words -/

/-- Bit `p` of the word array. -/
def bitAt (a : List W) (p : Nat) : Option Bool := (a[p / 64]?).map (fun w => w.getLsbD (p % 64))

structure Rel (s : Bm) (l : List Bool) : Prop where
  len : s.arr.length = req s.sz
  size : l.length = s.sz
  bits : ∀ p, p < s.sz → bitAt s.arr p = l[p]?

theorem test_ne (w : W) {i : Nat} (hi : i < 64) : ((w &&& (1#64 <<< i)) != 0#64) = w.getLsbD i := by
  rcases hb : w.getLsbD i with _ | _
  · rw [bne_eq_false_iff_eq]
    apply BitVec.eq_of_getLsbD_eq
    intro j hj
    rw [BitVec.getLsbD_and, BitVec.getLsbD_shiftLeft, BitVec.getLsbD_one, BitVec.getLsbD_zero]
    rcases Nat.lt_trichotomy j i with h | h | h
    · simp [h]
    · subst h; simp [hb]
    · have : ¬ (j - i = 0) := by omega
      simp [this]
  · rw [bne_iff_ne]
    intro h
    have := congrArg (fun v : W => v.getLsbD i) h
    simp only [BitVec.getLsbD_and, BitVec.getLsbD_shiftLeft, hi, hb, BitVec.getLsbD_one, BitVec.getLsbD_zero] at this
    simp at this

theorem one_shl {i j : Nat} (hj : j < 64) : ((1#64 : W) <<< i).getLsbD j = decide (j = i) := by
  rw [BitVec.getLsbD_shiftLeft, BitVec.getLsbD_one]
  rcases Nat.lt_trichotomy j i with h | h | h
  · have : j ≠ i := by omega
    simp [h, this]
  · subst h; simp [hj]
  · have h1 : ¬ (j - i = 0) := by omega
    have : j ≠ i := by omega
    simp [h1, this]

theorem setw {w : W} {b : Bool} {i j : Nat} (hj : j < 64) :
    (if b then w ||| (1#64 <<< i) else w &&& ~~~(1#64 <<< i)).getLsbD j = if j = i then b else w.getLsbD j := by
  cases b
  · rw [if_neg (by simp), BitVec.getLsbD_and, BitVec.getLsbD_not, one_shl hj]
    by_cases h : j = i <;> simp [h, hj]
  · rw [if_pos rfl, BitVec.getLsbD_or, one_shl hj]
    by_cases h : j = i <;> simp [h]

theorem mask_bit {i j : Nat} (hi : i < 64) : ((1#64 <<< i) - 1#64 : W).getLsbD j = decide (j < i) := by
  have h2 : (2 : Nat) ^ i < 2 ^ 64 := Nat.pow_lt_pow_right (by omega) hi
  have hp : 0 < (2 : Nat) ^ i := Nat.two_pow_pos i
  have : ((1#64 <<< i) - 1#64 : W).toNat = 2 ^ i - 1 := by
    rw [BitVec.toNat_sub, BitVec.toNat_shiftLeft]
    simp only [BitVec.toNat_ofNat, Nat.shiftLeft_eq]
    rw [Nat.mod_eq_of_lt (show 1 < 2^64 by decide), Nat.one_mul, Nat.mod_eq_of_lt h2]
    omega
  rw [BitVec.getLsbD, this, Nat.testBit_two_pow_sub_one]

theorem rmask_bit (w j : Nat) (hj : j < 64) : (rmask w).getLsbD j = decide (j < w) := by
  unfold rmask
  by_cases h : w < 64
  · rw [if_pos h, mask_bit h]
  · rw [if_neg h, BitVec.getLsbD_allOnes]
    have : j < w := by omega
    simp [this, hj]

theorem fill_bit (b : Bool) {j : Nat} (hj : j < 64) : (fill b).getLsbD j = b := by
  cases b
  · exact BitVec.getLsbD_zero
  · show (BitVec.allOnes 64).getLsbD j = true
    rw [BitVec.getLsbD_allOnes, decide_eq_true hj]

theorem bitAt_wr {a a' : List W} {q : Nat} {w : W} (h : wr a q w = some a') (p : Nat) :
    bitAt a' p = if p / 64 = q then some (w.getLsbD (p % 64)) else bitAt a p := by
  unfold wr at h
  split at h
  next hq =>
    cases h
    unfold bitAt
    by_cases hp : p / 64 = q
    · rw [if_pos hp, hp, List.getElem?_set_self hq]; rfl
    · rw [if_neg hp, List.getElem?_set_ne (Ne.symm hp)]
  next => cases h

theorem wr_some {α : Type} {a : List α} {q : Nat} (h : q < a.length) (w : α) : wr a q w = some (a.set q w) := by
  unfold wr; rw [if_pos h]

theorem wr_len {α : Type} {a a' : List α} {q : Nat} {w : α} (h : wr a q w = some a') : a'.length = a.length := by
  unfold wr at h
  split at h
  · cases h; simp
  · cases h

theorem Rel.qlt {s : Bm} {l : List Bool} (h : Rel s l) {i : Nat} (hi : i < s.sz) : i / 64 < s.arr.length := by
  rw [h.len, req]; omega

/-- Writing one word is writing the sequence where it differs. -/
theorem Rel.write {s : Bm} {l l' : List Bool} (h : Rel s l) {q : Nat} (hq : q < s.arr.length) {w : W} (hl : l'.length = l.length)
    (hn : ∀ p, p < s.sz → p / 64 ≠ q → l'[p]? = l[p]?) (hw : ∀ p, p < s.sz → p / 64 = q → l'[p]? = some (w.getLsbD (p % 64))) :
    ∃ a', wr s.arr q w = some a' ∧ Rel ⟨a', s.sz⟩ l' := by
  refine ⟨_, wr_some hq w, ⟨?_, ?_, ?_⟩⟩
  · simp [h.len]
  · simp [hl, h.size]
  · intro p hp
    have hp' : p < s.sz := hp
    show bitAt (s.arr.set q w) p = _
    rw [bitAt_wr (wr_some hq w) p]
    by_cases hpq : p / 64 = q
    · rw [if_pos hpq, hw p hp' hpq]
    · rw [if_neg hpq, h.bits p hp', hn p hp' hpq]

/-- The word read at `i` carries the sequence. -/
theorem Rel.read {s : Bm} {l : List Bool} (h : Rel s l) {i : Nat} (hi : i < s.sz) :
    ∃ w : W, s.arr[i / 64]? = some w ∧ ∀ p, p < s.sz → p / 64 = i / 64 → l[p]? = some (w.getLsbD (p % 64)) := by
  refine ⟨_, List.getElem?_eq_getElem (h.qlt hi), ?_⟩
  intro p hp hpq
  rw [← h.bits p hp, bitAt, hpq, List.getElem?_eq_getElem (h.qlt hi)]
  rfl

theorem Rel.getD {s : Bm} {l : List Bool} (h : Rel s l) {i : Nat} (hi : i < s.sz) : l[i]? = some (l.getD i false) := by
  rw [List.getD_eq_getElem?_getD, List.getElem?_eq_getElem (by rw [h.size]; exact hi)]; rfl

/-- Writing a single bit. -/
theorem Rel.put1 {s : Bm} {l : List Bool} (h : Rel s l) {i : Nat} (hi : i < s.sz) (b : Bool) {f : W → W}
    (hf : ∀ w : W, w.getLsbD (i % 64) = l.getD i false → ∀ j, j < 64 → (f w).getLsbD j = if j = i % 64 then b else w.getLsbD j) :
    ∃ s', (s.arr[i / 64]?).bind (fun w => (wr s.arr (i / 64) (f w)).map (fun a => (⟨a, s.sz⟩ : Bm))) = some s' ∧ Rel s' (l.set i b) := by
  obtain ⟨w, ew, hw⟩ := h.read hi
  have hb : w.getLsbD (i % 64) = l.getD i false := by
    have := hw i hi rfl
    rw [h.getD hi] at this
    exact (Option.some.inj this).symm
  obtain ⟨a', ea, ra⟩ := h.write (l' := l.set i b) (h.qlt hi) (w := f w) (by simp)
    (by
      intro p _ hp
      rw [List.getElem?_set_ne (by rintro rfl; exact hp rfl)])
    (by
      intro p hp hpq
      rw [hf w hb _ (Nat.mod_lt _ (by omega))]
      by_cases hpi : p = i
      · subst hpi; rw [if_pos rfl, List.getElem?_set_self (by rw [h.size]; exact hp)]
      · rw [if_neg (by omega), List.getElem?_set_ne (Ne.symm hpi), hw p hp hpq])
  refine ⟨_, ?_, ra⟩
  rw [ew, Option.bind_some, ea]; rfl

theorem put_ok {s : Bm} {l : List Bool} (h : Rel s l) {i : Nat} (hi : i < s.sz) (b : Bool) :
    ∃ s', s.put i b = some s' ∧ Rel s' (l.set i b) :=
  h.put1 hi b (f := fun w => if b then w ||| (1#64 <<< (i % 64)) else w &&& ~~~(1#64 <<< (i % 64))) (fun _ _ _ hj => setw hj)

theorem orAt_ok {s : Bm} {l : List Bool} (h : Rel s l) {i : Nat} (hi : i < s.sz) (b : Bool) :
    ∃ s', s.orAt i b = some s' ∧ Rel s' (l.set i (l.getD i false || b)) :=
  h.put1 hi _ (f := fun w => if b then w ||| (1#64 <<< (i % 64)) else w) (by
    intro w hb j hj
    cases b
    · rw [if_neg (by simp), Bool.or_false]
      by_cases e : j = i % 64
      · rw [if_pos e, e, hb]
      · rw [if_neg e]
    · rw [if_pos rfl, Bool.or_true]
      have := setw (w := w) (b := true) (i := i % 64) hj
      rw [if_pos rfl] at this
      exact this)

theorem andAt_ok {s : Bm} {l : List Bool} (h : Rel s l) {i : Nat} (hi : i < s.sz) (b : Bool) :
    ∃ s', s.andAt i b = some s' ∧ Rel s' (l.set i (l.getD i false && b)) :=
  h.put1 hi _ (f := fun w => if b then w else w &&& ~~~(1#64 <<< (i % 64))) (by
    intro w hb j hj
    cases b
    · rw [if_neg (by simp), Bool.and_false]
      have := setw (w := w) (b := false) (i := i % 64) hj
      rw [if_neg (by simp)] at this
      exact this
    · rw [if_pos rfl, Bool.and_true]
      by_cases e : j = i % 64
      · rw [if_pos e, e, hb]
      · rw [if_neg e])

theorem get_ok {s : Bm} {l : List Bool} (h : Rel s l) {i : Nat} (hi : i < s.sz) : s.get i = some (l.getD i false) := by
  obtain ⟨w, ew, hw⟩ := h.read hi
  have := hw i hi rfl
  rw [h.getD hi] at this
  rw [Bm.get, ew, Option.map_some, test_ne w (Nat.mod_lt _ (by omega)), this]

theorem bitAt_lt {a : List W} {p : Nat} {b : Bool} (h : bitAt a p = some b) : p / 64 < a.length := by
  unfold bitAt at h
  cases e : a[p / 64]? with
  | none => rw [e] at h; cases h
  | some w => exact (List.getElem?_eq_some_iff.mp e).1

theorem bitAt_append {a a' : List W} {p : Nat} (h : p / 64 < a.length) : bitAt (a ++ a') p = bitAt a p := by
  unfold bitAt; rw [List.getElem?_append_left h]

theorem bitAt_replicate {k : Nat} (b : Bool) {p : Nat} (h : p / 64 < k) : bitAt (List.replicate k (fill b)) p = some b := by
  unfold bitAt; rw [List.getElem?_replicate, if_pos h, Option.map_some, fill_bit b (Nat.mod_lt _ (by omega))]

theorem push_ok {s : Bm} {l : List Bool} (h : Rel s l) (b : Bool) : ∃ s', s.pushBack b = some s' ∧ Rel s' (l ++ [b]) := by
  have hsz := h.size
  unfold Bm.pushBack
  by_cases hr : s.sz % 64 = 0
  · rw [if_pos hr]
    refine ⟨_, rfl, ⟨?_, ?_, ?_⟩⟩
    · show (s.arr ++ [_]).length = req (s.sz + 1)
      rw [List.length_append, h.len]; simp only [List.length_singleton, req]; omega
    · simp [hsz]
    · intro p hp
      have hp' : p < s.sz + 1 := hp
      show bitAt (s.arr ++ [_]) p = _
      by_cases hp2 : p < s.sz
      · rw [bitAt_append (h.qlt hp2), h.bits p hp2, List.getElem?_append_left (by omega)]
      · have hps : p = s.sz := by omega
        have hl : p / 64 = s.arr.length := by rw [h.len, req]; omega
        rw [bitAt, hl, List.getElem?_append_right (Nat.le_refl _), Nat.sub_self, List.getElem?_append_right (by omega),
          show p - l.length = 0 by omega, show p % 64 = 0 by omega]
        cases b <;> rfl
  · rw [if_neg hr]
    have hlen : s.arr.length - 1 = s.sz / 64 := by rw [h.len, req]; omega
    have hq : s.sz / 64 < s.arr.length := by rw [h.len, req]; omega
    rw [hlen, List.getElem?_eq_getElem hq, Option.bind_some, wr_some hq, Option.map_some]
    refine ⟨_, rfl, ⟨?_, ?_, ?_⟩⟩
    · show (List.set _ _ _).length = req (s.sz + 1)
      rw [List.length_set, h.len]; simp only [req]; omega
    · simp [hsz]
    · intro p hp
      have hp' : p < s.sz + 1 := hp
      show bitAt (List.set _ _ _) p = _
      rw [bitAt_wr (wr_some hq _) p]
      by_cases hpq : p / 64 = s.sz / 64
      · rw [if_pos hpq, setw (Nat.mod_lt _ (by omega))]
        by_cases hp2 : p < s.sz
        · rw [if_neg (by omega), List.getElem?_append_left (by omega), ← h.bits p hp2, bitAt, hpq, List.getElem?_eq_getElem hq]; rfl
        · rw [if_pos (by omega), List.getElem?_append_right (by omega), show p - l.length = 0 by omega]; rfl
      · have hp2 : p < s.sz := by omega
        rw [if_neg hpq, h.bits p hp2, List.getElem?_append_left (by omega)]

theorem pop_ok {s : Bm} {l : List Bool} (h : Rel s l) (hne : l ≠ []) (hs : (l.length - 1) % 64 ≠ 0) :
    ∃ s', s.popBack = some s' ∧ Rel s' l.dropLast := by
  have hsz := h.size
  have : l.length ≠ 0 := fun h => hne (List.length_eq_zero_iff.mp h)
  rw [Bm.popBack, if_neg (by omega)]
  refine ⟨_, rfl, ⟨?_, ?_, ?_⟩⟩
  · show s.arr.length = req (s.sz - 1)
    rw [h.len]; simp only [req]; omega
  · simp [hsz]
  · intro p hp
    have hp' : p < s.sz - 1 := hp
    rw [List.getElem?_dropLast, if_pos (by omega)]
    exact h.bits p (by omega)

theorem grow_ok {s : Bm} {l : List Bool} (h : Rel s l) {n : Nat} (hn : l.length ≤ n) (b : Bool) :
    ∃ s', s.resize n b = some s' ∧ Rel s' (l ++ List.replicate (n - l.length) b) := by
  have hsz := h.size
  unfold Bm.resize
  rw [if_neg (by omega)]
  have hreq : req s.sz ≤ req n := by simp only [req]; omega
  have hv : vresize s.arr (req n) (fill b) = s.arr ++ List.replicate (req n - req s.sz) (fill b) := by
    unfold vresize
    rw [h.len]
    by_cases e : req n ≤ req s.sz
    · rw [if_pos e, show req n - req s.sz = 0 by omega, List.take_of_length_le (by rw [h.len]; omega)]; simp
    · rw [if_neg e]
  rw [hv]
  have hlenv : (s.arr ++ List.replicate (req n - req s.sz) (fill b)).length = req n := by
    rw [List.length_append, List.length_replicate, h.len]; omega
  have hold : ∀ p, p / 64 < req s.sz → bitAt (s.arr ++ List.replicate (req n - req s.sz) (fill b)) p = bitAt s.arr p :=
    fun p hp => bitAt_append (by rw [h.len]; exact hp)
  have hnew : ∀ p, p < n → req s.sz ≤ p / 64 → bitAt (s.arr ++ List.replicate (req n - req s.sz) (fill b)) p = some b := by
    intro p hp hp2
    rw [bitAt, List.getElem?_append_right (by rw [h.len]; exact hp2), List.getElem?_replicate, h.len,
      if_pos (by simp only [req] at *; omega), Option.map_some, fill_bit b (Nat.mod_lt _ (by omega))]
  have target : ∀ p, p < n → (l ++ List.replicate (n - l.length) b)[p]? = if p < s.sz then l[p]? else some b := by
    intro p hp
    by_cases e : p < s.sz
    · rw [if_pos e, List.getElem?_append_left (by omega)]
    · rw [if_neg e, List.getElem?_append_right (by omega), List.getElem?_replicate, if_pos (by omega)]
  unfold fixWord
  by_cases hr : s.sz % 64 = 0
  · rw [if_pos hr, Option.map_some]
    refine ⟨_, rfl, ⟨hlenv, by simp; omega, ?_⟩⟩
    intro p hp
    have hp' : p < n := hp
    rw [target p hp']
    by_cases e : p < s.sz
    · rw [if_pos e, ← h.bits p e]; exact hold p (by simp only [req]; omega)
    · rw [if_neg e]; exact hnew p hp' (by simp only [req]; omega)
  · have hq : s.sz / 64 < s.arr.length := by rw [h.len]; simp only [req]; omega
    have hq2 : s.sz / 64 < (s.arr ++ List.replicate (req n - req s.sz) (fill b)).length := by rw [List.length_append]; omega
    rw [if_neg hr, List.getElem?_append_left hq, List.getElem?_eq_getElem hq, Option.bind_some, wr_some hq2, Option.map_some]
    refine ⟨_, rfl, ⟨by simp only [List.length_set]; exact hlenv, by simp; omega, ?_⟩⟩
    intro p hp
    have hp' : p < n := hp
    rw [target p hp']
    show bitAt (List.set _ _ _) p = _
    rw [bitAt_wr (wr_some hq2 _) p]
    by_cases hpq : p / 64 = s.sz / 64
    · rw [if_pos hpq]
      have h64 : p % 64 < 64 := Nat.mod_lt _ (by omega)
      have hrd : p < s.sz → l[p]? = some ((s.arr[s.sz / 64]'hq).getLsbD (p % 64)) := by
        intro e
        rw [← h.bits p e, bitAt, hpq, List.getElem?_eq_getElem hq]; rfl
      have hlt : s.sz % 64 < 64 := Nat.mod_lt _ (by omega)
      cases b
      · rw [if_neg (by simp), BitVec.getLsbD_and, mask_bit hlt]
        by_cases e : p < s.sz
        · rw [if_pos e, hrd e, decide_eq_true (by omega), Bool.and_true]
        · rw [if_neg e, decide_eq_false (by omega), Bool.and_false]
      · rw [if_pos rfl, BitVec.getLsbD_or, BitVec.getLsbD_not, mask_bit hlt]
        by_cases e : p < s.sz
        · rw [if_pos e, hrd e, decide_eq_true (show p % 64 < s.sz % 64 by omega)]; simp
        · rw [if_neg e, decide_eq_false (show ¬ p % 64 < s.sz % 64 by omega)]; simp [h64]
    · rw [if_neg hpq]
      by_cases e : p < s.sz
      · rw [if_pos e, ← h.bits p e]; exact hold p (by simp only [req]; omega)
      · rw [if_neg e]; exact hnew p hp' (by simp only [req]; omega)

theorem mk_ok (n : Nat) (b : Bool) : Rel (Bm.mk' n b) (List.replicate n b) := by
  refine ⟨by simp [Bm.mk'], by simp [Bm.mk'], ?_⟩
  intro p hp
  have hp' : p < n := hp
  rw [List.getElem?_replicate, if_pos hp']
  exact bitAt_replicate b (by simp only [req]; omega)

theorem ofList_ok : ∀ (l : List Bool) {s : Bm} {l0 : List Bool}, Rel s l0 → ∃ s', s.ofList l = some s' ∧ Rel s' (l0 ++ l)
  | [], s, l0, h => ⟨s, rfl, by simpa using h⟩
  | b :: l, s, l0, h => by
      obtain ⟨s', e, h'⟩ := push_ok h b
      obtain ⟨s'', e', h''⟩ := ofList_ok l h'
      refine ⟨s'', ?_, by simpa using h''⟩
      rw [Bm.ofList, e]; exact e'

theorem set_ok {s : Bm} {l : List Bool} (h : Rel s l) (i : Nat) (b : Bool) :
    ∃ s', s.set i b = some s' ∧ Rel s' ((l ++ List.replicate (i + 1 - l.length) false).set i b) := by
  have hsz := h.size
  unfold Bm.set
  by_cases e : s.sz ≤ i
  · rw [if_pos e]
    obtain ⟨s', e', h'⟩ := grow_ok h (n := i + 1) (by omega) false
    rw [e', Option.bind_some]
    exact put_ok h' (by rw [← h'.size]; simp; omega) b
  · rw [if_neg e, Option.bind_some, show i + 1 - l.length = 0 by omega, List.replicate_zero, List.append_nil]
    exact put_ok h (by omega) b

theorem toNum_testBit : ∀ (l : List Bool) (i : Nat), (toNum l).testBit i = l.getD i false
  | [], i => by simp [toNum]
  | b :: l, 0 => by
      rw [toNum, Nat.testBit_zero]
      cases b <;> simp
  | b :: l, i + 1 => by
      rw [toNum, Nat.testBit_add_one, show (b.toNat + 2 * toNum l) / 2 = toNum l by cases b <;> simp <;> omega, toNum_testBit l i]
      simp

theorem eq_toNum (x : W) (l : List Bool) (hl : l.length ≤ 64) (h : ∀ i, i < 64 → x.getLsbD i = l.getD i false) : x.toNat = toNum l := by
  apply Nat.eq_of_testBit_eq
  intro i
  rw [toNum_testBit]
  by_cases hi : i < 64
  · exact h i hi
  · rw [Nat.testBit_lt_two_pow (Nat.lt_of_lt_of_le x.isLt (Nat.pow_le_pow_right (by omega) (by omega)))]
    rw [List.getD_eq_getElem?_getD, List.getElem?_eq_none (by omega)]; rfl

theorem rangeGet_ok {s : Bm} {l : List Bool} (h : Rel s l) {b e : Nat} (he : e ≤ l.length) (hw : e - b ≤ 64) :
    ∃ x, s.rangeGet b e = some x ∧ x.toNat = toNum ((l.take e).drop b) := by
  have hsz := h.size
  unfold Bm.rangeGet
  by_cases hbe : e ≤ b
  · rw [if_pos hbe]
    refine ⟨_, rfl, ?_⟩
    rw [List.drop_eq_nil_of_le (by simp; omega)]; rfl
  · rw [if_neg hbe, if_pos hw]
    obtain ⟨w, ew, hwd⟩ := h.read (i := b) (by omega)
    rw [ew, Option.bind_some]
    have hlist : ∀ i, ((l.take e).drop b).getD i false = if i < e - b then l.getD (b + i) false else false := by
      intro i
      rw [List.getD_eq_getElem?_getD, List.getElem?_drop, List.getElem?_take, List.getD_eq_getElem?_getD]
      by_cases e1 : i < e - b
      · rw [if_pos e1, if_pos (by omega)]
      · rw [if_neg e1, if_neg (by omega)]; rfl
    have hget : ∀ p, p < s.sz → p / 64 = b / 64 → w.getLsbD (p % 64) = l.getD p false := by
      intro p hp hq
      have := hwd p hp hq
      rw [h.getD hp] at this
      exact (Option.some.inj this).symm
    by_cases hc : 64 < (e - b) + b % 64
    · rw [if_pos hc]
      obtain ⟨v, ev, hvd⟩ := h.read (i := 64 * (b / 64 + 1)) (by omega)
      rw [show 64 * (b / 64 + 1) / 64 = b / 64 + 1 by omega] at ev hvd
      rw [ev, Option.map_some]
      refine ⟨_, rfl, ?_⟩
      apply eq_toNum _ _ (by simp; omega)
      intro i hi
      rw [hlist, BitVec.getLsbD_and, BitVec.getLsbD_or, rmask_bit _ _ hi, BitVec.getLsbD_ushiftRight, BitVec.getLsbD_shiftLeft]
      by_cases e1 : i < e - b
      · rw [if_pos e1, decide_eq_true e1, Bool.and_true, decide_eq_true hi, Bool.true_and]
        by_cases e2 : b % 64 + i < 64
        · have := hget (b + i) (by omega) (by omega)
          rw [decide_eq_true (show i < 64 - b % 64 by omega), ← this, show (b + i) % 64 = b % 64 + i by omega]
          simp
        · have := hvd (b + i) (by omega) (by omega)
          rw [h.getD (by omega)] at this
          rw [Option.some.inj this, BitVec.getLsbD_of_ge w (b % 64 + i) (by omega), decide_eq_false (show ¬ i < 64 - b % 64 by omega),
            show (b + i) % 64 = i - (64 - b % 64) by omega]
          simp
      · rw [if_neg e1, decide_eq_false e1, Bool.and_false]
    · rw [if_neg hc]
      refine ⟨_, rfl, ?_⟩
      apply eq_toNum _ _ (by simp; omega)
      intro i hi
      rw [hlist, BitVec.getLsbD_and, rmask_bit _ _ hi, BitVec.getLsbD_ushiftRight]
      by_cases e1 : i < e - b
      · rw [if_pos e1, decide_eq_true e1, Bool.and_true]
        have := hget (b + i) (by omega) (by omega)
        rw [← this, show (b + i) % 64 = b % 64 + i by omega]
      · rw [if_neg e1, decide_eq_false e1, Bool.and_false]

theorem rmask_toNat {w : Nat} (hw : w ≤ 64) : (rmask w).toNat = 2 ^ w - 1 := by
  apply Nat.eq_of_testBit_eq
  intro j
  rw [Nat.testBit_two_pow_sub_one]
  by_cases hj : j < 64
  · exact rmask_bit w j hj
  · rw [Nat.testBit_lt_two_pow (Nat.lt_of_lt_of_le (rmask w).isLt (Nat.pow_le_pow_right (by omega) (by omega))), decide_eq_false (by omega)]

theorem rangeSet_ok {s : Bm} {l : List Bool} (h : Rel s l) {b e : Nat} (he : e ≤ l.length) (hw : e - b ≤ 64) {x : W} (hx : x.toNat < 2 ^ (e - b)) :
    ∃ s', s.rangeSet b e x = some s' ∧ Rel s' ((List.range l.length).map (fun i => if b ≤ i ∧ i < e then x.getLsbD (i - b) else l.getD i false)) := by
  have hsz := h.size
  have hself : ∀ (c : Nat → Prop) [DecidablePred c] (f : Nat → Bool), (∀ i, i < l.length → ¬ c i) →
      (List.range l.length).map (fun i => if c i then f i else l.getD i false) = l := by
    intro c _ f hc
    apply List.ext_getElem?
    intro i
    rw [List.getElem?_map]
    by_cases hi : i < l.length
    · rw [List.getElem?_range hi, Option.map_some, if_neg (hc i hi), h.getD (by omega)]
    · rw [List.getElem?_eq_none (by simpa using hi), List.getElem?_eq_none (by omega)]; rfl
  unfold Bm.rangeSet
  by_cases hbe : e ≤ b
  · rw [if_pos hbe]
    refine ⟨_, rfl, ?_⟩
    rw [hself (fun i => b ≤ i ∧ i < e) (fun i => x.getLsbD (i - b)) (by intro i _; omega)]
    exact h
  rw [if_neg hbe, if_pos (by rw [BitVec.le_def, rmask_toNat hw]; omega)]
  have hxb : ∀ j, e - b ≤ j → x.getLsbD j = false := by
    intro j hj
    exact Nat.testBit_lt_two_pow (Nat.lt_of_lt_of_le hx (Nat.pow_le_pow_right (by omega) hj))
  obtain ⟨w, ew, hwd⟩ := h.read (i := b) (by omega)
  rw [ew, Option.bind_some]
  -- first word
  have tgt : ∀ (c : Nat → Prop) [DecidablePred c] (f : Nat → Bool) (p : Nat), p < s.sz →
      ((List.range l.length).map (fun i => if c i then f i else l.getD i false))[p]? = some (if c p then f p else l.getD p false) := by
    intro c _ f p hp
    rw [List.getElem?_map, List.getElem?_range (by omega)]; rfl
  obtain ⟨a1, e1, r1⟩ := h.write
    (l' := (List.range l.length).map (fun i => if b ≤ i ∧ i < e ∧ i / 64 = b / 64 then x.getLsbD (i - b) else l.getD i false))
    (h.qlt (i := b) (by omega)) (w := (w &&& ~~~(rmask (e - b) <<< (b % 64))) ||| (x <<< (b % 64))) (by simp)
    (by
      intro p hp hpq
      rw [tgt (fun i => b ≤ i ∧ i < e ∧ i / 64 = b / 64) (fun i => x.getLsbD (i - b)) p hp, if_neg (by omega), ← h.getD hp])
    (by
      intro p hp hpq
      have h64 : p % 64 < 64 := Nat.mod_lt _ (by omega)
      have hwp := hwd p hp hpq
      rw [h.getD hp] at hwp
      have hwp := Option.some.inj hwp
      rw [tgt (fun i => b ≤ i ∧ i < e ∧ i / 64 = b / 64) (fun i => x.getLsbD (i - b)) p hp]
      rw [BitVec.getLsbD_or, BitVec.getLsbD_and, BitVec.getLsbD_not, BitVec.getLsbD_shiftLeft, BitVec.getLsbD_shiftLeft]
      congr 1
      by_cases c1 : p % 64 < b % 64
      · rw [if_neg (by omega), hwp, decide_eq_true c1]; simp [h64]
      · have hm : (rmask (e - b)).getLsbD (p % 64 - b % 64) = decide (p % 64 - b % 64 < e - b) := rmask_bit _ _ (by omega)
        rw [decide_eq_false c1, hm]
        by_cases c2 : p < e
        · rw [if_pos (by omega), decide_eq_true (show p % 64 - b % 64 < e - b by omega), show p - b = p % 64 - b % 64 by omega]; simp [h64]
        · rw [if_neg (by omega), decide_eq_false (show ¬ p % 64 - b % 64 < e - b by omega), hxb _ (by omega), hwp]; simp [h64])
  rw [e1, Option.bind_some]
  by_cases hc : 64 < (e - b) + b % 64
  · rw [if_pos hc]
    have hq2 : b / 64 + 1 < (⟨a1, s.sz⟩ : Bm).arr.length := by rw [r1.len]; simp only [req]; omega
    obtain ⟨v, ev, hvd⟩ := r1.read (i := 64 * (b / 64 + 1)) (by show _ < s.sz; omega)
    rw [show 64 * (b / 64 + 1) / 64 = b / 64 + 1 by omega] at ev hvd
    have ev' : a1[b / 64 + 1]? = some v := ev
    rw [ev', Option.bind_some]
    obtain ⟨a2, e2, r2⟩ := r1.write
      (l' := (List.range l.length).map (fun i => if b ≤ i ∧ i < e then x.getLsbD (i - b) else l.getD i false))
      hq2 (w := (v &&& ~~~(rmask (e - b) >>> (64 - b % 64))) ||| (x >>> (64 - b % 64))) (by simp)
      (by
        intro p hp hpq
        have hp' : p < s.sz := hp
        rw [tgt (fun i => b ≤ i ∧ i < e) (fun i => x.getLsbD (i - b)) p hp', tgt (fun i => b ≤ i ∧ i < e ∧ i / 64 = b / 64) (fun i => x.getLsbD (i - b)) p hp']
        by_cases c : b ≤ p ∧ p < e
        · rw [if_pos c, if_pos (by omega)]
        · rw [if_neg c, if_neg (by omega)])
      (by
        intro p hp hpq
        have hp' : p < s.sz := hp
        have h64 : p % 64 < 64 := Nat.mod_lt _ (by omega)
        have hvp := hvd p hp hpq
        rw [tgt (fun i => b ≤ i ∧ i < e ∧ i / 64 = b / 64) (fun i => x.getLsbD (i - b)) p hp', if_neg (by omega)] at hvp
        have hvp := Option.some.inj hvp
        rw [tgt (fun i => b ≤ i ∧ i < e) (fun i => x.getLsbD (i - b)) p hp']
        rw [BitVec.getLsbD_or, BitVec.getLsbD_and, BitVec.getLsbD_not, BitVec.getLsbD_ushiftRight, BitVec.getLsbD_ushiftRight]
        congr 1
        by_cases c2 : p < e
        · rw [if_pos (by omega), rmask_bit _ _ (by omega), decide_eq_true (show 64 - b % 64 + p % 64 < e - b by omega),
            show p - b = 64 - b % 64 + p % 64 by omega]; simp
        · rw [if_neg (by omega), hxb _ (by omega), hvp]
          have : (rmask (e - b)).getLsbD (64 - b % 64 + p % 64) = false := by
            by_cases c3 : 64 - b % 64 + p % 64 < 64
            · rw [rmask_bit _ _ c3, decide_eq_false (by omega)]
            · exact BitVec.getLsbD_of_ge _ _ (by omega)
          rw [this]; simp [h64])
    have e2' : wr a1 (b / 64 + 1) ((v &&& ~~~(rmask (e - b) >>> (64 - b % 64))) ||| (x >>> (64 - b % 64))) = some a2 := e2
    rw [e2', Option.map_some]
    exact ⟨_, rfl, r2⟩
  · rw [if_neg hc]
    refine ⟨_, rfl, ?_⟩
    have : (List.range l.length).map (fun i => if b ≤ i ∧ i < e then x.getLsbD (i - b) else l.getD i false) =
        (List.range l.length).map (fun i => if b ≤ i ∧ i < e ∧ i / 64 = b / 64 then x.getLsbD (i - b) else l.getD i false) := by
      apply List.map_congr_left
      intro i _
      by_cases c : b ≤ i ∧ i < e
      · rw [if_pos c, if_pos (by omega)]
      · rw [if_neg c, if_neg (by omega)]
    rw [this]
    exact r1

theorem step_ok {s : Bm} {l : List Bool} (h : Rel s l) (o : Op) (he : Enabled l o) (hs : Safe l o) :
    ∃ s', step s o = some (s', (spec l o).2) ∧ Rel s' (spec l o).1 := by
  have hsz := h.size
  cases o with
  | push b => obtain ⟨s', e, r⟩ := push_ok h b; exact ⟨s', by rw [step, e]; rfl, r⟩
  | pop => obtain ⟨s', e, r⟩ := pop_ok h he hs; exact ⟨s', by rw [step, e]; rfl, r⟩
  | resize n b =>
      obtain ⟨s', e, r⟩ := grow_ok h hs b
      refine ⟨s', by rw [step, e]; rfl, ?_⟩
      show Rel s' (l.take n ++ _)
      rw [List.take_of_length_le hs]; exact r
  | assign n b => exact ⟨_, rfl, mk_ok n b⟩
  | get i => exact ⟨s, by rw [step, get_ok h (by rw [← hsz]; exact he)]; rfl, h⟩
  | put i b => obtain ⟨s', e, r⟩ := put_ok h (i := i) (by rw [← hsz]; exact he) b; exact ⟨s', by rw [step, e]; rfl, r⟩
  | orAt i b => obtain ⟨s', e, r⟩ := orAt_ok h (i := i) (by rw [← hsz]; exact he) b; exact ⟨s', by rw [step, e]; rfl, r⟩
  | andAt i b => obtain ⟨s', e, r⟩ := andAt_ok h (i := i) (by rw [← hsz]; exact he) b; exact ⟨s', by rw [step, e]; rfl, r⟩
  | set i b => obtain ⟨s', e, r⟩ := set_ok h i b; exact ⟨s', by rw [step, e]; rfl, r⟩
  | rangeSet b e x => obtain ⟨s', e', r⟩ := rangeSet_ok h he.1 he.2.1 he.2.2; exact ⟨s', by rw [step, e']; rfl, r⟩
  | rangeGet b e => obtain ⟨x, e', r⟩ := rangeGet_ok h he.1 he.2; exact ⟨s, by rw [step, e', Option.map_some, r]; rfl, h⟩
  | size => exact ⟨s, by rw [step, ← hsz]; rfl, h⟩

theorem run_ok : ∀ (os : List Op) {s : Bm} {l : List Bool}, Rel s l → AllEnabled l os → AllSafe l os →
    ∃ s', run s os = some (s', (srun l os).2) ∧ Rel s' (srun l os).1
  | [], s, l, h, _, _ => ⟨s, rfl, h⟩
  | o :: os, s, l, h, he, hs => by
      obtain ⟨s', e, r⟩ := step_ok h o he.1 hs.1
      obtain ⟨s'', e', r'⟩ := run_ok os r he.2 hs.2
      refine ⟨s'', ?_, r'⟩
      rw [run, e, Option.bind_some]
      show (run s' os).map _ = _
      rw [e']; rfl

/-- C42 (partial: without shrinking across a word boundary).  Starting from either constructor, every history of permitted calls runs without undefined
behaviour and returns what the same calls return on a sequence of booleans; at the end every bit reads as in the sequence.  The full statement, for
histories with arbitrary `pop_back` and `resize`, is false: `C42_violated_pop`, `C42_violated_resize`. -/
theorem C42_history_partial (n : Nat) (b : Bool) (l : List Bool) (os : List Op) :
    (AllEnabled (List.replicate n b) os → AllSafe (List.replicate n b) os →
      ∃ s, run (Bm.mk' n b) os = some (s, (srun (List.replicate n b) os).2) ∧ s.sz = (srun (List.replicate n b) os).1.length ∧
        ∀ i, i < s.sz → s.get i = (srun (List.replicate n b) os).1[i]?) ∧
    (AllEnabled l os → AllSafe l os → ∃ s0 s, Bm.ofList (Bm.mk' 0 false) l = some s0 ∧ run s0 os = some (s, (srun l os).2) ∧
      s.sz = (srun l os).1.length ∧ ∀ i, i < s.sz → s.get i = (srun l os).1[i]?) := by
  constructor
  · intro he hs
    obtain ⟨s, e, r⟩ := run_ok os (mk_ok n b) he hs
    exact ⟨s, e, r.size.symm, fun i hi => by rw [get_ok r hi, r.getD hi]⟩
  · intro he hs
    obtain ⟨s0, e0, r0⟩ := ofList_ok l (mk_ok 0 false)
    rw [List.replicate_zero, List.nil_append] at r0
    obtain ⟨s, e, r⟩ := run_ok os r0 he hs
    exact ⟨s0, s, e0, e, r.size.symm, fun i hi => by rw [get_ok r hi, r.getD hi]⟩

/-- A history with cross-word accesses. -/
def sampleOps : List Op :=
  [.push true, .resize 70 true, .rangeSet 60 68 0xA5#64, .rangeGet 58 70, .set 130 true, .get 130, .andAt 0 false, .pop, .orAt 5 true, .size]

example : AllEnabled (List.replicate 3 false) sampleOps ∧ AllSafe (List.replicate 3 false) sampleOps := by
  simp only [sampleOps, AllEnabled, AllSafe, Enabled, Safe, spec]
  decide +kernel

example : (srun (List.replicate 3 false) sampleOps).2 =
    [.unit, .unit, .unit, .num 0xE97, .unit, .bool true, .unit, .unit, .unit, .num 130] := by decide +kernel

/-- C42 is violated: after `pop_back` across a word boundary the next `push_back` appends a further word, and the popped bit comes back.  On the sequence
of 64 zeros and a one, `pop_back(); push_back(false)` leaves a one at position 64. -/
theorem C42_violated_pop : ∃ os : List Op, AllEnabled [] os ∧
    (srun [] os).2.getLast? = some (.bool false) ∧ (run (Bm.mk' 0 false) os).map (fun r => r.2.getLast?) = some (some (.bool true)) := by
  refine ⟨[.resize 64 false, .push true, .pop, .push false, .get 64], ?_, ?_, ?_⟩
  · simp only [AllEnabled, Enabled, spec]; decide +kernel
  · decide +kernel
  · decide +kernel

/-- C42 is violated: `resize` to a smaller size keeps the words, and growing again does not clear them. -/
theorem C42_violated_resize : ∃ os : List Op, AllEnabled [] os ∧
    (srun [] os).2.getLast? = some (.bool false) ∧ (run (Bm.mk' 0 false) os).map (fun r => r.2.getLast?) = some (some (.bool true)) := by
  refine ⟨[.resize 65 true, .resize 0 false, .resize 65 false, .get 64], ?_, ?_, ?_⟩
  · simp only [AllEnabled, Enabled, spec]; decide +kernel
  · decide +kernel
  · decide +kernel

/-! ### Iterators -/

/-- An iterator stands at position `p`. -/
def At (i : It) (p : Int) : Prop := i.ctz < 64 ∧ 64 * i.ptr + i.ctz = p

theorem At.inj {i j : It} {p : Int} (h : At i p) (h' : At j p) : i = j := by
  obtain ⟨h1, h2⟩ := h
  obtain ⟨h3, h4⟩ := h'
  cases i; cases j
  simp only at h1 h2 h3 h4
  simp only [It.mk.injEq]
  omega

/-- C42 (partial), iterators: `begin()` and `end()` stand at 0 and `size()`; increments, decrements, `+=` of a non-negative number and `-=` of a number
whose remainder modulo 64 is at most the bit index move by the given distance; equality is equality of positions; dereferencing at a position below
`size()` gives the bit there.  Missing: `-=` (and `+=` of a negative number) in the remaining case, where `C42_violated_iterator` shows the result is no
position at all. -/
theorem C42_iterator_partial (n : Nat) (b : Bool) (os : List Op) (s : Bm) (outs : List Out) (l : List Bool)
    (he : AllEnabled (List.replicate n b) os) (hs : AllSafe (List.replicate n b) os)
    (hrun : run (Bm.mk' n b) os = some (s, outs)) (hl : (srun (List.replicate n b) os).1 = l) :
    At Bm.begin 0 ∧ At s.end l.length ∧
    (∀ i p, At i p → At i.inc (p + 1) ∧ At i.dec (p - 1)) ∧
    (∀ (i : It) (p d : Int), At i p → (0 ≤ d → At (i.add d) (p + d)) ∧ (d ≤ 0 → At (i.sub d) (p - d)) ∧
      (0 ≤ d → d % 64 ≤ i.ctz → At (i.sub d) (p - d)) ∧ (d < 0 → (-d) % 64 ≤ i.ctz → At (i.add d) (p + d))) ∧
    (∀ i j p q, At i p → At j q → (i = j ↔ p = q)) ∧
    (∀ (i : It) (p : Nat), At i p → p < l.length → s.deref i = l[p]?) := by
  have h : Rel s l := by
    obtain ⟨s', e, r⟩ := run_ok os (mk_ok n b) he hs
    rw [hrun] at e
    have e1 : s = s' := congrArg Prod.fst (Option.some.inj e)
    rw [e1, ← hl]
    exact r
  have hsz := h.size
  have addN : ∀ (i : It) (p : Int) (d : Nat), At i p → At (i.addN d) (p + d) := by
    intro i p d hi
    unfold It.addN At at *
    split <;> simp only <;> omega
  have subN : ∀ (i : It) (p : Int) (d : Nat), At i p → d % 64 ≤ i.ctz → At (i.subN d) (p - d) := by
    intro i p d hi hd
    unfold It.subN At at *
    rw [if_pos hd]
    simp only
    omega
  refine ⟨⟨by decide, by decide⟩, ?_, ?_, ?_, ?_, ?_⟩
  · unfold At Bm.end
    simp only
    omega
  · intro i p hi
    unfold It.inc It.dec At at *
    constructor <;> split <;> simp only <;> omega
  · intro i p d hi
    refine ⟨fun hd => ?_, fun hd => ?_, fun hd hr => ?_, fun hd hr => ?_⟩
    · unfold It.add; rw [if_neg (by omega)]
      have := addN i p d.toNat hi
      rwa [Int.toNat_of_nonneg hd] at this
    · unfold It.sub
      by_cases h0 : d < 0
      · rw [if_pos h0]
        have := addN i p (-d).toNat hi
        rw [Int.toNat_of_nonneg (by omega)] at this
        rwa [show p + -d = p - d by omega] at this
      · rw [if_neg h0]
        have := subN i p d.toNat hi (by omega)
        rwa [Int.toNat_of_nonneg (by omega)] at this
    · unfold It.sub; rw [if_neg (by omega)]
      have := subN i p d.toNat hi (by omega)
      rwa [Int.toNat_of_nonneg (by omega)] at this
    · unfold It.add; rw [if_pos hd]
      have := subN i p (-d).toNat hi (by omega)
      rw [Int.toNat_of_nonneg (by omega)] at this
      rwa [show p - -d = p + d by omega] at this
  · intro i j p q hi hj
    constructor
    · rintro rfl; rw [← hi.2, ← hj.2]
    · rintro rfl; exact hi.inj hj
  · intro i p hi hp
    obtain ⟨h1, h2⟩ := hi
    have hq : i.ptr.toNat = p / 64 := by omega
    have hr : i.ctz = p % 64 := by omega
    unfold Bm.deref
    rw [if_pos ⟨h1, by omega⟩, hq, hr]
    have := get_ok h (i := p) (by omega)
    rw [h.getD (by omega)]
    exact this

example : At (It.addN ⟨0, 63⟩ 66) 129 := ⟨by decide, by decide⟩

/-- C42 is violated: moving backwards into an earlier word (`d % 64` above the bit index) never gives a usable iterator, whatever the position. -/
theorem C42_violated_iterator (s : Bm) (i : It) (p d : Int) (hi : At i p) (hd : 0 ≤ d) (hr : (i.ctz : Int) < d % 64) :
    (∀ q, ¬ At (i.sub d) q) ∧ s.deref (i.sub d) = none := by
  have key : 64 ≤ (i.sub d).ctz := by
    obtain ⟨h1, h2⟩ := hi
    unfold It.sub It.subN
    rw [if_neg (by omega), if_neg (by omega)]
    simp only
    omega
  refine ⟨fun q hq => ?_, ?_⟩
  · have := hq.1; omega
  · unfold Bm.deref; rw [if_neg (by omega)]

example : At ⟨1, 0⟩ 64 ∧ (((⟨1, 0⟩ : It).ctz : Int) < 1 % 64) := ⟨⟨by decide, by decide⟩, by decide⟩

end Verif.Succinct
