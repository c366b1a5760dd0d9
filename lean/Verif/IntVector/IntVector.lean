/-!
C43: `IntVector<w>`, `/repo/include/mtl/succinct/int_vector.hpp`.

Words are `BitVec 64`.  A shift by 64 or more and an out-of-range access are `none`.
-/
namespace Verif.IntVector

structure State where
  arr : List (BitVec 64)
  size : Nat

/-- `x << k` on a 64-bit word. -/
def shl (x : BitVec 64) (k : Nat) : Option (BitVec 64) := if k < 64 then some (x <<< k) else none
/-- `x >> k` on an unsigned 64-bit word. -/
def shr (x : BitVec 64) (k : Nat) : Option (BitVec 64) := if k < 64 then some (x >>> k) else none

/-- `arr[k] = x`. -/
def wr (arr : List (BitVec 64)) (k : Nat) (x : BitVec 64) : Option (List (BitVec 64)) :=
  if k < arr.length then some (arr.set k x) else none

/-- int_vector.hpp:20-22. -/
def needs (w n : Nat) : Nat := (n * w + 64 - 1) / 64

/-- int_vector.hpp:19. -/
def mk (w n : Nat) : State := ⟨List.replicate (needs w n) 0#64, n⟩

/-- int_vector.hpp:28-31. -/
def resize (w : Nat) (s : State) (n : Nat) : State :=
  ⟨s.arr.take (needs w n) ++ List.replicate (needs w n - s.arr.length) 0#64, n⟩

/-- int_vector.hpp:33-42. -/
def set (w : Nat) (s : State) (i : Nat) (v : BitVec 64) : Option State := do
  let j := i * w
  let k := j / 64
  let l := j % 64
  let a ← s.arr[k]?
  let m ← shl (BitVec.allOnes 64) l
  let x ← shl v l
  let arr ← wr s.arr k ((a &&& ~~~ m) ||| x)
  if l + w > 64 then do
    let b ← arr[k+1]?
    let m ← shl (BitVec.allOnes 64) (l + w - 64)
    let y ← shr v (64 - l)
    let arr ← wr arr (k+1) ((b &&& m) ||| y)
    some { s with arr := arr }
  else some { s with arr := arr }

/-- int_vector.hpp:43-47. -/
def pushBack (w : Nat) (s : State) (v : BitVec 64) : Option State :=
  set w (resize w s (s.size + 1)) s.size v

/-- int_vector.hpp:48-57. -/
def get (w : Nat) (s : State) (i : Nat) : Option (BitVec 64) := do
  let j := i * w
  let k := j / 64
  let l := j % 64
  let a ← s.arr[k]?
  let res ← shr a l
  if l + w > 64 then do
    let b ← s.arr[k+1]?
    let m ← shl (BitVec.allOnes 64) (l + w - 64)
    let y ← shl (b &&& ~~~ m) (64 - l)
    some (res ||| y)
  else some res

/-- A sequence of `push_back`s. -/
def pushAll (w : Nat) : State → List (BitVec 64) → Option State
  | s, [] => some s
  | s, v :: vs => (pushBack w s v).bind (fun s => pushAll w s vs)

/-! ### The claim fails -/

/-- C43 is violated: after `push_back(1); push_back(2)` on `IntVector<8>`, `get(0)` is 513, not 1 (`get` does not mask). -/
theorem C43_get_violated : (pushAll 8 (mk 8 0) [1, 2]).bind (fun s => get 8 s 0) = some 513 := by decide

/-- C43 is violated by `set` too: writing element 0 erases element 1 (line 37 clears all bits above). -/
theorem C43_set_violated : ((pushAll 8 (mk 8 0) [1, 2]).bind (fun s => set 8 s 0 7)).bind (fun s => get 8 s 1) = some 0 := by decide

/-! ### What does hold: push-only histories, low `w` bits -/

/-- Bit `p` of the whole array. -/
def bit (arr : List (BitVec 64)) (p : Nat) : Bool := (arr.getD (p / 64) 0).getLsbD (p % 64)

/-- Bit `p` of the concatenation of `w`-bit values. -/
def want (w : Nat) (vs : List (BitVec 64)) (p : Nat) : Bool := (vs.getD (p / w) 0).getLsbD (p % w)

structure Inv (w : Nat) (vs : List (BitVec 64)) (s : State) : Prop where
  size : s.size = vs.length
  len : s.arr.length = needs w vs.length
  bits : ∀ p, bit s.arr p = want w vs p

theorem needs_mono (w : Nat) {a b : Nat} (h : a ≤ b) : needs w a ≤ needs w b := by
  unfold needs
  have := Nat.mul_le_mul_right w h
  omega

theorem bit_resize {w : Nat} {s : State} {n : Nat} (h : s.arr.length ≤ needs w n) (p : Nat) :
    bit (resize w s n).arr p = bit s.arr p := by
  unfold bit resize
  simp only
  rw [List.take_of_length_le h]
  congr 1
  rw [List.getD_eq_getElem?_getD, List.getD_eq_getElem?_getD, List.getElem?_append]
  split
  · rfl
  · rename_i hp
    rw [List.getElem?_replicate, List.getElem?_eq_none (l := s.arr) (by omega)]
    split <;> rfl

theorem want_out {w : Nat} (hw : 0 < w) {vs : List (BitVec 64)} {p : Nat} (h : vs.length * w ≤ p) : want w vs p = false := by
  unfold want
  have : vs.length ≤ p / w := (Nat.le_div_iff_mul_le hw).2 h
  rw [List.getD_eq_getElem?_getD, List.getElem?_eq_none this]
  simp

theorem bit_set {arr : List (BitVec 64)} {k : Nat} (hk : k < arr.length) (x : BitVec 64) (p : Nat) :
    bit (arr.set k x) p = if p / 64 = k then x.getLsbD (p % 64) else bit arr p := by
  unfold bit
  by_cases h : p / 64 = k
  · subst h
    rw [if_pos rfl, List.getD_eq_getElem?_getD, List.getElem?_set_self hk]; rfl
  · rw [if_neg h, List.getD_eq_getElem?_getD, List.getElem?_set_ne (Ne.symm h), ← List.getD_eq_getElem?_getD]

theorem getElem_bit {arr : List (BitVec 64)} {k : Nat} (hk : k < arr.length) : ∃ x, arr[k]? = some x ∧
    ∀ t, t < 64 → x.getLsbD t = bit arr (64 * k + t) := by
  refine ⟨arr[k], List.getElem?_eq_getElem hk, fun t ht => ?_⟩
  unfold bit
  rw [show (64 * k + t) / 64 = k by omega, show (64 * k + t) % 64 = t by omega, List.getD_eq_getElem?_getD,
    List.getElem?_eq_getElem hk]
  rfl

theorem want_append {w : Nat} (hw : 0 < w) (vs : List (BitVec 64)) (v : BitVec 64) (p : Nat) :
    want w (vs ++ [v]) p = if vs.length * w ≤ p ∧ p < vs.length * w + w then v.getLsbD (p - vs.length * w) else want w vs p := by
  split
  · rename_i h
    have hq : p / w = vs.length := by
      apply Nat.div_eq_of_lt_le
      · exact h.1
      · rw [Nat.add_mul]; omega
    have hm : p % w = p - vs.length * w := by
      have := Nat.div_add_mod p w
      rw [hq, Nat.mul_comm] at this; omega
    unfold want
    rw [hq, hm]
    simp [List.getD_eq_getElem?_getD]
  · rename_i h
    by_cases h1 : p < vs.length * w
    · have hq : p / w < vs.length := (Nat.div_lt_iff_lt_mul hw).2 h1
      unfold want
      rw [List.getD_eq_getElem?_getD, List.getD_eq_getElem?_getD, List.getElem?_append_left hq]
    · rw [want_out hw (by simp; rw [Nat.add_mul]; omega), want_out hw (by omega)]

theorem getLsbD_ge {w : Nat} {v : BitVec 64} (hv : v.toNat < 2^w) {t : Nat} (ht : w ≤ t) : v.getLsbD t = false := by
  unfold BitVec.getLsbD
  exact Nat.testBit_lt_two_pow (Nat.lt_of_lt_of_le hv (Nat.pow_le_pow_right (by omega) ht))

theorem low_word (a v : BitVec 64) {l t : Nat} (ht : t < 64) :
    ((a &&& ~~~ (BitVec.allOnes 64 <<< l)) ||| (v <<< l)).getLsbD t = if t < l then a.getLsbD t else v.getLsbD (t - l) := by
  have ho : ∀ t, (BitVec.allOnes 64).getLsbD t = decide (t < 64) := fun t => BitVec.getLsbD_allOnes
  generalize BitVec.allOnes 64 = o at *
  have h2 : t - l < 64 := by omega
  rw [BitVec.getLsbD_or, BitVec.getLsbD_and, BitVec.getLsbD_not, BitVec.getLsbD_shiftLeft, BitVec.getLsbD_shiftLeft, ho]
  by_cases h : t < l
  · simp only [ht, h, decide_true, Bool.not_true, Bool.and_false, Bool.false_and, Bool.not_false, Bool.and_true, Bool.or_false, if_true]
  · simp only [ht, h, h2, decide_true, decide_false, Bool.not_false, Bool.and_true, Bool.true_and, Bool.not_true, Bool.and_false,
      Bool.false_or, if_false]

theorem high_word (b v : BitVec 64) {m r t : Nat} (ht : t < 64) :
    ((b &&& (BitVec.allOnes 64 <<< m)) ||| (v >>> r)).getLsbD t = ((decide (m ≤ t) && b.getLsbD t) || v.getLsbD (r + t)) := by
  have ho : ∀ t, (BitVec.allOnes 64).getLsbD t = decide (t < 64) := fun t => BitVec.getLsbD_allOnes
  generalize BitVec.allOnes 64 = o at *
  have h2 : t - m < 64 := by omega
  rw [BitVec.getLsbD_or, BitVec.getLsbD_and, BitVec.getLsbD_shiftLeft, BitVec.getLsbD_ushiftRight, ho]
  by_cases h : m ≤ t
  · have h1 : ¬ t < m := by omega
    simp only [ht, h, h1, h2, decide_true, decide_false, Bool.not_false, Bool.and_true, Bool.true_and]
  · have h1 : t < m := by omega
    simp only [ht, h, h1, decide_true, decide_false, Bool.not_true, Bool.and_false, Bool.false_and]

theorem push_spec {w : Nat} (hw : 0 < w) (hw64 : w ≤ 64) {vs : List (BitVec 64)} {s : State} (h : Inv w vs s) (v : BitVec 64)
    (hv : v.toNat < 2^w) : ∃ s', pushBack w s v = some s' ∧ Inv w (vs ++ [v]) s' := by
  have hle : s.arr.length ≤ needs w (vs.length + 1) := by rw [h.len]; exact needs_mono w (by omega)
  have hb1 : ∀ p, bit (resize w s (vs.length+1)).arr p = want w vs p := fun p => by rw [bit_resize hle, h.bits]
  have hl1 : (resize w s (vs.length+1)).arr.length = needs w (vs.length + 1) := by
    unfold resize
    rw [List.length_append, List.length_take, List.length_replicate]; omega
  unfold pushBack
  rw [h.size]
  have hsz : (resize w s (vs.length+1)).size = vs.length + 1 := rfl
  generalize resize w s (vs.length+1) = s1 at *
  have hout := fun p => want_out hw (vs := vs) (p := p)
  have happ := want_append hw vs v
  unfold needs at hl1
  rw [Nat.add_mul, Nat.one_mul] at hl1
  unfold set
  simp only
  have hfin : needs w (vs ++ [v]).length = (vs.length * w + w + 64 - 1) / 64 := by
    unfold needs; simp [Nat.add_mul]
  generalize hP : vs.length * w = P at *
  have hk : P / 64 < s1.arr.length := by omega
  obtain ⟨a, ea, ha⟩ := getElem_bit hk
  have hl : P % 64 < 64 := Nat.mod_lt _ (by omega)
  rw [ea]
  simp only [Option.bind_eq_bind, Option.bind_some, shl, if_pos hl, wr, if_pos hk]
  by_cases hs : P % 64 + w > 64
  · rw [if_pos hs]
    have hk1 : P / 64 + 1 < s1.arr.length := by omega
    obtain ⟨b, eb, hb⟩ := getElem_bit hk1
    rw [List.getElem?_set_ne (by omega), eb]
    simp only [Option.bind_some, if_pos (show P % 64 + w - 64 < 64 by omega), shr, if_pos (show 64 - P % 64 < 64 by omega),
      List.length_set, if_pos hk1]
    refine ⟨_, rfl, by simpa using hsz, by rw [hfin]; simpa using hl1, fun p => ?_⟩
    rw [bit_set (by simpa using hk1), bit_set hk, happ p]
    have ht : p % 64 < 64 := Nat.mod_lt _ (by omega)
    by_cases h1 : p / 64 = P / 64 + 1
    · rw [if_pos h1, high_word _ _ ht, hb _ ht, hb1, show 64 * (P / 64 + 1) + p % 64 = p by omega, hout p (by omega)]
      rw [show 64 - P % 64 + p % 64 = p - P by omega]
      split
      · simp
      · rw [getLsbD_ge hv (by omega)]; simp
    · rw [if_neg h1]
      by_cases h2 : p / 64 = P / 64
      · rw [if_pos h2, low_word _ _ ht]
        by_cases h3 : p % 64 < P % 64
        · rw [if_pos h3, if_neg (by omega), ha _ ht, hb1, show 64 * (P / 64) + p % 64 = p by omega]
        · rw [if_neg h3, show p % 64 - P % 64 = p - P by omega]
          split
          · rfl
          · rw [getLsbD_ge hv (by omega), hout p (by omega)]
      · rw [if_neg h2, if_neg (by omega), hb1]
  · rw [if_neg hs]
    refine ⟨_, rfl, by simpa using hsz, by rw [hfin]; simpa using hl1, fun p => ?_⟩
    rw [bit_set hk, happ p]
    have ht : p % 64 < 64 := Nat.mod_lt _ (by omega)
    by_cases h2 : p / 64 = P / 64
    · rw [if_pos h2, low_word _ _ ht]
      by_cases h3 : p % 64 < P % 64
      · rw [if_pos h3, if_neg (by omega), ha _ ht, hb1, show 64 * (P / 64) + p % 64 = p by omega]
      · rw [if_neg h3, show p % 64 - P % 64 = p - P by omega]
        split
        · rfl
        · rw [getLsbD_ge hv (by omega), hout p (by omega)]
    · rw [if_neg h2, if_neg (by omega), hb1]

theorem pushAll_spec {w : Nat} (hw : 0 < w) (hw64 : w ≤ 64) : ∀ (ws vs : List (BitVec 64)) (s : State), Inv w vs s →
    (∀ v ∈ ws, v.toNat < 2^w) → ∃ s', pushAll w s ws = some s' ∧ Inv w (vs ++ ws) s'
  | [], vs, s, h, _ => ⟨s, rfl, by simpa using h⟩
  | v :: ws, vs, s, h, hv => by
    obtain ⟨s1, e1, h1⟩ := push_spec hw hw64 h v (hv v (by simp))
    obtain ⟨s2, e2, h2⟩ := pushAll_spec hw hw64 ws (vs ++ [v]) s1 h1 (fun v hm => hv v (by simp [hm]))
    exact ⟨s2, by simp [pushAll, e1, e2], by simpa using h2⟩

theorem get_spec {w : Nat} (hw : 0 < w) (hw64 : w ≤ 64) {vs : List (BitVec 64)} {s : State} (h : Inv w vs s) {i : Nat}
    (hi : i < vs.length) : ∃ x, get w s i = some x ∧ ∀ t, t < w → x.getLsbD t = (vs[i]).getLsbD t := by
  have hwant : ∀ t, t < w → (vs[i]).getLsbD t = want w vs (i * w + t) := by
    intro t ht
    unfold want
    have hq : (i * w + t) / w = i := by
      apply Nat.div_eq_of_lt_le
      · omega
      · rw [Nat.add_mul]; omega
    have hm : (i * w + t) % w = t := by
      have := Nat.div_add_mod (i * w + t) w
      rw [hq, Nat.mul_comm w i] at this; omega
    rw [hq, hm, List.getD_eq_getElem?_getD, List.getElem?_eq_getElem hi]; rfl
  have hlen := h.len
  unfold needs at hlen
  have hmul : (i+1) * w ≤ vs.length * w := Nat.mul_le_mul_right w hi
  rw [Nat.add_mul, Nat.one_mul] at hmul
  unfold get
  simp only
  generalize i * w = P at *
  have hk : P / 64 < s.arr.length := by omega
  obtain ⟨a, ea, ha⟩ := getElem_bit hk
  have hl : P % 64 < 64 := Nat.mod_lt _ (by omega)
  rw [ea]
  simp only [Option.bind_eq_bind, Option.bind_some, shr, if_pos hl]
  by_cases hs : P % 64 + w > 64
  · rw [if_pos hs]
    have hk1 : P / 64 + 1 < s.arr.length := by omega
    obtain ⟨b, eb, hb⟩ := getElem_bit hk1
    rw [eb]
    simp only [Option.bind_some, shl, if_pos (show P % 64 + w - 64 < 64 by omega), if_pos (show 64 - P % 64 < 64 by omega)]
    refine ⟨_, rfl, fun t ht => ?_⟩
    rw [hwant t ht, ← h.bits]
    rw [BitVec.getLsbD_or, BitVec.getLsbD_ushiftRight, BitVec.getLsbD_shiftLeft]
    by_cases h1 : P % 64 + t < 64
    · rw [ha _ h1, show 64 * (P / 64) + (P % 64 + t) = P + t by omega]
      have : t < 64 - P % 64 := by omega
      simp [this]
    · rw [BitVec.getLsbD_of_ge _ _ (by omega)]
      have e1 : ¬ t < 64 - P % 64 := by omega
      have e2 : t - (64 - P % 64) < P % 64 + w - 64 := by omega
      have e3 : t - (64 - P % 64) < 64 := by omega
      have e4 := hb (t - (64 - P % 64)) e3
      rw [show 64 * (P / 64 + 1) + (t - (64 - P % 64)) = P + t by omega] at e4
      simp [e1, e2, e3, ← e4, BitVec.getLsbD_shiftLeft]
      omega
  · rw [if_neg hs]
    refine ⟨_, rfl, fun t ht => ?_⟩
    rw [hwant t ht, ← h.bits, BitVec.getLsbD_ushiftRight, ha _ (by omega), show 64 * (P / 64) + (P % 64 + t) = P + t by omega]

/-- C43, partial.  Full claim: after any history of `push_back` and `set`, `get(i)` is the last value written at `i`
modulo `2^w`.  It is false (`C43_get_violated`, `C43_set_violated`).  Proved here: after pushing any values that fit
`w` bits onto an empty vector, for every width `1 ≤ w ≤ 64`, all accesses are in range and the low `w` bits of
`get(i)` are the `i`-th value.  Missing: histories with `set`, and the high bits of `get`. -/
theorem C43_push_get_partial (w : Nat) (hw : 0 < w) (hw64 : w ≤ 64) (vs : List (BitVec 64)) (hfit : ∀ v ∈ vs, v.toNat < 2^w) :
    ∃ s, pushAll w (mk w 0) vs = some s ∧ s.size = vs.length ∧
      ∀ i (hi : i < vs.length), ∃ x, get w s i = some x ∧ x.toNat % 2^w = (vs[i]).toNat := by
  have h0 : needs w 0 = 0 := by unfold needs; omega
  obtain ⟨s, e, h⟩ := pushAll_spec hw hw64 vs [] (mk w 0) ⟨rfl, by simp [mk, h0], fun p => by simp [mk, h0, bit, want]⟩ hfit
  refine ⟨s, e, h.size, fun i hi => ?_⟩
  obtain ⟨x, ex, hx⟩ := get_spec hw hw64 h (by simpa using hi)
  refine ⟨x, ex, ?_⟩
  apply Nat.eq_of_testBit_eq
  intro t
  rw [Nat.testBit_mod_two_pow]
  by_cases ht : t < w
  · have := hx t ht
    unfold BitVec.getLsbD at this
    simpa [ht] using this
  · have := getLsbD_ge (hfit _ (List.getElem_mem hi)) (show w ≤ t by omega)
    unfold BitVec.getLsbD at this
    simp [ht, this]

example : ∀ v ∈ [5#64, 1023#64, 77#64], v.toNat < 2^10 := by simp
example : (pushAll 10 (mk 10 0) [1, 2, 3, 4, 5, 6, 1023, 8]).bind (fun s => get 10 s 6) = some 1023 := by decide

end Verif.IntVector
