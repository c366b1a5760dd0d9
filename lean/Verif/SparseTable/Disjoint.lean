import Verif.SparseTable.Model
import Verif.Common.Fold
import Verif.Common.Msb
/-! C10: DisjointSparseTable. -/
namespace Verif.SparseTable
open Verif
variable {T : Type}

theorem lt_two_pow_bitWidth (x : Nat) : x < 2^bitWidth x := by
  unfold bitWidth
  split
  · omega
  · exact Nat.lt_log2_self

theorem mul2d (b i : Nat) : (b+1) * (2^i*2) = b * (2^i*2) + 2^i*2 := by rw [Nat.add_mul, Nat.one_mul]

/-- What entry `k` of level `i` must hold. -/
def dWant (op : T → T → T) (a : Nat → T) (i k : Nat) : T :=
  if k / 2^i % 2 = 0 then rng op a k ((k / 2^i + 1) * 2^i - 1 - k)
  else rng op a (k / 2^i * 2^i) (k - k / 2^i * 2^i)

/-- left half of block `b`. -/
theorem dWant_left {op : T → T → T} {a : Nat → T} {i b k : Nat} (h1 : b * (2^i*2) ≤ k) (h2 : k < b * (2^i*2) + 2^i) :
    dWant op a i k = rng op a k (b * (2^i*2) + 2^i - 1 - k) := by
  have e : k / 2^i = 2*b := by
    apply Nat.div_eq_of_lt_le
    · rw [show 2*b*2^i = b * (2^i*2) by rw [Nat.mul_comm 2 b, Nat.mul_assoc, Nat.mul_comm 2]]; exact h1
    · rw [Nat.add_mul, show 2*b*2^i = b * (2^i*2) by rw [Nat.mul_comm 2 b, Nat.mul_assoc, Nat.mul_comm 2]]; omega
  unfold dWant
  rw [e, if_pos (by omega), Nat.add_mul, show 2*b*2^i = b * (2^i*2) by rw [Nat.mul_comm 2 b, Nat.mul_assoc, Nat.mul_comm 2]]
  rw [Nat.one_mul]

/-- right half of block `b`. -/
theorem dWant_right {op : T → T → T} {a : Nat → T} {i b k : Nat} (h1 : b * (2^i*2) + 2^i ≤ k) (h2 : k < b * (2^i*2) + 2^i*2) :
    dWant op a i k = rng op a (b * (2^i*2) + 2^i) (k - (b * (2^i*2) + 2^i)) := by
  have e2 : 2*b*2^i = b * (2^i*2) := by rw [Nat.mul_comm 2 b, Nat.mul_assoc, Nat.mul_comm 2]
  have e : k / 2^i = 2*b+1 := by
    apply Nat.div_eq_of_lt_le
    · rw [Nat.add_mul, e2]; omega
    · rw [Nat.add_mul, Nat.add_mul, e2]; omega
  unfold dWant
  rw [e, if_neg (by omega), Nat.add_mul, e2, Nat.one_mul]

/-- Table state: row 0 is the data, levels `1..I-1` complete, level `I` complete below position `K`. -/
structure DInv (op : T → T → T) (a : Nat → T) (n I K : Nat) (g : Nat → Nat → T) : Prop where
  zero : ∀ k, k < n → g 0 k = a k
  done : ∀ i k, 0 < i → i < I → k < n → g i k = dWant op a i k
  cur : ∀ k, k < K → k < n → g I k = dWant op a I k

theorem dBuildBlock_spec {op : T → T → T} (hassoc : ∀ x y z, op (op x y) z = op x (op y z)) {a : Nat → T} {m n I b : Nat}
    (hI : 0 < I) (hIm : I < m) {t : List (List T)} {g : Nat → Nat → T} (hrep : Rep2 t m n g)
    (hb : b * (2^I*2) + 2^I*2 ≤ n) (hinv : DInv op a n I (b * (2^I*2)) g) :
    ∃ t' g', dBuildBlock op I (b * (2^I*2)) t = some t' ∧ Rep2 t' m n g' ∧ DInv op a n I ((b+1) * (2^I*2)) g' := by
  have hd : 0 < 2^I := Nat.two_pow_pos I
  rw [mul2d]
  have hL := fun k h1 h2 => dWant_left (op := op) (a := a) (i := I) (b := b) (k := k) h1 h2
  have hR := fun k h1 h2 => dWant_right (op := op) (a := a) (i := I) (b := b) (k := k) h1 h2
  unfold dBuildBlock
  simp only
  generalize b * (2^I*2) = j at *
  generalize 2^I = d at *
  -- middle element
  obtain ⟨t1, e1, r1⟩ := hrep.wr (i := I) (j := j+d-1) hIm (by omega) (g 0 (j+d-1))
  rw [hrep.rd (by omega) (by omega)]
  simp only [Option.bind_eq_bind, Option.bind_some, e1]
  -- leftwards
  have left := forRangeDown_inv (fun k t => ∃ g', Rep2 t m n g' ∧ DInv op a n I j g' ∧
      ∀ k', k ≤ k' → k' < j + d → g' I k' = dWant op a I k')
    (body := fun k t => (rd2 t 0 k).bind fun x => (rd2 t I (k+1)).bind fun y => wr2 t I k (op x y))
    (a := j) (b := j+d-1) (s := t1) (by omega) ⟨_, r1, ⟨?_, ?_, ?_⟩, ?_⟩ ?_
  rotate_left
  · intro k hk
    rw [upd2_ne _ _ (by omega)]; exact hinv.zero k hk
  · intro i k h0 h1 h2
    rw [upd2_ne _ _ (by omega)]; exact hinv.done i k h0 h1 h2
  · intro k hk hkn
    rw [upd2_ne _ _ (by omega)]; exact hinv.cur k hk hkn
  · intro k' h1 h2
    have : k' = j + d - 1 := by omega
    subst this
    rw [upd2_same, hinv.zero _ (by omega), hL _ (by omega) (by omega), Nat.sub_self]
    rfl
  · rintro k t h1 h2 ⟨g', hr, hi, hw⟩
    obtain ⟨t', e', r'⟩ := hr.wr (i := I) (j := k) hIm (by omega) (op (g' 0 k) (g' I (k+1)))
    refine ⟨t', ?_, _, r', ⟨?_, ?_, ?_⟩, ?_⟩
    · rw [hr.rd (by omega) (by omega), hr.rd hIm (by omega)]
      simpa using e'
    · intro k hk
      rw [upd2_ne _ _ (by omega)]; exact hi.zero k hk
    · intro i k h0 h1 h2
      rw [upd2_ne _ _ (by omega)]; exact hi.done i k h0 h1 h2
    · intro k hk hkn
      rw [upd2_ne _ _ (by omega)]; exact hi.cur k hk hkn
    · intro k' h3 h4
      by_cases hk : k' = k
      · subst hk
        rw [upd2_same, hi.zero _ (by omega), hw (k'+1) (by omega) (by omega), hL _ (by omega) (by omega),
          hL _ h1 h4, show j + d - 1 - k' = j + d - 1 - (k'+1) + 1 by omega, rng_cons hassoc]
      · rw [upd2_ne _ _ (by omega)]
        exact hw k' (by omega) h4
  obtain ⟨t2, e2, g2, r2, i2, w2⟩ := left
  rw [e2]
  simp only [Option.bind_some]
  rw [r2.rd (show 0 < m by omega) (show j + d < n by omega)]
  obtain ⟨t3, e3, r3⟩ := r2.wr (i := I) (j := j+d) hIm (by omega) (g2 0 (j+d))
  simp only [Option.bind_some, e3]
  -- rightwards
  have right := forRange_inv (fun k t => ∃ g', Rep2 t m n g' ∧ DInv op a n I (j+d) g' ∧
      ∀ k', j + d ≤ k' → k' < k → g' I k' = dWant op a I k')
    (body := fun k t => (rd2 t I (k-1)).bind fun x => (rd2 t 0 k).bind fun y => wr2 t I k (op x y))
    (a := j+d+1) (b := j+d*2) (s := t3) (by omega) ⟨_, r3, ⟨?_, ?_, ?_⟩, ?_⟩ ?_
  rotate_left
  · intro k hk
    rw [upd2_ne _ _ (by omega)]; exact i2.zero k hk
  · intro i k h0 h1 h2
    rw [upd2_ne _ _ (by omega)]; exact i2.done i k h0 h1 h2
  · intro k hk hkn
    rw [upd2_ne _ _ (by omega)]
    by_cases hkj : k < j
    · exact i2.cur k hkj hkn
    · exact w2 k (by omega) hk
  · intro k' h1 h2
    have : k' = j + d := by omega
    subst this
    rw [upd2_same, i2.zero _ (by omega), hR _ (by omega) (by omega), Nat.sub_self]
    rfl
  · rintro k t h1 h2 ⟨g', hr, hi, hw⟩
    obtain ⟨t', e', r'⟩ := hr.wr (i := I) (j := k) hIm (by omega) (op (g' I (k-1)) (g' 0 k))
    refine ⟨t', ?_, _, r', ⟨?_, ?_, ?_⟩, ?_⟩
    · rw [hr.rd hIm (by omega), hr.rd (show 0 < m by omega) (show k < n by omega)]
      simpa using e'
    · intro k hk
      rw [upd2_ne _ _ (by omega)]; exact hi.zero k hk
    · intro i k h0 h1 h2
      rw [upd2_ne _ _ (by omega)]; exact hi.done i k h0 h1 h2
    · intro k hk hkn
      rw [upd2_ne _ _ (by omega)]; exact hi.cur k hk hkn
    · intro k' h3 h4
      by_cases hk : k' = k
      · subst hk
        rw [upd2_same, hi.zero _ (by omega), hw (k'-1) (by omega) (by omega), hR _ (by omega) (by omega),
          hR _ (by omega) (by omega), show k' - (j+d) = k' - 1 - (j+d) + 1 by omega]
        show _ = op _ _
        rw [show j + d + (k' - 1 - (j+d)) + 1 = k' by omega]
      · rw [upd2_ne _ _ (by omega)]
        exact hw k' h3 (by omega)
  obtain ⟨t4, e4, g4, r4, i4, w4⟩ := right
  refine ⟨t4, g4, e4, r4, i4.zero, i4.done, ?_⟩
  intro k hk hkn
  by_cases hkj : k < j + d
  · exact i4.cur k hkj hkn
  · exact w4 k (by omega) (by omega)

theorem copyRow0_spec {m n : Nat} (hm : 0 < m) (xs : List T) (hxs : xs.length ≤ n) (x : T) :
    ∃ t0 g0, copyRow0 xs (List.replicate m (List.replicate n x)) = some t0 ∧ Rep2 t0 m n g0 ∧
      (∀ k, g0 0 k = xs.getD k x) ∧ (∀ i k, 0 < i → g0 i k = x) := by
  unfold copyRow0
  have h0 : (List.replicate m (List.replicate n x))[0]? = some (List.replicate n x) := by simp [hm]
  simp only [h0, Option.bind_eq_bind, Option.bind_some]
  rw [if_pos (by simpa using hxs)]
  refine ⟨_, fun i k => if i = 0 then xs.getD k x else x, if_pos (by simpa using hm), ⟨by simp, ?_⟩, by simp, ?_⟩
  · intro i hi
    by_cases h0 : i = 0
    · subst h0
      refine ⟨_, List.getElem?_set_self (by simpa using hm), ⟨by simp; omega, ?_⟩⟩
      intro k hk
      simp only [if_true]
      by_cases hkx : k < xs.length
      · rw [List.getElem?_append_left hkx]
        simp [List.getD_eq_getElem?_getD, List.getElem?_eq_getElem hkx]
      · rw [List.getElem?_append_right (by omega)]
        have hd : xs.getD k x = x := by
          have : xs[k]? = none := List.getElem?_eq_none (by omega)
          simp [List.getD_eq_getElem?_getD, this]
        rw [hd]
        simp only [List.drop_replicate, List.getElem?_replicate]
        rw [if_pos (by omega)]
    · refine ⟨List.replicate n x, ?_, ?_⟩
      · rw [List.getElem?_set_ne (Ne.symm h0)]; simp [hi]
      · simpa [h0] using Rep.replicate n x
  · intro i k hi
    have : i ≠ 0 := by omega
    simp [this]

theorem dBuild_spec [Inhabited T] {op : T → T → T} (hassoc : ∀ x y z, op (op x y) z = op x (op y z)) (xs : List T)
    (hx : xs ≠ []) :
    ∃ t g, dBuild op xs = some t ∧ t.logN = bitWidth (xs.length - 1) ∧ xs.length ≤ 2^t.logN ∧
      Rep2 t.table (max t.logN 1) (2^t.logN) g ∧
      (∀ k, k < 2^t.logN → g 0 k = xs.getD k default) ∧
      (∀ i k, 0 < i → i < t.logN → k < 2^t.logN → g i k = dWant op (fun k => xs.getD k default) i k) := by
  have hn : xs.length ≠ 0 := by simpa using hx
  unfold dBuild
  rw [if_neg hn]
  have hlt := lt_two_pow_bitWidth (xs.length - 1)
  generalize hLdef : bitWidth (xs.length - 1) = L at *
  have hle : xs.length ≤ 2^L := by omega
  obtain ⟨t0, g0, e0, r0, z0, _⟩ := copyRow0_spec (m := max L 1) (n := 2^L) (by omega) xs hle default
  simp only [e0, Option.bind_eq_bind, Option.bind_some]
  have main : ∃ t, forRange 1 L (fun i t => dBuildRow op L i t) t0 = some t ∧
      ∃ g, Rep2 t (max L 1) (2^L) g ∧ DInv op (fun k => xs.getD k default) (2^L) L 0 g := by
    rcases Nat.lt_or_ge 1 L with h1 | h1
    · refine forRange_inv (fun i t => ∃ g, Rep2 t (max L 1) (2^L) g ∧ DInv op (fun k => xs.getD k default) (2^L) i 0 g)
        (by omega) ⟨g0, r0, fun k _ => z0 k, fun i k h0 h1 => by omega, fun k h => by omega⟩ ?_
      rintro i t hi1 hi2 ⟨g, hr, hi⟩
      unfold dBuildRow
      have e2 : 2^(L-1-i) * (2^i*2) = 2^L := by
        rw [← Nat.pow_succ, ← Nat.pow_add]; congr 1; omega
      obtain ⟨t', e', g', hr', hi'⟩ := forRange_inv (fun b t => ∃ g, Rep2 t (max L 1) (2^L) g ∧
          DInv op (fun k => xs.getD k default) (2^L) i (b * (2^i*2)) g)
        (body := fun b t => dBuildBlock op i (b * (2^i*2)) t) (a := 0) (b := 2^(L-1-i)) (s := t) (Nat.zero_le _)
        ⟨g, hr, by simpa using hi⟩ (by
          rintro b t _ hb ⟨g, hr, hi⟩
          have hb' : (b+1) * (2^i*2) ≤ 2^(L-1-i) * (2^i*2) := Nat.mul_le_mul_right _ hb
          rw [e2, mul2d] at hb'
          obtain ⟨t', g', e', hr', hi'⟩ := dBuildBlock_spec hassoc hi1 (by omega) hr hb' hi
          exact ⟨t', e', g', hr', hi'⟩)
      rw [e2] at hi'
      refine ⟨t', e', g', hr', hi'.zero, ?_, fun k h => by omega⟩
      intro i' k h0 h3 hk
      by_cases hii : i' = i
      · subst hii; exact hi'.cur k hk hk
      · exact hi'.done i' k h0 (by omega) hk
    · refine ⟨t0, ?_, g0, r0, fun k _ => z0 k, fun i k h0 h1 => by omega, fun k h => by omega⟩
      unfold forRange
      rw [show L - 1 = 0 by omega]
      rfl
  obtain ⟨t, e, g, hr, hi⟩ := main
  simp only [e, Option.bind_some]
  exact ⟨_, g, rfl, rfl, hle, hr, hi.zero, hi.done⟩

/-- C10: for every associative operation, `query(l,r)` is the left-to-right fold of the elements `l..r-1`, for every
non-empty input and every `l < r ≤ n`; no out-of-range access happens. -/
theorem C10_query [Inhabited T] (op : T → T → T) (hassoc : ∀ x y z, op (op x y) z = op x (op y z))
    (xs : List T) (hx : xs ≠ []) :
    ∃ t, dBuild op xs = some t ∧ ∀ l r, l < r → r ≤ xs.length →
      ∃ v, dQuery op t l r = some v ∧ fold1 op ((xs.take r).drop l) = some v := by
  obtain ⟨t, g, e, hL, hle, hr, hz, hg⟩ := dBuild_spec hassoc xs hx
  refine ⟨t, e, fun l r hlr hrn => ?_⟩
  refine ⟨rng op (fun i => xs.getD i default) l (r - l - 1), ?_, ?_⟩
  · unfold dQuery
    by_cases h1 : l + 1 = r
    · rw [if_pos h1, hr.rd (by omega) (by omega), hz l (by omega), show r - l - 1 = 0 by omega]
      rfl
    · rw [if_neg h1]
      obtain ⟨y, rfl⟩ : ∃ y, r = y + 1 := ⟨r-1, by omega⟩
      rw [Nat.add_sub_cancel]
      have hne : y ^^^ l ≠ 0 := by
        intro h0
        have : y = l := by
          calc y = y ^^^ (l ^^^ l) := by rw [Nat.xor_self, Nat.xor_zero]
            _ = (y ^^^ l) ^^^ l := by rw [Nat.xor_assoc]
            _ = l := by rw [h0, Nat.zero_xor]
        omega
      have hp1 := Nat.log2_self_le hne
      have hp2 := @Nat.lt_log2_self (y ^^^ l)
      have hp3 : Nat.log2 (y ^^^ l) < t.logN := by
        rw [Nat.log2_lt hne]
        exact Nat.xor_lt_two_pow (by omega) (by omega)
      unfold msb
      rw [if_neg hne]
      generalize Nat.log2 (y ^^^ l) = p at *
      simp only [Option.bind_eq_bind, Option.bind_some]
      rw [hr.rd (by omega) (by omega), hr.rd (by omega) (by omega)]
      simp only [Option.bind_some]
      have hw : ∀ k, k < 2^t.logN → g p k = dWant op (fun k => xs.getD k default) p k := by
        intro k hk
        by_cases hp0 : p = 0
        · subst hp0
          rw [hz k hk]
          unfold dWant
          split
          · rw [show (k / 2^0 + 1) * 2^0 - 1 - k = 0 by simp]; rfl
          · rw [show k - k / 2^0 * 2^0 = 0 by simp, show k / 2^0 * 2^0 = k by simp]; rfl
        · exact hg p k (by omega) hp3 hk
      rw [hw l (by omega), hw y (by omega)]
      rw [Nat.xor_comm] at hp1 hp2
      obtain ⟨q, q1, q2⟩ := xor_msb (x := l) (y := y) (by omega) hp1 hp2
      unfold dWant
      rw [q1, q2, if_pos (by omega), if_neg (by omega)]
      have b1 : l < (2*q+1) * 2^p := by
        rw [← q1]; exact Nat.lt_mul_of_div_lt (by omega) (Nat.two_pow_pos p)
      have b2 : (2*q+1) * 2^p ≤ y := by
        rw [← q2]; exact Nat.div_mul_le_self y (2^p)
      rw [rng_append' hassoc _ (n := y + 1 - l - 1) (by omega) (by omega)]
  · have := rng_eq_fold1 (op := op) (Rep.ofList xs default).val (l := l) (r - l - 1) (by omega)
    rwa [show l + (r - l - 1) + 1 = r by omega] at this

/-- A non-commutative, non-idempotent instance. -/
example : (dBuild (fun a b : List Nat => a ++ b) [[3], [1], [4], [1], [5]]).bind
    (fun t => dQuery (fun a b => a ++ b) t 1 4) = some [1, 4, 1] := by decide

end Verif.SparseTable
