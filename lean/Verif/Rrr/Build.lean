import Verif.Rrr.Encode
/-! `build()` and the reading functions. -/
namespace Verif.Rrr
open Verif Verif.BitManip Verif.Succinct

/-- The low `n` bits of `x`. -/
def bits (n x : Nat) : List Bool := (List.range n).map x.testBit

theorem bits_len (n x : Nat) : (bits n x).length = n := by simp [bits]

theorem bits_get (n x p : Nat) : (bits n x)[p]? = if p < n then some (x.testBit p) else none := by
  unfold bits
  rw [List.getElem?_map]
  by_cases c : p < n
  · rw [if_pos c, List.getElem?_range c]; rfl
  · rw [if_neg c, List.getElem?_eq_none (by simpa using c)]; rfl

theorem bits_getD (n x p : Nat) : (bits n x).getD p false = (decide (p < n) && x.testBit p) := by
  rw [List.getD_eq_getElem?_getD, bits_get]
  by_cases c : p < n <;> simp [c]

theorem toNum_bits {n x : Nat} (h : x < 2^n) : toNum (bits n x) = x := by
  apply Nat.eq_of_testBit_eq
  intro p
  rw [toNum_testBit, bits_getD]
  by_cases c : p < n
  · simp [c]
  · rw [Nat.testBit_lt_two_pow (Nat.lt_of_lt_of_le h (Nat.pow_le_pow_right (by decide) (by omega)))]; simp

theorem set_tail {bm : Bm} {l : List Bool} {n a x : Nat} (h : Rel bm (l ++ List.replicate n false)) (ha : a ≤ n) (ha64 : a ≤ 64) (hx : x < 2^a) :
    ∃ bm', bm.rangeSet l.length (l.length + a) (BitVec.ofNat 64 x) = some bm' ∧ Rel bm' ((l ++ bits a x) ++ List.replicate (n - a) false) := by
  have hx64 : x < 2^64 := Nat.lt_of_lt_of_le hx (Nat.pow_le_pow_right (by decide) ha64)
  obtain ⟨bm', e, r⟩ := rangeSet_ok h (b := l.length) (e := l.length + a) (x := BitVec.ofNat 64 x) (by simp; omega) (by omega)
    (by rw [BitVec.toNat_ofNat, Nat.mod_eq_of_lt hx64, Nat.add_sub_cancel_left]; exact hx)
  refine ⟨bm', e, ?_⟩
  convert r using 1
  apply List.ext_getElem?
  intro p
  rw [List.getElem?_map, List.length_append, List.length_replicate]
  by_cases c : p < l.length + n
  · rw [List.getElem?_range c, Option.map_some]
    by_cases c1 : p < l.length
    · rw [List.append_assoc, List.getElem?_append_left c1, if_neg (by omega), List.getD_eq_getElem?_getD, List.getElem?_append_left c1, List.getElem?_eq_getElem c1]
      rfl
    · by_cases c2 : p < l.length + a
      · rw [if_pos (by omega), List.getElem?_append_left (by rw [List.length_append, bits_len]; omega), List.getElem?_append_right (by omega), bits_get, if_pos (by omega)]
        congr 1
        rw [BitVec.getLsbD_ofNat]
        simp; omega
      · rw [if_neg (by omega), List.getElem?_append_right (by rw [List.length_append, bits_len]; omega), List.length_append, bits_len,
          List.getElem?_replicate, if_pos (by omega), List.getD_eq_getElem?_getD, List.getElem?_append_right (by omega), List.getElem?_replicate, if_pos (by omega)]
        rfl
  · rw [List.getElem?_eq_none (by simp [bits_len]; omega), List.getElem?_eq_none (by simpa using c)]
    rfl

theorem get_mid {bm : Bm} {A B C : List Bool} (h : Rel bm (A ++ B ++ C)) (hB : B.length ≤ 64) {a b : Nat} (ea : a = A.length) (eb : b = A.length + B.length) :
    ∃ x, bm.rangeGet a b = some x ∧ x.toNat = toNum B := by
  subst ea eb
  obtain ⟨x, e, hx⟩ := rangeGet_ok h (b := A.length) (e := A.length + B.length) (by simp) (by omega)
  refine ⟨x, e, ?_⟩
  rw [hx, List.take_append_of_le_length (by simp), List.take_of_length_le (by simp), List.drop_left]

/-- One block. -/
def enc (tb : List (List Nat)) (s nb : Nat) (L : List Bool) : List Bool := bits nb (cn L) ++ bits ((numberBits tb s (cn L)).getD 0) (numOf L)

/-- The position of block `i`. -/
def pos (f : Nat → List Bool) (Ws : List Nat) (i : Nat) : Nat := ((Ws.take i).map f).flatten.length

/-- State of `build`: the words already stored. -/
structure Bi (tb : List (List Nat)) (s nb : Nat) (Ws : List Nat) (t : Bst) : Prop where
  pq : t.pq = Ws.length
  h : t.h = ((Ws.map fun w => enc tb s nb (bits s w)).flatten).length
  rel : Rel t.bm (Ws.map fun w => enc tb s nb (bits s w)).flatten
  heads : TY.Inv 64 ((List.range Ws.length).map fun i => (pos (fun w => enc tb s nb (bits s w)) Ws i : Int)) t.heads

theorem pos_len (f : Nat → List Bool) (Ws : List Nat) : pos f Ws Ws.length = (Ws.map f).flatten.length := by
  rw [pos, List.take_length]

theorem pos_snoc (f : Nat → List Bool) (Ws : List Nat) (w : Nat) {i : Nat} (h : i ≤ Ws.length) : pos f (Ws ++ [w]) i = pos f Ws i := by
  rw [pos, List.take_append_of_le_length h, pos]

theorem pos_bound {f : Nat → List Bool} {c : Nat} (hf : ∀ w, (f w).length ≤ c) : ∀ (Ws : List Nat) (q : Nat), q ≤ Ws.length →
    pos f Ws q ≤ (Ws.map f).flatten.length ∧ (Ws.map f).flatten.length ≤ pos f Ws q + (Ws.length - q) * c
  | [], q, h => by simp at h; subst h; simp [pos]
  | w :: Ws, 0, _ => by
    have := pos_bound hf Ws 0 (by omega)
    have hw := hf w
    simp only [pos, List.take_zero, List.map_nil, List.flatten_nil, List.length_nil, List.map_cons, List.flatten_cons, List.length_append, List.length_cons, Nat.sub_zero, Nat.zero_add] at this ⊢
    rw [Nat.add_mul]
    omega
  | w :: Ws, q+1, h => by
    have := pos_bound hf Ws q (by simpa using h)
    simp only [pos, List.take_succ_cons, List.map_cons, List.flatten_cons, List.length_append, List.length_cons, Nat.add_sub_add_right] at this ⊢
    omega

variable {tb : List (List Nat)} {s nb : Nat}

theorem enc_len (hs : s ≤ 63) (ht : Tb s tb) (hnb : nb ≤ 6) (w : Nat) : (enc tb s nb (bits s w)).length ≤ 69 := by
  have hc := cn_le (bits s w)
  rw [bits_len] at hc
  obtain ⟨x, e, hx, _⟩ := numberBits_ok hs ht hc
  rw [enc, List.length_append, bits_len, bits_len, e]
  simp; omega

theorem push_head (hs : s ≤ 63) (ht : Tb s tb) (hnb : nb ≤ 6) {Ws : List Nat} {t : Bst} (h : Bi tb s nb Ws t) (w : Nat) :
    ∃ hd, TY.pushBack 64 32767 t.heads t.h = some hd ∧
      TY.Inv 64 ((List.range (Ws ++ [w]).length).map fun i => (pos (fun w => enc tb s nb (bits s w)) (Ws ++ [w]) i : Int)) hd := by
  obtain ⟨hd, e, hi⟩ := TY.push_spec (D := 32767) (by omega) h.heads (t.h : Int) (by
    intro x hm hx
    rw [List.length_map, List.length_range] at hm hx
    have hlt : Ws.length / 64 * 64 < Ws.length := by omega
    rw [List.getElem?_map, List.getElem?_range hlt, Option.map_some, Option.some.injEq] at hx
    subst hx
    obtain ⟨b1, b2⟩ := pos_bound (f := fun w => enc tb s nb (bits s w)) (enc_len hs ht hnb) Ws (Ws.length / 64 * 64) (by omega)
    rw [← h.h] at b1 b2
    have : (Ws.length - Ws.length / 64 * 64) * 69 ≤ 63 * 69 := Nat.mul_le_mul_right _ (by omega)
    constructor <;> omega)
  refine ⟨hd, e, ?_⟩
  convert hi using 1
  rw [List.length_append, List.length_singleton, List.range_succ, List.map_append, List.map_singleton, pos_snoc _ _ _ (Nat.le_refl _), pos_len, ← h.h]
  congr 1
  apply List.map_congr_left
  intro i hi
  rw [pos_snoc _ _ _ (by have := List.mem_range.1 hi; omega)]

theorem enc_zero (ht : Tb s tb) (hs : s ≤ 63) : enc tb s nb (bits s 0) = bits nb 0 := by
  have h0 : cn (bits s 0) = 0 := by
    rw [cn, List.count_eq_zero]
    intro h
    obtain ⟨i, _, hi⟩ := List.mem_map.1 h
    simp at hi
  obtain ⟨x, e, _, _, hx⟩ := numberBits_ok hs ht (c := 0) (by omega)
  have := hx rfl
  subst this
  rw [enc, h0, e]
  simp [bits]

theorem skip_ok (hs : s ≤ 63) (ht : Tb s tb) (hnb : nb ≤ 6) : ∀ (n : Nat) {Ws : List Nat} {t : Bst} (q : Nat), Bi tb s nb Ws t → q = Ws.length + n →
    ∃ t', skip nb q n t = some t' ∧ Bi tb s nb (Ws ++ List.replicate n 0) t'
  | 0, Ws, t, q, h, e => ⟨t, by rw [skip, if_neg (by rw [h.pq]; omega)], by simpa using h⟩
  | n+1, Ws, t, q, h, e => by
    rw [skip, if_pos (by rw [h.pq]; omega)]
    obtain ⟨hd, e1, i1⟩ := push_head hs ht hnb h 0
    rw [e1, Option.bind_some]
    obtain ⟨b1, e2, r1⟩ := grow_ok h.rel (n := t.h + nb) (by rw [h.h]; omega) false
    rw [e2, Option.bind_some]
    rw [h.h, Nat.add_sub_cancel_left] at r1
    obtain ⟨b2, e3, r2⟩ := set_tail (a := nb) (x := 0) r1 (Nat.le_refl _) (by omega) (Nat.two_pow_pos _)
    rw [← h.h] at e3
    rw [show (0#64 : BitVec 64) = BitVec.ofNat 64 0 from rfl, e3, Option.bind_some]
    rw [Nat.sub_self, List.replicate_zero, List.append_nil] at r2
    have he : ((Ws ++ [0]).map fun w => enc tb s nb (bits s w)).flatten = (Ws.map fun w => enc tb s nb (bits s w)).flatten ++ bits nb 0 := by
      rw [List.map_append, List.flatten_append, List.map_singleton, enc_zero ht hs]; simp
    obtain ⟨t', e', h'⟩ := skip_ok hs ht hnb n (Ws := Ws ++ [0]) (t := ⟨t.h + nb, t.pq + 1, hd, b2⟩) q
      ⟨by simp [h.pq], by rw [he, List.length_append, bits_len, ← h.h], by rw [he]; exact r2, i1⟩ (by simp; omega)
    refine ⟨t', e', ?_⟩
    rw [List.append_assoc] at h'
    exact h'

theorem block_ok (hs : s ≤ 63) (ht : Tb s tb) (hnb : nb ≤ 6) (hsn : s < 2^nb) {Ws : List Nat} {t : Bst} (h : Bi tb s nb Ws t) {q v : Nat} (hq : Ws.length ≤ q) (hv : v < 2^s) :
    ∃ t', block tb s nb (q, v) t = some t' ∧ Bi tb s nb (Ws ++ List.replicate (q - Ws.length) 0 ++ [v]) t' := by
  unfold block
  obtain ⟨t1, e1, h1⟩ := skip_ok hs ht hnb (q - Ws.length) q h (by omega)
  dsimp only
  rw [h.pq, e1, Option.bind_some]
  generalize Ws ++ List.replicate (q - Ws.length) 0 = Vs at h1
  obtain ⟨hd, e2, i2⟩ := push_head hs ht hnb h1 v
  rw [e2, Option.bind_some]
  have hL : (bits s v).length = s := bits_len s v
  have hE := encode_ok hs ht hL
  have hG := getInt_ok hs ht hL
  rw [toNum_bits hv] at hE hG
  rw [hE, Option.bind_some, hG, Option.bind_some, if_neg (by simp)]
  have hc := cn_le (bits s v)
  rw [hL] at hc
  obtain ⟨x, e3, hx, hx2, _⟩ := numberBits_ok hs ht hc
  dsimp only
  rw [e3, Option.bind_some]
  obtain ⟨b1, e4, r1⟩ := grow_ok h1.rel (n := t1.h + (nb + x)) (by rw [h1.h]; omega) false
  rw [e4, Option.bind_some]
  have hn := numOf_lt (bits s v)
  rw [hL] at hn
  have h64 : ∀ k, k ≤ 63 → 2^k < 2^64 := fun k hk => Nat.pow_lt_pow_right (by decide) (by omega)
  have h6 : 2^nb ≤ 2^6 := Nat.pow_le_pow_right (by decide) hnb
  rw [h1.h, Nat.add_sub_cancel_left] at r1
  obtain ⟨b2, e5, r2⟩ := set_tail (a := nb) (x := cn (bits s v)) r1 (by omega) (by omega) (by omega)
  rw [← h1.h] at e5
  rw [e5, Option.bind_some]
  rw [Nat.add_sub_cancel_left] at r2
  obtain ⟨b3, e6, r3⟩ := set_tail (a := x) (x := numOf (bits s v)) r2 (Nat.le_refl _) (by omega) (by omega)
  rw [List.length_append, bits_len, ← h1.h, Nat.add_assoc] at e6
  rw [e6, Option.bind_some]
  rw [Nat.sub_self, List.replicate_zero, List.append_nil] at r3
  obtain ⟨y1, f1, g1⟩ := get_mid (a := t1.h) (b := t1.h + nb) r3 (by rw [bits_len]; omega) h1.h (by rw [bits_len, h1.h])
  rw [f1, Option.bind_some]
  obtain ⟨y2, f2, g2⟩ := get_mid (a := t1.h + nb) (b := t1.h + (nb + x)) (A := (Vs.map fun w => enc tb s nb (bits s w)).flatten ++ bits nb (cn (bits s v)))
    (B := bits x (numOf (bits s v))) (C := []) (by rw [List.append_nil]; exact r3) (by rw [bits_len]; omega)
    (by rw [List.length_append, bits_len, h1.h]) (by rw [List.length_append, bits_len, bits_len, h1.h]; omega)
  rw [f2, Option.bind_some]
  rw [toNum_bits (by omega)] at g1 g2
  rw [if_neg (by rw [g1, g2]; simp)]
  have he : ((Vs ++ [v]).map fun w => enc tb s nb (bits s w)).flatten = (Vs.map fun w => enc tb s nb (bits s w)).flatten ++ bits nb (cn (bits s v)) ++ bits x (numOf (bits s v)) := by
    rw [List.map_append, List.flatten_append, List.map_singleton, enc, e3]; simp
  refine ⟨_, rfl, by simp [h1.pq], ?_, by rw [he]; exact r3, i2⟩
  rw [he, List.length_append, List.length_append, bits_len, bits_len, ← h1.h]
  show t1.h + (nb + x) = _
  omega

/-- The words of a map, from block `pq` on. -/
def fill : Nat → List (Nat × Nat) → List Nat
  | _, [] => []
  | pq, (q, v) :: m => List.replicate (q - pq) 0 ++ v :: fill (q+1) m

theorem fold_ok (hs : s ≤ 63) (ht : Tb s tb) (hnb : nb ≤ 6) (hsn : s < 2^nb) : ∀ (m : List (Nat × Nat)) {Ws : List Nat} {t : Bst}, Bi tb s nb Ws t →
    m.Pairwise (fun a b => a.1 < b.1) → (∀ e ∈ m, Ws.length ≤ e.1 ∧ e.2 < 2^s) →
    ∃ t', m.foldlM (fun t e => block tb s nb e t) t = some t' ∧ Bi tb s nb (Ws ++ fill Ws.length m) t'
  | [], Ws, t, h, _, _ => ⟨t, rfl, by simpa [fill] using h⟩
  | (q, v) :: m, Ws, t, h, hp, hm => by
    obtain ⟨hq, hv⟩ := hm (q, v) (by simp)
    obtain ⟨t1, e1, h1⟩ := block_ok hs ht hnb hsn h hq hv
    have hlen : (Ws ++ List.replicate (q - Ws.length) 0 ++ [v]).length = q + 1 := by
      have hq' : Ws.length ≤ q := hq
      simp; omega
    obtain ⟨t2, e2, h2⟩ := fold_ok hs ht hnb hsn m h1 (List.pairwise_cons.1 hp).2 (by
      intro e he
      have h1 := (List.pairwise_cons.1 hp).1 e he
      rw [hlen]
      exact ⟨h1, (hm e (by simp [he])).2⟩)
    refine ⟨t2, by rw [List.foldlM_cons, e1]; exact e2, ?_⟩
    rw [hlen] at h2
    simpa [fill] using h2

/-- A built object. -/
structure Built (tb : List (List Nat)) (s : Nat) (Ws : List Nat) (r : Rrr) : Prop where
  nb : ∃ nb, bitWidth s = some nb ∧ nb ≤ 6 ∧ s < 2^nb ∧ Rel r.bm (Ws.map fun w => enc tb s nb (bits s w)).flatten ∧
    TY.Inv 64 ((List.range Ws.length).map fun i => (pos (fun w => enc tb s nb (bits s w)) Ws i : Int)) r.heads
  lt : ∀ w ∈ Ws, w < 2^s

theorem fill_lt : ∀ (m : List (Nat × Nat)) (pq : Nat), (∀ e ∈ m, e.2 < 2^s) → ∀ w ∈ fill pq m, w < 2^s
  | [], _, _, w, hw => by simp [fill] at hw
  | (q, v) :: m, pq, h, w, hw => by
    rw [fill, List.mem_append, List.mem_cons] at hw
    rcases hw with hw | hw | hw
    · rw [(List.mem_replicate.1 hw).2]; exact Nat.two_pow_pos s
    · rw [hw]; exact h (q, v) (by simp)
    · exact fill_lt m (q+1) (fun e he => h e (by simp [he])) w hw

theorem rel_empty : Rel ⟨[], 0⟩ [] := ⟨rfl, rfl, by intro p hp; exact absurd hp (Nat.not_lt_zero p)⟩

theorem build_ok' (h1 : 1 ≤ s) (hs : s ≤ 63) (ht : Tb s tb) {m : List (Nat × Nat)} (hp : m.Pairwise (fun a b => a.1 < b.1)) (hm : ∀ e ∈ m, e.2 < 2^s) :
    ∃ r, build tb s ⟨m, TY.empty, ⟨[], 0⟩⟩ = some r ∧ Built tb s (fill 0 m) r ∧ r.map = [] := by
  obtain ⟨nb, e, hnb, hsn⟩ := nbits_ok h1 hs
  unfold build
  rw [e, Option.bind_some]
  obtain ⟨t, e2, h2⟩ := fold_ok hs ht hnb hsn m (Ws := []) (t := ⟨0, 0, TY.empty, ⟨[], 0⟩⟩)
    ⟨rfl, rfl, rel_empty, ⟨by simp [TY.empty], rfl, by simp⟩⟩ hp (fun e he => ⟨Nat.zero_le _, hm e he⟩)
  dsimp only
  rw [e2]
  rw [List.nil_append, List.length_nil] at h2
  exact ⟨_, rfl, ⟨⟨nb, e, hnb, hsn, h2.rel, h2.heads⟩, fill_lt m 0 hm⟩, rfl⟩

variable {Ws : List Nat} {r : Rrr}

theorem Built.size (h : Built tb s Ws r) : TY.size r.heads = Ws.length := by
  obtain ⟨nb, _, _, _, _, hi⟩ := h.nb
  have := hi.sz
  rw [List.length_map, List.length_range] at this
  exact this

theorem stored_ok (hs : s ≤ 63) (ht : Tb s tb) (h : Built tb s Ws r) {i : Nat} (hi : i < Ws.length) :
    stored tb s r i = some (cn (bits s (Ws.getD i 0)), numOf (bits s (Ws.getD i 0))) := by
  obtain ⟨nb, e, hnb, hsn, hr, hh⟩ := h.nb
  unfold stored
  rw [e, Option.bind_some, hh.ok i (by simpa using hi), List.getElem?_map, List.getElem?_range hi, Option.map_some, Option.bind_some, Int.toNat_natCast]
  have hsplit : Ws = Ws.take i ++ Ws.getD i 0 :: Ws.drop (i+1) := by
    rw [List.getD_eq_getElem?_getD, List.getElem?_eq_getElem hi]
    simp
  generalize Ws.getD i 0 = w at hsplit ⊢
  have hL : (bits s w).length = s := bits_len s w
  have hc := cn_le (bits s w)
  rw [hL] at hc
  obtain ⟨x, e3, hx, hx2, _⟩ := numberBits_ok hs ht hc
  have hn := numOf_lt (bits s w)
  rw [hL] at hn
  have hr2 : Rel r.bm (((Ws.take i).map fun w => enc tb s nb (bits s w)).flatten ++ bits nb (cn (bits s w)) ++
      (bits x (numOf (bits s w)) ++ ((Ws.drop (i+1)).map fun w => enc tb s nb (bits s w)).flatten)) := by
    convert hr using 1
    conv_rhs => rw [hsplit]
    rw [List.map_append, List.flatten_append, List.map_cons, List.flatten_cons, enc, e3]
    simp
  obtain ⟨y1, f1, g1⟩ := get_mid (a := pos (fun w => enc tb s nb (bits s w)) Ws i) (b := pos (fun w => enc tb s nb (bits s w)) Ws i + nb) hr2
    (by rw [bits_len]; omega) rfl (by rw [bits_len]; rfl)
  rw [f1, Option.bind_some]
  rw [toNum_bits (by omega)] at g1
  rw [g1, e3, Option.bind_some]
  rw [← List.append_assoc] at hr2
  obtain ⟨y2, f2, g2⟩ := get_mid (a := pos (fun w => enc tb s nb (bits s w)) Ws i + nb) (b := pos (fun w => enc tb s nb (bits s w)) Ws i + nb + x) hr2
    (by rw [bits_len]; omega) (by rw [List.length_append, bits_len]; rfl) (by rw [List.length_append, bits_len, bits_len]; rfl)
  rw [f2, Option.map_some]
  rw [toNum_bits (by omega)] at g2
  rw [g2]

theorem get_ok (h1 : 1 ≤ s) (hs : s ≤ 63) (ht : Tb s tb) (h : Built tb s Ws r) (i : Nat) : get tb s r i = some ((Ws.getD (i / s) 0).testBit (i % s)) := by
  unfold get
  rw [h.size]
  by_cases c : Ws.length ≤ i / s
  · rw [if_pos c, List.getD_eq_getElem?_getD, List.getElem?_eq_none c]; simp
  · have hm := Nat.mod_lt i h1
    rw [if_neg c, stored_ok hs ht h (by omega), Option.bind_some, getBit_ok ht (bits_len _ _) hm, bits_getD]
    simp [hm]

theorem getWord_ok (hs : s ≤ 63) (ht : Tb s tb) (h : Built tb s Ws r) (i : Nat) : getWord tb s r i = some (Ws.getD i 0) := by
  unfold getWord
  rw [h.size]
  by_cases c : Ws.length ≤ i
  · rw [if_pos c, List.getD_eq_getElem?_getD, List.getElem?_eq_none c]; simp
  · rw [if_neg c, stored_ok hs ht h (by omega), Option.bind_some]
    dsimp only
    rw [getInt_ok hs ht (bits_len _ _), toNum_bits]
    apply h.lt
    rw [List.getD_eq_getElem?_getD, List.getElem?_eq_getElem (by omega)]
    simp

theorem mapM_pure' (f : Nat → Nat) : ∀ l : List Nat, l.mapM (fun i => some (f i)) = some (l.map f)
  | [] => rfl
  | a :: l => by rw [List.mapM_cons, mapM_pure' f l]; rfl

theorem src_ok' (hs : s ≤ 63) (ht : Tb s tb) (h : Built tb s Ws r) : src tb s r = some ⟨Ws.length * s, Ws⟩ := by
  unfold src
  rw [h.size]
  have : (List.range Ws.length).mapM (getWord tb s r) = some Ws := by
    rw [show getWord tb s r = fun i => some (Ws.getD i 0) from funext (getWord_ok hs ht h)]
    rw [mapM_pure']
    congr 1
    apply List.ext_getElem?
    intro i
    rw [List.getElem?_map]
    by_cases c : i < Ws.length
    · rw [List.getElem?_range c, Option.map_some, List.getD_eq_getElem?_getD, List.getElem?_eq_getElem c]; rfl
    · rw [List.getElem?_eq_none (by simpa using c), List.getElem?_eq_none (by omega)]; rfl
  rw [this]; rfl

/-- The stored bits. -/
def allBits (s : Nat) (Ws : List Nat) : List Bool := (List.range (Ws.length * s)).map fun i => (Ws.getD (i / s) 0).testBit (i % s)

theorem rs_ok (h1 : 1 ≤ s) (hs : s ≤ 63) (h : Built tb s Ws r) : RankSelect s ⟨Ws.length * s, Ws⟩ (allBits s Ws) := by
  have hlen : Ws.length = (Ws.length * s + (s - 1)) / s := by
    rw [Nat.mul_comm, Nat.mul_add_div h1, Nat.div_eq_of_lt (by omega)]; omega
  refine rankSelect_of ⟨h1, by omega, hlen, h.lt, ?_⟩ (by simp [allBits]) ?_
  · intro p hp
    have : Ws.length ≤ p / s := (Nat.le_div_iff_mul_le h1).2 hp
    unfold sbit
    rw [List.getD_eq_getElem?_getD, List.getElem?_eq_none this]; simp
  · intro p hp
    simp only [allBits, List.length_map, List.length_range] at hp
    rw [allBits, List.getElem?_map, List.getElem?_range hp]; rfl

end Verif.Rrr
