import Verif.Wavelet.Model
/-!
Correctness of the construction and of the child/parent maps.
-/
namespace Verif.Wavelet
open Verif.BitManip Verif.Succinct

/-- Bit `k` of `x` is `b`. -/
def hb (k : Nat) (b : Bool) (x : Nat) : Bool := x.testBit k == b

/-- The sequence at level `t`. -/
def lev (h : Nat) (S : List Nat) : Nat → List Nat
  | 0 => S
  | t+1 => (lev h S t).filter (hb (h - 1 - t) false) ++ (lev h S t).filter (hb (h - 1 - t) true)

theorem filter_split_length (k : Nat) : ∀ L : List Nat, (L.filter (hb k false)).length + (L.filter (hb k true)).length = L.length
  | [] => rfl
  | x :: L => by
      have ih := filter_split_length k L
      have e0 : hb k false x = !x.testBit k := by unfold hb; cases x.testBit k <;> rfl
      have e1 : hb k true x = x.testBit k := by unfold hb; cases x.testBit k <;> rfl
      rw [List.filter_cons, List.filter_cons, e0, e1]
      cases x.testBit k <;> simp <;> omega

theorem lev_length (h : Nat) (S : List Nat) : ∀ t, (lev h S t).length = S.length
  | 0 => rfl
  | t+1 => by rw [lev, List.length_append, filter_split_length, lev_length h S t]

/-- The bits of level `t`. -/
def lbits (h : Nat) (S : List Nat) (t : Nat) : List Bool := (lev h S t).map (fun x => x.testBit (h - 1 - t))

/-- The bits of the levels below `t`. -/
def abits (h : Nat) (S : List Nat) : Nat → List Bool
  | 0 => []
  | t+1 => abits h S t ++ lbits h S t

theorem lbits_length (h : Nat) (S : List Nat) (t : Nat) : (lbits h S t).length = S.length := by rw [lbits, List.length_map, lev_length]

theorem abits_length (h : Nat) (S : List Nat) : ∀ t, (abits h S t).length = S.length * t
  | 0 => rfl
  | t+1 => by rw [abits, List.length_append, abits_length h S t, lbits_length]; rfl

theorem abits_get (h : Nat) (S : List Nat) {t i : Nat} (hi : i < S.length) : ∀ u, t < u → (abits h S u)[S.length * t + i]? = (lbits h S t)[i]?
  | 0, hu => by omega
  | u+1, hu => by
      rw [abits]
      have hl := abits_length h S u
      by_cases c : t < u
      · have : S.length * (t + 1) ≤ S.length * u := Nat.mul_le_mul_left _ c
        rw [Nat.mul_add] at this
        rw [List.getElem?_append_left (by omega), abits_get h S hi u c]
      · have : t = u := by omega
        subst this
        rw [List.getElem?_append_right (by omega), hl, Nat.add_sub_cancel_left]

/-! ### Construction -/

theorem At.pos {i : It} {p : Nat} (h : Succinct.At i (p : Int)) : i.ctz = p % 64 ∧ 0 ≤ i.ptr ∧ i.ptr.toNat = p / 64 := by
  obtain ⟨h1, h2⟩ := h
  omega

theorem inc_at {i : It} {p : Nat} (h : Succinct.At i (p : Int)) : Succinct.At i.inc ((p + 1 : Nat) : Int) := by
  obtain ⟨h1, h2⟩ := h
  unfold It.inc
  split
  · exact ⟨by show i.ctz + 1 < 64; omega, by show 64 * i.ptr + ((i.ctz + 1 : Nat) : Int) = _; omega⟩
  · exact ⟨by show 0 < 64; omega, by show 64 * (i.ptr + 1) + ((0 : Nat) : Int) = _; omega⟩

theorem putIt_eq (s : Bm) {i : It} {p : Nat} (h : Succinct.At i (p : Int)) (b : Bool) : putIt s i b = s.put p b := by
  obtain ⟨h1, h2, h3⟩ := At.pos h
  unfold putIt
  rw [if_pos ⟨by omega, h2⟩, h3, h1]; rfl

theorem backFill_ok : ∀ (l A C : List Nat), l.length ≤ A.length →
    backFill (A ++ C) A.length l = some (A.take (A.length - l.length) ++ (l.reverse ++ C), A.length - l.length)
  | [], A, C, _ => by simp [backFill]
  | x :: l, A, C, h => by
      have hl : l.length + 1 ≤ A.length := h
      rw [backFill, if_neg (by omega), wr_some (by simp; omega), Option.bind_some]
      have e : (A ++ C).set (A.length - 1) x = A.take (A.length - 1) ++ (x :: C) := by
        rw [List.set_append, if_pos (by omega)]
        conv => lhs; rw [← List.take_append_drop (A.length - 1) A]
        rw [List.set_append, if_neg (by simp)]
        have : A.drop (A.length - 1) = [A[A.length - 1]'(by omega)] := by
          rw [List.drop_eq_getElem_cons (by omega), List.drop_eq_nil_of_le (by omega)]
        rw [this]
        simp
      have ih := backFill_ok l (A.take (A.length - 1)) (x :: C) (by simp; omega)
      have e2 : (A.take (A.length - 1)).length = A.length - 1 := by simp
      rw [e2] at ih
      rw [e, ih, List.take_take, Nat.min_eq_left (by omega)]
      simp only [List.reverse_cons, List.append_assoc, List.singleton_append, List.length_cons, Nat.sub_sub, Nat.add_comm 1]

theorem set_mid {X Y : List Bool} {b c : Bool} : (X ++ c :: Y).set X.length b = X ++ b :: Y := by
  rw [List.set_append, if_neg (by omega), Nat.sub_self]; rfl

theorem take_succ_get {L : List Nat} {i x : Nat} (h : L[i]? = some x) : L.take (i + 1) = L.take i ++ [x] := by
  rw [List.take_succ, h]; rfl

theorem scan_ok {B : Bm} {it : It} {X Y : List Bool} {L : List Nat} {k : Nat} (hr : Rel B (X ++ List.replicate L.length false ++ Y)) (hc : Clean B)
    (hit : Succinct.At it (X.length : Int)) :
    ∃ q, forRange 0 L.length (scanBody L k) ⟨B, it, [], []⟩ = some q ∧ Rel q.B (X ++ L.map (fun x => x.testBit k) ++ Y) ∧ Clean q.B ∧
      Succinct.At q.it ((X.length + L.length : Nat) : Int) ∧ q.z = L.filter (hb k false) ∧ q.o = L.filter (hb k true) := by
  obtain ⟨q, e, h1, h2, h3, h4, h5⟩ := forRange_inv
    (P := fun i (q : LSt) => Rel q.B (X ++ ((L.take i).map (fun x => x.testBit k) ++ List.replicate (L.length - i) false) ++ Y) ∧ Clean q.B ∧
      Succinct.At q.it ((X.length + i : Nat) : Int) ∧ q.z = (L.take i).filter (hb k false) ∧ q.o = (L.take i).filter (hb k true))
    (body := scanBody L k) (s := ⟨B, it, [], []⟩) (a := 0) (b := L.length) (Nat.zero_le _)
    ⟨by simpa using hr, hc, by simpa using hit, by simp, by simp⟩
    (by
      intro i q _ hi ⟨h1, h2, h3, h4, h5⟩
      have ex : L[i]? = some L[i] := List.getElem?_eq_getElem hi
      generalize L[i] = x at ex
      have hsz := h1.size
      have hlen : X.length + i < q.B.sz := by rw [← hsz]; simp; omega
      obtain ⟨B', eB, rB⟩ := put_ok h1 hlen (x.testBit k)
      have cB := clean_put h2 hlen eB
      have eset : (X ++ ((L.take i).map (fun x => x.testBit k) ++ List.replicate (L.length - i) false) ++ Y).set (X.length + i) (x.testBit k) =
          X ++ ((L.take (i + 1)).map (fun x => x.testBit k) ++ List.replicate (L.length - (i + 1)) false) ++ Y := by
        rw [show L.length - i = L.length - (i + 1) + 1 by omega, List.replicate_succ, take_succ_get ex, List.map_append]
        have := @set_mid (X ++ (L.take i).map (fun x => x.testBit k)) (List.replicate (L.length - (i + 1)) false ++ Y) (x.testBit k) false
        rw [List.length_append, List.length_map, List.length_take, Nat.min_eq_left (by omega)] at this
        simp only [List.append_assoc, List.cons_append, List.map_cons, List.map_nil, List.nil_append] at this ⊢
        exact this
      rw [eset] at rB
      rw [scanBody, ex, Option.bind_some, putIt_eq _ h3, eB, Option.map_some]
      have h3' := inc_at h3
      refine ⟨_, rfl, ?_⟩
      rw [take_succ_get ex, List.filter_append, List.filter_append]
      by_cases c : x.testBit k = true
      · rw [if_pos c]
        refine ⟨by rw [← take_succ_get ex]; exact rB, cB, h3', ?_, ?_⟩
        · show q.z = _; rw [h4]; simp [hb, c]
        · show q.o ++ [x] = _; rw [h5]; simp [hb, c]
      · rw [if_neg c]
        have c' : x.testBit k = false := by simpa using c
        refine ⟨by rw [← take_succ_get ex]; exact rB, cB, h3', ?_, ?_⟩
        · show q.z ++ [x] = _; rw [h4]; simp [hb, c']
        · show q.o = _; rw [h5]; simp [hb, c'])
  rw [List.take_length, Nat.sub_self, List.replicate_zero, List.append_nil] at h1
  rw [List.take_length] at h4 h5
  exact ⟨q, e, h1, h2, h3, h4, h5⟩

/-- Number of zeros of level `t`. -/
def zc (h : Nat) (S : List Nat) (t : Nat) : Nat := ((lev h S t).filter (hb (h - 1 - t) false)).length

structure CInv (h : Nat) (S : List Nat) (t : Nat) (c : CSt) : Prop where
  seq : c.S = lev h S t
  rel : Rel c.B (abits h S t ++ List.replicate (S.length * (h - t)) false)
  clean : Clean c.B
  it : Succinct.At c.it ((S.length * t : Nat) : Int)
  zl : c.Z.length = h
  z : ∀ u, u < t → c.Z[h - 1 - u]? = some (S.length * (u + 1) + zc h S u)

theorem level_ok {h : Nat} {S : List Nat} {t : Nat} (ht : t < h) {c : CSt} (hc : CInv h S t c) :
    ∃ c', levelBody S.length h (h - 1 - t) c = some c' ∧ CInv h S (t + 1) c' := by
  have hlen := lev_length h S t
  have hlc : c.S.length = S.length := by rw [hc.seq, hlen]
  have hal := abits_length h S t
  have hsplit : List.replicate (S.length * (h - t)) false = List.replicate (lev h S t).length false ++ List.replicate (S.length * (h - (t + 1))) false := by
    rw [List.replicate_append_replicate, hlen, show h - t = (h - (t + 1)) + 1 by omega, Nat.mul_add, Nat.mul_one, Nat.add_comm]
  have hr := hc.rel
  rw [hsplit, ← List.append_assoc] at hr
  obtain ⟨q, e, h1, h2, h3, h4, h5⟩ := scan_ok (k := h - 1 - t) hr hc.clean (by rw [hal]; exact hc.it)
  rw [hlen] at e
  have f1 : q.o.reverse.length ≤ S.length := by
    rw [List.length_reverse, h5]; have := filter_split_length (h - 1 - t) (lev h S t); omega
  have f2 : S.length - q.o.reverse.length = q.z.length := by
    rw [List.length_reverse, h5, h4]; have := filter_split_length (h - 1 - t) (lev h S t); omega
  have b1 := backFill_ok q.o.reverse c.S [] (by omega)
  rw [List.append_nil, hlc, List.reverse_reverse, List.append_nil, f2] at b1
  have hl2 : (c.S.take q.z.length).length = q.z.length := by rw [List.length_take, hlc]; omega
  have b2 := backFill_ok q.z.reverse (c.S.take q.z.length) q.o (by rw [hl2, List.length_reverse])
  rw [hl2, List.length_reverse, List.reverse_reverse, Nat.sub_self, List.take_zero, List.nil_append] at b2
  have ew : wr c.Z (h - 1 - t) (S.length * (h - 1 - (h - 1 - t) + 1) + q.z.length) = some (c.Z.set (h - 1 - t) (S.length * (t + 1) + q.z.length)) := by
    rw [wr_some (by rw [hc.zl]; omega), show h - 1 - (h - 1 - t) = t by omega]
  refine ⟨⟨q.z ++ q.o, q.B, q.it, c.Z.set (h - 1 - t) (S.length * (t + 1) + q.z.length)⟩, ?_, ?_⟩
  · unfold levelBody
    rw [hc.seq, e, Option.bind_some, ew, Option.bind_some, ← hc.seq, b1, Option.bind_some, b2, Option.bind_some, if_pos rfl]
  · refine ⟨?_, ?_, h2, ?_, ?_, ?_⟩
    · show q.z ++ q.o = _; rw [h4, h5]; rfl
    · exact h1
    · show Succinct.At q.it _
      rw [hal, hlen] at h3
      exact h3
    · show (c.Z.set _ _).length = h
      rw [List.length_set]; exact hc.zl
    · intro u hu
      show (c.Z.set _ _)[_]? = _
      rw [List.getElem?_set]
      by_cases cu : u = t
      · subst cu
        rw [if_pos rfl, if_pos (by rw [hc.zl]; omega), h4]; rfl
      · rw [if_neg (by omega)]
        exact hc.z u (by omega)

/-- What the constructor establishes. -/
structure Ok (w : WM) (S : List Nat) : Prop where
  n : w.n = S.length
  h1 : 1 ≤ w.h
  lt : ∀ x ∈ S, x < 2^w.h
  src : S ≠ [] → SrcOk 64 w.B.src
  bv : S ≠ [] → BvOk 64 w.B.src w.bv
  rel : S ≠ [] → Rel w.B (abits w.h S w.h)
  ro : S ≠ [] → ∀ t, t ≤ w.h → w.RO[t]? = some (cnt (sbit 64 w.B.src) true (S.length * t))
  z : S ≠ [] → ∀ t, t < w.h → w.Z[w.h - 1 - t]? = some (S.length * (t + 1) + zc w.h S t)

theorem buildH_ok (h : Nat) (h1 : 1 ≤ h) (S : List Nat) (hlt : ∀ x ∈ S, x < 2^h) : ∃ w, buildH h S = some w ∧ w.h = h ∧ Ok w S := by
  unfold buildH
  by_cases c : S.length = 0
  · have hS : S = [] := List.length_eq_zero_iff.mp c
    rw [if_pos c]
    exact ⟨_, rfl, rfl, ⟨c.symm, h1, hlt, fun h => absurd hS h, fun h => absurd hS h, fun h => absurd hS h, fun h => absurd hS h, fun h => absurd hS h⟩⟩
  rw [if_neg c]
  obtain ⟨t, e, ht⟩ := forRangeDown_inv (P := fun k (c : CSt) => CInv h S (h - k) c) (body := levelBody S.length h)
    (s := ⟨S, Bm.mk' (S.length * h) false, Bm.begin, List.replicate h 0⟩) (a := 0) (b := h) (Nat.zero_le _)
    (by
      rw [Nat.sub_self]
      refine ⟨rfl, ?_, clean_mk _ _ (Or.inl rfl), ?_, List.length_replicate, fun u hu => by omega⟩
      · have := mk_ok (S.length * h) false
        exact this
      · exact ⟨by show 0 < 64; omega, by show 64 * 0 + ((0 : Nat) : Int) = _; simp⟩)
    (by
      intro k q _ hk hq
      obtain ⟨c', e1, e2⟩ := level_ok (t := h - (k + 1)) (by omega) hq
      rw [show h - 1 - (h - (k + 1)) = k by omega] at e1
      rw [show h - (k + 1) + 1 = h - k by omega] at e2
      exact ⟨c', e1, e2⟩)
  rw [Nat.sub_zero] at ht
  have hrel := ht.rel
  rw [Nat.sub_self, Nat.mul_zero, List.replicate_zero, List.append_nil] at hrel
  have hsrc := src_ok hrel ht.clean
  obtain ⟨bv, eb, hb⟩ := build_ok hsrc
  have hsz : t.B.sz = S.length * h := by rw [← hrel.size, abits_length]
  obtain ⟨RO, er, hro⟩ := forRange_inv (P := fun i (RO : List Nat) => Rep RO (h + 1) (fun j => if j < i then cnt (sbit 64 t.B.src) true (S.length * j) else 0))
    (body := fillRO t.B bv S.length) (s := List.replicate (h + 1) 0) (a := 0) (b := h + 1) (Nat.zero_le _)
    ((Rep.replicate (h + 1) 0).congr (by intro i _; simp))
    (by
      intro i RO _ hi hr
      have hle : S.length * i ≤ S.length * h := Nat.mul_le_mul_left _ (by omega)
      have hn : t.B.src.n = S.length * h := hsz
      unfold fillRO
      rw [rank1_ok hsrc hb, Option.bind_some, hn, Nat.min_eq_left hle]
      obtain ⟨v, ev, hv⟩ := hr.wr hi (cnt (sbit 64 t.B.src) true (S.length * i))
      refine ⟨v, ev, hv.congr ?_⟩
      intro j hj
      by_cases cj : j = i
      · subst cj; rw [upd_same, if_pos (by omega)]
      · rw [upd_ne _ _ cj]
        by_cases c2 : j < i
        · rw [if_pos c2, if_pos (by omega)]
        · rw [if_neg c2, if_neg (by omega)])
  refine ⟨⟨S.length, h, t.B, bv, RO, t.Z⟩, ?_, rfl, ?_⟩
  · rw [e, Option.bind_some, eb, Option.bind_some, er]; rfl
  · refine ⟨rfl, h1, hlt, fun _ => hsrc, fun _ => hb, fun _ => hrel, ?_, ?_⟩
    · intro _ u hu
      have hu' : u ≤ h := hu
      have := hro.val u (by omega)
      rw [if_pos (by omega)] at this
      exact this
    · intro _ u hu
      exact ht.z u hu

theorem le_foldl_max : ∀ (l : List Nat) (a x : Nat), (x = a ∨ x ∈ l) → x ≤ l.foldl max a
  | [], a, x, h => by
      rcases h with h | h
      · subst h; exact Nat.le_refl _
      · cases h
  | y :: l, a, x, h => by
      rw [List.foldl_cons]
      rcases h with h | h
      · subst h
        exact Nat.le_trans (Nat.le_max_left _ _) (le_foldl_max l _ _ (Or.inl rfl))
      · rcases List.mem_cons.mp h with rfl | h
        · exact Nat.le_trans (Nat.le_max_right _ _) (le_foldl_max l _ _ (Or.inl rfl))
        · exact le_foldl_max l _ _ (Or.inr h)

theorem foldl_max_mem : ∀ (l : List Nat) (a : Nat), l.foldl max a = a ∨ l.foldl max a ∈ l
  | [], a => Or.inl rfl
  | y :: l, a => by
      rw [List.foldl_cons]
      rcases foldl_max_mem l (max a y) with h | h
      · rw [h]
        rcases Nat.le_total a y with c | c
        · rw [Nat.max_eq_right c]; exact Or.inr (by simp)
        · rw [Nat.max_eq_left c]; exact Or.inl rfl
      · exact Or.inr (List.mem_cons_of_mem _ h)

theorem mk_ok' (height : Option Nat) (S : List Nat) (hS : ∀ x ∈ S, x < 2^64) (hH : ∀ H, height = some H → 1 ≤ H ∧ ∀ x ∈ S, x < 2^H) :
    ∃ w, mk height S = some w ∧ Ok w S ∧ (∀ H, height = some H → w.h = H) ∧ (height = none → w.h = 1 ∨ ∃ x ∈ S, 2^(w.h - 1) ≤ x) := by
  unfold mk
  cases height with
  | some H =>
    obtain ⟨a, b⟩ := hH H rfl
    obtain ⟨w, e, eh, ok⟩ := buildH_ok H a S b
    exact ⟨w, e, ok, fun H' hH' => by rw [eh]; exact Option.some.inj hH', fun h => by cases h⟩
  | none =>
    by_cases c : S.length = 0
    · have hS0 : S = [] := List.length_eq_zero_iff.mp c
      subst hS0
      obtain ⟨w, e, eh, ok⟩ := buildH_ok 1 (Nat.le_refl _) [] (by simp)
      exact ⟨w, by show ((some 1).bind _) = _; exact e, ok, (fun H' h => by cases h), fun _ => Or.inl eh⟩
    · have hm := foldl_max_mem S 0
      have hle := fun x hx => le_foldl_max S 0 x (Or.inr hx)
      have hh : heightOf none S = (clz (S.foldl max 0)).map (fun c => max 1 (64 - c)) := by
        show (clz (if S.length = 0 then 0 else S.foldl max 0)).map _ = _
        rw [if_neg c]
      generalize S.foldl max 0 = m at *
      by_cases cm : m = 0
      · obtain ⟨w, e, eh, ok⟩ := buildH_ok 1 (Nat.le_refl _) S (fun x hx => by have := hle x hx; omega)
        refine ⟨w, ?_, ok, (fun H' h => by cases h), fun _ => Or.inl eh⟩
        rw [cm, (C27_clz 0 (by omega)).1 rfl] at hh
        rw [hh]; exact e
      · have hmem : m ∈ S := by
          rcases hm with hm | hm
          · exact absurd hm cm
          · exact hm
        obtain ⟨k, ek, hk, b1, b2⟩ := clz_spec (hS m hmem) cm
        obtain ⟨w, e, eh, ok⟩ := buildH_ok (64 - k) (by omega) S (fun x hx => Nat.lt_of_le_of_lt (hle x hx) b2)
        refine ⟨w, ?_, ok, (fun H' h => by cases h), fun _ => Or.inr ⟨m, hmem, ?_⟩⟩
        · rw [hh, ek, Option.map_some, Nat.max_eq_right (by omega), Option.bind_some]; exact e
        · rw [eh, show 64 - k - 1 = 63 - k by omega]; exact b1

/-! ### Moving between levels -/

/-- Bit `b` is at position `i` of level `t`. -/
theorem Ok.bit {w : WM} {S : List Nat} (ok : Ok w S) {t i x : Nat} (ht : t < w.h) (hx : (lev w.h S t)[i]? = some x) :
    sbit 64 w.B.src (S.length * t + i) = x.testBit (w.h - 1 - t) ∧ w.B.get (S.length * t + i) = some (x.testBit (w.h - 1 - t)) ∧ i < S.length := by
  have hi : i < S.length := by
    rw [← lev_length w.h S t]
    exact (List.getElem?_eq_some_iff.mp hx).1
  have hne : S ≠ [] := by intro h; rw [h] at hi; simp at hi
  have hr := ok.rel hne
  have e := abits_get w.h S hi w.h ht
  rw [lbits, List.getElem?_map, hx, Option.map_some] at e
  have hp : S.length * t + i < w.B.sz := by
    rw [← hr.size]; exact (List.getElem?_eq_some_iff.mp e).1
  refine ⟨?_, ?_, hi⟩
  · rw [sbit_bm, hr.bits _ hp, e]; rfl
  · rw [get_ok hr hp, List.getD_eq_getElem?_getD, e]; rfl

theorem filter_take_succ {L : List Nat} {i x : Nat} (p : Nat → Bool) (h : L[i]? = some x) :
    ((L.take (i+1)).filter p).length = ((L.take i).filter p).length + if p x then 1 else 0 := by
  rw [take_succ_get h, List.filter_append, List.length_append]
  congr 1
  cases e : p x <;> simp [e]

theorem Ok.cnt {w : WM} {S : List Nat} (ok : Ok w S) {t : Nat} (ht : t < w.h) (b : Bool) : ∀ i, i ≤ S.length →
    cnt (sbit 64 w.B.src) b (S.length * t + i) = cnt (sbit 64 w.B.src) b (S.length * t) + (((lev w.h S t).take i).filter (hb (w.h - 1 - t) b)).length
  | 0, _ => by simp
  | i+1, hi => by
      have ih := Ok.cnt ok ht b i (by omega)
      have hx : (lev w.h S t)[i]? = some ((lev w.h S t)[i]'(by rw [lev_length]; omega)) := List.getElem?_eq_getElem _
      generalize (lev w.h S t)[i]'_ = x at hx
      rw [← Nat.add_assoc, Succinct.cnt, ih, (ok.bit ht hx).1, filter_take_succ _ hx, Nat.add_assoc]
      congr 2
      unfold hb
      simp

/-- Offset of the `b` part of level `t + 1`. -/
def off (h : Nat) (S : List Nat) (t : Nat) (b : Bool) : Nat := if b then zc h S t else 0

theorem Ok.le {w : WM} {S : List Nat} (ok : Ok w S) (hne : S ≠ []) {p : Nat} (hp : p ≤ S.length * w.h) :
    w.rk p = some (Succinct.cnt (sbit 64 w.B.src) true p) := by
  have hsz : w.B.src.n = S.length * w.h := by
    show w.B.sz = _
    rw [← (ok.rel hne).size, abits_length]
  unfold WM.rk
  rw [rank1_ok (ok.src hne) (ok.bv hne), hsz, Nat.min_eq_left hp]

theorem Ok.child {w : WM} {S : List Nat} (ok : Ok w S) (hne : S ≠ []) {t : Nat} (ht : t < w.h) {i : Nat} (hi : i ≤ S.length) (b : Bool) :
    w.child t (S.length * t + i) b = some (S.length * (t + 1) + off w.h S t b + (((lev w.h S t).take i).filter (hb (w.h - 1 - t) b)).length) := by
  have hle : S.length * (t + 1) ≤ S.length * w.h := Nat.mul_le_mul_left _ ht
  rw [Nat.mul_add, Nat.mul_one] at hle
  have hrk := ok.le hne (p := S.length * t + i) (by omega)
  have c1 := ok.cnt ht true i hi
  have s1 := cnt_sum (sbit 64 w.B.src) (S.length * t)
  have hs := filter_split_length (w.h - 1 - t) ((lev w.h S t).take i)
  have hs2 := filter_split_length (w.h - 1 - t) (lev w.h S t)
  rw [List.length_take, lev_length, Nat.min_eq_left hi] at hs
  rw [lev_length] at hs2
  have cn := ok.cnt ht true S.length (Nat.le_refl _)
  rw [← lev_length w.h S t, List.take_length, lev_length] at cn
  cases b
  · show w.child0 t _ = _
    unfold WM.child0
    rw [ok.ro hne t (by omega), Option.bind_some, hrk, Option.bind_some, ok.n, if_pos (by omega), c1, Nat.mul_add, Nat.mul_one]
    refine congrArg some ?_
    show _ = _ + 0 + _
    omega
  · show w.child1 t _ = _
    unfold WM.child1
    have e2 : S.length * (t + 2) = S.length * t + S.length + S.length := by ring
    rw [ok.ro hne (t + 1) (by omega), hrk, Option.bind_some, Option.bind_some, ok.n, e2, Nat.mul_add, Nat.mul_one, cn, if_pos (by omega), c1]
    refine congrArg some ?_
    show _ = _ + zc w.h S t + _
    unfold zc
    omega

/-- The range `[l, r)` of `B` is the part `M` of level `t`. -/
def Sg (w : WM) (S : List Nat) (t l r : Nat) (M : List Nat) : Prop :=
  ∃ A C, lev w.h S t = A ++ M ++ C ∧ l = S.length * t + A.length ∧ r = l + M.length

theorem Ok.tie {w : WM} {S : List Nat} (ok : Ok w S) (hne : S ≠ []) {t l r : Nat} {M : List Nat} (ht : t < w.h) (hs : Sg w S t l r M) (b : Bool) :
    ∃ l' r', w.tie t l r b = some (l', r') ∧ Sg w S (t + 1) l' r' (M.filter (hb (w.h - 1 - t) b)) := by
  obtain ⟨A, C, e, rfl, rfl⟩ := hs
  have hlen := lev_length w.h S t
  rw [e, List.length_append, List.length_append] at hlen
  have h1 := ok.child hne ht (i := A.length) (by omega) b
  have h2 := ok.child hne ht (i := A.length + M.length) (by omega) b
  rw [e, List.append_assoc, List.take_append_of_le_length (Nat.le_refl _), List.take_length] at h1
  rw [e, List.take_append_of_le_length (by rw [List.length_append]), ← List.length_append, List.take_length, List.filter_append, List.length_append, List.length_append] at h2
  unfold WM.tie
  rw [← Nat.add_assoc (S.length * t)] at h2
  rw [h1, Option.bind_some, h2]
  refine ⟨_, _, rfl, ?_⟩
  have hlv : lev w.h S (t + 1) = (A.filter (hb (w.h - 1 - t) false) ++ M.filter (hb (w.h - 1 - t) false) ++ C.filter (hb (w.h - 1 - t) false)) ++
      (A.filter (hb (w.h - 1 - t) true) ++ M.filter (hb (w.h - 1 - t) true) ++ C.filter (hb (w.h - 1 - t) true)) := by
    rw [lev, e]; simp only [List.filter_append]
  have hz : zc w.h S t = (A.filter (hb (w.h - 1 - t) false) ++ M.filter (hb (w.h - 1 - t) false) ++ C.filter (hb (w.h - 1 - t) false)).length := by
    unfold zc; rw [e]; simp only [List.filter_append]
  cases b
  · refine ⟨A.filter (hb (w.h - 1 - t) false), C.filter (hb (w.h - 1 - t) false) ++
      (A.filter (hb (w.h - 1 - t) true) ++ M.filter (hb (w.h - 1 - t) true) ++ C.filter (hb (w.h - 1 - t) true)), ?_, rfl, by omega⟩
    rw [hlv]; simp only [List.append_assoc]
  · refine ⟨(A.filter (hb (w.h - 1 - t) false) ++ M.filter (hb (w.h - 1 - t) false) ++ C.filter (hb (w.h - 1 - t) false)) ++ A.filter (hb (w.h - 1 - t) true),
      C.filter (hb (w.h - 1 - t) true), ?_, ?_, by omega⟩
    · rw [hlv]; simp only [List.append_assoc]
    · rw [List.length_append, ← hz, Nat.add_assoc]; rfl

/-- `parent` undoes `child`. -/
theorem Ok.parent {w : WM} {S : List Nat} (ok : Ok w S) {t i x : Nat} (ht : t < w.h) (hx : (lev w.h S t)[i]? = some x) {p : Nat}
    (hp : w.child t (S.length * t + i) (x.testBit (w.h - 1 - t)) = some p) : w.parent t p (x.testBit (w.h - 1 - t)) = some (S.length * t + i) := by
  obtain ⟨hb1, hb2, hi⟩ := ok.bit ht hx
  have hne : S ≠ [] := by intro h; rw [h] at hi; simp at hi
  have hc := ok.child hne ht (i := i) (by omega) (x.testBit (w.h - 1 - t))
  rw [hp] at hc
  have hc := Option.some.inj hc
  have hle : S.length * (t + 1) ≤ S.length * w.h := Nat.mul_le_mul_left _ ht
  rw [Nat.mul_add, Nat.mul_one] at hle hc
  have hsz : w.B.src.n = S.length * w.h := by
    show w.B.sz = _
    rw [← (ok.rel hne).size, abits_length]
  have key : ∀ b k, sbit 64 w.B.src (S.length * t + i) = b → Succinct.cnt (sbit 64 w.B.src) b (S.length * t + i) = k →
      selectB 64 w.B.src w.bv b k = some (S.length * t + i) := by
    intro b k e1 e2
    have hsucc : Succinct.cnt (sbit 64 w.B.src) b (S.length * t + i + 1) = k + 1 := by rw [Succinct.cnt, e2, if_pos e1]
    have hm := cnt_mono (sbit 64 w.B.src) b (p := S.length * t + i + 1) (q := w.B.src.n) (by omega)
    obtain ⟨q, eq, hq, hqb, hqc⟩ := (select_ok (ok.src hne) (ok.bv hne) b k).1 (by omega)
    rw [eq]
    refine congrArg some ?_
    have hq1 : Succinct.cnt (sbit 64 w.B.src) b (q + 1) = k + 1 := by rw [Succinct.cnt, hqc, if_pos hqb]
    have a1 := cnt_lt (f := sbit 64 w.B.src) (B := b) (p := q) (q := S.length * t + i + 1) (by omega)
    have a2 := cnt_lt (f := sbit 64 w.B.src) (B := b) (p := S.length * t + i) (q := q + 1) (by omega)
    omega
  have s1 := cnt_sum (sbit 64 w.B.src) (S.length * t)
  generalize x.testBit (w.h - 1 - t) = b at *
  have cb := ok.cnt ht b i (by omega)
  cases b
  · show w.parent0 t p = _
    have hc : p = _ + 0 + _ := hc
    unfold WM.parent0
    rw [ok.ro hne t (by omega), Option.bind_some, ok.n, if_pos (by omega)]
    refine key false _ hb1 ?_
    omega
  · show w.parent1 t p = _
    have hc : p = _ + zc w.h S t + _ := hc
    unfold WM.parent1
    rw [ok.z hne t ht, Option.bind_some, ok.ro hne t (by omega), Option.bind_some, Nat.mul_add, Nat.mul_one, if_pos (by omega)]
    refine key true _ hb1 ?_
    omega

end Verif.Wavelet
