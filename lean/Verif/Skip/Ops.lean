import Verif.Skip.Inv
import Verif.BitManip.Props
/-! The operations of `Skiplist` on the list of nodes. -/
namespace Verif.Skip
open Verif

variable {T : Type}

/-- The nodes `L` hold the values and heights `xs`. -/
def Holds (s : St T) (L : List Nat) (xs : List (T × Nat)) : Prop := L.map s.val = xs.map (fun x => some x.1) ∧ L.map s.ht = xs.map (·.2)

theorem Holds.len {s : St T} {L : List Nat} {xs : List (T × Nat)} (h : Holds s L xs) : L.length = xs.length := by
  have := congrArg List.length h.1; simpa using this

theorem holds_congr {s t : St T} {L : List Nat} {xs : List (T × Nat)} (h : Holds s L xs) (hv : ∀ a ∈ L, t.val a = s.val a) (hh : ∀ a ∈ L, t.ht a = s.ht a) : Holds t L xs :=
  ⟨by rw [← h.1]; exact List.map_congr_left hv, by rw [← h.2]; exact List.map_congr_left hh⟩

theorem holds_insert {s : St T} {b1 b2 : List Nat} {xs : List (T × Nat)} (h : Holds s (b1 ++ b2) xs) {w : Nat} {x : T × Nat} (hv : s.val w = some x.1) (hh : s.ht w = x.2) :
    Holds s (b1 ++ w :: b2) (xs.take b1.length ++ x :: xs.drop b1.length) := by
  obtain ⟨h1, h2⟩ := h
  rw [← List.take_append_drop b1.length xs, List.map_append, List.map_append] at h1 h2
  have hl := congrArg List.length h1
  have hl1 : (xs.take b1.length).length = b1.length := by
    rw [List.length_take]
    simp only [List.length_append, List.length_map, List.length_take, List.length_drop] at hl
    omega
  obtain ⟨p1, p2⟩ := List.append_inj h1 (by simp only [List.length_map]; exact hl1.symm)
  obtain ⟨q1, q2⟩ := List.append_inj h2 (by simp only [List.length_map]; exact hl1.symm)
  constructor
  · rw [List.map_append, List.map_cons, List.map_append, List.map_cons, p1, p2, hv]
  · rw [List.map_append, List.map_cons, List.map_append, List.map_cons, q1, q2, hh]

theorem holds_erase {s : St T} {b1 b2 : List Nat} {w : Nat} {xs : List (T × Nat)} (h : Holds s (b1 ++ w :: b2) xs) : Holds s (b1 ++ b2) (xs.eraseIdx b1.length) := by
  obtain ⟨h1, h2⟩ := h
  have e : (b1 ++ w :: b2).eraseIdx b1.length = b1 ++ b2 := by
    rw [List.eraseIdx_append_of_length_le (Nat.le_refl _)]; simp
  rw [← e, List.eraseIdx_eq_take_drop_succ, List.eraseIdx_eq_take_drop_succ]
  constructor
  · rw [List.map_append, List.map_take, List.map_drop, h1, ← List.map_take, ← List.map_drop, ← List.map_append]
  · rw [List.map_append, List.map_take, List.map_drop, h2, ← List.map_take, ← List.map_drop, ← List.map_append]

/-- The list is in the state `xs` of values with heights. -/
def Is (s : St T) (xs : List (T × Nat)) : Prop := ∃ L, Good s L ∧ Holds s L xs

theorem is_init : Is (init : St T) [] := ⟨[], good_init, rfl, rfl⟩

theorem pick_le {d : Nat} (h0 : d ≠ 0) (hd : d < 2^32) : pickHeight d ≤ 31 := by
  have := (BitManip.C27_ctz d (by omega)).1 h0
  unfold pickHeight
  generalize BitManip.ctz d = k at *
  by_contra c
  have h1 : 2^32 ≤ 2^k := Nat.pow_le_pow_right (by decide) (by omega)
  have h2 := this.1
  have := Nat.le_of_dvd (by omega) h2
  omega

/-- The levels above the heights of all nodes. -/
theorem lvl_high {s : St T} {L : List Nat} {r : Nat} (hl : ∀ x ∈ L, s.ht x < r) (h0 : r ≤ s.ht 0 → fld s 0 r = (none, 0)) : Lvl s (0 :: L) r := by
  intro pre u post e hu
  cases pre with
  | nil =>
    injection e with e1 e2
    subst e1; subst e2
    rw [h0 hu, nx_low hl]
  | cons a pre =>
    injection e with e1 e2
    have := hl u (by rw [e2]; simp)
    omega

theorem fld_high {s : St T} {L : List Nat} (h : Good s L) {r : Nat} (hr : s.height < r) (h32 : r ≤ 32) : fld s 0 r = (none, 0) := by
  rw [h.lvl r [] 0 L rfl (by rw [h.h0]; exact h32)]
  exact nx_low (fun x hx => Nat.lt_of_le_of_lt (h.hh x hx) hr)

/-- What `alloc` gives. -/
theorem alloc_ok {s : St T} {L : List Nat} (h : Good s L) {xs : List (T × Nat)} (hx : Holds s L xs) (v : T) {hw : Nat} (hhw : hw ≤ 32) {b1 b2 : List Nat} (e : L = b1 ++ b2) :
    s.fresh ∉ 0 :: L ∧ (alloc s v hw).ht s.fresh = hw ∧ (alloc s v hw).val s.fresh = some v ∧ (alloc s v hw).ht 0 = 32 ∧ (alloc s v hw).size = L.length ∧
    s.height ≤ (alloc s v hw).height ∧ hw ≤ (alloc s v hw).height ∧ (alloc s v hw).height ≤ 32 ∧ Holds (alloc s v hw) L xs ∧ (∀ x ∈ L, (alloc s v hw).ht x ≤ (alloc s v hw).height) ∧
    (∀ r, Lvl (alloc s v hw) (0 :: L) r) ∧ (∀ r, (alloc s v hw).height < r → Lvl (alloc s v hw) (0 :: b1 ++ s.fresh :: b2) r) := by
  have hf : s.fresh ∉ 0 :: L := fun c => Nat.lt_irrefl _ (h.fresh _ c)
  have hne : ∀ x ∈ 0 :: L, x ≠ s.fresh := fun x hx c => hf (c ▸ hx)
  have hh1 : s.height ≤ (alloc s v hw).height := by simp only [alloc]; split <;> omega
  have hh2 : hw ≤ (alloc s v hw).height := by simp only [alloc]; split <;> omega
  have hh3 : (alloc s v hw).height ≤ 32 := by have := h.hmax; simp only [alloc]; split <;> omega
  have hht : ∀ x ∈ 0 :: L, (alloc s v hw).ht x = s.ht x := fun x hx => by simp [alloc, hne x hx]
  have hval : ∀ x ∈ L, (alloc s v hw).val x = s.val x := fun x hx => by simp [alloc, hne x (List.mem_cons_of_mem _ hx)]
  have hfld : ∀ x ∈ 0 :: L, ∀ r, fld (alloc s v hw) x r = fld s x r := fun x hx r => by simp [alloc, fld, hne x hx]
  have hhL : ∀ x ∈ L, (alloc s v hw).ht x ≤ (alloc s v hw).height := fun x hx => by
    rw [hht x (List.mem_cons_of_mem _ hx)]; exact Nat.le_trans (h.hh x hx) hh1
  refine ⟨hf, by simp [alloc], by simp [alloc], by rw [hht 0 (by simp), h.h0], by simp [alloc, h.size], hh1, hh2, hh3,
    holds_congr hx hval (fun a ha => hht a (List.mem_cons_of_mem _ ha)), hhL, ?_, ?_⟩
  · intro r pre u post e hu
    have hu' : u ∈ 0 :: L := by rw [e]; simp
    rw [hht u hu'] at hu
    rw [hfld u hu', h.lvl r pre u post e hu]
    exact nx_congr (fun x hx => (hht x (by rw [e]; simp [hx])).symm)
  · intro r hr
    refine lvl_high (L := b1 ++ s.fresh :: b2) (fun x hx => ?_) (fun hr0 => ?_)
    · rcases List.mem_append.1 hx with hx | hx
      · exact Nat.lt_of_le_of_lt (hhL x (by rw [e]; simp [hx])) hr
      · rcases List.mem_cons.1 hx with rfl | hx
        · simp only [alloc, if_true] at hr ⊢; split at hr <;> omega
        · exact Nat.lt_of_le_of_lt (hhL x (by rw [e]; simp [hx])) hr
    · rw [hht 0 (by simp), h.h0] at hr0
      rw [hfld 0 (by simp)]
      exact fld_high h (by omega) hr0

theorem good_inserted {s t : St T} {b1 b2 : List Nat} (h : Good s (b1 ++ b2)) {v : T} {hw : Nat} {xs : List (T × Nat)} (hx : Holds s (b1 ++ b2) xs) (hhw : hw ≤ 32)
    (hs : Same (alloc s v hw) t) (hl : ∀ r, Lvl t (0 :: b1 ++ s.fresh :: b2) r) :
    Good { t with size := t.size + 1 } (b1 ++ s.fresh :: b2) ∧ Holds { t with size := t.size + 1 } (b1 ++ s.fresh :: b2) (xs.take b1.length ++ (v, hw) :: xs.drop b1.length) := by
  obtain ⟨a1, a2, a3, a4, a5, a6, a7, a8, a9, a10, a11, a12⟩ := alloc_ok h hx v hhw rfl
  have hperm : (b1 ++ s.fresh :: b2).Perm (s.fresh :: (b1 ++ b2)) := List.perm_middle
  have hmem : ∀ x, x ∈ b1 ++ s.fresh :: b2 ↔ x = s.fresh ∨ x ∈ b1 ++ b2 := fun x => by rw [hperm.mem_iff, List.mem_cons]
  have hfr : t.fresh = s.fresh + 1 := by rw [hs.fresh]; rfl
  refine ⟨⟨?_, ?_, ?_, ?_, ?_, ?_, hl⟩, ?_⟩
  · rw [(hperm.cons 0).nodup_iff, (List.Perm.swap _ _ _).nodup_iff, List.nodup_cons]
    exact ⟨a1, h.nodup⟩
  · intro x hx
    show x < t.fresh
    rw [hfr]
    rcases List.mem_cons.1 hx with rfl | hx
    · omega
    · rcases (hmem x).1 hx with rfl | hx
      · omega
      · have := h.fresh x (List.mem_cons_of_mem _ hx); omega
  · show t.ht 0 = 32
    rw [hs.ht, a4]
  · intro x hx
    show t.ht x ≤ t.height
    rw [hs.ht, hs.height]
    rcases (hmem x).1 hx with rfl | hx
    · rw [a2]; exact a7
    · exact a10 x hx
  · show t.height ≤ 32
    rw [hs.height]; exact a8
  · show t.size + 1 = _
    rw [hs.size, a5, hperm.length_eq, List.length_cons]
  · have := holds_insert a9 (w := s.fresh) (x := (v, hw)) a3 a2
    exact holds_congr this (fun a _ => by show t.val a = _; rw [hs.val]) (fun a _ => by show t.ht a = _; rw [hs.ht])

theorem head_drop {L : List Nat} {b1 b2 : List Nat} {w : Nat} (e : L = b1 ++ w :: b2) : L[b1.length]? = some w := by rw [e]; simp

/-- `insert_at`. -/
theorem insertAt_ok {s : St T} {L : List Nat} {xs : List (T × Nat)} (h : Good s L) (hx : Holds s L xs) (i : Nat) (v : T) {d : Nat} (h0 : d ≠ 0) (hd : d < 2^32) (hi : i ≤ xs.length) :
    ∃ t b1 b2, insertAt s i v d = some (t, some s.fresh) ∧ b1.length = i ∧ Good t (b1 ++ s.fresh :: b2) ∧
      Holds t (b1 ++ s.fresh :: b2) (xs.take i ++ (v, pickHeight d) :: xs.drop i) := by
  have hlen := hx.len
  obtain ⟨b1, b2, rfl, hb⟩ : ∃ b1 b2, L = b1 ++ b2 ∧ b1.length = i := ⟨L.take i, L.drop i, (List.take_append_drop i L).symm, by rw [List.length_take]; omega⟩
  have hp := pick_le h0 hd
  obtain ⟨a1, a2, a3, a4, a5, a6, a7, a8, a9, a10, a11, a12⟩ := alloc_ok h hx v (hw := pickHeight d) (by omega) rfl
  have hn : ((0 :: b1) ++ s.fresh :: b2).Nodup := by
    rw [(List.perm_middle (a := s.fresh) (l₁ := 0 :: b1) (l₂ := b2)).nodup_iff, List.nodup_cons]
    exact ⟨a1, h.nodup⟩
  have hl1 : b1.length ≤ (b1 ++ b2).length := by simp
  obtain ⟨t, e, hs, hl⟩ := insLoop_ok hn ((alloc s v (pickHeight d)).height + 1) (alloc s v (pickHeight d)) [] b1 0 a2 rfl (fun r hr => by rw [a4]; omega) (by rw [a5]; exact hl1)
    (by rw [a5, List.length_cons]; omega) (fun r _ => a11 r) (fun r hr => a12 r (by omega))
  obtain ⟨g1, g2⟩ := good_inserted h hx (by omega) hs hl
  rw [hb] at g2 e
  refine ⟨_, b1, b2, ?_, hb, g1, g2⟩
  unfold insertAt
  rw [if_neg (by rw [h.size]; omega), e]; rfl

theorem good_erased {s t : St T} {b1 b2 : List Nat} {w : Nat} (h : Good s (b1 ++ w :: b2)) {xs : List (T × Nat)} (hx : Holds s (b1 ++ w :: b2) xs)
    (hs : Same s t) (hl : ∀ r, Lvl t (0 :: b1 ++ b2) r) : Good { t with size := t.size - 1 } (b1 ++ b2) ∧ Holds { t with size := t.size - 1 } (b1 ++ b2) (xs.eraseIdx b1.length) := by
  have hsub : ∀ x, x ∈ b1 ++ b2 → x ∈ b1 ++ w :: b2 := fun x hx => by
    rcases List.mem_append.1 hx with h | h <;> simp [h]
  refine ⟨⟨?_, ?_, ?_, ?_, ?_, ?_, hl⟩, ?_⟩
  · have := (List.perm_middle (a := w) (l₁ := 0 :: b1) (l₂ := b2)).nodup_iff.1 h.nodup
    exact (List.nodup_cons.1 this).2
  · intro x hx
    show x < t.fresh
    rw [hs.fresh]
    rcases List.mem_cons.1 hx with rfl | hx
    · exact h.fresh 0 (by simp)
    · exact h.fresh x (List.mem_cons_of_mem _ (hsub x hx))
  · show t.ht 0 = 32
    rw [hs.ht, h.h0]
  · intro x hx
    show t.ht x ≤ t.height
    rw [hs.ht, hs.height]; exact h.hh x (hsub x hx)
  · show t.height ≤ 32
    rw [hs.height]; exact h.hmax
  · show t.size - 1 = _
    rw [hs.size, h.size]; simp
  · exact holds_congr (holds_erase hx) (fun a _ => by show t.val a = _; rw [hs.val]) (fun a _ => by show t.ht a = _; rw [hs.ht])

/-- `erase_at`. -/
theorem eraseAt_ok {s : St T} {L : List Nat} {xs : List (T × Nat)} (h : Good s L) (hx : Holds s L xs) (i : Nat) (hi : i < xs.length) :
    ∃ t L', eraseAt s i = some (t, L'[i]?) ∧ Good t L' ∧ Holds t L' (xs.eraseIdx i) := by
  have hlen := hx.len
  obtain ⟨b1, w, b2, rfl, hb⟩ : ∃ b1 w b2, L = b1 ++ w :: b2 ∧ b1.length = i :=
    ⟨L.take i, L[i]'(by omega), L.drop (i+1), by rw [← List.drop_eq_getElem_cons (by omega), List.take_append_drop], by rw [List.length_take]; omega⟩
  have hl1 : b1.length + 1 ≤ (b1 ++ w :: b2).length := by simp
  obtain ⟨t, pre', u', mid', e, hs, hl, e1, e2⟩ := eraLoop_ok (a1 := 0 :: b1) h.nodup (s.height + 1) s [] b1 0 rfl (fun r hr => by rw [h.h0]; have := h.hmax; omega)
    (by rw [h.size]; omega) (by rw [h.size, List.length_cons]; omega) (fun r _ => h.lvl r) (fun r hr => by
      refine lvl_high (L := b1 ++ b2) (fun x hx => ?_) (fun h32 => fld_high h (by omega) (by rw [h.h0] at h32; exact h32))
      have : x ∈ b1 ++ w :: b2 := by rcases List.mem_append.1 hx with h | h <;> simp [h]
      have := h.hh x this
      omega)
  obtain ⟨g1, g2⟩ := good_erased h hx hs hl
  have e2 := e2 (by omega)
  subst e2
  rw [hb] at g2 e
  refine ⟨_, b1 ++ b2, ?_, g1, g2⟩
  unfold eraseAt
  rw [if_neg (by rw [h.size]; omega), e, Option.bind_some, next_zero (hl 0) (pre := pre') (u := u') (post := b2) (by rw [e1]; simp)]
  simp only [Option.map_some]
  congr 2
  rw [← hb, List.getElem?_append_right (Nat.le_refl _), Nat.sub_self, List.head?_eq_getElem?]

/-- `get_at`. -/
theorem getAt_ok {s : St T} {L : List Nat} (h : Good s L) (i : Nat) : getAt s i = some L[i]? := by
  unfold getAt
  rw [h.size]
  by_cases c : L.length ≤ i
  · rw [if_pos c, List.getElem?_eq_none c]
  · obtain ⟨b1, w, b2, e, hb⟩ : ∃ b1 w b2, L = b1 ++ w :: b2 ∧ b1.length = i :=
      ⟨L.take i, L[i]'(by omega), L.drop (i+1), by rw [← List.drop_eq_getElem_cons (by omega), List.take_append_drop], by rw [List.length_take]; omega⟩
    have := getLoop_ok (a1 := 0 :: b1) (w := w) (a2 := b2) (s := s) (fun r => by have := h.lvl r; rwa [e] at this) (by rw [h.size, e]; simp) (s.height + 1) [] b1 0 (by omega) rfl
      (fun r hr => by rw [h.h0]; have := h.hmax; omega)
    rw [hb] at this
    rw [if_neg c, this, e, ← hb]; simp

/-- Iteration from an index. -/
theorem from_ok {s : St T} {L : List Nat} {xs : List (T × Nat)} (h : Good s L) (hx : Holds s L xs) (i : Nat) : valuesFrom s L[i]? = some ((xs.map (·.1)).drop i) := by
  have e := seen_ok (h.lvl 0) (L.drop i) (0 :: L.take i) ((xs.map (·.1)).drop i) s.size (by simp) (by
    rw [List.map_drop, hx.1, List.map_drop, List.map_map]; rfl) (by rw [h.size, List.length_drop]; omega)
  rw [List.head?_drop] at e
  exact e

theorem begin_ok {s : St T} {L : List Nat} (h : Good s L) : begin s = some L[0]? := by
  unfold begin
  rw [next_zero (h.lvl 0) (pre := []) (u := 0) (post := L) rfl, List.head?_eq_getElem?]

end Verif.Skip
