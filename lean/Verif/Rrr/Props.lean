import Verif.Rrr.Build
/-!
C100: the compressed bit vector `RRR` (`/repo/include/mtl/succinct/rrr.hpp`), with every block size from 1 to 63, and `BV` on top of it.
-/
namespace Verif.Rrr
open Verif Verif.BitManip Verif.Succinct

/-! ### Specification -/

/-- The bit at `i` after the calls `set(j, b)` of `ops`, the last one last. -/
def written (ops : List (Nat × Bool)) (i : Nat) : Bool := ((ops.reverse.find? fun o => o.1 == i).map (·.2)).getD false

/-- `N` is the number of blocks of `s` bits that `ops` touch, from the first block on. -/
def Blocks (s : Nat) (ops : List (Nat × Bool)) (N : Nat) : Prop := (∀ o ∈ ops, o.1 / s < N) ∧ (N = 0 ∨ ∃ o ∈ ops, o.1 / s + 1 = N)

/-! ### The map -/

def look (m : List (Nat × Nat)) (q : Nat) : Nat := ((m.find? fun e => e.1 == q).map (·.2)).getD 0

theorem look_nil (q : Nat) : look [] q = 0 := rfl

theorem look_cons (p v : Nat) (m : List (Nat × Nat)) (q : Nat) : look ((p, v) :: m) q = if p = q then v else look m q := by
  unfold look
  by_cases c : p = q
  · simp [c]
  · rw [if_neg c, List.find?_cons_of_neg (by simpa using c)]

theorem look_none : ∀ {m : List (Nat × Nat)} {q : Nat}, (∀ e ∈ m, e.1 ≠ q) → look m q = 0
  | [], q, _ => rfl
  | (p, v) :: m, q, h => by rw [look_cons, if_neg (h (p, v) (by simp)), look_none (fun e he => h e (by simp [he]))]

abbrev Srt (m : List (Nat × Nat)) : Prop := m.Pairwise (fun a b => a.1 < b.1)

theorem upsert_ok (f : Nat → Nat) (q : Nat) : ∀ {m : List (Nat × Nat)}, Srt m →
    Srt (upsert f q m) ∧ (∀ p, look (upsert f q m) p = if p = q then f (look m q) else look m p) ∧ (∀ k, (∃ e ∈ upsert f q m, e.1 = k) ↔ (k = q ∨ ∃ e ∈ m, e.1 = k))
  | [], _ => ⟨by simp [upsert], by intro p; rw [upsert, look_cons, look_nil, look_nil]; by_cases c : p = q <;> [simp [c]; rw [if_neg c, if_neg (fun h => c h.symm)]], by intro k; simp [upsert, eq_comm]⟩
  | (p, v) :: m, h => by
    obtain ⟨hh, ht⟩ := List.pairwise_cons.1 h
    rw [upsert]
    by_cases c1 : q < p
    · rw [if_pos c1]
      have hn : look ((p, v) :: m) q = 0 := look_none (by
        intro e he
        rcases List.mem_cons.1 he with rfl | he
        · show p ≠ q; omega
        · have := hh e he
          show e.1 ≠ q
          have : p < e.1 := this
          omega)
      refine ⟨List.pairwise_cons.2 ⟨?_, h⟩, ?_, ?_⟩
      · intro e he
        rcases List.mem_cons.1 he with rfl | he
        · exact c1
        · have : p < e.1 := hh e he
          show q < e.1; omega
      · intro k
        rw [look_cons, hn]
        by_cases c : k = q
        · simp [c]
        · rw [if_neg c, if_neg (fun h => c h.symm)]
      · intro k; simp [eq_comm]
    · rw [if_neg c1]
      by_cases c2 : q = p
      · subst c2
        rw [if_pos rfl]
        refine ⟨List.pairwise_cons.2 ⟨fun e he => hh e he, ht⟩, ?_, ?_⟩
        · intro k
          rw [look_cons, look_cons, look_cons, if_pos rfl]
          by_cases c : k = q
          · simp [c]
          · rw [if_neg c, if_neg (fun h => c h.symm), if_neg (fun h => c h.symm)]
        · intro k
          simp only [List.mem_cons, exists_eq_or_imp]
          constructor
          · rintro (h | h)
            · exact Or.inl h.symm
            · exact Or.inr (Or.inr h)
          · rintro (h | h | h)
            · exact Or.inl h.symm
            · exact Or.inl h
            · exact Or.inr h
      · rw [if_neg c2]
        obtain ⟨i1, i2, i3⟩ := upsert_ok f q ht
        refine ⟨List.pairwise_cons.2 ⟨?_, i1⟩, ?_, ?_⟩
        · intro e he
          rcases (i3 e.1).1 ⟨e, he, rfl⟩ with h | ⟨e', he', h⟩
          · show p < e.1; omega
          · show p < e.1
            have : p < e'.1 := hh e' he'
            omega
        · intro k
          rw [look_cons, i2, look_cons, look_cons]
          by_cases c : p = k
          · subst c; rw [if_pos rfl, if_pos rfl, if_neg (fun h => c2 h.symm)]
          · rw [if_neg c, if_neg c, if_neg (show ¬ p = q from fun h => c2 h.symm)]
        · intro k
          simp only [List.mem_cons, exists_eq_or_imp]
          rw [i3 k]
          constructor
          · rintro (h | h | h)
            · exact Or.inr (Or.inl h)
            · exact Or.inl h
            · exact Or.inr (Or.inr h)
          · rintro (h | h | h)
            · exact Or.inr (Or.inl h)
            · exact Or.inl h
            · exact Or.inr (Or.inr h)

theorem mem_look : ∀ {m : List (Nat × Nat)}, Srt m → ∀ e ∈ m, e.2 = look m e.1
  | [], _, e, h => by simp at h
  | (p, v) :: m, hs, e, h => by
    obtain ⟨hh, ht⟩ := List.pairwise_cons.1 hs
    rw [look_cons]
    rcases List.mem_cons.1 h with rfl | h
    · rw [if_pos rfl]
    · have : p < e.1 := hh e h
      rw [if_neg (by omega)]
      exact mem_look ht e h

/-- The words made from a sorted map. -/
theorem fill_ok : ∀ (m : List (Nat × Nat)) (pq : Nat), Srt m → (∀ e ∈ m, pq ≤ e.1) →
    (∀ j, (fill pq m).getD j 0 = look m (pq + j)) ∧ ∀ j, j < (fill pq m).length ↔ ∃ e ∈ m, pq + j ≤ e.1
  | [], pq, _, _ => ⟨by intro j; simp [fill, look_nil], by intro j; simp [fill]⟩
  | (q, v) :: m, pq, h, hm => by
    obtain ⟨hh, ht⟩ := List.pairwise_cons.1 h
    have hq : pq ≤ q := hm (q, v) (by simp)
    have hgt : ∀ e ∈ m, q < e.1 := fun e he => hh e he
    obtain ⟨i1, i2⟩ := fill_ok m (q+1) ht hgt
    refine ⟨fun j => ?_, fun j => ?_⟩
    · rw [fill, look_cons, List.getD_eq_getElem?_getD]
      by_cases c1 : j < q - pq
      · rw [List.getElem?_append_left (by simpa using c1), List.getElem?_replicate, if_pos c1, if_neg (by omega), look_none]
        · rfl
        · intro e he
          have := hgt e he
          omega
      · rw [List.getElem?_append_right (by simpa using c1), List.length_replicate]
        by_cases c2 : j = q - pq
        · rw [if_pos (by omega), c2, Nat.sub_self]; rfl
        · have := i1 (j - (q - pq) - 1)
          rw [if_neg (by omega), show j - (q - pq) = (j - (q - pq) - 1) + 1 by omega, List.getElem?_cons_succ, ← List.getD_eq_getElem?_getD, this]
          congr 1; omega
    · rw [fill, List.length_append, List.length_replicate, List.length_cons]
      simp only [List.mem_cons, exists_eq_or_imp]
      by_cases c1 : pq + j ≤ q
      · constructor
        · intro _; exact Or.inl c1
        · intro _; omega
      · have := i2 (pq + j - (q + 1))
        rw [show q + 1 + (pq + j - (q + 1)) = pq + j by omega] at this
        constructor
        · intro hlt; exact Or.inr (this.1 (by omega))
        · rintro (h | h)
          · exact absurd h c1
          · have := this.2 h; omega

/-- The map after calls of `set`. -/
structure MapOk (s : Nat) (ops : List (Nat × Bool)) (r : Rrr) : Prop where
  heads : r.heads = TY.empty
  bm : r.bm = ⟨[], 0⟩
  srt : Srt r.map
  bits : ∀ q p, (look r.map q).testBit p = (decide (p < s) && written ops (q * s + p))
  keys : ∀ k, (∃ e ∈ r.map, e.1 = k) ↔ ∃ o ∈ ops, o.1 / s = k

theorem written_snoc (ops : List (Nat × Bool)) (i j : Nat) (b : Bool) : written (ops ++ [(j, b)]) i = if j = i then b else written ops i := by
  unfold written
  rw [List.reverse_append]
  by_cases c : j = i
  · simp [c]
  · rw [if_neg c, List.reverse_singleton, List.singleton_append, List.find?_cons_of_neg (by simpa using c)]

theorem set_ok {s : Nat} (h1 : 1 ≤ s) (hs : s ≤ 63) {ops : List (Nat × Bool)} {r : Rrr} (h : MapOk s ops r) (i : Nat) (b : Bool) :
    MapOk s (ops ++ [(i, b)]) (set s r i b) := by
  obtain ⟨u1, u2, u3⟩ := upsert_ok (fun v => if b then v ||| 2^(i % s) else v &&& BitManip.compl (2^(i % s))) (i / s) h.srt
  have hm := Nat.mod_lt i h1
  have hd := Nat.div_add_mod i s
  rw [Nat.mul_comm] at hd
  have hp64 : 2^(i % s) < 2^64 := Nat.pow_lt_pow_right (by decide) (by omega)
  refine ⟨h.heads, h.bm, u1, fun q p => ?_, fun k => ?_⟩
  · rw [written_snoc]
    show (look (upsert _ _ _) q).testBit p = _
    rw [u2]
    by_cases c : q = i / s
    · subst c
      rw [if_pos rfl]
      have hbit : (if b then look r.map (i / s) ||| 2^(i % s) else look r.map (i / s) &&& BitManip.compl (2^(i % s))).testBit p =
          if i % s = p then b else (look r.map (i / s)).testBit p := by
        cases b with
        | true =>
          rw [if_pos rfl, Nat.testBit_or, Nat.testBit_two_pow]
          by_cases c : i % s = p <;> simp [c]
        | false =>
          rw [if_neg (by decide), Nat.testBit_and, BitManip.compl, show 2^64 - 1 - 2^(i % s) = 2^64 - (2^(i % s) + 1) by omega, Nat.testBit_two_pow_sub_succ hp64, Nat.testBit_two_pow]
          by_cases c : i % s = p
          · simp [c]
          · rw [if_neg c]
            by_cases c2 : p < 64
            · simp [c, c2]
            · rw [h.bits]; simp [show ¬ p < s by omega]
      rw [hbit]
      by_cases c : i % s = p
      · rw [if_pos c, if_pos (by omega)]; simp; omega
      · rw [if_neg c, if_neg (by omega), h.bits]
    · rw [if_neg c, h.bits]
      by_cases c2 : p < s
      · have : ¬ i = q * s + p := by
          intro e
          apply c
          rw [e, Nat.mul_comm, Nat.mul_add_div h1, Nat.div_eq_of_lt c2]; omega
        rw [if_neg this]
      · simp [c2]
  · show (∃ e ∈ upsert _ _ _, e.1 = k) ↔ _
    rw [u3 k, h.keys k]
    simp only [List.mem_append, List.mem_singleton, or_and_right, exists_or, exists_eq_left]
    constructor
    · rintro (h | h)
      · exact Or.inr h.symm
      · exact Or.inl h
    · rintro (h | h)
      · exact Or.inr h
      · exact Or.inl h.symm

/-- The calls of `ops`, in order. -/
def setAll (s : Nat) (ops : List (Nat × Bool)) : Rrr := ops.foldl (fun r o => set s r o.1 o.2) empty

theorem setAll_ok {s : Nat} (h1 : 1 ≤ s) (hs : s ≤ 63) (ops : List (Nat × Bool)) : MapOk s ops (setAll s ops) := by
  have key : ∀ (done todo : List (Nat × Bool)) (r : Rrr), MapOk s done r → MapOk s (done ++ todo) (todo.foldl (fun r o => set s r o.1 o.2) r) := by
    intro done todo
    induction todo generalizing done with
    | nil => intro r h; simpa using h
    | cons o todo ih =>
      intro r h
      have := ih (done ++ [o]) _ (set_ok h1 hs h o.1 o.2)
      rw [List.append_assoc] at this
      exact this
  exact key [] ops empty ⟨rfl, rfl, List.Pairwise.nil, by intro q p; simp [look, empty, written], by intro k; simp [empty]⟩

theorem blocks_of {s : Nat} {ops : List (Nat × Bool)} {r : Rrr} (h : MapOk s ops r) : Blocks s ops (fill 0 r.map).length := by
  obtain ⟨_, f2⟩ := fill_ok r.map 0 h.srt (by simp)
  constructor
  · intro o ho
    obtain ⟨e, he, hk⟩ := (h.keys (o.1 / s)).2 ⟨o, ho, rfl⟩
    exact (f2 _).2 ⟨e, he, by omega⟩
  · rcases Nat.eq_zero_or_pos (fill 0 r.map).length with h0 | h0
    · exact Or.inl h0
    · right
      obtain ⟨e, he, hle⟩ := (f2 ((fill 0 r.map).length - 1)).1 (by omega)
      obtain ⟨o, ho, hk⟩ := (h.keys e.1).1 ⟨e, he, rfl⟩
      have hlt := (f2 e.1).2 ⟨e, he, by omega⟩
      exact ⟨o, ho, by omega⟩

/-- **C100.**  After any calls of `set` followed by `build()`, no assertion fails, `get(i)` is the last value written at `i` for every `i` (zero when there is none),
`size()` is `s` times the number of blocks up to the last one touched, and `BV` over the object ranks and selects in the sequence of these bits. -/
theorem C100_rrr (s : Nat) (h1 : 1 ≤ s) (hs : s ≤ 63) (ops : List (Nat × Bool)) :
    ∃ tb r N sr, mkTable s = some tb ∧ build tb s (setAll s ops) = some r ∧ Blocks s ops N ∧ TY.size r.heads * s = N * s ∧ (∀ i, get tb s r i = some (written ops i)) ∧
      src tb s r = some sr ∧ sr.n = N * s ∧ RankSelect s sr ((List.range (N * s)).map (written ops)) := by
  obtain ⟨tb, e0, ht⟩ := mkTable_ok hs
  have h := setAll_ok h1 hs ops
  generalize hr0 : setAll s ops = r0 at h
  have hlt : ∀ e ∈ r0.map, e.2 < 2^s := by
    intro e he
    rw [mem_look h.srt e he]
    apply Nat.lt_pow_two_of_testBit
    intro p hp
    rw [h.bits]; simp; omega
  obtain ⟨r, e1, hb, _⟩ := build_ok' h1 hs ht h.srt hlt
  obtain ⟨f1, _⟩ := fill_ok r0.map 0 h.srt (by simp)
  have hw : ∀ i, ((fill 0 r0.map).getD (i / s) 0).testBit (i % s) = written ops i := by
    intro i
    have hm := Nat.mod_lt i h1
    rw [f1, Nat.zero_add, h.bits, Nat.mul_comm, Nat.div_add_mod]
    simp [hm]
  have er : r0 = ⟨r0.map, TY.empty, ⟨[], 0⟩⟩ := by rw [← h.heads, ← h.bm]
  rw [← er] at e1
  refine ⟨tb, r, (fill 0 r0.map).length, _, e0, e1, blocks_of h, by rw [hb.size], fun i => ?_, src_ok' hs ht hb, rfl, ?_⟩
  · rw [get_ok h1 hs ht hb, hw]
  · have := rs_ok h1 hs hb
    rw [allBits, show (fun i => ((fill 0 r0.map).getD (i / s) 0).testBit (i % s)) = written ops from funext hw] at this
    exact this

/-- Two blocks of five bits apart, with an overwritten bit. -/
def demo : List (Nat × Bool) := [(3, true), (17, true), (19, true), (3, false), (15, true), (16, true), (18, false)]

example : (mkTable 5).bind (fun tb => (build tb 5 (setAll 5 demo)).bind fun r => (List.range 22).mapM (get tb 5 r)) =
    some ((List.range 22).map fun i => decide (i ∈ [15, 16, 17, 19])) := by decide +kernel

example : Blocks 5 demo 4 ∧ written demo 3 = false ∧ written demo 19 = true := by
  refine ⟨⟨by decide, Or.inr ⟨(17, true), by decide, rfl⟩⟩, by decide, by decide⟩

/-! ### From a bitmap -/

/-- Block `k` of `l`. -/
def word (s : Nat) (l : List Bool) (k : Nat) : Nat := toNum ((l.take (min (k * s + s) l.length)).drop (k * s))

theorem word_bit (s : Nat) (l : List Bool) (k p : Nat) : (word s l k).testBit p = (decide (p < s) && l.getD (k * s + p) false) := by
  rw [word, toNum_testBit, getD_drop, List.getD_eq_getElem?_getD, List.getElem?_take, List.getD_eq_getElem?_getD]
  by_cases c : p < s
  · by_cases c2 : k * s + p < l.length
    · rw [if_pos (by omega)]; simp [c]
    · rw [if_neg (by omega), List.getElem?_eq_none (by omega)]; simp
  · rw [if_neg (by omega)]; simp [c]

theorem word_lt (s : Nat) (l : List Bool) (k : Nat) : word s l k < 2^s := by
  apply Nat.lt_pow_two_of_testBit
  intro p hp
  rw [word_bit]; simp; omega

structure OfOk (s : Nat) (l : List Bool) (k : Nat) (r : Rrr) : Prop where
  heads : r.heads = TY.empty
  bm : r.bm = ⟨[], 0⟩
  srt : Srt r.map
  lt : ∀ e ∈ r.map, e.1 < k
  look : ∀ q, look r.map q = if q < k then word s l q else 0
  last : l.length ≤ k * s → 0 < k → (∃ e ∈ r.map, e.1 + 1 = k)

theorem look_snoc : ∀ (m : List (Nat × Nat)) (p v q : Nat), (∀ e ∈ m, e.1 ≠ p) → look (m ++ [(p, v)]) q = if p = q then v else look m q
  | [], p, v, q, _ => by rw [List.nil_append, look_cons]
  | (a, b) :: m, p, v, q, h => by
    rw [List.cons_append, look_cons, look_cons, look_snoc m p v q (fun e he => h e (by simp [he]))]
    have : a ≠ p := h (a, b) (by simp)
    by_cases c : a = q
    · rw [if_pos c, if_neg (by omega), if_pos c]
    · rw [if_neg c, if_neg c]

theorem ofStep_ok {s : Nat} (hs : s ≤ 63) {b : Bm} {l : List Bool} (hb : Rel b l) {k : Nat} {r : Rrr} (h : OfOk s l k r) (hk : k * s < l.length) :
    ∃ r', ofStep s b k r = some r' ∧ OfOk s l (k+1) r' := by
  unfold ofStep
  obtain ⟨x, e, hx⟩ := rangeGet_ok hb (b := k * s) (e := min (k * s + s) b.sz) (by rw [hb.size]; omega) (by omega)
  rw [e, Option.map_some]
  rw [← hb.size] at hx ⊢
  have hx' : x.toNat = word s l k := hx
  have hne : ∀ e ∈ r.map, e.1 ≠ k := fun e he => by have := h.lt e he; omega
  refine ⟨_, rfl, ?_⟩
  by_cases c : x ≠ 0#64 ∨ l.length ≤ k * s + s
  · rw [if_pos c]
    refine ⟨h.heads, h.bm, ?_, ?_, ?_, ?_⟩
    · refine List.pairwise_append.2 ⟨h.srt, by simp, ?_⟩
      intro a ha c hc
      rw [List.mem_singleton.1 hc]
      exact h.lt a ha
    · intro e he
      rcases List.mem_append.1 he with he | he
      · have := h.lt e he; omega
      · rw [List.mem_singleton.1 he]; exact Nat.lt_succ_self k
    · intro q
      show Rrr.look (r.map ++ [(k, x.toNat)]) q = _
      rw [look_snoc _ _ _ _ hne, h.look]
      by_cases c1 : k = q
      · subst c1; rw [if_pos rfl, if_pos (by omega), hx']
      · rw [if_neg c1]
        by_cases c2 : q < k
        · rw [if_pos c2, if_pos (by omega)]
        · rw [if_neg c2, if_neg (by omega)]
    · intro _ _
      exact ⟨(k, x.toNat), by simp, rfl⟩
  · rw [if_neg c]
    rw [not_or] at c
    obtain ⟨c1, c2⟩ := c
    have hx0 : x = 0#64 := by simpa using c1
    refine ⟨h.heads, h.bm, h.srt, fun e he => by have := h.lt e he; omega, fun q => ?_, fun hl _ => ?_⟩
    · rw [h.look]
      by_cases c3 : q < k
      · rw [if_pos c3, if_pos (by omega)]
      · rw [if_neg c3]
        by_cases c4 : q = k
        · rw [if_pos (by omega), c4, ← hx', hx0]; rfl
        · rw [if_neg (by omega)]
    · rw [Nat.add_mul] at hl; omega

/-- **C100, from a bitmap.**  `move_or_build(b)` of a bitmap holding `l` gives the bits of `l`, followed by zeros up to a multiple of `s`. -/
theorem C100_ofBitmap (s : Nat) (h1 : 1 ≤ s) (hs : s ≤ 63) (b : Bm) (l : List Bool) (hb : Rel b l) :
    ∃ tb r N sr, mkTable s = some tb ∧ ofBitmap tb s b = some r ∧ l.length ≤ N * s ∧ N * s < l.length + s ∧ TY.size r.heads = N ∧ (∀ i, get tb s r i = some (l.getD i false)) ∧
      src tb s r = some sr ∧ sr.n = N * s ∧ RankSelect s sr (l ++ List.replicate (N * s - l.length) false) := by
  obtain ⟨tb, e0, ht⟩ := mkTable_ok hs
  have hN1 : l.length ≤ (l.length + s - 1) / s * s := by
    have := Nat.div_add_mod (l.length + s - 1) s
    have h2 := Nat.mod_lt (l.length + s - 1) h1
    rw [Nat.mul_comm] at this
    omega
  have hN2 : (l.length + s - 1) / s * s < l.length + s := by
    have := Nat.div_mul_le_self (l.length + s - 1) s
    omega
  unfold ofBitmap
  rw [← hb.size]
  generalize hN : (l.length + s - 1) / s = N at hN1 hN2
  obtain ⟨r0, e1, h⟩ := forRange_inv (P := fun k r => OfOk s l k r) (body := ofStep s b) (a := 0) (b := N) (s := empty) (Nat.zero_le _)
    ⟨rfl, rfl, List.Pairwise.nil, by simp [empty], by intro q; simp [empty, look], by intro _ h; omega⟩
    (by
      intro k r _ hk hr
      refine ofStep_ok hs hb hr ?_
      have : (k + 1) * s ≤ N * s := Nat.mul_le_mul_right _ hk
      rw [Nat.add_mul] at this
      omega)
  have er : r0 = ⟨r0.map, TY.empty, ⟨[], 0⟩⟩ := by rw [← h.heads, ← h.bm]
  obtain ⟨r, e2, hbt, _⟩ := build_ok' h1 hs ht h.srt (by
    intro e he
    rw [mem_look h.srt e he, h.look, if_pos (h.lt e he)]
    exact word_lt s l e.1)
  rw [← er] at e2
  obtain ⟨f1, f2⟩ := fill_ok r0.map 0 h.srt (by simp)
  have hlen : (fill 0 r0.map).length = N := by
    apply Nat.le_antisymm
    · by_contra hc
      obtain ⟨e, he, hle⟩ := (f2 N).1 (by omega)
      have := h.lt e he
      omega
    · rcases Nat.eq_zero_or_pos N with h0 | h0
      · omega
      · obtain ⟨e, he, hle⟩ := h.last hN1 h0
        have := (f2 (N-1)).2 ⟨e, he, by omega⟩
        omega
  have hw : ∀ i, ((fill 0 r0.map).getD (i / s) 0).testBit (i % s) = l.getD i false := by
    intro i
    have hm := Nat.mod_lt i h1
    have hd := Nat.div_add_mod i s
    rw [Nat.mul_comm] at hd
    rw [f1, Nat.zero_add, h.look]
    by_cases c : i / s < N
    · rw [if_pos c, word_bit, hd]; simp [hm]
    · rw [if_neg c, Nat.zero_testBit, getD_ge]
      have : N * s ≤ i / s * s := Nat.mul_le_mul_right _ (by omega)
      omega
  refine ⟨tb, r, N, _, e0, by rw [e1]; exact e2, hN1, hN2, by rw [hbt.size, hlen], fun i => by rw [get_ok h1 hs ht hbt, hw], src_ok' hs ht hbt, by rw [hlen], ?_⟩
  have := rs_ok h1 hs hbt
  convert this using 1
  rw [allBits, show (fun i => ((fill 0 r0.map).getD (i / s) 0).testBit (i % s)) = fun i => l.getD i false from funext hw, hlen]
  apply List.ext_getElem?
  intro i
  rw [List.getElem?_map]
  by_cases c : i < N * s
  · rw [List.getElem?_range c, Option.map_some, List.getD_eq_getElem?_getD]
    by_cases c2 : i < l.length
    · rw [List.getElem?_append_left c2, List.getElem?_eq_getElem c2]; rfl
    · rw [List.getElem?_append_right (by omega), List.getElem?_replicate, if_pos (by omega), List.getElem?_eq_none (by omega)]; rfl
  · rw [List.getElem?_eq_none (by simp; omega), List.getElem?_eq_none (by simpa using c)]; rfl

/-- A bitmap of seven bits. -/
example : Rel ⟨[0x4D#64], 7⟩ [true, false, true, true, false, false, true] := by
  refine ⟨by decide, by decide, ?_⟩
  intro p hp
  have hp' : p < 7 := hp
  have : p = 0 ∨ p = 1 ∨ p = 2 ∨ p = 3 ∨ p = 4 ∨ p = 5 ∨ p = 6 := by omega
  rcases this with rfl | rfl | rfl | rfl | rfl | rfl | rfl <;> decide

example : (mkTable 3).bind (fun tb => (ofBitmap tb 3 ⟨[0x4D#64], 7⟩).bind fun r => (List.range 9).mapM (get tb 3 r)) =
    some [true, false, true, true, false, false, true, false, false] := by decide +kernel

end Verif.Rrr
