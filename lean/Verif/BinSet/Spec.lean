import Verif.BinSet.Model
import Mathlib.Data.List.Dedup
import Mathlib.Data.List.Induction
/-! The facts about the bit vector shared by `BinarySet` and `BinaryMultiset`. -/
namespace Verif.BinSet
open Verif Verif.BitManip Verif.Succinct

/-- The number of different elements of `xs` below `x`. -/
def below (xs : List Nat) (x : Nat) : Nat := (xs.dedup.filter (fun v => decide (v < x))).length

/-- What is known of a built object whose ones are at the positions `ps`; `n` is the number of bits. -/
structure Ok (ps : List Nat) (t : St) (n : Nat) : Prop where
  size : t.bmSize = n
  lt : ∀ p ∈ ps, p < n
  tight : n = 0 ∨ ∃ p ∈ ps, n = p / t.s * t.s + t.s
  get : ∀ i, Rrr.get t.tb t.s t.r i = some (decide (i ∈ ps))
  rank : ∀ i, rank1 t.s t.sr t.bv i = some (below ps i)
  sel1 : ∀ k, ∃ p, selectB t.s t.sr t.bv true k = some p ∧ (k < ps.dedup.length → p ∈ ps ∧ below ps p = k) ∧ (ps.dedup.length ≤ k → p = n)
  sel0 : ∀ k, ∃ p, selectB t.s t.sr t.bv false k = some p ∧ (k + ps.dedup.length < n → p < n ∧ p ∉ ps ∧ p = k + below ps p) ∧ (n ≤ k + ps.dedup.length → p = n)
  cnt : ps.dedup.length ≤ n

theorem written_ones (ps : List Nat) (i : Nat) : Rrr.written (ps.map fun p => (p, true)) i = decide (i ∈ ps) := by
  induction ps using List.reverseRecOn with
  | nil => simp [Rrr.written]
  | append_singleton ps p ih =>
    rw [List.map_append, List.map_singleton, Rrr.written_snoc, ih]
    by_cases c : p = i
    · simp [c]
    · rw [if_neg c]
      simp [show ¬ i = p from fun h => c h.symm]

theorem below_le (xs : List Nat) (x : Nat) : below xs x ≤ xs.dedup.length := List.length_filter_le _ _

theorem below_all {xs : List Nat} {n : Nat} (h : ∀ p ∈ xs, p < n) : below xs n = xs.dedup.length := by
  unfold below
  rw [List.filter_eq_self.2]
  intro a ha
  simpa using h a (List.mem_dedup.1 ha)

theorem below_range (xs : List Nat) (x : Nat) : below xs x = ((List.range x).filter (fun v => decide (v ∈ xs))).length := by
  unfold below
  apply List.Perm.length_eq
  apply (List.perm_ext_iff_of_nodup ((List.nodup_dedup xs).filter _) (List.nodup_range.filter _)).2
  intro a
  simp [and_comm]

theorem below_le_self (xs : List Nat) (x : Nat) : below xs x ≤ x := by
  rw [below_range]
  have := List.length_filter_le (fun v => decide (v ∈ xs)) (List.range x)
  rwa [List.length_range] at this

theorem below_succ (xs : List Nat) (x : Nat) : below xs (x+1) = below xs x + if x ∈ xs then 1 else 0 := by
  rw [below_range, below_range, List.range_succ, List.filter_append, List.length_append]
  congr 1
  by_cases c : x ∈ xs <;> simp [c]

theorem below_mono (xs : List Nat) {x y : Nat} (h : x ≤ y) : below xs x ≤ below xs y := by
  obtain ⟨d, rfl⟩ := Nat.exists_eq_add_of_le h
  induction d with
  | zero => exact Nat.le_refl _
  | succ d ih => rw [← Nat.add_assoc, below_succ]; have := ih (by omega); omega

theorem below_lt {xs : List Nat} {x y : Nat} (hx : x ∈ xs) (h : x < y) : below xs x < below xs y := by
  have h1 := below_succ xs x
  rw [if_pos hx] at h1
  have := below_mono xs (show x + 1 ≤ y by omega)
  omega

/-- The bits. -/
def bitsOf (ps : List Nat) (n : Nat) : List Bool := (List.range n).map fun i => decide (i ∈ ps)

theorem lrank_true (ps : List Nat) {n i : Nat} (h : i ≤ n) : lrank (bitsOf ps n) true i = below ps i := by
  unfold lrank bitsOf
  rw [← List.map_take, List.take_range, Nat.min_eq_left h, List.count, List.countP_map, below_range, List.countP_eq_length_filter]
  congr 1
  apply List.filter_congr
  intro x _
  simp

theorem count_bits (ps : List Nat) {n : Nat} (h : ∀ p ∈ ps, p < n) : (bitsOf ps n).count true = ps.dedup.length := by
  have := lrank_true ps (Nat.le_refl n)
  rw [below_all h] at this
  rw [← this, lrank, List.take_of_length_le (by simp [bitsOf])]

theorem count_ft : ∀ l : List Bool, l.count false + l.count true = l.length
  | [] => rfl
  | b :: l => by have := count_ft l; cases b <;> simp <;> omega

theorem mk_ok {s : Nat} (h1 : 1 ≤ s) (hs : s ≤ 63) (ps : List Nat) (sz : Src → Bv → Option Nat) (m : Nat)
    (hsz : ∀ sr bv, rank1 s sr bv sr.n = some ps.dedup.length → sz sr bv = some m) :
    ∃ t n, mk s ps sz = some t ∧ t.s = s ∧ t.size = m ∧ Ok ps t n := by
  obtain ⟨tb, r, N, sr, e1, e2, hN, hsize, hget, e3, hn, bv, e4, hr, hr2, hsel⟩ := Rrr.C100_rrr s h1 hs (ps.map fun p => (p, true))
  have hl : (List.range (N * s)).map (Rrr.written (ps.map fun p => (p, true))) = bitsOf ps (N * s) := by
    unfold bitsOf
    exact List.map_congr_left fun i _ => written_ones ps i
  have hlen : (bitsOf ps (N * s)).length = N * s := by simp [bitsOf]
  rw [hl] at hr hr2 hsel
  rw [hlen] at hr hr2
  have hlt : ∀ p ∈ ps, p < N * s := by
    intro p hp
    have := hN.1 (p, true) (List.mem_map.2 ⟨p, hp, rfl⟩)
    exact (Nat.div_lt_iff_lt_mul h1).1 this
  have hc := count_bits ps hlt
  have hft := count_ft (bitsOf ps (N * s))
  rw [hc, hlen] at hft
  have hsz' := hsz sr bv (by rw [hr2 _ (by rw [hn]), hc])
  refine ⟨⟨s, tb, r, sr, bv, m⟩, N * s, ?_, rfl, rfl, ?_⟩
  · unfold mk
    rw [e1, Option.bind_some, e2, Option.bind_some, e3, Option.bind_some, e4, Option.bind_some, hsz']; rfl
  refine ⟨hsize, hlt, ?_, fun i => by rw [hget, written_ones], fun i => ?_, fun k => ?_, fun k => ?_, by omega⟩
  · rcases hN.2 with h0 | ⟨o, ho, h0⟩
    · left; rw [h0, Nat.zero_mul]
    · right
      obtain ⟨p, hp, rfl⟩ := List.mem_map.1 ho
      refine ⟨p, hp, ?_⟩
      rw [← h0, Nat.add_mul]; simp
  · by_cases c : i ≤ N * s
    · rw [(hr i c).1, lrank_true ps c]
    · rw [hr2 i (by omega), hc, below_all (fun p hp => by have := hlt p hp; omega)]
  · obtain ⟨p, ep, h1, h2⟩ := hsel true k
    rw [hc, hlen] at h1
    rw [hc, hlen] at h2
    refine ⟨p, ep, fun hk => ?_, fun hk => h2 hk⟩
    obtain ⟨q1, q2, q3⟩ := h1 hk
    rw [lrank_true ps (by omega)] at q3
    refine ⟨?_, q3⟩
    unfold bitsOf at q2
    rw [List.getElem?_map, List.getElem?_range q1] at q2
    simpa using q2
  · obtain ⟨p, ep, h1, h2⟩ := hsel false k
    rw [hlen] at h1 h2
    refine ⟨p, ep, fun hk => ?_, fun hk => h2 (by omega)⟩
    obtain ⟨q1, q2, q3⟩ := h1 (by omega)
    have hp := count_ft ((bitsOf ps (N * s)).take p)
    have hq := lrank_true ps (show p ≤ N * s by omega)
    unfold lrank at q3 hq
    rw [q3, hq, List.length_take, hlen, Nat.min_eq_left (by omega)] at hp
    refine ⟨q1, ?_, by omega⟩
    unfold bitsOf at q2
    rw [List.getElem?_map, List.getElem?_range q1] at q2
    simpa using q2

end Verif.BinSet
