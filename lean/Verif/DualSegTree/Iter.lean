import Verif.DualSegTree.Props
import Verif.BitManip.Props
/-!
# C123: the iterators of `DualSegmentTree` (`/repo/include/mtl/dual_segment_tree.hpp:209-274`)

An iterator is the index `idx` of a leaf in `tree_` (`size_t`, so arithmetic is modulo 2^64) and a pointer to the tree.  Constructing one or moving it with
`++`/`--` pushes pending operators down, so every operation returns the new tree.  `none` = out-of-range access or failing `assert`.
Only the mutable iterators are modelled: the `const` versions of `begin()`/`end()` (269-272) do not compile when instantiated.
-/
namespace Verif.DualSegTree
open Verif.BitManip (ctz compl)

section model
variable {M : Type} [One M] [Mul M]

/-- dual_segment_tree.hpp:232-235 and 244-247: `_propagate(idx>>h)` for `h = m-1, …, 0`. -/
def down (n idx : Nat) : Nat → List M → Option (List M)
  | 0, tree => some tree
  | h+1, tree => (propagate n (idx >>> h) tree).bind (down n idx h)

/-- dual_segment_tree.hpp:221-224 (constructor). -/
def itNew (t : Tree M) (idx : Nat) : Option (Tree M) :=
  if t.size ≤ idx ∧ idx ≤ t.size*2 then
    if idx < t.tree.length then (get t (idx - t.size)).map Prod.fst else some t
  else none

/-- dual_segment_tree.hpp:225-237 (`operator+=`), giving the tree and the new index. -/
def itPlus (t : Tree M) (idx : Nat) (n : Int) : Option (Tree M × Nat) :=
  let idx' := (((idx : Int) + n) % 2^64).toNat
  if idx' = t.tree.length then some (t, idx') else
    (down t.size idx' (ctz (compl (idx ^^^ idx'))) t.tree).map (fun tree => (⟨t.size, tree⟩, idx'))

/-- dual_segment_tree.hpp:238-249 (`operator-=`). -/
def itMinus (t : Tree M) (idx : Nat) (n : Int) : Option (Tree M × Nat) :=
  let idx' := (((idx : Int) - n) % 2^64).toNat
  (down t.size idx' (ctz (compl (idx' ^^^ idx))) t.tree).map (fun tree => (⟨t.size, tree⟩, idx'))

/-- dual_segment_tree.hpp:250-252 (prefix `++`). -/
def itInc (t : Tree M) (idx : Nat) : Option (Tree M × Nat) := itPlus t idx 1

/-- dual_segment_tree.hpp:253-255 (prefix `--`). -/
def itDec (t : Tree M) (idx : Nat) : Option (Tree M × Nat) := itMinus t idx 1

/-- dual_segment_tree.hpp:256 (postfix `++`): only the index moves. -/
def itPostInc (t : Tree M) (idx : Nat) : Option (Tree M × Nat) := some (t, (idx + 1) % 2^64)

/-- dual_segment_tree.hpp:263 (`*it`, read). -/
def deref (t : Tree M) (idx : Nat) : Option M := t.tree[idx]?

/-- dual_segment_tree.hpp:263 (`*it = x`). -/
def assign (t : Tree M) (idx : Nat) (x : M) : Option (Tree M) := (wr t.tree idx x).map (fun tree => ⟨t.size, tree⟩)

end model

/-! ### Helper lemmas -/

/-- Two consecutive numbers agree above the lowest set bit of the larger, and `ctz(~x)` of their difference is the place where they start to agree. -/
theorem ctz_xor_succ {m : Nat} (hm : m + 1 < 2^64) : ∃ s, ctz (compl (m ^^^ (m+1))) = s + 1 ∧ m / 2^(s+1) = (m+1) / 2^(s+1) ∧ ¬ 2^(s+1) ∣ m+1 := by
  obtain ⟨s, j, hs⟩ := BitManip.exists_odd 64 (m+1) (by omega) hm
  have hp := Nat.two_pow_pos s
  have e1 : m + 1 = 2^(s+1) * j + 2^s := by rw [hs, Nat.pow_succ]; ring
  have e0 : m = 2^(s+1) * j + (2^s - 1) := by omega
  have hlt : 2^s < 2^(s+1) := by rw [Nat.pow_succ]; omega
  have hbit : ∀ i, (m ^^^ (m+1)).testBit i = decide (i ≤ s) := by
    intro i
    rw [Nat.testBit_xor, e1]
    conv_lhs => rw [e0]
    rw [Nat.testBit_two_pow_mul_add _ (by omega), Nat.testBit_two_pow_mul_add _ hlt]
    by_cases hi : i < s + 1
    · rw [if_pos hi, if_pos hi, Nat.testBit_two_pow_sub_one, Nat.testBit_two_pow]
      by_cases his : i = s
      · subst his; simp
      · have : i < s := by omega
        simp [this, Ne.symm his, Nat.le_of_lt this]
    · rw [if_neg hi, if_neg hi]
      simp
      omega
  have hx64 : m ^^^ (m+1) < 2^64 := Nat.xor_lt_two_pow (by omega) hm
  have hc := BitManip.C27_cto (m ^^^ (m+1)) hx64
  refine ⟨s, ?_, ?_, ?_⟩
  · change BitManip.cto _ = _
    by_cases hall : m ^^^ (m+1) = 2^64 - 1
    · rw [hc.2 hall]
      have h63 := hbit 63
      have h64 := hbit 64
      rw [hall, Nat.testBit_two_pow_sub_one] at h63 h64
      simp at h63 h64
      omega
    · obtain ⟨h1, h2⟩ := hc.1 hall
      rw [hbit] at h2
      have h2' := of_decide_eq_false h2
      by_contra hne
      have := h1 (s+1) (by omega)
      rw [hbit] at this
      have := of_decide_eq_true this
      omega
  · rw [e1]
    conv_lhs => rw [e0]
    rw [Nat.mul_add_div (Nat.two_pow_pos _), Nat.mul_add_div (Nat.two_pow_pos _), Nat.div_eq_of_lt hlt, Nat.div_eq_of_lt (by omega)]
  · intro hd
    rw [e1] at hd
    have := (Nat.dvd_add_right (Nat.dvd_mul_right _ _)).1 hd
    have := Nat.le_of_dvd hp this
    omega

variable {M : Type} [Monoid M]

/-- Nothing is pending above the leaf `x`. -/
def Clean (z : Nat → M) (x : Nat) : Prop := ∀ k, 1 ≤ k → z (x / 2^k) = 1

theorem Clean.keeps {z z' : Nat → M} (hk : Keeps z z') {x : Nat} (h : Clean z x) : Clean z' x := by
  intro k h1
  refine hk (fun y => ∃ k, 1 ≤ k ∧ y = x / 2^k) ?_ ?_ _ ⟨k, h1, rfl⟩
  · rintro y ⟨k, hk, rfl⟩
    exact ⟨k+1, by omega, by rw [Nat.div_div_eq_div_mul, ← Nat.pow_succ]⟩
  · rintro y ⟨k, hk, rfl⟩
    exact h k hk

theorem down_spec {n idx : Nat} (hidx : idx < 2*n) {vs : List M} : ∀ (h : Nat) (tree : List M) (z : Nat → M), InvZ n tree z vs →
    (∀ k, h ≤ k → 1 ≤ k → z (idx / 2^k) = 1) →
    ∃ t' z', down n idx h tree = some t' ∧ InvZ n t' z' vs ∧ Clean z' idx ∧ Keeps z z' := by
  intro h
  induction h with
  | zero => intro tree z hz hc; exact ⟨tree, z, rfl, hz, fun k hk => hc k (by omega) hk, Keeps.refl z⟩
  | succ h ih =>
    intro tree z hz hc
    rw [down, Nat.shiftRight_eq_div_pow]
    by_cases hx : n ≤ idx / 2^h
    · have h0 : h = 0 := by
        by_contra h0
        have : idx / 2^h ≤ idx / 2^1 := Nat.div_le_div_left (Nat.pow_le_pow_right (by omega) (by omega)) (by decide)
        omega
      rw [propagate, if_pos hx, Option.bind_some]
      exact ih tree z hz (fun k h1 h2 => hc k (by omega) h2)
    · obtain ⟨t1, e1, h1⟩ := propagate_spec hz (x := idx / 2^h) (by omega)
      rw [e1, Option.bind_some]
      obtain ⟨t', z', e', h', hcl, hk⟩ := ih t1 _ h1 (by
        intro k hk1 hk2
        by_cases hkh : k = h
        · subst hkh
          split
          · rename_i h0; rw [h0]; exact hz.zero
          · simp [pushed]
        · split
          · exact hc k (by omega) hk2
          · simp only [pushed]
            split
            · rfl
            · split
              · rename_i _ hq
                rw [Nat.div_div_eq_div_mul, ← Nat.pow_succ] at hq
                rw [hc k (by omega) hk2, ← hq, hc (k+1) (by omega) (by omega), mul_one]
              · exact hc k (by omega) hk2)
      exact ⟨t', z', e', h', hcl, (keeps_pushed z _).trans hk⟩

theorem itInc_spec {n : Nat} (hn : 2 * n < 2^64) {t : Tree M} {z : Nat → M} {vs : List M} (hsz : t.size = n) (hz : InvZ n t.tree z vs)
    {p : Nat} (hp : p < n) (hcl : Clean z (n+p)) :
    ∃ t' z', itInc t (n+p) = some (t', n + (p+1)) ∧ t'.size = n ∧ InvZ n t'.tree z' vs ∧ (p + 1 < n → Clean z' (n + (p+1))) ∧ Keeps z z' := by
  have hlen : t.tree.length = 2*n := hz.rep.len
  have e : (((((n + p : Nat) : Int) + 1) % 2^64).toNat) = n + p + 1 := by omega
  unfold itInc itPlus
  simp only [e, hlen]
  by_cases hend : n + p + 1 = 2*n
  · rw [if_pos hend]
    exact ⟨t, z, rfl, hsz, hz, fun h => by omega, Keeps.refl z⟩
  · rw [if_neg hend, hsz]
    obtain ⟨s, e1, e2, -⟩ := ctz_xor_succ (m := n+p) (by omega)
    rw [e1]
    obtain ⟨t', z', e', h', hc', hk⟩ := down_spec (idx := n+p+1) (by omega) (s+1) t.tree z hz (by
      intro k hk1 hk2
      obtain ⟨d, rfl⟩ : ∃ d, k = s + 1 + d := ⟨k - (s+1), by omega⟩
      rw [Nat.pow_add, ← Nat.div_div_eq_div_mul, ← e2, Nat.div_div_eq_div_mul, ← Nat.pow_add]
      exact hcl _ hk2)
    rw [e']
    exact ⟨⟨n, t'⟩, z', rfl, rfl, h', fun _ => hc', hk⟩

theorem itDec_spec {n : Nat} (hn : 2 * n < 2^64) {t : Tree M} {z : Nat → M} {vs : List M} (hsz : t.size = n) (hz : InvZ n t.tree z vs)
    {p : Nat} (hp : p < n) (hcl : p + 1 < n → Clean z (n+(p+1))) :
    ∃ t' z', itDec t (n+(p+1)) = some (t', n + p) ∧ t'.size = n ∧ InvZ n t'.tree z' vs ∧ Clean z' (n + p) ∧ Keeps z z' := by
  have e : (((((n + (p+1) : Nat) : Int) - 1) % 2^64).toNat) = n + p := by omega
  unfold itDec itMinus
  simp only [e, hsz]
  obtain ⟨s, e1, e2, e3⟩ := ctz_xor_succ (m := n+p) (by omega)
  rw [show n + (p+1) = n + p + 1 by omega, e1]
  obtain ⟨t', z', e', h', hc', hk⟩ := down_spec (idx := n+p) (by omega) (s+1) t.tree z hz (by
    intro k hk1 hk2
    obtain ⟨d, rfl⟩ : ∃ d, k = s + 1 + d := ⟨k - (s+1), by omega⟩
    rw [Nat.pow_add, ← Nat.div_div_eq_div_mul, e2, Nat.div_div_eq_div_mul, ← Nat.pow_add]
    by_cases hend : p + 1 < n
    · exact hcl hend _ hk2
    · rw [show n + p + 1 = 2*n by omega] at e3 ⊢
      exact hz.wrap _ (fun hd => e3 (Nat.dvd_trans (Nat.pow_dvd_pow 2 (by omega)) hd)))
  rw [e']
  exact ⟨⟨n, t'⟩, z', rfl, rfl, h', hc', hk⟩

/-! ### Histories with iterators -/

/-- The calls a client can make; `k` is the number of an iterator in the order of creation. -/
inductive IOp (M : Type) where
  | update (l r : Nat) (e : M)
  | set (i : Nat) (x : M)
  | get (i : Nat)
  | begin
  | fin
  | inc (k : Nat)
  | dec (k : Nat)
  | read (k : Nat)
  | write (k : Nat) (x : M)

/-- Run a history on the model; `its` are the iterators created so far; the answers of `get` and of reads are collected in order. -/
def irun {M : Type} [One M] [Mul M] : List (IOp M) → Tree M → List Nat → Option (List M)
  | [], _, _ => some []
  | .update l r e :: ops, t, its => (update t l r e).bind (fun t => irun ops t its)
  | .set i x :: ops, t, its => (set t i x).bind (fun t => irun ops t its)
  | .get i :: ops, t, its => (get t i).bind (fun p => (irun ops p.1 its).map (p.2 :: ·))
  | .begin :: ops, t, its => (itNew t t.size).bind (fun t' => irun ops t' (its ++ [t.size]))
  | .fin :: ops, t, its => (itNew t (t.size*2)).bind (fun t' => irun ops t' (its ++ [t.size*2]))
  | .inc k :: ops, t, its => (its[k]?).bind (fun i => (itInc t i).bind (fun p => irun ops p.1 (its.set k p.2)))
  | .dec k :: ops, t, its => (its[k]?).bind (fun i => (itDec t i).bind (fun p => irun ops p.1 (its.set k p.2)))
  | .read k :: ops, t, its => (its[k]?).bind (fun i => (deref t i).bind (fun v => (irun ops t its).map (v :: ·)))
  | .write k x :: ops, t, its => (its[k]?).bind (fun i => (assign t i x).bind (fun t => irun ops t its))

/-- The same history on a plain list, with positions as iterators.  `update` invalidates all iterators (they become `none`); using an invalid iterator, moving
outside `[begin, end]` and accessing `end` have no specified result. -/
def ispec {M : Type} [Mul M] : List (IOp M) → List M → List (Option Nat) → Option (List M)
  | [], _, _ => some []
  | .update l r e :: ops, vs, its =>
    if l ≤ r ∧ r ≤ vs.length then
      ispec ops (vs.mapIdx (fun i v => if l ≤ i ∧ i < r then v * e else v)) (its.map (fun _ => none)) else none
  | .set i x :: ops, vs, its => if i < vs.length then ispec ops (vs.set i x) its else none
  | .get i :: ops, vs, its => (vs[i]?).bind (fun v => (ispec ops vs its).map (v :: ·))
  | .begin :: ops, vs, its => ispec ops vs (its ++ [some 0])
  | .fin :: ops, vs, its => ispec ops vs (its ++ [some vs.length])
  | .inc k :: ops, vs, its => (its[k]?).join.bind (fun p => if p < vs.length then ispec ops vs (its.set k (some (p+1))) else none)
  | .dec k :: ops, vs, its => (its[k]?).join.bind (fun p => if 0 < p then ispec ops vs (its.set k (some (p-1))) else none)
  | .read k :: ops, vs, its => (its[k]?).join.bind (fun p => (vs[p]?).bind (fun v => (ispec ops vs its).map (v :: ·)))
  | .write k x :: ops, vs, its => (its[k]?).join.bind (fun p => if p < vs.length then ispec ops (vs.set p x) its else none)

/-- The valid iterators stand where they should, on leaves above which nothing is pending. -/
structure ItInv (n : Nat) (z : Nat → M) (its : List Nat) (ps : List (Option Nat)) : Prop where
  len : its.length = ps.length
  ok : ∀ k p : Nat, ps[k]? = some (some p) → its[k]? = some (n + p) ∧ p ≤ n ∧ (p < n → Clean z (n + p))

theorem ItInv.keeps {n : Nat} {z z' : Nat → M} {its : List Nat} {ps : List (Option Nat)} (h : ItInv n z its ps) (hk : Keeps z z') :
    ItInv n z' its ps :=
  ⟨h.len, fun k p hp => ⟨(h.ok k p hp).1, (h.ok k p hp).2.1, fun hlt => ((h.ok k p hp).2.2 hlt).keeps hk⟩⟩

theorem ItInv.push {n : Nat} {z : Nat → M} {its : List Nat} {ps : List (Option Nat)} (h : ItInv n z its ps) {p : Nat} (hp : p ≤ n)
    (hc : p < n → Clean z (n+p)) : ItInv n z (its ++ [n+p]) (ps ++ [some p]) := by
  refine ⟨by simp [h.len], ?_⟩
  intro k q hq
  by_cases hk : k < ps.length
  · rw [List.getElem?_append_left hk] at hq
    rw [List.getElem?_append_left (by rw [h.len]; exact hk)]
    exact h.ok k q hq
  · rw [List.getElem?_append_right (by omega)] at hq
    rw [List.getElem?_append_right (by rw [h.len]; omega), h.len]
    have : k - ps.length = 0 := by
      by_contra hne
      rw [List.getElem?_eq_none (by simp; omega)] at hq
      cases hq
    rw [this] at hq ⊢
    simp at hq
    subst hq
    exact ⟨by simp, hp, hc⟩

theorem ItInv.move {n : Nat} {z : Nat → M} {its : List Nat} {ps : List (Option Nat)} (h : ItInv n z its ps) {k : Nat} (hk : k < ps.length) {p : Nat}
    (hp : p ≤ n) (hc : p < n → Clean z (n+p)) : ItInv n z (its.set k (n+p)) (ps.set k (some p)) := by
  refine ⟨by simp [h.len], ?_⟩
  intro j q hq
  by_cases hj : j = k
  · subst hj
    rw [List.getElem?_set_self hk] at hq
    rw [List.getElem?_set_self (by rw [h.len]; exact hk)]
    simp at hq
    subst hq
    exact ⟨rfl, hp, hc⟩
  · rw [List.getElem?_set_ne (Ne.symm hj)] at hq ⊢
    exact h.ok j q hq

theorem ItInv.write {n : Nat} {z : Nat → M} {its : List Nat} {ps : List (Option Nat)} (h : ItInv n z its ps) (i : Nat) (x : M) :
    ItInv n (upd z (n+i) x) its ps := by
  refine ⟨h.len, fun k p hp => ⟨(h.ok k p hp).1, (h.ok k p hp).2.1, fun hlt m hm => ?_⟩⟩
  have : (n+p)/2^m ≤ (n+p)/2^1 := Nat.div_le_div_left (Nat.pow_le_pow_right (by omega) hm) (by decide)
  rw [upd_ne _ _ (by omega)]
  exact (h.ok k p hp).2.2 hlt m hm

theorem irun_spec {n : Nat} (hn : 2 * n < 2^64) : ∀ (ops : List (IOp M)) (t : Tree M) (z : Nat → M) (vs : List M) (its : List Nat)
    (ps : List (Option Nat)) (ans : List M), t.size = n → InvZ n t.tree z vs → ItInv n z its ps → ispec ops vs ps = some ans →
    irun ops t its = some ans := by
  intro ops
  induction ops with
  | nil => intro t z vs its ps ans _ _ _ h; exact h
  | cons op ops ih =>
    intro t z vs its ps ans hsz hz hi h
    have hlen := hz.len
    have hnth : ∀ k p : Nat, (ps[k]?).join = some p → ps[k]? = some (some p) := by
      intro k p hp
      cases hq : ps[k]? with
      | none => rw [hq] at hp; cases hp
      | some q => rw [hq] at hp; simp at hp; rw [hp]
    cases op with
    | update l r e =>
      simp only [ispec] at h
      split at h
      · rename_i hc
        obtain ⟨t', e', h'⟩ := update_spec hn ⟨hsz, z, hz⟩ hc.1 (by rw [← hlen]; exact hc.2) e
        obtain ⟨z', hz'⟩ := h'.inv
        simp only [irun, e', Option.bind_some]
        refine ih t' z' _ _ _ _ h'.sz hz' ⟨by simp [hi.len], ?_⟩ h
        intro k p hp
        rw [List.getElem?_map] at hp
        cases hq : ps[k]? with
        | none => rw [hq] at hp; cases hp
        | some q => rw [hq] at hp; cases hp
      · cases h
    | set i x =>
      simp only [ispec] at h
      split at h
      · rename_i hc
        rw [hlen] at hc
        obtain ⟨t1, z1, e1, h1, hcl, hk⟩ := leaf_prep_z hn hsz hz hc
        obtain ⟨t2, e2, h2⟩ := h1.rep.wr (i := n+i) (by omega) x
        have e' : set t i x = some ⟨n, t2⟩ := by
          unfold set
          rw [if_pos (by rw [hsz]; exact hc), e1, Option.bind_some, hsz, e2]; rfl
        simp only [irun, e', Option.bind_some]
        exact ih ⟨n, t2⟩ _ _ _ _ _ rfl (leaf_write h1 hc (up_half hcl) h2) ((hi.keeps hk).write _ x) h
      · cases h
    | get i =>
      simp only [ispec] at h
      cases hv : vs[i]? with
      | none => rw [hv] at h; cases h
      | some v =>
        rw [hv, Option.bind_some] at h
        have hc : i < n := by
          by_contra hge
          rw [List.getElem?_eq_none (by omega)] at hv
          cases hv
        obtain ⟨t1, z1, e1, h1, hcl, hk⟩ := leaf_prep_z hn hsz hz hc
        have e' : get t i = some (⟨n, t1⟩, v) := by
          unfold get
          rw [if_pos (by rw [hsz]; exact hc), e1, Option.bind_some, hsz, h1.rep.val (n+i) (by omega), Option.map_some]
          have := h1.val i hc
          rw [hv, up_pos _ (by omega), up_half hcl, mul_one] at this
          rw [Option.some.inj this]
        simp only [irun, e', Option.bind_some]
        cases hr : ispec ops vs ps with
        | none => rw [hr] at h; cases h
        | some r =>
          rw [hr] at h
          rw [ih ⟨n, t1⟩ z1 vs its ps r rfl h1 (hi.keeps hk) hr]
          exact h
    | begin =>
      simp only [ispec] at h
      have hL : t.tree.length = 2*n := hz.rep.len
      by_cases h0 : 0 < n
      · obtain ⟨t1, z1, e1, h1, hcl, hk⟩ := leaf_prep_z hn hsz hz h0
        have e' : itNew t t.size = some ⟨n, t1⟩ := by
          unfold itNew
          rw [if_pos ⟨Nat.le_refl _, by omega⟩, if_pos (by omega), Nat.sub_self, get, if_pos (by omega), e1, Option.bind_some, hsz,
            h1.rep.val (n+0) (by omega)]
          rfl
        rw [irun, e', Option.bind_some, hsz]
        exact ih ⟨n, t1⟩ z1 vs _ _ ans rfl h1 ((hi.keeps hk).push (p := 0) (by omega) (fun _ => hcl)) h
      · have e' : itNew t t.size = some t := by
          unfold itNew
          rw [if_pos ⟨Nat.le_refl _, by omega⟩, if_neg (by omega)]
        rw [irun, e', Option.bind_some, hsz]
        exact ih t z vs _ _ ans hsz hz (hi.push (p := 0) (by omega) (fun h => absurd h h0)) h
    | fin =>
      simp only [ispec] at h
      have hL : t.tree.length = 2*n := hz.rep.len
      have e' : itNew t (t.size*2) = some t := by
        unfold itNew
        rw [if_pos ⟨by omega, Nat.le_refl _⟩, if_neg (by omega)]
      rw [irun, e', Option.bind_some, hsz]
      rw [hlen] at h
      have := hi.push (p := n) (by omega) (fun h => absurd h (by omega))
      rw [show n + n = n * 2 by omega] at this
      exact ih t z vs _ _ ans hsz hz this h
    | inc k =>
      simp only [ispec] at h
      cases hp : (ps[k]?).join with
      | none => rw [hp] at h; cases h
      | some p =>
        rw [hp, Option.bind_some] at h
        have hp := hnth k p hp
        obtain ⟨o1, o2, o3⟩ := hi.ok k p hp
        have hkl : k < ps.length := by
          by_contra hge
          rw [List.getElem?_eq_none (by omega)] at hp; cases hp
        split at h
        · rename_i hc
          rw [hlen] at hc
          obtain ⟨t', z', e', s', h', hc', hk⟩ := itInc_spec hn hsz hz hc (o3 hc)
          simp only [irun, o1, Option.bind_some, e']
          exact ih t' z' vs _ _ ans s' h' ((hi.keeps hk).move hkl (by omega) hc') h
        · cases h
    | dec k =>
      simp only [ispec] at h
      cases hp : (ps[k]?).join with
      | none => rw [hp] at h; cases h
      | some p =>
        rw [hp, Option.bind_some] at h
        have hp := hnth k p hp
        obtain ⟨o1, o2, o3⟩ := hi.ok k p hp
        have hkl : k < ps.length := by
          by_contra hge
          rw [List.getElem?_eq_none (by omega)] at hp; cases hp
        split at h
        · rename_i hc
          have hq : p - 1 + 1 = p := by omega
          obtain ⟨t', z', e', s', h', hc', hk⟩ := itDec_spec hn hsz hz (p := p-1) (by omega) (by rw [hq]; exact o3)
          rw [hq] at e'
          rw [irun, o1, Option.bind_some, e', Option.bind_some]
          exact ih t' z' vs _ _ ans s' h' ((hi.keeps hk).move hkl (by omega) (fun _ => hc')) h
        · cases h
    | read k =>
      simp only [ispec] at h
      cases hp : (ps[k]?).join with
      | none => rw [hp] at h; cases h
      | some p =>
        rw [hp, Option.bind_some] at h
        obtain ⟨o1, o2, o3⟩ := hi.ok k p (hnth k p hp)
        cases hv : vs[p]? with
        | none => rw [hv] at h; cases h
        | some v =>
          rw [hv, Option.bind_some] at h
          have hc : p < n := by
            by_contra hge
            rw [List.getElem?_eq_none (by omega)] at hv
            cases hv
          have e' : deref t (n+p) = some v := by
            unfold deref
            rw [hz.rep.val (n+p) (by omega)]
            have := hz.val p hc
            rw [hv, up_pos _ (by omega), up_half (o3 hc), mul_one] at this
            exact this.symm
          simp only [irun, o1, Option.bind_some, e']
          cases hr : ispec ops vs ps with
          | none => rw [hr] at h; cases h
          | some r =>
            rw [hr] at h
            rw [ih t z vs its ps r hsz hz hi hr]
            exact h
    | write k x =>
      simp only [ispec] at h
      cases hp : (ps[k]?).join with
      | none => rw [hp] at h; cases h
      | some p =>
        rw [hp, Option.bind_some] at h
        obtain ⟨o1, o2, o3⟩ := hi.ok k p (hnth k p hp)
        split at h
        · rename_i hc
          rw [hlen] at hc
          obtain ⟨t2, e2, h2⟩ := hz.rep.wr (i := n+p) (by omega) x
          simp only [irun, o1, Option.bind_some, assign, e2, Option.map_some, hsz]
          exact ih ⟨n, t2⟩ _ _ _ _ _ rfl (leaf_write hz hc (up_half (o3 hc)) h2) (hi.write _ x) h
        · cases h

/-- **C123.** Any number of iterators moved by prefix `++`/`--`, read and assigned through, mixed with `get`, `set` and `update`, behave as positions in the
plain list: an iterator stays valid until the next `update`, and `--` from `end()` works. -/
theorem C123_iterators_partial (xs : List M) (hn : 2 * xs.length < 2^64) (ops : List (IOp M)) (ans : List M) (h : ispec ops xs [] = some ans) :
    irun ops (ofRange xs) [] = some ans := by
  obtain ⟨z, hz⟩ := (ofRange_inv xs).inv
  exact irun_spec hn ops _ z xs [] [] ans rfl hz ⟨rfl, by intro k p hp; simp at hp⟩ h

/-- **C123** (constructor from a size). -/
theorem C123_iterators_size_partial (n : Nat) (hn : 2 * n < 2^64) (ops : List (IOp M)) (ans : List M)
    (h : ispec ops (List.replicate n (1 : M)) [] = some ans) : irun ops (ofSize n) [] = some ans := by
  obtain ⟨z, hz⟩ := (ofSize_inv (M := M) n).inv
  exact irun_spec hn ops _ z _ [] [] ans rfl hz ⟨rfl, by intro k p hp; simp at hp⟩ h

/-- The calls of a range-`for` over a tree of `n` elements: `begin()`, then read and `++` in turn. -/
def forCalls (n : Nat) : List (IOp M) := .begin :: (List.replicate n [.read 0, .inc 0]).flatten

theorem ispec_for (vs : List M) : ∀ m p, p + m = vs.length →
    ispec (List.replicate m [IOp.read 0, IOp.inc 0]).flatten vs [some p] = some (vs.drop p) := by
  intro m
  induction m with
  | zero => intro p hp; rw [List.drop_of_length_le (by omega)]; rfl
  | succ m ih =>
    intro p hp
    have hlt : p < vs.length := by omega
    have := ih (p+1) (by omega)
    rw [List.replicate_succ, List.flatten_cons]
    simp only [List.cons_append, List.nil_append, ispec, List.getElem?_cons_zero, Option.join_some, Option.bind_some,
      List.getElem?_eq_getElem hlt, if_pos hlt, List.set_cons_zero, this, Option.map_some]
    rw [List.drop_eq_getElem_cons hlt]

/-- **C123.** A range-`for` over the tree visits the represented elements in order, after any updates. -/
theorem C123_range_for_partial {n : Nat} (hn : 2 * n < 2^64) {t : Tree M} {vs : List M} (h : Inv n t vs) : irun (forCalls n) t [] = some vs := by
  obtain ⟨z, hz⟩ := h.inv
  refine irun_spec hn _ t z vs [] [] vs h.sz hz ⟨rfl, by intro k p hp; simp at hp⟩ ?_
  rw [forCalls, ispec, List.nil_append, ispec_for vs n 0 (by rw [hz.len]; omega), List.drop_zero]

/-- Two iterators from both ends of a tree of three words, a `get` and a write in between. -/
example : @irun (List Char) ⟨[]⟩ ⟨(· ++ ·)⟩
    [.update 0 3 ['a'], .update 1 3 ['b'], .begin, .fin, .dec 1, .read 1, .inc 0, .read 0, .get 0, .write 0 ['x'], .dec 1, .read 1, .dec 0, .read 0]
    ⟨3, List.replicate 6 []⟩ [] = some [['a','b'], ['a','b'], ['a'], ['x'], ['a']] := by decide +kernel

/-- **C123, violated.** `begin() += 2` leaves the pending operators above the new position where they are: `*it` reads 1 although `get(2)` gives 2. -/
theorem C123_violated_plus : ∃ t t' : Tree Nat, update (ofSize 4) 0 4 2 = some t ∧ itNew t 4 = some t' ∧
    (itPlus t' 4 2).bind (fun p => deref p.1 p.2) = some 1 ∧ (get t' 2).map Prod.snd = some 2 :=
  ⟨⟨4, [1,2,1,1,1,1,1,1]⟩, ⟨4, [1,1,1,2,2,2,1,1]⟩, by decide +kernel, by decide +kernel, by decide +kernel, by decide +kernel⟩

/-- **C123, violated.** Postfix `++` does not propagate at all: after `it++; it++` from `begin()`, `*it` reads 1 although `get(2)` gives 2. -/
theorem C123_violated_postfix : ∃ t t' : Tree Nat, update (ofSize 4) 0 4 2 = some t ∧ itNew t 4 = some t' ∧
    (itPostInc t' 4).bind (fun p => (itPostInc p.1 p.2).bind (fun q => deref q.1 q.2)) = some 1 ∧ (get t' 2).map Prod.snd = some 2 :=
  ⟨⟨4, [1,2,1,1,1,1,1,1]⟩, ⟨4, [1,1,1,2,2,2,1,1]⟩, by decide +kernel, by decide +kernel, by decide +kernel, by decide +kernel⟩

end Verif.DualSegTree
