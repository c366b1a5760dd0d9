import Verif.IntSet.Spec
import Verif.IntSet.Del
/-! Every call keeps the invariant and answers as specified; the state after the last element is erased. -/
namespace Verif.IntSet
open Verif
open Verif.Trie (Lf bit pre bit_lt pre_succ pre_W pre_zero Has Ext Ex IsMin IsMax IsNext IsPrev Above Below Ptr LOk Top has_insert put1 Least Greatest Valid)

variable {V : Type} {W x y z i : Nat} {K : Finset Nat} {s : St V} {m : Nat → Option V}

theorem least_of {P : Nat → Prop} {r : Option Nat} (I : Inv W s K m) (h : IsMin (fun z => z ∈ K ∧ P z) r) : Least m P r := by
  cases r with
  | none => exact fun z hz hp => h z ⟨(I.mem z).2 hz, hp⟩
  | some y => exact ⟨(I.mem y).1 h.1.1, h.1.2, fun z hz hp => h.2 z ⟨(I.mem z).2 hz, hp⟩⟩

theorem greatest_of {P : Nat → Prop} {r : Option Nat} (I : Inv W s K m) (h : IsMax (fun z => z ∈ K ∧ P z) r) : Greatest m P r := by
  cases r with
  | none => exact fun z hz hp => h z ⟨(I.mem z).2 hz, hp⟩
  | some y => exact ⟨(I.mem y).1 h.1.1, h.1.2, fun z hz hp => h.2 z ⟨(I.mem z).2 hz, hp⟩⟩

theorem ptr_of {a : Option Nat} (I : Inv W s K m) (h : Valid m a) : Ptr K a := by
  cases a with
  | none => trivial
  | some x => exact (I.mem x).2 h

theorem ite_mem (I : Inv W s K m) (v : V) : (if x ∈ K then m else upd m x (some v)) = (if (m x).isSome then m else put1 m x (some v)) := by
  by_cases c : x ∈ K
  · rw [if_pos c, if_pos ((I.mem x).1 c)]
  · rw [if_neg c, if_neg (fun h => c ((I.mem x).2 h))]; rfl

/-- Erasing one of several keys. -/
theorem eraseKey_ok (hW : 0 < W) (I : Inv W s K m) (hx : (m x).isSome) (ho : Other m x) :
    ∃ s' r K', eraseLeaf W s x = some (s', r) ∧ Greatest m (· < x) r ∧ Inv W s' K' (put1 m x none) := by
  have hxK := (I.mem x).2 hx
  obtain ⟨z, hz, hzm⟩ := ho
  have hI : Inv W s (insert x (K.erase x)) m := by rw [Finset.insert_erase hxK]; exact I
  obtain ⟨s', r, e, J, hr⟩ := eraseLeaf_ok hW hI (Finset.notMem_erase x K) (Finset.ne_empty_of_mem (Finset.mem_erase.2 ⟨hz, (I.mem z).2 hzm⟩))
  refine ⟨s', r, K.erase x, e, greatest_of I (IsMax.congr hr fun t => ?_), J⟩
  simp only [Finset.mem_erase, Below]
  constructor
  · rintro ⟨⟨_, a⟩, b⟩; exact ⟨a, b⟩
  · rintro ⟨a, b⟩; exact ⟨⟨by omega, a⟩, b⟩

theorem step_ok (hW : 0 < W) {o : Op V} (hp : Pre W false m o) (I1 : ∃ K, Inv W s K m) :
    ∃ s' r, step W s o = some (s', r) ∧ Res false m o r ∧ ∃ K, Inv W s' K (after m o) := by
  obtain ⟨K, I⟩ := I1
  cases o with
  | emplace x v =>
    obtain ⟨s', e, J⟩ := emplace_ok I hW hp v
    rw [ite_mem I] at J
    exact ⟨s', _, by rw [step, e]; rfl, rfl, _, J⟩
  | hint a x v =>
    obtain ⟨h1, h2, h3⟩ := hp
    obtain ⟨s', e, J⟩ := emplaceHint_ok I hW h1 (ptr_of I h2) (by
      rcases h3 with h3 | h3 | ⟨z, hz, e⟩
      · cases h3
      · exact Or.inl h3
      · exact Or.inr ⟨z, (I.mem z).2 hz, e⟩) v
    rw [ite_mem I] at J
    exact ⟨s', _, by rw [step, e]; rfl, rfl, _, J⟩
  | erase x =>
    obtain ⟨h1, h2⟩ := hp
    have h2 := h2.resolve_left (by simp)
    obtain ⟨r, e, h⟩ := lowerBound_ok I hW h1
    by_cases c : (m x).isSome
    · rw [if_pos c] at h2
      have hr : r = some x := IsMin.unique h ⟨⟨(I.mem x).2 c, le_refl _⟩, fun z hz => hz.2⟩
      obtain ⟨s', q, K', ee, hq, J⟩ := eraseKey_ok hW I c h2
      refine ⟨s', .it q, ?_, ⟨q, rfl, ?_⟩, K', J⟩
      · rw [step, erase, e, Option.bind_some, hr, keyOf_ok I ((I.mem x).2 c), Option.bind_some, if_neg (by simp), eraseAt, ee]; rfl
      · rw [if_pos c]; exact hq
    · rw [if_neg c] at h2
      obtain ⟨z, hz, hzm⟩ := h2
      cases r with
      | none => exact absurd ⟨(I.mem z).2 hzm, le_of_lt hz⟩ (h z)
      | some y =>
        have hne : y ≠ x := fun e => c ((I.mem x).1 (e ▸ h.1.1))
        refine ⟨s, .it (some y), ?_, ⟨some y, rfl, ?_⟩, K, ?_⟩
        · rw [step, erase, e, Option.bind_some, keyOf_ok I h.1.1, Option.bind_some, if_pos hne]; rfl
        · rw [if_neg c]; exact least_of I h
        · have : after m (.erase x) = m := by
            funext t
            show (if t = x then none else m t) = m t
            by_cases ct : t = x
            · rw [if_pos ct, ct]
              cases hm : m x with
              | none => rfl
              | some w => rw [hm] at c; exact absurd rfl c
            · rw [if_neg ct]
          rw [this]; exact I
  | eraseAt a =>
    obtain ⟨h1, h2⟩ := hp
    have h2 := h2.resolve_left (by simp)
    cases a with
    | none => exact ⟨s, _, rfl, rfl, K, I⟩
    | some x =>
      obtain ⟨s', q, K', ee, hq, J⟩ := eraseKey_ok hW I h1 (h2 x rfl)
      exact ⟨s', .it q, by rw [step, eraseAt, ee]; rfl, ⟨q, rfl, hq⟩, K', J⟩
  | find x =>
    refine ⟨s, _, rfl, ?_, K, I⟩
    show _ = _
    rw [find_ok I hW]
    by_cases c : x ∈ K
    · rw [if_pos c, if_pos ((I.mem x).1 c)]
    · rw [if_neg c, if_neg (fun h => c ((I.mem x).2 h))]
  | lower x =>
    obtain ⟨r, e, h⟩ := lowerBound_ok I hW hp
    exact ⟨s, _, by rw [step, e]; rfl, ⟨r, rfl, least_of I h⟩, K, I⟩
  | upper x =>
    obtain ⟨r, e, h⟩ := upperBound_ok I hW hp
    exact ⟨s, _, by rw [step, e]; rfl, ⟨r, rfl, least_of I h⟩, K, I⟩
  | pred x =>
    obtain ⟨r, e, h⟩ := predecessor_ok I hW hp
    exact ⟨s, _, by rw [step, e]; rfl, ⟨r, rfl, greatest_of I h⟩, K, I⟩
  | next x =>
    obtain ⟨l, el, lp, ln, lv⟩ := I.leaf (some x) ((I.mem x).2 hp)
    exact ⟨s, _, by rw [step, el]; rfl, ⟨l.next, rfl, least_of I ln⟩, K, I⟩
  | prev a =>
    obtain ⟨l, el, lp, ln, lv⟩ := I.leaf a (ptr_of I hp)
    refine ⟨s, .it l.prev, by rw [step, el]; rfl, ?_, K, I⟩
    cases a with
    | none => exact ⟨l.prev, rfl, greatest_of I lp⟩
    | some x => exact ⟨l.prev, rfl, greatest_of I lp⟩
  | value x =>
    obtain ⟨l, el, lp, ln, lv⟩ := I.leaf (some x) ((I.mem x).2 hp)
    refine ⟨s, .value l.v, by rw [step, el]; rfl, ?_, K, I⟩
    rw [lv]
    rfl
  | size => exact ⟨s, _, rfl, ⟨K, I.mem, by rw [I.size]⟩, K, I⟩
  | list =>
    obtain ⟨l, e, h1, h2⟩ := elements_ok I
    exact ⟨s, .list l, by rw [step, e]; rfl, ⟨l, rfl, h1, h2⟩, K, I⟩
  | clear => exact ⟨init, .unit, rfl, rfl, ∅, init_inv W⟩

theorem run_ok (hW : 0 < W) : ∀ (os : List (Op V)) (s : St V) (m : Nat → Option V), Legal W false m os → (∃ K, Inv W s K m) →
    ∃ s' rs, run W s os = some (s', rs) ∧ Results false m os rs ∧ ∃ K, Inv W s' K (afterAll m os)
  | [], s, m, _, I => ⟨s, [], rfl, rfl, I⟩
  | o :: os, s, m, hl, I => by
    obtain ⟨s1, r, e, hr, I1⟩ := step_ok hW hl.1 I
    obtain ⟨s2, rs, e2, hr2, I2⟩ := run_ok hW os s1 (after m o) hl.2 I1
    exact ⟨s2, r :: rs, by rw [run, e, Option.bind_some, e2]; rfl, ⟨r, rs, rfl, hr, hr2⟩, I2⟩

/-! ### erasing the last element -/

theorem climbDel_last : ∀ i (s : St V), i < W → (∀ j ≤ i, ∃ u, s.node j (pre W x j) = some u ∧ Fl W {x} j (pre W x j) u) →
    (∀ j, 1 ≤ j → j ≤ i + 1 → s.tb j (pre W x j) = true) →
    ∃ u nd tb, climbDel W x (i+1) s = some ({ s with node := nd, tb := tb }, none) ∧ s.node 0 (pre W x 0) = some u ∧ nd 0 (pre W x 0) = some (cut W x 0 u) ∧
      (∀ j q, tb j q = true ↔ s.tb j q = true ∧ ¬ (0 < j ∧ j ≤ i + 1 ∧ q = pre W x j)) := by
  intro i
  induction i with
  | zero =>
    intro s hi hu ht
    obtain ⟨u, eu, fu⟩ := hu 0 (le_refl _)
    have hb := bit_lt W x 0
    have hps := pre_succ (x := x) hi
    have hmask : ¬ (cut W x 0 u).mask (1 - bit W x 0) = true := by
      unfold cut
      dsimp only
      rw [upd_ne _ _ (by omega), (fu _ (by omega)).1]
      rintro ⟨z, hz, ez⟩
      rw [Finset.mem_singleton.1 hz] at ez
      omega
    refine ⟨u, upd2 (upd2 s.node 1 (pre W x 1) none) 0 (pre W x 0) (some (cut W x 0 u)), upd2 s.tb 1 (pre W x 1) false, ?_, eu, by rw [upd2_same], ?_⟩
    · unfold climbDel modNode
      rw [if_pos (ht 1 (le_refl _) (le_refl _))]
      dsimp only
      rw [upd2_ne _ _ (by omega), eu, Option.map_some, Option.bind_some]
      dsimp only
      rw [upd2_same, Option.bind_some]
      exact if_neg hmask
    · intro j q
      unfold upd2
      by_cases c : j = 1 ∧ q = pre W x 1
      · obtain ⟨rfl, rfl⟩ := c
        simp
      · rw [if_neg c]
        constructor
        · intro h; refine ⟨h, ?_⟩
          rintro ⟨a, b, e⟩
          have : j = 1 := by omega
          subst this
          exact c ⟨rfl, e⟩
        · exact fun h => h.1
  | succ i ih =>
    intro s hi hu ht
    obtain ⟨u, eu, fu⟩ := hu (i+1) (le_refl _)
    have hb := bit_lt W x (i+1)
    have hps := pre_succ (x := x) hi
    have hmask : ¬ (cut W x (i+1) u).mask (1 - bit W x (i+1)) = true := by
      unfold cut
      dsimp only
      rw [upd_ne _ _ (by omega), (fu _ (by omega)).1]
      rintro ⟨z, hz, ez⟩
      rw [Finset.mem_singleton.1 hz] at ez
      omega
    unfold climbDel modNode
    rw [if_pos (ht (i+2) (by omega) (by omega))]
    dsimp only
    rw [upd2_ne _ _ (by omega), eu, Option.map_some, Option.bind_some]
    dsimp only
    rw [upd2_same, Option.bind_some]
    obtain ⟨u', nd, tb, e, eu', hnd, htb⟩ := ih { s with
        tb := upd2 s.tb (i+1+1) (pre W x (i+1+1)) false
        node := upd2 (upd2 s.node (i+1+1) (pre W x (i+1+1)) none) (i+1) (pre W x (i+1)) (some (cut W x (i+1) u)) } (by omega)
      (fun j hj => by
        obtain ⟨w, ew, fw⟩ := hu j (by omega)
        exact ⟨w, by dsimp only; rw [upd2_ne _ _ (by omega), upd2_ne _ _ (by omega)]; exact ew, fw⟩)
      (fun j h1 h2 => by dsimp only; rw [upd2_ne _ _ (by omega)]; exact ht j h1 (by omega))
    dsimp only at eu' htb
    rw [upd2_ne _ _ (by omega), upd2_ne _ _ (by omega)] at eu'
    refine ⟨u', nd, tb, (if_neg hmask).trans e, eu', hnd, ?_⟩
    intro j q
    rw [htb]
    unfold upd2
    by_cases c4 : j = i + 1 + 1 ∧ q = pre W x (i+1+1)
    · obtain ⟨rfl, rfl⟩ := c4
      simp
    · rw [if_neg c4]
      constructor
      · rintro ⟨a, b⟩
        refine ⟨a, ?_⟩
        rintro ⟨a1, b1, e⟩
        by_cases hj : j = i + 2
        · subst hj; exact c4 ⟨rfl, e⟩
        · exact b ⟨a1, by omega, e⟩
      · rintro ⟨a, b⟩
        exact ⟨a, fun ⟨a1, b1, e⟩ => b ⟨a1, by omega, e⟩⟩

/-- After the only key is erased, `lower_bound` and `emplace` meet a null pointer for keys with the same top bit; for the other keys `lower_bound` may give the erased leaf. -/
theorem eraseLast (hW : 0 < W) (I : Inv W s {x} m) : ∃ s', eraseLeaf W s x = some (s', none) ∧ s'.size = 0 ∧ (∀ y, find W s' y = none) ∧
    (∀ y < 2 ^ W, lowerBound W s' y = if y / 2 ^ (W - 1) = x / 2 ^ (W - 1) then none else if y < x then some (some x) else some none) ∧
    (∀ y < 2 ^ W, ∀ v, y / 2 ^ (W - 1) = x / 2 ^ (W - 1) → emplace W s' y v = none) := by
  have hx : x < 2 ^ W := I.lt x (Finset.mem_singleton_self x)
  have I' : Inv W s (insert x ∅) m := I
  obtain ⟨l, lf, el, hp, hn, eu, hlf⟩ := unlink_ok I'.leaf (Finset.notMem_empty x)
  have hself : ∀ j, Has W {x} j (pre W x j) := fun j => ⟨x, Finset.mem_singleton_self x, rfl⟩
  have hpn : l.prev = none := by
    cases h : l.prev with
    | none => rfl
    | some y => rw [h] at hp; exact absurd hp.1.1 (Finset.notMem_empty y)
  have hnn : l.next = none := by
    cases h : l.next with
    | none => rfl
    | some y => rw [h] at hn; exact absurd hn.1.1 (Finset.notMem_empty y)
  obtain ⟨u, nd, tb, ec, eu0, hnd, htb⟩ := climbDel_last (x := x) (W - 1) { s with leaf := lf } (by omega)
    (fun j hj => by
      obtain ⟨u, e, f, _⟩ := I.node j (by omega) (pre W x j) (Or.inl (hself j))
      exact ⟨u, e, f⟩)
    (fun j h1 h2 => (I.tb _ _).2 (Or.inl ⟨h1, by omega, hself j⟩))
  rw [show W - 1 + 1 = W by omega] at ec htb
  obtain ⟨u', eu', fu', tu'⟩ := I.node 0 hW (pre W x 0) (Or.inl (hself 0))
  dsimp only at eu0
  rw [eu0] at eu'
  cases eu'
  rw [pre_zero hx] at hnd
  have hb := bit_lt W x 0
  have hps := pre_succ (x := x) hW
  rw [pre_zero hx] at hps fu' tu'
  have hno : ¬ Has W {x} 1 (2 * 0 + (1 - bit W x 0)) := by
    rintro ⟨z, hz, ez⟩
    rw [Finset.mem_singleton.1 hz] at ez
    have ez' := hps.symm.trans ez
    omega
  have hic : (cut W x 0 u).ch (1 - bit W x 0) = .thr (some x) := by
    unfold cut
    dsimp only
    rw [upd_ne _ _ (by omega)]
    rcases tu' _ (by omega) hno with ⟨e, _⟩ | ⟨y, e, hy⟩
    · exact absurd e (Finset.singleton_ne_empty x)
    · rw [e, Finset.mem_singleton.1 hy.1]
  have hc : (cut W x 0 u).ch (bit W x 0) = .null := by unfold cut; dsimp only; rw [upd_same]
  have hmx : (cut W x 0 u).mask (bit W x 0) = false := by
    unfold cut
    dsimp only
    rw [upd_same, (fu' _ hb).1.2 (by rw [← hps]; exact hself 1)]; rfl
  have htb' : ∀ i p, tb i p = true ↔ (1 ≤ i ∧ i ≤ W ∧ Has W ∅ i p) ∨ (i = 0 ∧ p = 0) := by
    intro i p
    rw [htb]
    dsimp only
    rw [I.tb]
    constructor
    · rintro ⟨⟨a1, a2, z, hz, ez⟩ | a, b⟩
      · rw [Finset.mem_singleton.1 hz] at ez
        exact absurd ⟨by omega, a2, ez.symm⟩ b
      · exact Or.inr a
    · rintro (⟨_, _, z, hz, _⟩ | a)
      · exact absurd hz (Finset.notMem_empty z)
      · exact ⟨Or.inr a, fun h => by omega⟩
  have htop : ∀ y, bit W y 0 = y / 2 ^ (W - 1) % 2 := fun y => by unfold bit; rw [Nat.sub_zero]
  have hlt : ∀ y < 2 ^ W, y / 2 ^ (W - 1) < 2 := fun y hy => by
    rw [Nat.div_lt_iff_lt_mul (Nat.two_pow_pos _), ← Nat.pow_succ', show (W - 1).succ = W by omega]; exact hy
  have hbit : ∀ y < 2 ^ W, bit W y 0 = y / 2 ^ (W - 1) := fun y hy => by rw [htop, Nat.mod_eq_of_lt (hlt y hy)]
  refine ⟨{ s with node := nd, tb := tb, size := s.size - 1, leaf := fun b => if b = some x then some { l with v := none } else lf b }, ?_, ?_, ?_, ?_, ?_⟩
  · unfold eraseLeaf
    rw [el, Option.bind_some, ← Option.bind_assoc, eu, Option.bind_some, ec, Option.bind_some]
    dsimp only
    rw [Option.map_some, hpn]
  · dsimp only
    rw [I.size]; rfl
  · intro y
    unfold find
    dsimp only
    rw [if_neg]
    intro h
    rcases (htb' _ _).1 h with ⟨_, _, z, hz, _⟩ | ⟨h, _⟩
    · exact absurd hz (Finset.notMem_empty z)
    · omega
  · intro y hy
    obtain ⟨r, e, t⟩ := search_root (s := { s with node := nd, tb := tb, size := s.size - 1, leaf := fun b => if b = some x then some { l with v := none } else lf b }) (x := y) htb' hy
    have hr : r = 0 := by
      rcases t.has with h | ⟨z, hz, _⟩
      · exact h
      · exact absurd hz (Finset.notMem_empty z)
    subst hr
    unfold lowerBound
    rw [e, Option.bind_some]
    dsimp only
    rw [if_neg (by omega), pre_zero hy, hnd, Option.bind_some, ← hbit x hx, ← hbit y hy]
    have hby := bit_lt W y 0
    by_cases c : bit W y 0 = bit W x 0
    · rw [if_pos c]
      by_cases c0 : bit W y 0 = 0
      · have h2 : (cut W x 0 u).ch 0 = .null := by have := hc; rwa [show bit W x 0 = 0 by omega] at this
        rw [if_pos c0, h2]; rfl
      · have h2 : (cut W x 0 u).ch 1 = .null := by have := hc; rwa [show bit W x 0 = 1 by omega] at this
        rw [if_neg c0, h2]; rfl
    · rw [if_neg c]
      by_cases c0 : bit W y 0 = 0
      · rw [if_pos c0]
        have h1 : y < x := Trie.lt_of_pre (W := W) (i := 1) (by rw [pre_succ hW, pre_succ hW, pre_zero hx, pre_zero hy]; omega)
        have h2 : (cut W x 0 u).ch 0 = .thr (some x) := by have := hic; rwa [show 1 - bit W x 0 = 0 by omega] at this
        rw [if_pos h1, h2]; rfl
      · rw [if_neg c0]
        have h1 : x < y := Trie.lt_of_pre (W := W) (i := 1) (by rw [pre_succ hW, pre_succ hW, pre_zero hx, pre_zero hy]; omega)
        have h2 : (cut W x 0 u).ch 1 = .thr (some x) := by have := hic; rwa [show 1 - bit W x 0 = 1 by omega] at this
        rw [if_neg (by omega), h2, thread, Option.bind_some, if_pos rfl, Option.map_some, hnn]
  · intro y hy v hyx
    have hbb : bit W y 0 = bit W x 0 := by rw [hbit x hx, hbit y hy, hyx]
    obtain ⟨k, hk⟩ : ∃ k, W = k + 1 := ⟨W - 1, by omega⟩
    unfold emplace
    have hd : descend W ({ s with node := nd, tb := tb, size := s.size - 1, leaf := fun b => if b = some x then some { l with v := none } else lf b } : St V) y W 0 0 = some (0, 0) := by
      conv_lhs => arg 4; rw [hk]
      unfold descend
      dsimp only
      rw [hnd, Option.bind_some, hbb, hmx]; rfl
    rw [hd, Option.bind_some]
    dsimp only
    rw [if_neg (by omega)]
    unfold insertSubtree
    dsimp only
    rw [hnd, Option.bind_some]
    by_cases c : bit W y 0 = 1
    · have h2 : (cut W x 0 u).ch 1 = .null := by have := hc; rwa [show bit W x 0 = 1 by omega] at this
      rw [if_pos c, h2]; rfl
    · have h2 : (cut W x 0 u).ch 0 = .null := by have := hc; rwa [show bit W x 0 = 0 by omega] at this
      rw [if_neg c, h2]; rfl

end Verif.IntSet
