import Verif.SplayList.Ops
/-!
# C85: `SplayTreeList` behaves like a sequence

Specification: a plain list of values.
-/
namespace Verif.SplayList
open Verif Verif.LazySegTree Verif.Splay BT

variable {M A : Type} [Monoid M] {S : Acts M A}

/-- What one call does to the sequence and what it returns. -/
inductive Does (S : Acts M A) : List M → Op M A → List M → Option M → Prop where
  | insert {xs i x} : i ≤ xs.length → Does S xs (.insert i x) (xs.take i ++ x :: xs.drop i) none
  | erase {xs i} : i < xs.length → Does S xs (.erase i) (xs.take i ++ xs.drop (i+1)) none
  | reverse {xs l r} : l ≤ r → r ≤ xs.length → Does S xs (.reverse l r) (xs.take l ++ ((xs.drop l).take (r-l)).reverse ++ xs.drop r) none
  | set {xs i x} : i < xs.length → Does S xs (.set i x) (xs.take i ++ x :: xs.drop (i+1)) none
  | update {xs i f y} : xs[i]? = some y → Does S xs (.update i f) (xs.take i ++ S.act f y :: xs.drop (i+1)) none
  | updateRange {xs l r f} : l < r → r ≤ xs.length → Does S xs (.updateRange l r f) (xs.take l ++ ((xs.drop l).take (r-l)).map (S.act f) ++ xs.drop r) none
  | get {xs i y} : xs[i]? = some y → Does S xs (.get i) xs (some y)
  | prod {xs l r} : l < r → r ≤ xs.length → Does S xs (.prod l r) xs (some ((xs.drop l).take (r-l)).prod)

/-- A sequence of calls. -/
inductive Runs (S : Acts M A) : List M → List (Op M A) → List (Option M) → Prop where
  | nil {xs} : Runs S xs [] []
  | cons {xs o ys r os rs} : Does S xs o ys r → Runs S ys os rs → Runs S xs (o :: os) (r :: rs)

/-! ### the invariant -/

def Inv (S : Acts M A) (n : Nat) (s : Lst M A) (xs : List M) : Prop :=
  ∃ g T, H n s.1 g none T ∧ Valid S false T ∧ s.2 = BT.root T ∧ (seq S T).map Prod.snd = xs

/-- The invariant with the potential. -/
def InvP (S : Acts M A) (n : Nat) (s : Lst M A) (xs : List M) (φ : Nat) : Prop :=
  ∃ g T, H n s.1 g none T ∧ Valid S false T ∧ s.2 = BT.root T ∧ (seq S T).map Prod.snd = xs ∧ phi T = φ

variable {n φ : Nat} {s : Lst M A} {xs : List M}

theorem Inv.pot (h : Inv S n s xs) : ∃ φ, InvP S n s xs φ := by
  obtain ⟨g, T, h1, h2, h3, h4⟩ := h
  exact ⟨_, g, T, h1, h2, h3, h4, rfl⟩

theorem InvP.inv (h : InvP S n s xs φ) : Inv S n s xs := by
  obtain ⟨g, T, h1, h2, h3, h4, _⟩ := h
  exact ⟨g, T, h1, h2, h3, h4⟩

/-- Splitting a list that is a mapped concatenation. -/
theorem split1 {a q : List (Nat × M)} {p : Nat × M} {i : Nat} (ha : a.length = i) : ((a ++ p :: q).map Prod.snd).take i = a.map Prod.snd ∧ ((a ++ p :: q).map Prod.snd).drop i = p.2 :: q.map Prod.snd ∧
    ((a ++ p :: q).map Prod.snd).drop (i+1) = q.map Prod.snd ∧ ((a ++ p :: q).map Prod.snd)[i]? = some p.2 := by
  subst ha
  have e : (a ++ p :: q).map Prod.snd = a.map Prod.snd ++ (p.2 :: q.map Prod.snd) := by simp
  have hl : a.length = (a.map Prod.snd).length := by simp
  have hd : ((a ++ p :: q).map Prod.snd).drop a.length = p.2 :: q.map Prod.snd := by rw [e, hl, List.drop_left']; rfl
  refine ⟨by rw [e, hl, List.take_left']; rfl, hd, ?_, ?_⟩
  · rw [← List.drop_drop, hd]; rfl
  · rw [e, hl]; simp

theorem split2 {a x b : List (Nat × M)} {l r : Nat} (hlr : l ≤ r) (ha : a.length = l) (hx : x.length = r - l) : ((a ++ x ++ b).map Prod.snd).take l = a.map Prod.snd ∧
    (((a ++ x ++ b).map Prod.snd).drop l).take (r - l) = x.map Prod.snd ∧ ((a ++ x ++ b).map Prod.snd).drop r = b.map Prod.snd := by
  have e : (a ++ x ++ b).map Prod.snd = a.map Prod.snd ++ (x.map Prod.snd ++ b.map Prod.snd) := by simp
  have hl : l = (a.map Prod.snd).length := by simp [ha]
  have hr : r - l = (x.map Prod.snd).length := by simp [hx]
  have hd : ((a ++ x ++ b).map Prod.snd).drop l = x.map Prod.snd ++ b.map Prod.snd := by rw [e, hl, List.drop_left']; rfl
  refine ⟨by rw [e, hl, List.take_left']; rfl, by rw [hd, hr, List.take_left']; rfl, ?_⟩
  have : r = l + (r - l) := by omega
  rw [this, ← List.drop_drop, hd, hr, List.drop_left']
  rfl

theorem step_pot (L : Laws S) {o : Op M A} {ys : List M} {r : Option M} (hd : Does S xs o ys r) (hI : InvP S n s xs φ) :
    ∃ K s' n' φ', (∀ fuel, K ≤ fuel → step S fuel s o = some (s', r)) ∧ n' ≤ n + 1 ∧ InvP S n' s' ys φ' ∧ K ≤ n + 1 ∧ K + 2 * φ' ≤ 2 * φ + (18 * Nat.log 2 (xs.length + 1) + 5) := by
  obtain ⟨h, rt⟩ := s
  obtain ⟨g, T, I, hv, hrt, rfl, rfl⟩ := hI
  dsimp only at I hrt
  subst hrt
  have hn : h.length = n := I.rep.len
  have hz : ((seq S T).map Prod.snd).length = sz T := by rw [List.length_map, seq_len]; rfl
  have hrk : rk T ≤ Nat.log 2 (sz T + 1) := log_le (by omega)
  rw [hz]
  have hlen : ∀ i, i < ((seq S T).map Prod.snd).length → i < (seq S T).length := fun i hi => by simpa using hi
  have hsum : ∀ q, BT.root T = some q → q < n ∧ (g q).d.sum = (seq S T).length := by
    intro q hq
    refine ⟨I.lt q (root_mem hq), ?_⟩
    cases T with
    | nil => cases hq
    | node l i d r =>
      cases hq
      rw [I.rp.1]
      exact hv.2.2.sum rfl
  cases hd with
  | insert hi =>
    rename_i i x
    rw [List.length_map] at hi
    by_cases c0 : i = 0
    · obtain ⟨h', g', T', e, I', v', t', q', p'⟩ := consRoot_ok L I hv false x (Φ := fun y => { y with r := BT.root T }) rfl
      refine ⟨0, (h', some n), n + 1, phi T', fun fuel _ => by rw [step, insert]; dsimp only; rw [hn, if_pos c0, e]; rfl, le_refl _, ⟨g', T', I', v', t'.symm, ?_, rfl⟩, by omega, by omega⟩
      rw [q', c0]
      simp
    obtain ⟨q, hq⟩ : ∃ q, BT.root T = some q := by
      cases T with
      | nil => simp [seq] at hi; omega
      | node _ i _ _ => exact ⟨i, rfl⟩
    obtain ⟨hqn, hqs⟩ := hsum q hq
    have hred : ∀ F : Node M A → Option (Lst M A), ((BT.root T).bind (fun r => (h[r]?).bind F)) = F (g q) := fun F => by
      rw [hq, Option.bind_some, I.rep.val q hqn, Option.bind_some]
    by_cases c1 : i = (seq S T).length
    · obtain ⟨h', g', T', e, I', v', t', q', p'⟩ := consRoot_ok L I hv true x (Φ := fun y => { y with l := BT.root T }) rfl
      refine ⟨0, (h', some n), n + 1, phi T', fun fuel _ => by rw [step, insert]; dsimp only; rw [hn, if_neg c0, hred, hqs, if_pos c1, e]; rfl, le_refl _, ⟨g', T', I', v', t'.symm, ?_, rfl⟩, by omega, by omega⟩
      rw [q', List.take_of_length_le (by simp [c1]), List.drop_of_length_le (by simp [c1])]
      simp
    · obtain ⟨K, h', g', T', a, p, q, e, I', v', t', w', k', q', kn, kp⟩ := insert_mid L I hv (i := i) (by omega) x
      refine ⟨K, (h', some n), n + 1, phi T', fun fuel hf => by rw [step, insert]; dsimp only; rw [hn, if_neg c0, hred, hqs, if_neg c1, e fuel hf]; rfl, le_refl _, ⟨g', T', I', v', t'.symm, ?_, rfl⟩, kn, by omega⟩
      obtain ⟨s1, s2, _, _⟩ := split1 (p := p) (q := q) k'
      rw [q', w', s1, s2]
      simp
  | erase hi =>
    obtain ⟨K, h', g', T', a, p, q, e, I', v', w', k', q', kn, kp⟩ := erase_ok L I hv (hlen _ hi)
    refine ⟨K, (h', BT.root T'), n, phi T', fun fuel hf => by rw [step, e fuel hf]; rfl, by omega, ⟨g', T', I', v', rfl, ?_, rfl⟩, by omega, by omega⟩
    obtain ⟨s1, _, s3, _⟩ := split1 (p := p) (q := q) k'
    rw [q', w', s1, s3]
    simp
  | reverse hlr hr =>
    rename_i l r
    rw [List.length_map] at hr
    by_cases c0 : l = r
    · refine ⟨0, (h, BT.root T), n, phi T, fun fuel _ => by rw [step, reverse, if_pos c0]; rfl, by omega, ⟨g, T, I, hv, rfl, ?_, rfl⟩, by omega, by omega⟩
      subst c0
      simp
    · have hT : T ≠ nil := fun e => by rw [e] at hr; simp [seq] at hr; omega
      obtain ⟨K, h1, g1, c, x, a, b, e1, I1, _, vx, vc, q1, w1, k1, k2, kn, kz, kp⟩ := between_ok L I hv hT hlr hr
      obtain ⟨xl, u, d, xr, rfl⟩ : ∃ xl u d xr, x = node xl u d xr := by
        cases x with
        | nil => simp [seq] at k2; omega
        | node xl u d xr => exact ⟨xl, u, d, xr, rfl⟩
      obtain ⟨K', h2, g2, T2, e2, I2, v2, q2, kn', kp'⟩ := range_ok L I1 vx.1 vx.2.1 vc flipD
      rw [rk, kz] at kp'
      have : rk T = Nat.log 2 (sz T) := rfl
      refine ⟨max K K', (h2, BT.root T2), n, phi T2, fun fuel hf => ?_, by omega, ⟨g2, T2, I2, v2, rfl, ?_, rfl⟩, by omega, by omega⟩
      · rw [step, reverse, if_neg c0, e1 fuel (by omega), Option.bind_some, BT.root, Option.bind_some]
        dsimp only
        rw [e2 fuel (by omega)]
        rfl
      · obtain ⟨s1, s2, s3⟩ := split2 (b := b) hlr k1 k2
        rw [q2, q1, seq_flip, w1, s1, s2, s3]
        simp
  | set hi =>
    rename_i i x
    obtain ⟨K, h', g', T', a, p, q, e, I', v', w', k', q', kn, kp⟩ := setm_ok L I hv (hlen _ hi) (fun _ => x)
    refine ⟨K, (h', BT.root T'), n, phi T', fun fuel hf => by rw [step, set, e fuel hf]; rfl, by omega, ⟨g', T', I', v', rfl, ?_, rfl⟩, by omega, by omega⟩
    obtain ⟨s1, _, s3, _⟩ := split1 (p := p) (q := q) k'
    rw [q', w', s1, s3]
    simp
  | update hy =>
    rename_i i f y
    have hi : i < (seq S T).length := hlen i (List.getElem?_eq_some_iff.1 hy).1
    obtain ⟨K, h', g', T', a, p, q, e, I', v', w', k', q', kn, kp⟩ := setm_ok L I hv hi (S.act f)
    refine ⟨K, (h', BT.root T'), n, phi T', fun fuel hf => by rw [step, update, e fuel hf]; rfl, by omega, ⟨g', T', I', v', rfl, ?_, rfl⟩, by omega, by omega⟩
    obtain ⟨s1, _, s3, s4⟩ := split1 (p := p) (q := q) k'
    rw [w', s4] at hy
    cases hy
    rw [q', w', s1, s3]
    simp
  | updateRange hlr hr =>
    rename_i l r f
    rw [List.length_map] at hr
    have hT : T ≠ nil := fun e => by rw [e] at hr; simp [seq] at hr; omega
    obtain ⟨K, h1, g1, c, x, a, b, e1, I1, _, vx, vc, q1, w1, k1, k2, kn, kz, kp⟩ := between_ok L I hv hT (le_of_lt hlr) hr
    obtain ⟨xl, u, d, xr, rfl⟩ : ∃ xl u d xr, x = node xl u d xr := by
      cases x with
      | nil => simp [seq] at k2; omega
      | node xl u d xr => exact ⟨xl, u, d, xr, rfl⟩
    obtain ⟨K', h2, g2, T2, e2, I2, v2, q2, kn', kp'⟩ := range_ok L I1 vx.1 vx.2.1 vc (actD S f)
    rw [rk, kz] at kp'
    have : rk T = Nat.log 2 (sz T) := rfl
    refine ⟨max K K', (h2, BT.root T2), n, phi T2, fun fuel hf => ?_, by omega, ⟨g2, T2, I2, v2, rfl, ?_, rfl⟩, by omega, by omega⟩
    · rw [step, updateRange, if_pos hlr, e1 fuel (by omega), Option.bind_some, BT.root, Option.bind_some]
      dsimp only
      rw [e2 fuel (by omega)]
      rfl
    · obtain ⟨s1, s2, s3⟩ := split2 (b := b) (le_of_lt hlr) k1 k2
      have hr' : recv S { d with rev := false, f := f } (node xl u d xr) = node xl u (actD S f d) xr := rfl
      rw [q2, q1, ← hr', seq_recv L, w1, s1, s2, s3]
      unfold through
      rw [if_neg (by simp)]
      simp
  | get hy =>
    rename_i i y
    have hi : i < (seq S T).length := hlen i (List.getElem?_eq_some_iff.1 hy).1
    obtain ⟨K, h1, g1, l, p, d, r, e1, s1, v1, c1, q1, k1, kn, kp⟩ := kth_ok L I hv hi
    refine ⟨K, (h1, some p), n, phi (node l p d r), fun fuel hf => ?_, by omega, ⟨g1, node l p d r, s1.H, v1, rfl, by rw [q1], rfl⟩, by omega, by omega⟩
    rw [step, get, e1 fuel hf, Option.bind_some]
    dsimp only
    rw [s1.H.rep.val p (s1.H.lt p (by simp [nodes])), s1.H.rp.1]
    have w := q1.symm.trans (seq_clean L c1 l p r)
    obtain ⟨_, _, _, s4⟩ := split1 (p := (p, d.m)) (q := seq S r) k1
    rw [w, s4] at hy
    cases hy
    rfl
  | prod hlr hr =>
    rename_i l r
    rw [List.length_map] at hr
    have hT : T ≠ nil := fun e => by rw [e] at hr; simp [seq] at hr; omega
    obtain ⟨K, h1, g1, c, x, a, b, e1, I1, v1, vx, vc, q1, w1, k1, k2, kn, kz, kp⟩ := between_ok L I hv hT (le_of_lt hlr) hr
    obtain ⟨xl, u, d, xr, rfl⟩ : ∃ xl u d xr, x = node xl u d xr := by
      cases x with
      | nil => simp [seq] at k2; omega
      | node xl u d xr => exact ⟨xl, u, d, xr, rfl⟩
    have hu : u < n := I1.lt u ((nodes_plug c _).mem_iff.2 (by simp [nodes]))
    refine ⟨K, (h1, BT.root (plug c (node xl u d xr))), n, _, fun fuel hf => ?_, by omega, ⟨g1, _, I1, v1, rfl, by rw [q1, w1], rfl⟩, by omega, by omega⟩
    rw [step, prod, e1 fuel hf, Option.bind_some]
    dsimp only
    rw [BT.root, Option.bind_some, I1.rep.val u hu, (((Rp_plug g1 none c _).1 I1.rp).2).1]
    obtain ⟨_, s2, _⟩ := split2 (b := b) (le_of_lt hlr) k1 k2
    rw [w1, s2]
    dsimp only [Option.map_some]
    rw [vx.2.2.prod]
    rfl

theorem step_ok (L : Laws S) {fuel : Nat} (hf : n + 1 ≤ fuel) {o : Op M A} {ys : List M} {r : Option M} (hd : Does S xs o ys r) (hI : Inv S n s xs) :
    ∃ s' n', step S fuel s o = some (s', r) ∧ n' ≤ n + 1 ∧ Inv S n' s' ys := by
  obtain ⟨φ, hI⟩ := hI.pot
  obtain ⟨K, s', n', φ', e, h1, h2, h3, _⟩ := step_pot L hd hI
  exact ⟨s', n', e fuel (by omega), h1, h2.inv⟩

theorem run_ok (L : Laws S) {fuel : Nat} : ∀ {ops : List (Op M A)} {outs : List (Option M)} {n : Nat} {xs : List M} {s : Lst M A}, Runs S xs ops outs → n + ops.length ≤ fuel → Inv S n s xs → run S fuel s ops = some outs := by
  intro ops
  induction ops with
  | nil => intro outs n xs s hr _ _; cases hr; rfl
  | cons o ops ih =>
    intro outs n xs s hr hf hI
    rw [List.length_cons] at hf
    cases hr with
    | cons hd hr =>
      obtain ⟨s', n', e, hn', hI'⟩ := step_ok L (fuel := fuel) (by omega) hd hI
      rw [run, e, Option.bind_some, ih hr (by omega) hI']
      rfl

theorem create_ok (L : Laws S) (xs : List M) {fuel : Nat} (hf : xs.length < fuel) : ∃ s, create S fuel xs = some s ∧ Inv S xs.length s xs := by
  have hr : Rep ([] : Heap M A) 0 (fun _ => ⟨none, none, none, ⟨false, 1, 1, 1, S.ida, 0⟩⟩) := ⟨rfl, fun i hi => absurd hi (by omega)⟩
  obtain ⟨h', n', g', T, e, _, hn, I, v, q, _, _, _⟩ := dfs_ok L (fuel - 1) (xs := xs) hr (Nat.lt_of_le_of_lt (by omega) Nat.lt_two_pow_self)
  exact ⟨(h', BT.root T), e fuel (by omega), g', T, by rw [hn, Nat.zero_add] at I; exact I, v, rfl, q⟩

/-- **C85** (partial: ranges of `prod` must not be empty, see `C85_prod_empty_range`).  Build a `SplayTreeList` from a sequence and make any calls allowed by the specification.  They run without invalid access or failed assertion, with at most as many loop rounds as nodes ever made, and every value returned is that of the plain sequence. -/
theorem C85_splay_tree_list_partial (L : Laws S) (xs : List M) {ops : List (Op M A)} {outs : List (Option M)} (hr : Runs S xs ops outs) {fuel : Nat} (hf : xs.length + ops.length < fuel) :
    ((create S fuel xs).bind (fun s => run S fuel s ops)) = some outs := by
  obtain ⟨s, e, hI⟩ := create_ok L xs (fuel := fuel) (by omega)
  rw [e, Option.bind_some]
  exact run_ok L hr (by omega) hI

/-- The default constructor (line 27). -/
theorem C85_default_partial (L : Laws S) {ops : List (Op M A)} {outs : List (Option M)} (hr : Runs S [] ops outs) {fuel : Nat} (hf : ops.length ≤ fuel) : run S fuel ([], none) ops = some outs :=
  run_ok L (n := 0) hr (by omega) ⟨fun _ => ⟨none, none, none, ⟨false, 1, 1, 1, S.ida, 0⟩⟩, nil, ⟨⟨rfl, fun i hi => absurd hi (by omega)⟩, trivial, List.nodup_nil, (fun i hi => by cases hi), (fun q hq => by cases hq)⟩, trivial, rfl, rfl⟩

/-- **C85, violated for empty ranges**: `prod(l, l)` dereferences a null pointer for every list reached by legal calls (here: every state satisfying the invariant) and every position `l`, instead of returning the identity. -/
theorem C85_prod_empty_range (L : Laws S) (hI : Inv S n s xs) {l fuel : Nat} (hl : l ≤ xs.length) (hf : n ≤ fuel) : prod S fuel l l s = none := by
  obtain ⟨h, rt⟩ := s
  obtain ⟨g, T, I, hv, hrt, rfl⟩ := hI
  dsimp only at I hrt
  subst hrt
  rw [List.length_map] at hl
  by_cases hT : T = nil
  · subst hT; rfl
  · obtain ⟨K, h1, g1, c, x, a, b, e1, _, _, _, _, _, _, _, k2, kn, _⟩ := between_ok L I hv hT (le_refl l) hl
    have hx : x = nil := nil_of_len (S := S) (by omega)
    subst hx
    unfold prod
    rw [e1 fuel (by omega)]; rfl

/-! ### a concrete history -/

section Example

local instance : Monoid (List Nat) where
  mul := List.append
  one := []
  mul_assoc := List.append_assoc
  one_mul := List.nil_append
  mul_one := List.append_nil

private def S0 : Acts (List Nat) Nat := ⟨0, fun f g => f + g, fun f x => x.map (· + f)⟩

private theorem L0 : Laws S0 := by
  refine ⟨fun x => ?_, fun f g x => ?_, fun f x y => ?_⟩
  · simp [S0]
  · simp only [S0, List.map_map]
    exact List.map_congr_left fun a _ => by simp only [Function.comp]; omega
  · exact List.map_append

private def ops0 : List (Op (List Nat) Nat) := [.reverse 1 4, .updateRange 0 3 10, .insert 2 [7, 8], .erase 0, .get 1, .prod 0 3, .set 3 [9], .update 0 1, .prod 0 4]

example : Runs S0 [[1], [2], [3], [4]] ops0 [none, none, none, none, some [7, 8], some [14, 7, 8, 13], none, none, some [15, 7, 8, 13, 9]] := by
  refine .cons (.reverse (by decide) (by decide)) ?_
  refine .cons (.updateRange (by decide) (by decide)) ?_
  refine .cons (.insert (by decide)) ?_
  refine .cons (.erase (by decide)) ?_
  refine .cons (.get rfl) ?_
  refine .cons (.prod (by decide) (by decide)) ?_
  refine .cons (.set (by decide)) ?_
  refine .cons (.update rfl) ?_
  exact .cons (.prod (by decide) (by decide)) .nil

example : ((create S0 20 [[1], [2], [3], [4]]).bind (fun s => run S0 20 s ops0)) = some [none, none, none, none, some [7, 8], some [14, 7, 8, 13], none, none, some [15, 7, 8, 13, 9]] := by decide +kernel

example : Laws S0 := L0

/-- `prod(1, 1)` on a list of three. -/
example : ((create S0 20 [[1], [2], [3]]).bind (fun s => (prod S0 20 1 1 s).map (fun a => a.2))) = none := by decide +kernel

example : ∃ s, create S0 20 [[1], [2], [3]] = some s ∧ Inv S0 3 s [[1], [2], [3]] := create_ok L0 _ (by decide)

end Example

end Verif.SplayList
