import Verif.LinkCut.Ops
import Mathlib.Logic.Relation
/-!
# C84: the link-cut tree answers path products of a changing forest

Specification: the values `val` of the nodes and the symmetric edge relation `E`.
-/
namespace Verif.LinkCut
open Verif Verif.LazySegTree Verif.Splay BT

variable {M A : Type} [Monoid M] {S : Acts M A}

/-- Consecutive nodes are adjacent. -/
def Chain (E : Nat → Nat → Prop) : List Nat → Prop
  | [] => True
  | [_] => True
  | a :: b :: w => E a b ∧ Chain E (b :: w)

/-- `w` is a simple path from `u` to `v`. -/
structure IsPath (E : Nat → Nat → Prop) (u v : Nat) (w : List Nat) : Prop where
  first : w.head? = some u
  last : w.getLast? = some v
  nodup : w.Nodup
  chain : Chain E w

/-- What one call does to the forest and what it returns. -/
inductive Does (S : Acts M A) (n : Nat) : (Nat → M) → (Nat → Nat → Prop) → Op M A → (Nat → M) → (Nat → Nat → Prop) → Option M → Prop where
  | link {val E u v} : u < n → v < n → ¬ Relation.ReflTransGen E u v → Does S n val E (.link u v) val (fun a b => E a b ∨ (a = u ∧ b = v) ∨ (a = v ∧ b = u)) none
  | cut {val E u v} : E u v → Does S n val E (.cut u v) val (fun a b => E a b ∧ ¬ ((a = u ∧ b = v) ∨ (a = v ∧ b = u))) none
  | set {val E i x} : i < n → Does S n val E (.set i x) (fun a => if a = i then x else val a) E none
  | update {val E i f} : i < n → Does S n val E (.update i f) (fun a => if a = i then S.act f (val i) else val a) E none
  | updatePath {val E u v f w} : u < n → IsPath E u v w → Does S n val E (.updatePath u v f) (fun a => if a ∈ w then S.act f (val a) else val a) E none
  | prod {val E u v w} : u < n → IsPath E u v w → Does S n val E (.prod u v) val E (some (w.map val).prod)

/-- A sequence of calls. -/
inductive Runs (S : Acts M A) (n : Nat) : (Nat → M) → (Nat → Nat → Prop) → List (Op M A) → List (Option M) → Prop where
  | nil {val E} : Runs S n val E [] []
  | cons {val E o val' E' r os rs} : Does S n val E o val' E' r → Runs S n val' E' os rs → Runs S n val E (o :: os) (r :: rs)

/-! ### the invariant -/

def Inv (S : Acts M A) (n : Nat) (h : Heap M A) (val : Nat → M) (E : Nat → Nat → Prop) : Prop :=
  ∃ g F P dep, G0 S n h g F P dep val ∧ VAll S F ∧ (∀ i, i < n → i ∈ alln F) ∧ (∀ a b, E a b ↔ (P a = some b ∨ P b = some a)) ∧ ∀ a b, E a b → a < n ∧ b < n

variable {n : Nat} {h : Heap M A} {val : Nat → M} {E : Nat → Nat → Prop}

/-- Simple paths from a root go down. -/
theorem chain_down {P : Nat → Option Nat} (hE : ∀ a b, E a b ↔ (P a = some b ∨ P b = some a)) : ∀ (w : List Nat) (pp : Option Nat) (a : Nat), (a :: w).Nodup → Chain E (a :: w) → P a = pp → (∀ q, pp = some q → q ∉ w) → Path P pp (a :: w) := by
  intro w
  induction w with
  | nil => intro pp a _ _ h _; exact ⟨h, trivial⟩
  | cons b w ih =>
    intro pp a nd hc hp hq
    refine ⟨hp, ih (some a) b (List.nodup_cons.1 nd).2 hc.2 ?_ ?_⟩
    · rcases (hE a b).1 hc.1 with k | k
      · exact absurd (by simp) (hq b (hp ▸ k))
      · exact k
    · intro q e
      cases e
      exact fun k => (List.nodup_cons.1 nd).1 (by simp [k])

theorem path_is {P : Nat → Option Nat} (hE : ∀ a b, E a b ↔ (P a = some b ∨ P b = some a)) {u v : Nat} {w s : List Nat} (hw : IsPath E u v w) (hu : P u = none) (hs : Path P none (s ++ [v])) : s ++ [v] = w := by
  obtain ⟨w', rfl⟩ : ∃ w', w = w' ++ [v] := by
    have := hw.last
    rw [List.getLast?_eq_some_iff] at this
    exact this
  congr 1
  refine path_unique s.length (le_refl _) hs ?_
  have h1 := hw.first
  have h2 := hw.nodup
  have h3 := hw.chain
  revert h1 h2 h3
  generalize w' ++ [v] = w
  intro h1 h2 h3
  cases w with
  | nil => cases h1
  | cons a w =>
    cases h1
    exact chain_down hE w none u h2 h3 hu (fun q e => by cases e)

theorem path_lt (hE : ∀ a b, E a b → a < n ∧ b < n) {v : Nat} : ∀ {w : List Nat} {u : Nat}, u < n → w.head? = some u → w.getLast? = some v → Chain E w → v < n := by
  intro w
  induction w with
  | nil => intro u _ h; cases h
  | cons a w ih =>
    intro u hu h1 h2 h3
    cases h1
    cases w with
    | nil => cases h2; exact hu
    | cons b w => exact ih (hE a b h3.1).2 rfl (by simpa using h2) h3.2

theorem step_ok (L : Laws S) {fuel : Nat} (hf : n ≤ fuel) {o : Op M A} {val' : Nat → M} {E' : Nat → Nat → Prop} {r : Option M} (hd : Does S n val E o val' E' r) (hI : Inv S n h val E) :
    ∃ h', step S fuel h o = some (h', r) ∧ Inv S n h' val' E' := by
  obtain ⟨g, F, P, dep, I, hv, hall, hE, hlt⟩ := hI
  cases hd with
  | link hu hvn hne =>
    rename_i u v
    have sym : ∀ a b, E a b → E b a := fun a b k => (hE b a).2 ((hE a b).1 k).symm
    obtain ⟨h', g', F', P', dep', e, I', v', p', E'⟩ := link_ok L hf I hv (hall u hu) (hall v hvn) (Q := fun a => Relation.ReflTransGen E a v)
      (fun a b k => ⟨fun q => Relation.ReflTransGen.head ((hE b a).2 (Or.inr k)) q, fun q => Relation.ReflTransGen.head ((hE a b).2 (Or.inl k)) q⟩) Relation.ReflTransGen.refl hne
    refine ⟨h', by rw [step, e]; rfl, g', F', P', dep', I', v', fun i hi => p'.mem_iff.2 (hall i hi), fun a b => by dsimp only; rw [E', hE], ?_⟩
    rintro a b (k | ⟨rfl, rfl⟩ | ⟨rfl, rfl⟩)
    · exact hlt a b k
    · exact ⟨hu, hvn⟩
    · exact ⟨hvn, hu⟩
  | cut hEuv =>
    rename_i u v
    obtain ⟨hu, hvn⟩ := hlt u v hEuv
    obtain ⟨h', g', F', P', dep', e, I', v', p', E'⟩ := cut_ok L hf I hv (hall u hu) (hall v hvn) ((hE u v).1 hEuv)
    exact ⟨h', by rw [step, e]; rfl, g', F', P', dep', I', v', fun i hi => p'.mem_iff.2 (hall i hi), fun a b => by dsimp only; rw [E', hE], fun a b k => hlt a b k.1⟩
  | set hi =>
    rename_i i x
    obtain ⟨h', g', F', e, I', v', p'⟩ := setm_ok L hf I hv (hall i hi) (fun _ => x)
    exact ⟨h', by rw [step, set, e]; rfl, g', F', P, dep, I', v', fun j hj => p'.mem_iff.2 (hall j hj), hE, hlt⟩
  | update hi =>
    rename_i i f
    obtain ⟨h', g', F', e, I', v', p'⟩ := setm_ok L hf I hv (hall i hi) (S.act f)
    exact ⟨h', by rw [step, update, e]; rfl, g', F', P, dep, I', v', fun j hj => p'.mem_iff.2 (hall j hj), hE, hlt⟩
  | updatePath hu hw =>
    rename_i u v f w
    have hvn := path_lt hlt hu hw.first hw.last hw.chain
    obtain ⟨h1, g1, l, d, F1, P1, dep1, e1, I1, v1, c1, p1, pu, E1, s, es, ps⟩ := both_ok L hf I hv (hall u hu) (hall v hvn)
    obtain ⟨h2, g2, F2, e2, I2, v2, p2⟩ := upath_ok L hf I1 v1 c1 f
    have hsw := path_is (E := E) (P := P1) (fun a b => by rw [hE, E1]) hw pu ps
    have hmem : ∀ a, a ∈ nodes (node l v d nil) ↔ a ∈ w := fun a => by rw [← (seq_fst es).mem_iff, hsw]
    have hval : (fun a => if a ∈ nodes (node l v d nil) then S.act f (val a) else val a) = fun a => if a ∈ w then S.act f (val a) else val a := by
      funext a
      simp only [hmem]
    rw [hval] at I2
    refine ⟨h2, ?_, g2, F2, P1, dep1, I2, v2, fun j hj => (p2.trans p1).mem_iff.2 (hall j hj), fun a b => by rw [hE, E1], hlt⟩
    rw [step, updatePath, ← Option.bind_assoc, e1, Option.bind_some, e2]
    rfl
  | prod hu hw =>
    rename_i u v w
    have hvn := path_lt hlt hu hw.first hw.last hw.chain
    obtain ⟨h1, g1, l, d, F1, P1, dep1, e1, I1, v1, c1, p1, pu, E1, s, es, ps⟩ := both_ok L hf I hv (hall u hu) (hall v hvn)
    have hsw := path_is (E := E) (P := P1) (fun a b => by rw [hE, E1]) hw pu ps
    refine ⟨h1, ?_, g1, _, P1, dep1, I1, v1, fun j hj => p1.mem_iff.2 (hall j hj), fun a b => by rw [hE, E1], hlt⟩
    have hpr : d.prod = (w.map val).prod := by
      rw [(v1 (node l v d nil, none) (by simp)).2.2.prod, es, hsw]
      unfold vprod
      rw [List.map_map]
      rfl
    rw [step, prod, ← Option.bind_assoc, e1, Option.bind_some, I1.rep.val v hvn, Option.map_some, (I1.rp (node l v d nil, none) (by simp)).1, hpr]
    rfl

theorem create_ok (L : Laws S) (xs : List M) : Inv S xs.length (create S xs) (fun a => xs.getD a 1) (fun _ _ => False) := by
  let dat : Nat → Dat M A := fun a => ⟨false, xs.getD a 1, xs.getD a 1, xs.getD a 1, S.ida, 0⟩
  have hall : alln ((List.range xs.length).map (fun a => (node nil a (dat a) nil, (none : Option Nat)))) = List.range xs.length := by
    unfold alln
    rw [List.flatMap_map]
    simp only [nodes, List.append_nil]
    exact List.flatMap_singleton' _
  refine ⟨fun a => ⟨none, none, none, dat a⟩, (List.range xs.length).map (fun a => (node nil a (dat a) nil, none)), fun _ => none, fun _ => 0, ⟨?_, ?_, ?_, ?_, ?_, ?_, ?_⟩, ?_, ?_, ?_, ?_⟩
  · refine ⟨by simp [create], fun i hi => ?_⟩
    simp only [create, List.getElem?_map, List.getElem?_eq_getElem hi, Option.map_some]
    simp only [dat, List.getD_eq_getElem?_getD, List.getElem?_eq_getElem hi, Option.getD_some]
  · rw [hall]; exact List.nodup_range
  · intro i hi
    rw [hall] at hi
    exact List.mem_range.1 hi
  · intro x hx
    obtain ⟨a, _, rfl⟩ := List.mem_map.1 hx
    exact ⟨rfl, trivial, trivial⟩
  · intro x hx
    obtain ⟨a, _, rfl⟩ := List.mem_map.1 hx
    exact ⟨[a], by rw [seq_clean L ⟨rfl, rfl⟩]; rfl, rfl, trivial⟩
  · intro x hx _ q hq
    obtain ⟨a, _, rfl⟩ := List.mem_map.1 hx
    cases hq
  · intro a b e; cases e
  · intro x hx
    obtain ⟨a, _, rfl⟩ := List.mem_map.1 hx
    refine ⟨trivial, trivial, ?_⟩
    rw [seq_clean L ⟨rfl, rfl⟩]
    exact ⟨by simp [vprod, dat, seq], by simp [vprod, dat, seq], fun h => by cases h⟩
  · intro i hi
    rw [hall]; exact List.mem_range.2 hi
  · intro a b
    constructor
    · intro k; cases k
    · rintro (k | k) <;> cases k
  · intro a b k; cases k

theorem run_ok (L : Laws S) {fuel : Nat} (hf : n ≤ fuel) : ∀ {ops : List (Op M A)} {outs : List (Option M)} {val : Nat → M} {E : Nat → Nat → Prop} {h : Heap M A}, Runs S n val E ops outs → Inv S n h val E → run S fuel h ops = some outs := by
  intro ops
  induction ops with
  | nil => intro outs val E h hr _; cases hr; rfl
  | cons o ops ih =>
    intro outs val E h hr hI
    cases hr with
    | cons hd hr =>
      obtain ⟨h', e, hI'⟩ := step_ok L hf hd hI
      rw [run, e, Option.bind_some, ih hr hI']
      rfl

/-- **C84**.  Create a link-cut tree over the values `xs` and make any calls allowed by the specification: `link` of nodes in different trees, `cut` of an edge, `set`, `update`, path updates and path products between connected nodes.  The calls run without invalid access, their loops need at most as many rounds as there are nodes, and every `prod(u, v)` returns the product, in order from `u` to `v`, of the values on the simple path. -/
theorem C84_link_cut_tree (L : Laws S) (xs : List M) {ops : List (Op M A)} {outs : List (Option M)} (hr : Runs S xs.length (fun a => xs.getD a 1) (fun _ _ => False) ops outs) {fuel : Nat} (hf : xs.length ≤ fuel) :
    run S fuel (create S xs) ops = some outs :=
  run_ok L hf hr (create_ok L xs)

/-! ### a concrete history -/

section Example

local instance : Monoid (List Nat) where
  mul := List.append
  one := []
  mul_assoc := List.append_assoc
  one_mul := List.nil_append
  mul_one := List.append_nil

private def S0 : Acts (List Nat) Nat := ⟨0, fun f g => f + g, fun f x => x.map (· + f)⟩

private theorem L0 : Laws S0 := by
  refine ⟨fun x => ?_, fun f g x => ?_, fun f x y => ?_⟩
  · simp [S0]
  · simp only [S0, List.map_map]
    exact List.map_congr_left fun a _ => by simp only [Function.comp]; omega
  · exact List.map_append

private theorem apart {E : Nat → Nat → Prop} (Q : Nat → Prop) (h : ∀ a b, E a b → Q a → Q b) {u v : Nat} (hu : Q u) (hv : ¬ Q v) : ¬ Relation.ReflTransGen E u v := by
  intro k
  refine hv ?_
  clear hv
  induction k with
  | refl => exact hu
  | tail _ e ih => exact h _ _ e ih

/-- Three nodes: build the path `0 - 1 - 2`, read it backwards, add 10 on `1 - 2`, cut `0 - 1`, hang `0` below `2`. -/
example : Runs S0 3 (fun a => [[1], [2], [3]].getD a 1) (fun _ _ => False)
    [.link 0 1, .link 2 1, .prod 2 0, .updatePath 1 2 10, .cut 1 0, .link 0 2, .set 2 [7, 8], .prod 1 0] [none, none, some [3, 2, 1], none, none, none, none, some [12, 7, 8, 1]] := by
  refine .cons (.link (by decide) (by decide) (apart (· = 0) (by simp) rfl (by decide))) ?_
  refine .cons (.link (by decide) (by decide) (apart (· = 2) (by rintro a b (k | ⟨rfl, rfl⟩ | ⟨rfl, rfl⟩) <;> simp_all) rfl (by decide))) ?_
  refine .cons (.prod (w := [2, 1, 0]) (by decide) ⟨rfl, rfl, by decide, by simp [Chain]⟩) ?_
  refine .cons (.updatePath (w := [1, 2]) (by decide) ⟨rfl, rfl, by decide, by simp [Chain]⟩) ?_
  refine .cons (.cut (by simp)) ?_
  refine .cons (.link (by decide) (by decide) (apart (· = 0) (by intro a b; simp; omega) rfl (by decide))) ?_
  refine .cons (.set (by decide)) ?_
  exact .cons (.prod (w := [1, 2, 0]) (by decide) ⟨rfl, rfl, by decide, by simp [Chain]⟩) .nil

example : run S0 3 (create S0 [[1], [2], [3]]) [.link 0 1, .link 2 1, .prod 2 0, .updatePath 1 2 10, .cut 1 0, .link 0 2, .set 2 [7, 8], .prod 1 0] = some [none, none, some [3, 2, 1], none, none, none, none, some [12, 7, 8, 1]] := by decide +kernel

example : Laws S0 := L0

end Example

end Verif.LinkCut
