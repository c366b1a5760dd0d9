import Verif.Splay.Model
import Mathlib.Algebra.BigOperators.Group.List.Basic
import Mathlib.Data.List.Perm.Basic
/-!
Binary trees with the data of the nodes, and the sequence they stand for.
-/
namespace Verif.Splay
open Verif Verif.LazySegTree

/-- What the user's operator type must satisfy. -/
structure Laws {M A : Type} [Mul M] (S : Acts M A) : Prop where
  ida : ∀ x, S.act S.ida x = x
  comp : ∀ f g x, S.act (S.comp f g) x = S.act f (S.act g x)
  mul : ∀ f x y, S.act f (x * y) = S.act f x * S.act f y

inductive BT (M A : Type) where
  | nil
  | node (l : BT M A) (i : Nat) (d : Dat M A) (r : BT M A)

variable {M A : Type} [Monoid M] {S : Acts M A} {lct : Bool}

namespace BT

def root : BT M A → Option Nat
  | nil => none
  | node _ i _ _ => some i

def nodes : BT M A → List Nat
  | nil => []
  | node l i _ r => i :: (nodes l ++ nodes r)

end BT
open BT

/-- The sequence `s` seen through the pending operator and reversal of `d`. -/
def through (S : Acts M A) (d : Dat M A) (s : List (Nat × M)) : List (Nat × M) :=
  if d.rev then (s.map (fun x => (x.1, S.act d.f x.2))).reverse else s.map (fun x => (x.1, S.act d.f x.2))

/-- The sequence of a tree: nodes with their values, pending operators and reversals applied. -/
def seq (S : Acts M A) : BT M A → List (Nat × M)
  | nil => []
  | node l i d r => if d.rev then through S d (seq S r) ++ (i, d.m) :: through S d (seq S l) else through S d (seq S l) ++ (i, d.m) :: through S d (seq S r)

def vprod (s : List (Nat × M)) : M := (s.map Prod.snd).prod

/-- The aggregates of `d` belong to the sequence `s`. -/
structure DOk (lct : Bool) (d : Dat M A) (s : List (Nat × M)) : Prop where
  prod : d.prod = vprod s
  rprod : d.rprod = vprod s.reverse
  sum : lct = false → d.sum = s.length

/-- All aggregates are right. -/
def Valid (S : Acts M A) (lct : Bool) : BT M A → Prop
  | nil => True
  | node l i d r => Valid S lct l ∧ Valid S lct r ∧ DOk lct d (seq S (node l i d r))

theorem vprod_nil : vprod ([] : List (Nat × M)) = 1 := rfl
theorem vprod_cons (x : Nat × M) (s : List (Nat × M)) : vprod (x :: s) = x.2 * vprod s := by unfold vprod; simp
theorem vprod_append (s t : List (Nat × M)) : vprod (s ++ t) = vprod s * vprod t := by unfold vprod; simp

theorem vprod_act (L : Laws S) (f : A) : ∀ s : List (Nat × M), s ≠ [] → vprod (s.map (fun x => (x.1, S.act f x.2))) = S.act f (vprod s) := by
  intro s
  induction s with
  | nil => intro h; exact absurd rfl h
  | cons a s ih =>
    intro _
    cases s with
    | nil => simp [vprod]
    | cons b s =>
      rw [List.map_cons, vprod_cons, ih (by simp), vprod_cons a, L.mul]

theorem seq_ne (l : BT M A) (i : Nat) (d : Dat M A) (r : BT M A) : seq S (node l i d r) ≠ [] := by
  rw [seq]; split <;> simp

/-- Receiving the pending operator and reversal of the parent. -/
def recvD (S : Acts M A) (d e : Dat M A) : Dat M A := if d.rev then flipD (actD S d.f e) else actD S d.f e

def recv (S : Acts M A) (d : Dat M A) : BT M A → BT M A
  | nil => nil
  | node l i e r => node l i (recvD S d e) r

def clr (S : Acts M A) (d : Dat M A) : Dat M A := { d with rev := false, f := S.ida }

/-- The left (`b`) or right child is `x`. -/
def mk (b : Bool) (x : BT M A) (i : Nat) (d : Dat M A) (o : BT M A) : BT M A := if b then node x i d o else node o i d x

/-- `propagate` -/
def prop (S : Acts M A) : BT M A → BT M A
  | nil => nil
  | node l i d r => mk (!d.rev) (recv S d l) i (clr S d) (recv S d r)

def dat : BT M A → Option (Dat M A)
  | nil => none
  | node _ _ d _ => some d

def addL' (lct : Bool) (d : Dat M A) (c : BT M A) : Dat M A :=
  match c with
  | nil => d
  | node _ _ e _ => { d with prod := e.prod * d.prod, rprod := d.rprod * e.rprod, sum := if lct then d.sum else d.sum + e.sum }

def addR' (lct : Bool) (d : Dat M A) (c : BT M A) : Dat M A :=
  match c with
  | nil => d
  | node _ _ e _ => { d with prod := d.prod * e.prod, rprod := e.rprod * d.rprod, sum := if lct then d.sum else d.sum + e.sum }

def aggD (lct : Bool) (l : BT M A) (d : Dat M A) (r : BT M A) : Dat M A :=
  addR' lct (addL' lct { d with prod := d.m, rprod := d.m, sum := if lct then d.sum else 1 } l) r

/-- `aggregate` -/
def agg (lct : Bool) : BT M A → BT M A
  | nil => nil
  | node l i d r => node l i (aggD lct l d r) r

/-- Nothing pending. -/
def Clean (S : Acts M A) (d : Dat M A) : Prop := d.rev = false ∧ d.f = S.ida

theorem clr_clean (d : Dat M A) : Clean S (clr S d) := ⟨rfl, rfl⟩

theorem through_clean (L : Laws S) {d : Dat M A} (h : Clean S d) (s : List (Nat × M)) : through S d s = s := by
  unfold through
  rw [h.1, if_neg (by simp), h.2]
  conv_rhs => rw [← List.map_id s]
  refine List.map_congr_left fun x _ => ?_
  rw [L.ida]; rfl

theorem seq_clean (L : Laws S) {d : Dat M A} (h : Clean S d) (l : BT M A) (i : Nat) (r : BT M A) : seq S (node l i d r) = seq S l ++ (i, d.m) :: seq S r := by
  rw [seq, if_neg (by rw [h.1]; simp), through_clean L h, through_clean L h]

theorem seq_recv (L : Laws S) (d : Dat M A) (t : BT M A) : seq S (recv S d t) = through S d (seq S t) := by
  cases t with
  | nil => unfold recv seq through; simp
  | node l i e r =>
    have hcomp : ∀ s : List (Nat × M), (s.map (fun x => (x.1, S.act (S.comp d.f e.f) x.2))) = (s.map (fun x => (x.1, S.act e.f x.2))).map (fun x => (x.1, S.act d.f x.2)) := by
      intro s
      rw [List.map_map]
      refine List.map_congr_left fun x _ => ?_
      rw [L.comp]; rfl
    unfold recv
    rw [seq, seq]
    unfold through recvD flipD actD
    cases hd : d.rev <;> cases he : e.rev <;> simp [hd, he, hcomp, List.map_reverse]

theorem seq_prop (L : Laws S) (t : BT M A) : seq S (prop S t) = seq S t := by
  cases t with
  | nil => rfl
  | node l i d r =>
    unfold prop mk
    dsimp only
    cases hd : d.rev with
    | true =>
      rw [if_neg (by simp), seq_clean L (clr_clean d), seq_recv L, seq_recv L, seq, if_pos hd]
      rfl
    | false =>
      rw [if_pos (by simp), seq_clean L (clr_clean d), seq_recv L, seq_recv L, seq, if_neg (by simp [hd])]
      rfl

theorem seq_congr_m {l r : BT M A} {i : Nat} {d d' : Dat M A} (h1 : d'.rev = d.rev) (h2 : d'.f = d.f) (h3 : d'.m = d.m) : seq S (node l i d' r) = seq S (node l i d r) := by
  rw [seq, seq]; unfold through; rw [h1, h2, h3]

theorem aggD_same (l : BT M A) (d : Dat M A) (r : BT M A) : (aggD lct l d r).rev = d.rev ∧ (aggD lct l d r).f = d.f ∧ (aggD lct l d r).m = d.m := by
  unfold aggD addR' addL'
  cases l <;> cases r <;> exact ⟨rfl, rfl, rfl⟩

theorem seq_agg (t : BT M A) : seq S (agg lct t) = seq S t := by
  cases t with
  | nil => rfl
  | node l i d r =>
    obtain ⟨h1, h2, h3⟩ := aggD_same (lct := lct) l d r
    exact seq_congr_m h1 h2 h3

theorem valid_recv (L : Laws S) (d : Dat M A) {t : BT M A} (h : Valid S lct t) : Valid S lct (recv S d t) := by
  cases t with
  | nil => trivial
  | node l i e r =>
    obtain ⟨h1, h2, h3⟩ := h
    refine ⟨h1, h2, ?_⟩
    have e1 := seq_recv L d (node l i e r)
    unfold recv at e1
    rw [e1]
    have hne := seq_ne (S := S) l i e r
    have hne' : (seq S (node l i e r)).reverse ≠ [] := by simpa using hne
    unfold recvD through
    cases hd : d.rev with
    | true =>
      rw [if_pos rfl, if_pos rfl]
      refine ⟨?_, ?_, fun hl => ?_⟩
      · rw [← List.map_reverse, vprod_act L _ _ hne']; show S.act d.f e.rprod = _; rw [h3.rprod]
      · rw [List.reverse_reverse, vprod_act L _ _ hne]; show S.act d.f e.prod = _; rw [h3.prod]
      · rw [List.length_reverse, List.length_map, ← h3.sum hl]; rfl
    | false =>
      rw [if_neg (by simp), if_neg (by simp)]
      refine ⟨?_, ?_, fun hl => ?_⟩
      · rw [vprod_act L _ _ hne]; show S.act d.f e.prod = _; rw [h3.prod]
      · rw [← List.map_reverse, vprod_act L _ _ hne']; show S.act d.f e.rprod = _; rw [h3.rprod]
      · rw [List.length_map, ← h3.sum hl]; rfl

theorem valid_prop (L : Laws S) {l r : BT M A} {i : Nat} {d : Dat M A} (hv : Valid S lct (node l i d r)) : Valid S lct (prop S (node l i d r)) := by
  have e := seq_prop L (node l i d r)
  obtain ⟨h1, h2, h3⟩ := hv
  have k : ∀ x y, prop S (node l i d r) = node x i (clr S d) y → Valid S lct x → Valid S lct y → Valid S lct (prop S (node l i d r)) := by
    intro x y ep hx hy
    rw [ep] at e ⊢
    exact ⟨hx, hy, by rw [e]; exact ⟨h3.prod, h3.rprod, h3.sum⟩⟩
  cases hb : d.rev with
  | true =>
    refine k (recv S d r) (recv S d l) ?_ (valid_recv L d h2) (valid_recv L d h1)
    unfold prop mk; dsimp only; rw [hb]; rfl
  | false =>
    refine k (recv S d l) (recv S d r) ?_ (valid_recv L d h1) (valid_recv L d h2)
    unfold prop mk; dsimp only; rw [hb]; rfl

theorem valid_agg (L : Laws S) {l r : BT M A} {i : Nat} {d : Dat M A} (hd : Clean S d) (hl : Valid S lct l) (hr : Valid S lct r) : Valid S lct (agg lct (node l i d r)) := by
  refine ⟨hl, hr, ?_⟩
  have e := seq_agg (S := S) (lct := lct) (node l i d r)
  unfold agg at e
  rw [e, seq_clean L hd]
  unfold aggD addR' addL'
  have one : ∀ x : BT M A, Valid S lct x → (∀ a b c f, x ≠ node a b c f) → x = nil := by
    intro x _ h
    cases x with
    | nil => rfl
    | node a b c f => exact absurd rfl (h a b c f)
  cases l with
  | nil =>
    cases r with
    | nil => exact ⟨by simp [seq, vprod], by simp [seq, vprod], fun hl => by subst hl; simp [seq]⟩
    | node rl ri rd rr =>
      have h3 := hr.2.2
      refine ⟨?_, ?_, fun hl => ?_⟩
      · dsimp only; rw [h3.prod, vprod_append, vprod_cons]; simp [seq, vprod]
      · dsimp only; rw [h3.rprod]; simp [seq, vprod]
      · subst hl; simp [h3.sum rfl, seq]; omega
  | node ll li ld lr =>
    have g3 := hl.2.2
    cases r with
    | nil =>
      refine ⟨?_, ?_, fun hl => ?_⟩
      · dsimp only; rw [g3.prod, vprod_append, vprod_cons]; simp [seq, vprod]
      · dsimp only; rw [g3.rprod]; simp [seq, vprod]
      · subst hl; simp [g3.sum rfl, seq]; omega
    | node rl ri rd rr =>
      have h3 := hr.2.2
      refine ⟨?_, ?_, fun hl => ?_⟩
      · dsimp only; rw [g3.prod, h3.prod, vprod_append, vprod_cons, mul_assoc]
      · dsimp only; rw [g3.rprod, h3.rprod, List.reverse_append, vprod_append, List.reverse_cons, vprod_append, vprod_cons, vprod_nil, mul_one, mul_assoc]
      · subst hl; rw [List.length_append, List.length_cons]; simp [g3.sum rfl, h3.sum rfl]; omega

/-! ### Contexts -/

/-- One step of the path from a subtree to the root: the parent `i`, the side `b` on which the subtree hangs, the sibling `o`. -/
structure Fr (M A : Type) where
  b : Bool
  i : Nat
  d : Dat M A
  o : BT M A

def plug : List (Fr M A) → BT M A → BT M A
  | [], t => t
  | x :: c, t => plug c (mk x.b t x.i x.d x.o)

def cnodes : List (Fr M A) → List Nat
  | [] => []
  | x :: c => x.i :: (nodes x.o ++ cnodes c)

theorem nodes_mk (b : Bool) (x : BT M A) (i : Nat) (d : Dat M A) (o : BT M A) : (nodes (mk b x i d o)).Perm (i :: (nodes x ++ nodes o)) := by
  unfold mk
  cases b with
  | true => exact List.Perm.refl _
  | false => exact (List.perm_append_comm).cons i

theorem nodes_plug : ∀ (c : List (Fr M A)) (t : BT M A), (nodes (plug c t)).Perm (nodes t ++ cnodes c) := by
  intro c
  induction c with
  | nil => intro t; simp [plug, cnodes]
  | cons x c ih =>
    intro t
    rw [plug, cnodes]
    refine (ih _).trans ?_
    refine ((nodes_mk x.b t x.i x.d x.o).append_right _).trans ?_
    rw [List.cons_append, List.append_assoc]
    exact List.perm_middle.symm

theorem mk_node (b : Bool) (x : BT M A) (i : Nat) (d : Dat M A) (o : BT M A) : ∃ l r, mk b x i d o = node l i d r := by
  unfold mk; cases b
  · exact ⟨o, x, rfl⟩
  · exact ⟨x, o, rfl⟩

theorem nodes_recv (d : Dat M A) (t : BT M A) : nodes (recv S d t) = nodes t := by cases t <;> rfl
theorem nodes_agg (t : BT M A) : nodes (agg lct t) = nodes t := by cases t <;> rfl
theorem root_recv (d : Dat M A) (t : BT M A) : root (recv S d t) = root t := by cases t <;> rfl
theorem root_agg (t : BT M A) : root (agg lct t) = root t := by cases t <;> rfl
theorem root_mk (b : Bool) (x : BT M A) (i : Nat) (d : Dat M A) (o : BT M A) : root (mk b x i d o) = some i := by unfold mk; cases b <;> rfl

theorem nodes_prop (t : BT M A) : (nodes (prop S t)).Perm (nodes t) := by
  cases t with
  | nil => exact List.Perm.refl _
  | node l i d r =>
    unfold prop
    refine (nodes_mk ..).trans ?_
    rw [nodes_recv, nodes_recv]
    exact List.Perm.refl _

theorem root_prop (t : BT M A) : root (prop S t) = root t := by
  cases t with
  | nil => rfl
  | node l i d r => unfold prop; rw [root_mk]; rfl

theorem prop_mk (b : Bool) (x : BT M A) (i : Nat) (d : Dat M A) (o : BT M A) : prop S (mk b x i d o) = mk (b != d.rev) (recv S d x) i (clr S d) (recv S d o) := by
  unfold mk prop mk
  cases b <;> cases hd : d.rev <;> simp [prop, mk, hd]

theorem recv_mk (e : Dat M A) (b : Bool) (x : BT M A) (i : Nat) (d : Dat M A) (o : BT M A) : recv S e (mk b x i d o) = mk b x i (recvD S e d) o := by
  unfold mk; cases b <;> rfl

theorem seq_mk_clean (L : Laws S) {d : Dat M A} (h : Clean S d) (b : Bool) (x : BT M A) (i : Nat) (o : BT M A) :
    seq S (mk b x i d o) = if b then seq S x ++ (i, d.m) :: seq S o else seq S o ++ (i, d.m) :: seq S x := by
  unfold mk; cases b <;> exact seq_clean L h ..

theorem seq_mk_congr {d : Dat M A} (b : Bool) {x x' : BT M A} (i : Nat) (o : BT M A) (h : seq S x = seq S x') : seq S (mk b x i d o) = seq S (mk b x' i d o) := by
  unfold mk; cases b <;> simp [seq, h]

theorem seq_plug_congr : ∀ (c : List (Fr M A)) {t t' : BT M A}, seq S t = seq S t' → seq S (plug c t) = seq S (plug c t') := by
  intro c
  induction c with
  | nil => intro t t' h; exact h
  | cons x c ih => intro t t' h; exact ih (seq_mk_congr x.b x.i x.o h)

theorem valid_mk_agg (L : Laws S) {d : Dat M A} (hd : Clean S d) (b : Bool) {x : BT M A} {i : Nat} {o : BT M A} (hx : Valid S lct x) (ho : Valid S lct o) : Valid S lct (agg lct (mk b x i d o)) := by
  unfold mk; cases b
  · exact valid_agg L hd ho hx
  · exact valid_agg L hd hx ho

/-- Each node of the sequence once. -/
theorem seq_nodes (t : BT M A) : ((seq S t).map Prod.fst).Perm (nodes t) := by
  induction t with
  | nil => exact List.Perm.refl _
  | node l i d r ihl ihr =>
    have ht : ∀ s : List (Nat × M), ((through S d s).map Prod.fst).Perm (s.map Prod.fst) := by
      intro s
      unfold through
      split
      · rw [List.map_reverse, List.map_map]; exact List.reverse_perm _
      · rw [List.map_map]; exact List.Perm.refl _
    rw [seq, nodes]
    split
    · rw [List.map_append, List.map_cons]
      exact List.perm_middle.trans ((List.perm_append_comm.trans (((ht _).trans ihl).append ((ht _).trans ihr))).cons i)
    · rw [List.map_append, List.map_cons]
      exact List.perm_middle.trans ((((ht _).trans ihl).append ((ht _).trans ihr)).cons i)

end Verif.Splay
