import Verif.Persistent.Array
import Verif.UnionFind.Depth
/-!
C13: `PersistentUnionfind`, `/repo/include/mtl/persistent_unionfind.hpp`, on top of the heap model of `PersistentArray`
(`Degree = 4`, the default).  An object is its root pointer; `leader` replaces the pointer of the object it is called on.
Simplification: `long long`/`size_t` are unbounded.
-/
namespace Verif.Persistent.UF
open Verif.UnionFind (Inv DepthInv Connected cls cls_pos cls_le)

abbrev H := Heap Int

/-- `par_.get(i)`; persistent_unionfind.hpp:9 gives the default -1. -/
def pget (h : H) (u : Option Nat) (i : Nat) : Option Int := get 4 (-1) h u i

/-- `par_ = par_.set(i, x)`. -/
def pset (h : H) (u : Option Nat) (i : Nat) (x : Int) : Option (H × Option Nat) :=
  (set 4 (-1) h u i x).map (fun r => (r.1, some r.2))

/-- persistent_unionfind.hpp:10-17; the first argument bounds the recursion depth. -/
def leader : Nat → H → Option Nat → Nat → Option (Nat × H × Option Nat)
  | 0, _, _, _ => none
  | k+1, h, u, x => (pget h u x).bind (fun pu =>
      if pu < 0 then some (x, h, u) else
      (leader k h u pu.toNat).bind (fun r => (pset r.2.1 r.2.2 x r.1).map (fun q => (r.1, q))))

/-- persistent_unionfind.hpp:18-20. -/
def sizeOf (k : Nat) (h : H) (u : Option Nat) (x : Nat) : Option (Int × H × Option Nat) :=
  (leader k h u x).bind (fun r => (pget r.2.1 r.2.2 r.1).map (fun v => (-v, r.2)))

/-- persistent_unionfind.hpp:21-23 (left call first). -/
def same (k : Nat) (h : H) (u : Option Nat) (a b : Nat) : Option (Bool × H × Option Nat) :=
  (leader k h u a).bind (fun r => (leader k r.2.1 r.2.2 b).map (fun q => (r.1 == q.1, q.2)))

/-- persistent_unionfind.hpp:31-34, after the possible swap.  Returns heap, `*this`, and the new object. -/
def link (k : Nat) (h : H) (u : Option Nat) (ra rb : Nat) : Option (H × Option Nat × Option Nat) :=
  (pset h u rb ra).bind (fun r1 =>
  (sizeOf k r1.1 u ra).bind (fun sa =>
  (sizeOf k sa.2.1 sa.2.2 rb).bind (fun sb =>
  (pset sb.2.1 r1.2 ra (-(sa.1 + sb.1))).map (fun r2 => (r2.1, sb.2.2, r2.2)))))

/-- persistent_unionfind.hpp:29-34: the size comparison and the swap. -/
def mergeRoots (k : Nat) (h : H) (u : Option Nat) (ra rb : Nat) : Option (H × Option Nat × Option Nat) :=
  if ra = rb then some (h, u, u) else
  (sizeOf k h u ra).bind (fun sa =>
  (sizeOf k sa.2.1 sa.2.2 rb).bind (fun sb =>
    if sa.1 < sb.1 then link k sb.2.1 sb.2.2 rb ra else link k sb.2.1 sb.2.2 ra rb))

/-- persistent_unionfind.hpp:24-35. -/
def merge (k : Nat) (h : H) (u : Option Nat) (a b : Nat) : Option (H × Option Nat × Option Nat) :=
  (leader k h u a).bind (fun r => (leader k r.2.1 r.2.2 b).bind (fun q => mergeRoots k q.2.1 q.2.2 r.1 q.1))

/-! ### One object -/

/-- Object `u` in heap `h` is a parent forest over `0..n-1` with representatives `f`. -/
def Obj (n : Nat) (h : H) (u : Option Nat) (f d : Nat → Nat) : Prop :=
  ∃ g : Nat → Int, Arr 4 (-1) h u g ∧ DepthInv n ((List.range n).map g) f d

/-- The heap only grew. -/
def Grow (h h' : H) : Prop := Closed 4 h' ∧ h.length ≤ h'.length ∧ ∀ p : Nat, p < h.length → h'[p]? = h[p]?

theorem Grow.trans {a b c : H} (h : Grow a b) (h' : Grow b c) : Grow a c :=
  ⟨h'.1, Nat.le_trans h.2.1 h'.2.1, fun p hp => (h'.2.2 p (Nat.lt_of_lt_of_le hp h.2.1)).trans (h.2.2 p hp)⟩

theorem Grow.refl {h : H} (hc : Closed 4 h) : Grow h h := ⟨hc, Nat.le_refl _, fun _ _ => rfl⟩

theorem Obj.grow {n : Nat} {h h' : H} {u : Option Nat} {f d : Nat → Nat} (hc : Closed 4 h) (ho : Obj n h u f d) (hg : Grow h h') :
    Obj n h' u f d := by
  obtain ⟨g, ha, hi⟩ := ho
  exact ⟨g, ha.ext (by decide) hc hg.2.1 hg.2.2, hi⟩

theorem map_upd (n i : Nat) (g : Nat → Int) (v : Int) :
    (List.range n).map (fun j => if j = i then v else g j) = ((List.range n).map g).set i v := by
  apply List.ext_getElem?
  intro k
  by_cases hk : i = k
  · subst hk
    by_cases hn : i < n
    · rw [List.getElem?_set_self (by simpa using hn)]; simp [hn]
    · rw [List.getElem?_eq_none (by simp; omega), List.getElem?_eq_none (by simp; omega)]
  · rw [List.getElem?_set_ne hk]
    simp [List.getElem?_range]
    by_cases hn : k < n
    · simp [List.getElem?_range hn, Ne.symm hk]
    · rw [List.getElem?_eq_none (by simp; omega)]; simp

theorem pget_spec {n : Nat} {h : H} {u : Option Nat} {g : Nat → Int} (ha : Arr 4 (-1) h u g) {i : Nat} {x : Int} (hi : i < n)
    (hx : ((List.range n).map g)[i]? = some x) : pget h u i = some x := by
  have : g i = x := by simpa [List.getElem?_range hi] using hx
  rw [← this]; exact ha.2 i

theorem pset_spec {h : H} (hc : Closed 4 h) {u : Option Nat} {g : Nat → Int} (ha : Arr 4 (-1) h u g) (i : Nat) (x : Int) :
    ∃ h' p, pset h u i x = some (h', p) ∧ Grow h h' ∧ Arr 4 (-1) h' p (fun j => if j = i then x else g j) := by
  obtain ⟨h', p, e, cl, hl, hpre, ha'⟩ := set_spec (by decide) hc ha i x
  exact ⟨h', some p, by simp [pset, e], ⟨cl, hl, hpre⟩, ha'⟩

theorem leader_spec {n : Nat} {f d : Nat → Nat} : ∀ (k : Nat) (h : H) (u : Option Nat) (x : Nat), Closed 4 h → Obj n h u f d → x < n → d x < k →
    ∃ h' u', leader k h u x = some (f x, h', u') ∧ Grow h h' ∧ Obj n h' u' f d ∧ (f x = x → h' = h ∧ u' = u)
  | 0, _, _, _, _, _, _, hk => by omega
  | k+1, h, u, x, hc, ho, hx, hk => by
    obtain ⟨g, ha, hi⟩ := id ho
    by_cases hr : f x = x
    · have e := pget_spec ha hx (hi.inv.rootv x hx hr)
      have := cls_pos (n := n) (f := f) hx
      rw [hr] at this
      refine ⟨h, u, ?_, Grow.refl hc, ho, fun _ => ⟨rfl, rfl⟩⟩
      simp only [leader, e, Option.bind_some]
      rw [if_pos (by omega), hr]
    · obtain ⟨p, h1, hp, hfp, hd, hd2⟩ := hi.inv.nonroot x hx hr
      have e := pget_spec ha hx h1
      obtain ⟨h', u', e', g', o', _⟩ := leader_spec k h u p hc ho hp (by omega)
      obtain ⟨g2, ha2, hi2⟩ := o'
      obtain ⟨h2, p2, e2, gr2, ha3⟩ := pset_spec g'.1 ha2 x (f x : Int)
      refine ⟨h2, p2, ?_, g'.trans gr2, ⟨_, ha3, ?_⟩, fun hc => absurd hc hr⟩
      · simp only [leader, e, Option.bind_some]
        rw [if_neg (by omega)]
        simp [e', hfp, e2]
      · rw [map_upd]
        exact hi2.same (hi2.inv.compress hx hr)

theorem budget {n k : Nat} {par : UnionFind.Par} {f d : Nat → Nat} (hi : DepthInv n par f d) (hk : Nat.log 2 n < k) {x : Nat} (hx : x < n) : d x < k := by
  have := hi.log hx
  omega

theorem leader_spec' {n k : Nat} {f d : Nat → Nat} (hk : Nat.log 2 n < k) {h : H} {u : Option Nat} {x : Nat} (hc : Closed 4 h) (ho : Obj n h u f d)
    (hx : x < n) :
    ∃ h' u', leader k h u x = some (f x, h', u') ∧ Grow h h' ∧ Obj n h' u' f d ∧ (f x = x → h' = h ∧ u' = u) := by
  obtain ⟨g, ha, hi⟩ := id ho
  exact leader_spec k h u x hc ho hx (budget hi hk hx)

theorem Obj.lt {n : Nat} {h : H} {u : Option Nat} {f d : Nat → Nat} (ho : Obj n h u f d) {x : Nat} (hx : x < n) : f x < n ∧ f (f x) = f x := by
  obtain ⟨g, _, hi⟩ := ho
  exact ⟨hi.inv.lt x hx, hi.inv.idem x hx⟩

theorem sizeOf_spec {n k : Nat} {f d : Nat → Nat} (hk : Nat.log 2 n < k) {h : H} {u : Option Nat} {x : Nat} (hc : Closed 4 h) (ho : Obj n h u f d)
    (hx : x < n) :
    ∃ h' u', sizeOf k h u x = some ((cls n f (f x) : Int), h', u') ∧ Grow h h' ∧ Obj n h' u' f d ∧ (f x = x → h' = h ∧ u' = u) := by
  obtain ⟨h', u', e, g1, o1, hs⟩ := leader_spec' hk hc ho hx
  obtain ⟨g, ha, hi⟩ := id o1
  have e2 := pget_spec ha (hi.inv.lt x hx) (hi.inv.rootv (f x) (hi.inv.lt x hx) (hi.inv.idem x hx))
  exact ⟨h', u', by simp [sizeOf, e, e2], g1, o1, hs⟩

theorem same_spec {n k : Nat} {f d : Nat → Nat} (hk : Nat.log 2 n < k) {h : H} {u : Option Nat} {a b : Nat} (hc : Closed 4 h) (ho : Obj n h u f d)
    (ha : a < n) (hb : b < n) :
    ∃ h' u', same k h u a b = some (f a == f b, h', u') ∧ Grow h h' ∧ Obj n h' u' f d := by
  obtain ⟨h1, u1, e1, g1, o1, _⟩ := leader_spec' hk hc ho ha
  obtain ⟨h2, u2, e2, g2, o2, _⟩ := leader_spec' hk g1.1 o1 hb
  exact ⟨h2, u2, by simp [same, e1, e2], g1.trans g2, o2⟩

/-- Linking two roots, on the parent list (from the mutable union-find proof). -/
theorem link_inv {n : Nat} {par : UnionFind.Par} {f d : Nat → Nat} (hi : DepthInv n par f d) {a b : Nat} (ha : a < n) (hb : b < n) (fa : f a = a)
    (fb : f b = b) (hne : a ≠ b) (hle : cls n f b ≤ cls n f a) :
    ∃ d', DepthInv n ((par.set a (-((cls n f a : Int) + cls n f b))).set b (a : Int)) (UnionFind.merge f a b) d' := by
  obtain ⟨par', d', e, h⟩ := UnionFind.link_depth hi ha hb (by rw [fa, fb]; exact hne) (by rw [fa, fb]; exact hle)
  rw [fa, fb] at h
  refine ⟨d', ?_⟩
  have ea := hi.inv.rootv a ha fa
  have eb := hi.inv.rootv b hb fb
  have pa := cls_pos (n := n) (f := f) ha
  have pb := cls_pos (n := n) (f := f) hb
  rw [fa] at pa
  rw [fb] at pb
  have key : ∀ (p : UnionFind.Par) (x : Nat) (v : Int), p[x]? = some v → v < 0 → UnionFind.root p x = some (x, p) := by
    intro p x v e hv
    simp [UnionFind.root, UnionFind.rootF, e, hv]
  have hl := hi.inv.len
  have r1 := key par b _ eb (by omega)
  have r2 := key par a _ ea (by omega)
  have e3 : (par.set a (-(cls n f a : Int) - cls n f b))[a]? = some (-(cls n f a : Int) - cls n f b) :=
    List.getElem?_set_self (by omega)
  have r3 := key (par.set a (-(cls n f a : Int) - cls n f b)) a _ e3 (by omega)
  have e4 : (par.set a (-(cls n f a : Int) - cls n f b))[b]? = some (-(cls n f b : Int)) := by
    rw [List.getElem?_set_ne hne]; exact eb
  have r4 := key (par.set a (-(cls n f a : Int) - cls n f b)) b _ e4 (by omega)
  have hlen : b < (par.set a (-(cls n f a : Int) - cls n f b)).length := by simp; omega
  simp only [UnionFind.link, UnionFind.sizeOf, r1, eb, r2, ea, Option.bind_eq_bind, Option.bind_some, Int.neg_neg, r3, r4, hlen, if_true,
    Option.some.injEq] at e
  rw [show (-((cls n f a : Int) + cls n f b)) = -(cls n f a : Int) - cls n f b by omega, e]
  exact h

theorem link_spec {n k : Nat} {f d : Nat → Nat} (hk : Nat.log 2 n < k) {h : H} {u : Option Nat} {a b : Nat} (hc : Closed 4 h) (ho : Obj n h u f d)
    (ha : a < n) (hb : b < n) (fa : f a = a) (fb : f b = b) (hne : a ≠ b) (hle : cls n f b ≤ cls n f a) :
    ∃ h' u' w d', link k h u a b = some (h', u', w) ∧ Grow h h' ∧ Obj n h' u' f d ∧ Obj n h' w (UnionFind.merge f a b) d' := by
  obtain ⟨g, har, hi⟩ := id ho
  obtain ⟨h1, p1, e1, g1, a1⟩ := pset_spec hc har b (a : Int)
  have o1 := ho.grow hc g1
  obtain ⟨h2, u2, e2, g2, o2, s2⟩ := sizeOf_spec hk g1.1 o1 ha
  obtain ⟨rfl, rfl⟩ := s2 fa
  obtain ⟨h3, u3, e3, g3, o3, s3⟩ := sizeOf_spec hk g1.1 o1 hb
  obtain ⟨rfl, rfl⟩ := s3 fb
  rw [fa] at e2
  rw [fb] at e3
  obtain ⟨h4, p4, e4, g4, a4⟩ := pset_spec g1.1 a1 a (-((cls n f a : Int) + cls n f b))
  obtain ⟨d', hi'⟩ := link_inv hi ha hb fa fb hne hle
  refine ⟨h4, u3, p4, d', ?_, g1.trans g4, o1.grow g1.1 g4, ⟨_, a4, ?_⟩⟩
  · simp only [link, e1, Option.bind_some, e2, e3, e4, Option.map_some]
  · rw [map_upd, map_upd, List.set_comm _ _ (Ne.symm hne)]
    exact hi'

open Verif.UnionFind (Rep)

theorem merge_spec {n k : Nat} {f d : Nat → Nat} (hk : Nat.log 2 n < k) {h : H} {u : Option Nat} {a b : Nat} (hc : Closed 4 h) (ho : Obj n h u f d)
    (ha : a < n) (hb : b < n) {ps : List (Nat × Nat)} (hr : Rep n ps f) (hps : ∀ x y, (x, y) ∈ ps → x < n ∧ y < n) :
    ∃ h' u' w f' d', merge k h u a b = some (h', u', w) ∧ Grow h h' ∧ Obj n h' u' f d ∧ Obj n h' w f' d' ∧ Rep n (ps ++ [(a, b)]) f' := by
  obtain ⟨h1, u1, e1, g1, o1, _⟩ := leader_spec' hk hc ho ha
  obtain ⟨h2, u2, e2, g2, o2, _⟩ := leader_spec' hk g1.1 o1 hb
  obtain ⟨la, ia⟩ := ho.lt ha
  obtain ⟨lb, ib⟩ := ho.lt hb
  simp only [merge, e1, e2, Option.bind_some, mergeRoots]
  by_cases he : f a = f b
  · rw [if_pos he]
    exact ⟨h2, u2, u2, f, d, rfl, g1.trans g2, o2, o2, hr.same ha hb he⟩
  · rw [if_neg he]
    obtain ⟨h3, u3, e3, g3, o3, s3⟩ := sizeOf_spec hk g2.1 o2 la
    obtain ⟨h4, u4, e4, g4, o4, s4⟩ := sizeOf_spec hk g3.1 o3 lb
    simp only [e3, e4, Option.bind_some]
    have hg := ((g1.trans g2).trans g3).trans g4
    split
    · obtain ⟨h5, u5, w, d', e5, g5, o5, o6⟩ := link_spec hk g4.1 o4 lb la ib ia (Ne.symm he) (by rw [ia, ib] at *; omega)
      exact ⟨h5, u5, w, _, d', e5, hg.trans g5, o5, o6, (hr.merge hb ha hps).congrSwap⟩
    · obtain ⟨h5, u5, w, d', e5, g5, o5, o6⟩ := link_spec hk g4.1 o4 la lb ia ib he (by rw [ia, ib] at *; omega)
      exact ⟨h5, u5, w, _, d', e5, hg.trans g5, o5, o6, hr.merge ha hb hps⟩

/-! ### Programs over many versions -/

/-- Calls on object number `k`; `merge` and `copy` create a new object. -/
inductive Op
  | leader (k x : Nat)
  | sizeOf (k x : Nat)
  | same (k a b : Nat)
  | merge (k a b : Nat)
  | copy (k : Nat)

structure World where
  heap : H
  objs : List (Option Nat)

def init : World := ⟨[], [none]⟩

/-- `K` bounds the recursion depth of `leader`. -/
def step (K : Nat) (w : World) : Op → Option World
  | .leader k x => (w.objs[k]?).bind (fun u => (leader K w.heap u x).map (fun r => ⟨r.2.1, w.objs.set k r.2.2⟩))
  | .sizeOf k x => (w.objs[k]?).bind (fun u => (sizeOf K w.heap u x).map (fun r => ⟨r.2.1, w.objs.set k r.2.2⟩))
  | .same k a b => (w.objs[k]?).bind (fun u => (same K w.heap u a b).map (fun r => ⟨r.2.1, w.objs.set k r.2.2⟩))
  | .merge k a b => (w.objs[k]?).bind (fun u => (merge K w.heap u a b).map (fun r => ⟨r.1, w.objs.set k r.2.1 ++ [r.2.2]⟩))
  | .copy k => (w.objs[k]?).map (fun u => ⟨w.heap, w.objs ++ [u]⟩)

def run (K : Nat) : World → List Op → Option World
  | w, [] => some w
  | w, o :: os => (step K w o).bind (fun w' => run K w' os)

/-- Specification: each object is the list of pairs merged on its own history; `none` = invalid arguments. -/
def specStep (n : Nat) (vs : List (List (Nat × Nat))) : Op → Option (List (List (Nat × Nat)))
  | .leader k x => if k < vs.length ∧ x < n then some vs else none
  | .sizeOf k x => if k < vs.length ∧ x < n then some vs else none
  | .same k a b => if k < vs.length ∧ a < n ∧ b < n then some vs else none
  | .merge k a b => if a < n ∧ b < n then (vs[k]?).map (fun ps => vs ++ [ps ++ [(a, b)]]) else none
  | .copy k => (vs[k]?).map (fun ps => vs ++ [ps])

def spec (n : Nat) : List (List (Nat × Nat)) → List Op → Option (List (List (Nat × Nat)))
  | vs, [] => some vs
  | vs, o :: os => (specStep n vs o).bind (fun vs' => spec n vs' os)

def Good1 (n : Nat) (h : H) (u : Option Nat) (ps : List (Nat × Nat)) : Prop :=
  (∀ x y, (x, y) ∈ ps → x < n ∧ y < n) ∧ ∃ f d, Obj n h u f d ∧ Rep n ps f

theorem Good1.grow {n : Nat} {h h' : H} {u : Option Nat} {ps : List (Nat × Nat)} (hc : Closed 4 h) (hg : Good1 n h u ps) (hgr : Grow h h') :
    Good1 n h' u ps := by
  obtain ⟨a, f, d, b, c⟩ := hg
  exact ⟨a, f, d, b.grow hc hgr, c⟩

structure Good (n : Nat) (w : World) (vs : List (List (Nat × Nat))) : Prop where
  cl : Closed 4 w.heap
  len : w.objs.length = vs.length
  all : ∀ (k : Nat) (u : Option Nat) (ps : List (Nat × Nat)), w.objs[k]? = some u → vs[k]? = some ps → Good1 n w.heap u ps

/-- Replacing the pointer of one object. -/
theorem Good.upd {n : Nat} {w : World} {vs : List (List (Nat × Nat))} (hg : Good n w vs) {h' : H} (hgr : Grow w.heap h') {k : Nat}
    {u' : Option Nat} (hk : ∀ ps, vs[k]? = some ps → Good1 n h' u' ps) : Good n ⟨h', w.objs.set k u'⟩ vs := by
  refine ⟨hgr.1, by simp [hg.len], fun j u ps e1 e2 => ?_⟩
  simp only at e1
  by_cases hj : k = j
  · subst hj
    have : k < w.objs.length := by rw [hg.len]; exact (List.getElem?_eq_some_iff.1 e2).1
    rw [List.getElem?_set_self this] at e1
    simp only [Option.some.injEq] at e1
    subst e1
    exact hk ps e2
  · rw [List.getElem?_set_ne hj] at e1
    exact (hg.all j u ps e1 e2).grow hg.cl hgr

theorem Good.push {n : Nat} {w : World} {vs : List (List (Nat × Nat))} (hg : Good n w vs) {u : Option Nat} {ps : List (Nat × Nat)}
    (h1 : Good1 n w.heap u ps) : Good n ⟨w.heap, w.objs ++ [u]⟩ (vs ++ [ps]) := by
  refine ⟨hg.cl, by simp [hg.len], fun j v qs e1 e2 => ?_⟩
  simp only at e1
  by_cases hj : j < vs.length
  · rw [List.getElem?_append_left (by rw [hg.len]; exact hj)] at e1
    rw [List.getElem?_append_left hj] at e2
    exact hg.all j v qs e1 e2
  · have := (List.getElem?_eq_some_iff.1 e2).1
    simp at this
    have hj' : j = vs.length := by omega
    subst hj'
    rw [← hg.len] at e1
    simp at e1 e2
    subst e1 e2
    exact h1

theorem step_good {n K : Nat} (hK : Nat.log 2 n < K) {w : World} {vs vs' : List (List (Nat × Nat))} (hg : Good n w vs) (o : Op)
    (hs : specStep n vs o = some vs') : ∃ w', step K w o = some w' ∧ Good n w' vs' := by
  have hobj : ∀ k, k < vs.length → ∃ u, w.objs[k]? = some u := fun k hk => ⟨_, List.getElem?_eq_getElem (by rw [hg.len]; exact hk)⟩
  cases o with
  | leader k x =>
    simp only [specStep, Option.ite_none_right_eq_some, Option.some.injEq] at hs
    obtain ⟨⟨hk, hx⟩, rfl⟩ := hs
    obtain ⟨u, eu⟩ := hobj k hk
    obtain ⟨hps, f, d, ho, hr⟩ := hg.all k u _ eu (List.getElem?_eq_getElem hk)
    obtain ⟨h', u', e, g, o', _⟩ := leader_spec' hK hg.cl ho hx
    refine ⟨⟨h', w.objs.set k u'⟩, by simp only [step, eu, Option.bind_some, e, Option.map_some], hg.upd g fun ps e => ?_⟩
    rw [List.getElem?_eq_getElem hk] at e
    simp only [Option.some.injEq] at e
    subst e
    exact ⟨hps, f, d, o', hr⟩
  | sizeOf k x =>
    simp only [specStep, Option.ite_none_right_eq_some, Option.some.injEq] at hs
    obtain ⟨⟨hk, hx⟩, rfl⟩ := hs
    obtain ⟨u, eu⟩ := hobj k hk
    obtain ⟨hps, f, d, ho, hr⟩ := hg.all k u _ eu (List.getElem?_eq_getElem hk)
    obtain ⟨h', u', e, g, o', _⟩ := sizeOf_spec hK hg.cl ho hx
    refine ⟨⟨h', w.objs.set k u'⟩, by simp only [step, eu, Option.bind_some, e, Option.map_some], hg.upd g fun ps e => ?_⟩
    rw [List.getElem?_eq_getElem hk] at e
    simp only [Option.some.injEq] at e
    subst e
    exact ⟨hps, f, d, o', hr⟩
  | same k a b =>
    simp only [specStep, Option.ite_none_right_eq_some, Option.some.injEq] at hs
    obtain ⟨⟨hk, ha, hb⟩, rfl⟩ := hs
    obtain ⟨u, eu⟩ := hobj k hk
    obtain ⟨hps, f, d, ho, hr⟩ := hg.all k u _ eu (List.getElem?_eq_getElem hk)
    obtain ⟨h', u', e, g, o'⟩ := same_spec hK hg.cl ho ha hb
    refine ⟨⟨h', w.objs.set k u'⟩, by simp only [step, eu, Option.bind_some, e, Option.map_some], hg.upd g fun ps e => ?_⟩
    rw [List.getElem?_eq_getElem hk] at e
    simp only [Option.some.injEq] at e
    subst e
    exact ⟨hps, f, d, o', hr⟩
  | merge k a b =>
    simp only [specStep, Option.ite_none_right_eq_some, Option.map_eq_some_iff] at hs
    obtain ⟨⟨ha, hb⟩, ps, ek, rfl⟩ := hs
    have hk := (List.getElem?_eq_some_iff.1 ek).1
    obtain ⟨u, eu⟩ := hobj k hk
    obtain ⟨hps, f, d, ho, hr⟩ := hg.all k u _ eu ek
    obtain ⟨h', u', v, f', d', e, g, o1, o2, hr'⟩ := merge_spec hK hg.cl ho ha hb hr hps
    have hg1 : Good n ⟨h', w.objs.set k u'⟩ vs := hg.upd g fun qs e => by
      rw [ek] at e
      simp only [Option.some.injEq] at e
      subst e
      exact ⟨hps, f, d, o1, hr⟩
    refine ⟨⟨h', w.objs.set k u' ++ [v]⟩, by simp only [step, eu, Option.bind_some, e, Option.map_some], hg1.push ⟨?_, f', d', o2, hr'⟩⟩
    intro x y hxy
    simp only [List.mem_append, List.mem_singleton, Prod.mk.injEq] at hxy
    rcases hxy with hxy | ⟨rfl, rfl⟩
    · exact hps x y hxy
    · exact ⟨ha, hb⟩
  | copy k =>
    simp only [specStep, Option.map_eq_some_iff] at hs
    obtain ⟨ps, ek, rfl⟩ := hs
    have hk := (List.getElem?_eq_some_iff.1 ek).1
    obtain ⟨u, eu⟩ := hobj k hk
    exact ⟨_, by simp only [step, eu, Option.map_some], hg.push (hg.all k u _ eu ek)⟩

theorem run_good {n K : Nat} (hK : Nat.log 2 n < K) : ∀ (os : List Op) (w : World) (vs vs' : List (List (Nat × Nat))), Good n w vs →
    spec n vs os = some vs' → ∃ w', run K w os = some w' ∧ Good n w' vs'
  | [], w, vs, vs', hg, hs => by simp only [spec, Option.some.injEq] at hs; subst hs; exact ⟨w, rfl, hg⟩
  | o :: os, w, vs, vs', hg, hs => by
    simp only [spec, Option.bind_eq_some_iff] at hs
    obtain ⟨v1, e1, e2⟩ := hs
    obtain ⟨w1, a1, a2⟩ := step_good hK hg o e1
    obtain ⟨w', b1, b2⟩ := run_good hK os w1 v1 vs' a2 e2
    exact ⟨w', by simp [run, a1, b1], b2⟩

theorem init_good (n : Nat) : Good n init [[]] := by
  refine ⟨fun p nd e => by simp [init] at e, rfl, fun k u ps e1 e2 => ?_⟩
  cases k with
  | succ k => simp [init] at e1
  | zero =>
    simp [init] at e1 e2
    subst e1 e2
    obtain ⟨f, d, hi, hr⟩ := UnionFind.init_depth n
    refine ⟨by simp, f, d, ⟨fun _ => -1, Arr.none, ?_⟩, hr⟩
    have : (List.range n).map (fun _ => (-1 : Int)) = UnionFind.init n := by
      unfold UnionFind.init
      apply List.ext_getElem <;> simp
    rw [this]; exact hi

theorem conn_lt {n : Nat} {ps : List (Nat × Nat)} (hps : ∀ x y, (x, y) ∈ ps → x < n ∧ y < n) {u v : Nat} (h : Connected ps u v) :
    u < n ↔ v < n := by
  induction h with
  | pair hp => exact ⟨fun _ => (hps _ _ hp).2, fun _ => (hps _ _ hp).1⟩
  | refl => exact Iff.rfl
  | symm _ ih => exact ih.symm
  | trans _ _ ih1 ih2 => exact ih1.trans ih2

/-! ### The property -/

/-- **C13.** Take any branching program of `leader`, `size_of`, `same`, `merge` and copies over many versions, with
elements below some `n` (and stack room for `K > log2 n` nested calls of `leader`).  It runs without undefined behaviour, and
afterwards *every* version answers `same` and `size_of` according to exactly the pairs merged on its own history. -/
theorem C13_versions (n K : Nat) (hK : Nat.log 2 n < K) (os : List Op) (vs : List (List (Nat × Nat))) (hs : spec n [[]] os = some vs) :
    ∃ w, run K init os = some w ∧ w.objs.length = vs.length ∧
      ∀ (k : Nat) (u : Option Nat) (ps : List (Nat × Nat)), w.objs[k]? = some u → vs[k]? = some ps →
        (∀ a b, a < n → b < n → ∃ r st, same K w.heap u a b = some (r, st) ∧ (r = true ↔ Connected ps a b)) ∧
        (∀ a, a < n → ∃ (s : Int) (st : H × Option Nat) (l : List Nat), sizeOf K w.heap u a = some (s, st) ∧ s = (l.length : Int) ∧ l.Nodup ∧ ∀ b, b ∈ l ↔ Connected ps a b) := by
  obtain ⟨w, hw, hg⟩ := run_good hK os init [[]] vs (init_good n) hs
  refine ⟨w, hw, hg.len, fun k u ps e1 e2 => ?_⟩
  obtain ⟨hps, f, d, ho, hr⟩ := hg.all k u ps e1 e2
  refine ⟨fun a b ha hb => ?_, fun a ha => ?_⟩
  · obtain ⟨h', u', e, _⟩ := same_spec hK hg.cl ho ha hb
    exact ⟨_, _, e, by simpa using hr a b ha hb⟩
  · obtain ⟨h', u', e, _⟩ := sizeOf_spec hK hg.cl ho ha
    refine ⟨_, _, (List.range n).filter (fun w => f w == f a), e, ?_, ?_, ?_⟩
    · simp [cls, List.countP_eq_length_filter]
    · exact List.Pairwise.filter _ List.nodup_range
    · intro b
      simp only [List.mem_filter, List.mem_range, beq_iff_eq]
      constructor
      · rintro ⟨h1, h2⟩; exact (hr a b ha h1).1 h2.symm
      · intro h
        have hb := (conn_lt hps h).1 ha
        exact ⟨hb, ((hr a b ha hb).2 h).symm⟩

/-- Two branches from a common version, with queries in between. -/
def sample : List Op := [.merge 0 0 1, .merge 1 2 3, .merge 2 1 3, .same 3 0 2, .merge 1 4 0, .sizeOf 2 3, .leader 3 2]

example : spec 5 [[]] sample = some [[], [(0,1)], [(0,1),(2,3)], [(0,1),(2,3),(1,3)], [(0,1),(4,0)]] := by decide
example : ((run 3 init sample).bind (fun w => (w.objs[3]?).bind (fun u => (sizeOf 3 w.heap u 3).map (·.1)))) = some 4 := by decide +kernel

end Verif.Persistent.UF
