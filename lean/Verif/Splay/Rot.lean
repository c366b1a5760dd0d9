import Verif.Splay.Heap
import Verif.Splay.Potential
/-!
Rotations and the splay loop.
-/
namespace Verif.Splay
open Verif Verif.LazySegTree BT

variable {M A : Type} [Monoid M] {S : Acts M A} {lct : Bool} {n : Nat} {h : Heap M A} {g : Nat → Node M A} {par : Option Nat}

theorem mkN_c (b : Bool) (x o p : Option Nat) (d : Dat M A) : (mkN b x o p d).c (!b) = o := by unfold mkN Node.c; cases b <;> rfl
theorem mkN_p (b : Bool) (x o p : Option Nat) (d : Dat M A) : (mkN b x o p d).p = p := by unfold mkN; cases b <;> rfl
theorem mkN_set (b : Bool) (x o p y : Option Nat) (d : Dat M A) : Node.setC b y (mkN b x o p d) = mkN b y o p d := by unfold mkN Node.setC; cases b <;> rfl
theorem mkN_set' (b : Bool) (x o p y : Option Nat) (d : Dat M A) : Node.setC (!b) y (mkN b x o p d) = mkN b x y p d := by unfold mkN Node.setC; cases b <;> rfl
theorem mkN_setp (b : Bool) (x o p p' : Option Nat) (d : Dat M A) : { mkN b x o p d with p := p' } = mkN b x o p' d := by unfold mkN; cases b <;> rfl

theorem rotate_ok {c : List (Fr M A)} {b : Bool} {x y o : BT M A} {u p : Nat} {du dp : Dat M A} (I : H n h g par (plug c (mk b (mk b x u du y) p dp o))) :
    ∃ h' g', rotate b u h = some h' ∧ H n h' g' par (plug c (mk b x u du (mk b y p dp o))) ∧ ∀ j, j ∉ nodes (plug c (mk b (mk b x u du y) p dp o)) → g' j = g j := by
  have hnp := nodes_plug c (mk b (mk b x u du y) p dp o)
  have hperm : (nodes (mk b (mk b x u du y) p dp o)).Perm (p :: u :: (nodes x ++ nodes y ++ nodes o)) := by
    refine (nodes_mk ..).trans ?_
    refine List.Perm.cons p ?_
    exact ((nodes_mk ..).append_right _)
  have hperm' : (nodes (mk b x u du (mk b y p dp o))).Perm (p :: u :: (nodes x ++ nodes y ++ nodes o)) := by
    refine (nodes_mk ..).trans ?_
    refine (((nodes_mk b y p dp o).append_left _).cons u).trans ?_
    refine (List.perm_middle.cons u).trans ?_
    rw [← List.append_assoc]
    exact List.Perm.swap ..
  have hall := hnp.trans (hperm.append_right (cnodes c))
  have hall' := (nodes_plug c (mk b x u du (mk b y p dp o))).trans (hperm'.append_right (cnodes c))
  have nd := hall.nodup_iff.1 I.nd
  have hlt : ∀ j ∈ p :: u :: (nodes x ++ nodes y ++ nodes o) ++ cnodes c, j < n := fun j hj => I.lt j (hall.mem_iff.2 hj)
  obtain ⟨k1, k2⟩ := (Rp_plug g par c _).1 I.rp
  rw [Rp_mk, Rp_mk, root_mk] at k2
  obtain ⟨gp, ⟨gu, rx, ry⟩, ro⟩ := k2
  rw [root_mk] at k1
  -- distinctness
  have nd' : (p :: u :: (nodes x ++ (nodes y ++ (nodes o ++ cnodes c)))).Nodup := by simpa [List.append_assoc] using nd
  obtain ⟨np, nd1⟩ := List.nodup_cons.1 nd'
  obtain ⟨nu, nd2⟩ := List.nodup_cons.1 nd1
  obtain ⟨ndx, nd3, dx⟩ := List.nodup_append.1 nd2
  obtain ⟨ndy, nd4, dy⟩ := List.nodup_append.1 nd3
  obtain ⟨ndo, ndc, dO⟩ := List.nodup_append.1 nd4
  simp only [List.mem_cons, List.mem_append, not_or] at np nu
  have hpu : p ≠ u := np.1
  have hp : p < n := hlt p (by simp)
  have hu : u < n := hlt u (by simp)
  have hyl : ∀ i, root y = some i → i < n := fun i e => hlt i (by simp [root_mem e])
  have hyp : root y ≠ some p := fun e => np.2.2.1 (root_mem e)
  have hyu : root y ≠ some u := fun e => nu.2.1 (root_mem e)
  -- the parent of p
  have hq : ∀ q, top par c = some q → q < n ∧ q ≠ p ∧ q ≠ u ∧ q ∉ nodes x ∧ q ∉ nodes y ∧ q ∉ nodes o := by
    intro q e
    cases c with
    | nil =>
      obtain ⟨h1, h2, _⟩ := I.pr q e
      have h2' : q ∉ p :: u :: (nodes x ++ nodes y ++ nodes o) ++ cnodes [] := fun h => h2 (hall.mem_iff.2 h)
      simp only [cnodes, List.append_nil, List.mem_cons, List.mem_append, not_or] at h2'
      exact ⟨h1, h2'.1, h2'.2.1, h2'.2.2.1.1, h2'.2.2.1.2, h2'.2.2.2⟩
    | cons z c =>
      cases e
      have hz : z.i ∈ cnodes (z :: c) := by simp [cnodes]
      refine ⟨hlt z.i (by simp [hz]), ?_, ?_, fun h => dx _ h z.i (by simp [hz]) rfl, fun h => dy _ h z.i (by simp [hz]) rfl, fun h => dO _ h z.i hz rfl⟩
      · intro e; rw [e] at hz; exact np.2.2.2.2 hz
      · intro e; rw [e] at hz; exact nu.2.2.2 hz
  unfold rotate
  rw [I.rep.val u hu, Option.bind_some, gu, mkN_p, Option.bind_some, I.rep.val p hp, Option.bind_some, gp, mkN_c, mkN_p]
  obtain ⟨h1, e1, r1⟩ := modN_ok I.rep hp (Node.setC b (root y))
  obtain ⟨h2, e2, r2⟩ := modO_ok r1 hyl (fun z => { z with p := some p })
  obtain ⟨h3, e3, r3⟩ := modN_ok r2 hu (Node.setC (!b) (some p))
  obtain ⟨h4, e4, r4⟩ := modN_ok r3 hp (fun z => { z with p := some u })
  obtain ⟨h5, e5, r5⟩ := modN_ok r4 hu (fun z => { z with p := top par c })
  obtain ⟨h6, e6, r6⟩ := modO_ok r5 (c := top par c) (fun q e => (hq q e).1) (fun x => if x.l = some p then { x with l := some u } else if x.r = some p then { x with r := some u } else x)
  rw [e1, Option.bind_some, e2, Option.bind_some, e3, Option.bind_some, e4, Option.bind_some, e5, Option.bind_some]
  unfold relink
  generalize hG : updO _ (top par c) _ = G at r6
  refine ⟨h6, G, e6, ?_⟩
  have Gu : G u = mkN b (root x) (some p) (top par c) du := by
    rw [← hG, updO_ne (fun e => (hq u e).2.2.1 rfl), upd_same, upd_ne _ _ (Ne.symm hpu), upd_same, updO_ne hyu, upd_ne _ _ (Ne.symm hpu), gu, mkN_set', mkN_setp]
  have Gp : G p = mkN b (root y) (root o) (some u) dp := by
    rw [← hG, updO_ne (fun e => (hq p e).2.1 rfl), upd_ne _ _ hpu, upd_same, upd_ne _ _ hpu, updO_ne hyp, upd_same, gp, mkN_set, mkN_setp]
  have Gy : ∀ j, root y = some j → G j = { g j with p := some p } := by
    intro j e
    have h1 : j ≠ p := by rintro rfl; exact hyp e
    have h2 : j ≠ u := by rintro rfl; exact hyu e
    rw [← hG, updO_ne (fun e' => (hq j e').2.2.2.2.1 (root_mem e)), upd_ne _ _ h2, upd_ne _ _ h1, upd_ne _ _ h2]
    unfold updO
    rw [if_pos e, upd_ne _ _ h1]
  have Go : ∀ j, j ≠ p → j ≠ u → root y ≠ some j → top par c ≠ some j → G j = g j := by
    intro j h1 h2 h3 h4
    rw [← hG, updO_ne h4, upd_ne _ _ h2, upd_ne _ _ h1, upd_ne _ _ h2, updO_ne h3, upd_ne _ _ h1]
  have Gq : ∀ q, top par c = some q → G q = if (g q).l = some p then { g q with l := some u } else if (g q).r = some p then { g q with r := some u } else g q := by
    intro q e
    obtain ⟨_, a1, a2, _, a3, _⟩ := hq q e
    rw [← hG]
    unfold updO
    rw [if_pos e, upd_ne _ _ a2, upd_ne _ _ a1, upd_ne _ _ a2, if_neg (fun e' => a3 (root_mem e')), upd_ne _ _ a1]
  have hx : ∀ j ∈ nodes x, G j = g j := by
    intro j hj
    refine Go j (by rintro rfl; exact np.2.1 hj) (by rintro rfl; exact nu.1 hj) (fun e => dx j hj j (by simp [root_mem e]) rfl) (fun e => (hq j e).2.2.2.1 hj)
  have ho : ∀ j ∈ nodes o, G j = g j := by
    intro j hj
    refine Go j (by rintro rfl; exact np.2.2.2.1 hj) (by rintro rfl; exact nu.2.2.1 hj) (fun e => dy j (root_mem e) j (by simp [hj]) rfl) (fun e => (hq j e).2.2.2.2.2 hj)
  have hfr : ∀ j, j ∉ nodes (plug c (mk b (mk b x u du y) p dp o)) → G j = g j := by
    intro j hj
    have hj' : j ∉ p :: u :: (nodes x ++ nodes y ++ nodes o) ++ cnodes c := fun h => hj (hall.mem_iff.2 h)
    simp only [List.cons_append, List.mem_cons, List.mem_append, not_or] at hj'
    by_cases ht : top par c = some j
    · cases c with
      | nil =>
        have h3 := (I.pr j ht).2.2 p (hall.mem_iff.2 (by simp))
        rw [Gq j ht, if_neg h3.1, if_neg h3.2]
      | cons z c =>
        cases ht
        exact absurd (show z.i ∈ cnodes (z :: c) by simp [cnodes]) hj'.2.2.2
    · exact Go j hj'.1 hj'.2.1 (fun e => hj'.2.2.1.1.2 (root_mem e)) ht
  refine ⟨⟨r6, ?_, hall'.nodup_iff.2 nd, fun i hi => hlt i (hall'.mem_iff.1 hi), fun q e => ?_⟩, hfr⟩
  · rw [Rp_plug, root_mk, Rp_mk, Rp_mk, root_mk]
    refine ⟨?_, Gu, Rp_congr rx hx, Gp, Rp_par ndy ry fun j hj => ?_, Rp_congr ro ho⟩
    · cases c with
      | nil => trivial
      | cons z c =>
        obtain ⟨m1, m2, m3⟩ := k1
        have hzo : ∀ j ∈ nodes z.o, j ∈ cnodes (z :: c) := fun j hj => by simp [cnodes, hj]
        have hzc : ∀ j ∈ cnodes c, j ∈ cnodes (z :: c) := fun j hj => by simp [cnodes, hj]
        have hcn : ∀ j ∈ cnodes (z :: c), j ≠ z.i → G j = g j := by
          intro j hj hne
          refine Go j (by rintro rfl; exact np.2.2.2.2 hj) (by rintro rfl; exact nu.2.2.2 hj) (fun e => dy j (root_mem e) j (by simp [hj]) rfl) ?_
          intro e; cases e; exact hne rfl
        have hz := List.nodup_cons.1 ndc
        refine ⟨?_, Rp_congr m2 fun j hj => hcn j (hzo j hj) ?_, RpC_congr m3 fun j hj => hcn j (hzc j hj) ?_⟩
        · rw [Gq z.i rfl, m1]
          have hzp : root z.o ≠ some p := fun e => np.2.2.2.2 (hzo p (root_mem e))
          unfold mkN
          cases z.b
          · simp [hzp]
          · simp
        · rintro rfl; exact hz.1 (List.mem_append_left _ hj)
        · rintro rfl; exact hz.1 (List.mem_append_right _ hj)
    · by_cases e : root y = some j
      · rw [if_pos e]; exact Gy j e
      · rw [if_neg e]
        exact Go j (by rintro rfl; exact np.2.2.1 hj) (by rintro rfl; exact nu.2.1 hj) e (fun e => (hq j e).2.2.2.2.1 hj)
  · obtain ⟨a1, a2, a3⟩ := I.pr q e
    refine ⟨a1, fun h => a2 (hall.mem_iff.2 (hall'.mem_iff.1 h)), fun i hi => ?_⟩
    rw [hfr q a2]
    exact a3 i (hall.mem_iff.2 (hall'.mem_iff.1 hi))

theorem isRoot_true {t : BT M A} {u : Nat} (I : H n h g par t) (ht : root t = some u) : isRoot h u = some true := by
  cases t with
  | nil => cases ht
  | node l i d r =>
    cases ht
    have hu : u ∈ nodes (node l u d r) := by simp [nodes]
    unfold isRoot
    rw [I.rep.val u (I.lt u hu), Option.bind_some, I.rp.1]
    dsimp only
    cases par with
    | none => rfl
    | some q =>
      obtain ⟨h1, h2, h3⟩ := I.pr q rfl
      dsimp only
      rw [I.rep.val q h1, Option.map_some]
      simp [h3 u hu]

theorem isRoot_false {z : Fr M A} {c : List (Fr M A)} {t : BT M A} {u : Nat} (I : H n h g par (plug (z :: c) t)) (ht : root t = some u) : isRoot h u = some false := by
  obtain ⟨k1, k2⟩ := (Rp_plug g par (z :: c) _).1 I.rp
  have hall := nodes_plug (z :: c) t
  have hz : z.i < n := I.lt z.i (hall.mem_iff.2 (by simp [cnodes]))
  have hu : u < n := I.lt u (hall.mem_iff.2 (by simp [root_mem ht]))
  cases t with
  | nil => cases ht
  | node l i d r =>
    cases ht
    unfold isRoot
    rw [I.rep.val u hu, Option.bind_some, k2.1]
    dsimp only [top]
    rw [I.rep.val z.i hz, Option.map_some, k1.1]
    unfold mkN root
    cases z.b <;> simp

theorem side_ok {c : List (Fr M A)} {b : Bool} {t o : BT M A} {u p : Nat} {dp : Dat M A} (I : H n h g par (plug c (mk b t p dp o))) (ht : root t = some u) : side h p u = some (some b) := by
  obtain ⟨k1, k2⟩ := (Rp_plug g par c _).1 I.rp
  rw [Rp_mk] at k2
  have hall := (nodes_plug c (mk b t p dp o)).trans ((nodes_mk b t p dp o).append_right _)
  have nd := hall.nodup_iff.1 I.nd
  have hp : p < n := I.lt p (hall.mem_iff.2 (by simp))
  have ho : root o ≠ some u := by
    intro e
    have nd2 := (List.nodup_cons.1 nd).2
    have nd2 : (nodes t ++ (nodes o ++ cnodes c)).Nodup := by rw [← List.append_assoc]; exact nd2
    exact (List.nodup_append.1 nd2).2.2 u (root_mem ht) u (by simp [root_mem e]) rfl
  unfold side
  rw [I.rep.val p hp, Option.map_some, k2.1, ht]
  unfold mkN
  cases b
  · simp [ho]
  · simp

/-- A step from the tree `T` to the tree `T'` on the same nodes. -/
structure St (n : Nat) (par : Option Nat) (g : Nat → Node M A) (T : BT M A) (h' : Heap M A) (g' : Nat → Node M A) (T' : BT M A) : Prop where
  H : H n h' g' par T'
  perm : (nodes T').Perm (nodes T)
  fr : ∀ j, j ∉ nodes T → g' j = g j

theorem St.trans {T T' T'' : BT M A} {g g' g'' : Nat → Node M A} {h' h'' : Heap M A} (a : St n par g T h' g' T') (b : St n par g' T' h'' g'' T'') : St n par g T h'' g'' T'' :=
  ⟨b.H, b.perm.trans a.perm, fun j hj => by rw [b.fr j (fun h => hj (a.perm.mem_iff.1 h)), a.fr j hj]⟩

theorem perm_plug (c : List (Fr M A)) {t t' : BT M A} (h : (nodes t').Perm (nodes t)) : (nodes (plug c t')).Perm (nodes (plug c t)) :=
  (nodes_plug c t').trans ((h.append_right _).trans (nodes_plug c t).symm)

theorem aggregate_st {T : BT M A} {c : List (Fr M A)} {l r : BT M A} {u : Nat} {d : Dat M A} (I : H n h g par T) (e : T = plug c (node l u d r)) :
    ∃ h' g', aggregate lct u h = some h' ∧ St n par g T h' g' (plug c (agg lct (node l u d r))) := by
  subst e
  obtain ⟨h', g', e, I', f⟩ := aggregate_ok (lct := lct) I
  exact ⟨h', g', e, I', perm_plug c (by rw [nodes_agg]), f⟩

theorem aggregate_mk {T : BT M A} {c : List (Fr M A)} {b : Bool} {x o : BT M A} {u : Nat} {d : Dat M A} (I : H n h g par T) (e : T = plug c (mk b x u d o)) :
    ∃ h' g', aggregate lct u h = some h' ∧ St n par g T h' g' (plug c (agg lct (mk b x u d o))) := by
  obtain ⟨l, r, e'⟩ := mk_node b x u d o
  rw [e'] at e ⊢
  exact aggregate_st I e

theorem propagate_st {T : BT M A} {c : List (Fr M A)} {l r : BT M A} {u : Nat} {d : Dat M A} (I : H n h g par T) (e : T = plug c (node l u d r)) :
    ∃ h' g', propagate S lct u h = some h' ∧ St n par g T h' g' (plug c (prop S (node l u d r))) := by
  subst e
  obtain ⟨h', g', e, I', f⟩ := propagate_ok (S := S) (lct := lct) I
  exact ⟨h', g', e, I', perm_plug c (nodes_prop _), f⟩

theorem propagate_mk {T : BT M A} {c : List (Fr M A)} {b : Bool} {x o : BT M A} {u : Nat} {d : Dat M A} (I : H n h g par T) (e : T = plug c (mk b x u d o)) :
    ∃ h' g', propagate S lct u h = some h' ∧ St n par g T h' g' (plug c (mk (b != d.rev) (recv S d x) u (clr S d) (recv S d o))) := by
  obtain ⟨l, r, e'⟩ := mk_node b x u d o
  rw [← prop_mk]
  rw [e'] at e ⊢
  exact propagate_st I e

theorem rotate_st {T : BT M A} {c : List (Fr M A)} {b : Bool} {x y o : BT M A} {u p : Nat} {du dp : Dat M A} (I : H n h g par T) (e : T = plug c (mk b (mk b x u du y) p dp o)) :
    ∃ h' g', rotate b u h = some h' ∧ St n par g T h' g' (plug c (mk b x u du (mk b y p dp o))) := by
  subst e
  obtain ⟨h', g', e, I', f⟩ := rotate_ok I
  refine ⟨h', g', e, I', perm_plug c ?_, f⟩
  refine ((nodes_mk ..).trans (((nodes_mk ..).append_left _).cons u)).trans (List.Perm.trans ?_ ((nodes_mk ..).trans (((nodes_mk ..).append_right _).cons p)).symm)
  refine (List.perm_middle.cons u).trans ?_
  rw [List.cons_append, ← List.append_assoc]
  exact List.Perm.swap ..

/-- A node with its children on either side. -/
theorem node_mk (B : Bool) {l r : BT M A} (i : Nat) (d : Dat M A) (hl : Valid S lct l) (hr : Valid S lct r) : ∃ x y, node l i d r = mk B x i d y ∧ Valid S lct x ∧ Valid S lct y := by
  cases B
  · exact ⟨r, l, rfl, hr, hl⟩
  · exact ⟨l, r, rfl, hl, hr⟩

theorem mk_swap (B : Bool) (x y : BT M A) (i : Nat) (d : Dat M A) : mk (!B) x i d y = mk B y i d x := by unfold mk; cases B <;> rfl

theorem prop_node (L : Laws S) (B : Bool) {l r : BT M A} (i : Nat) (d : Dat M A) (hl : Valid S lct l) (hr : Valid S lct r) :
    ∃ x y, prop S (node l i d r) = mk B x i (clr S d) y ∧ Valid S lct x ∧ Valid S lct y := by
  obtain ⟨x, y, e, hx, hy⟩ := node_mk (B != d.rev) i d hl hr
  rw [e, prop_mk]
  refine ⟨_, _, ?_, valid_recv L d hx, valid_recv L d hy⟩
  cases B <;> cases d.rev <;> rfl

theorem clean_agg {l r : BT M A} {d : Dat M A} (h : Clean S d) : Clean S (aggD lct l d r) := by
  obtain ⟨a1, a2, _⟩ := aggD_same (lct := lct) l d r
  exact ⟨by rw [a1]; exact h.1, by rw [a2]; exact h.2⟩

/-- The result of a splay round: `u` on top of its subtree, aggregates right, nothing pending at `u`. -/
def Up (S : Acts M A) (lct : Bool) (u : Nat) (t t0 : BT M A) : Prop :=
  ∃ l d r, t = node l u d r ∧ Valid S lct t ∧ Clean S d ∧ seq S t = seq S t0

theorem up_mk (L : Laws S) (B : Bool) {x y : BT M A} {u : Nat} {d : Dat M A} {t0 : BT M A} (hx : Valid S lct x) (hy : Valid S lct y) (hd : Clean S d) (hs : seq S (mk B x u d y) = seq S t0) :
    Up S lct u (agg lct (mk B x u d y)) t0 := by
  have hv := valid_mk_agg (i := u) L hd B hx hy
  obtain ⟨l, r, e⟩ := mk_node B x u d y
  refine ⟨l, aggD lct l d r, r, ?_, hv, clean_agg hd, by rw [seq_agg, hs]⟩
  rw [e]; rfl

theorem zig_ok (L : Laws S) {b : Bool} {l r o : BT M A} {u p : Nat} {du dp : Dat M A} (I : H n h g par (mk b (node l u du r) p dp o))
    (hl : Valid S lct l) (hr : Valid S lct r) (ho : Valid S lct o) :
    ∃ h' g' t, zig S lct u p h = some h' ∧ St n par g (mk b (node l u du r) p dp o) h' g' t ∧ Up S lct u t (mk b (node l u du r) p dp o) ∧
      phi t + rk (node l u du r) ≤ phi (mk b (node l u du r) p dp o) + rk (mk b (node l u du r) p dp o) := by
  obtain ⟨h1, g1, e1, s1⟩ := propagate_mk (S := S) (lct := lct) (c := []) I rfl
  obtain ⟨h2, g2, e2, s2⟩ := propagate_st (S := S) (lct := lct) (c := [⟨b != dp.rev, p, clr S dp, recv S dp o⟩]) (l := l) (u := u) (d := recvD S dp du) (r := r) s1.H rfl
  obtain ⟨x, y, e3, vx, vy⟩ := prop_node (lct := lct) L (b != dp.rev) u (recvD S dp du) hl hr
  have hs : seq S (mk (b != dp.rev) (mk (b != dp.rev) x u (clr S (recvD S dp du)) y) p (clr S dp) (recv S dp o)) = seq S (mk b (node l u du r) p dp o) := by
    rw [← seq_prop L (mk b (node l u du r) p dp o), prop_mk]
    refine seq_mk_congr _ _ _ ?_
    rw [← e3, seq_prop L]
    rfl
  have hz3 : sz x + sz y = sz l + sz r := by
    have := sz_prop (S := S) (node l u (recvD S dp du) r)
    rw [e3, sz_mk, sz_node] at this; omega
  have hp3 : phi x + phi y = phi l + phi r := by
    have := phi_prop (S := S) (node l u (recvD S dp du) r)
    rw [e3, phi_mk, phi_node, hz3] at this; omega
  have hzo := sz_recv (S := S) dp o
  have hpo := phi_recv (S := S) dp o
  rw [e3] at s2
  have cDu : Clean S (clr S (recvD S dp du)) := clr_clean _
  have cDp : Clean S (clr S dp) := clr_clean _
  have hvo : Valid S lct (recv S dp o) := valid_recv L _ ho
  generalize (b != dp.rev) = B at *
  generalize clr S (recvD S dp du) = Du at *
  generalize clr S dp = Dp at *
  generalize recv S dp o = O at *
  have s2' : St n par g1 (mk B (recv S dp (node l u du r)) p Dp O) h2 g2 (plug [] (mk B (mk B x u Du y) p Dp O)) := s2
  have e4 := side_ok s2'.H (root_mk ..)
  obtain ⟨h3, g3, e5, s3⟩ := rotate_st s2'.H rfl
  have e6 : plug [] (mk B x u Du (mk B y p Dp O)) = plug [⟨!B, u, Du, x⟩] (mk B y p Dp O) := (mk_swap B _ _ _ _).symm
  obtain ⟨h4, g4, e7, s4⟩ := aggregate_mk (lct := lct) s3.H e6
  obtain ⟨h5, g5, e8, s5⟩ := aggregate_mk (lct := lct) (c := []) (b := !B) (x := agg lct (mk B y p Dp O)) (u := u) (d := Du) (o := x) s4.H rfl
  refine ⟨h5, g5, _, ?_, ((((s1.trans s2').trans s3).trans s4).trans s5), ?_, ?_⟩
  · unfold zig
    rw [e1, Option.bind_some, e2, Option.bind_some, e4, Option.bind_some, Option.bind_some, e5, Option.bind_some, e7, Option.bind_some, e8]
  · refine up_mk L (!B) (valid_mk_agg L cDp B vy hvo) vx cDu ?_
    rw [← hs, seq_mk_clean L cDu, seq_agg, seq_mk_clean L cDp, seq_mk_clean L cDp, seq_mk_clean L cDu]
    cases B <;> simp
  · simp only [plug, phi_agg, phi_mk, sz_agg, sz_mk, sz_node, phi_node, rk]
    have e1 : sz y + sz O + 1 + sz x + 1 = sz l + sz r + 1 + sz o + 1 := by omega
    have h1 := log_le (a := sz y + sz O + 1) (b := sz l + sz r + 1 + sz o + 1) (by omega)
    rw [e1]
    omega

theorem zigzig_ok (L : Laws S) {c : List (Fr M A)} {bp bq : Bool} {l r op oq : BT M A} {u p q : Nat} {du dp dq : Dat M A} (I : H n h g par (plug c (mk bq (mk bp (node l u du r) p dp op) q dq oq)))
    (hl : Valid S lct l) (hr : Valid S lct r) (hop : Valid S lct op) (hoq : Valid S lct oq) :
    ∃ h' g' t, zigzig S lct u p q h = some h' ∧ St n par g (plug c (mk bq (mk bp (node l u du r) p dp op) q dq oq)) h' g' (plug c t) ∧ Up S lct u t (mk bq (mk bp (node l u du r) p dp op) q dq oq) ∧
      sz t = sz (mk bq (mk bp (node l u du r) p dp op) q dq oq) ∧ phi t + 3 * rk (node l u du r) + 1 ≤ phi (mk bq (mk bp (node l u du r) p dp op) q dq oq) + 3 * rk (mk bq (mk bp (node l u du r) p dp op) q dq oq) := by
  -- the three propagations
  obtain ⟨h1, g1, e1, s1⟩ := propagate_mk (S := S) (lct := lct) I rfl
  rw [recv_mk] at s1
  have s1t : seq S (mk (bq != dq.rev) (mk bp (node l u du r) p (recvD S dq dp) op) q (clr S dq) (recv S dq oq)) = seq S (mk bq (mk bp (node l u du r) p dp op) q dq oq) := by
    rw [← recv_mk, ← prop_mk, seq_prop L]
  have cq : Clean S (clr S dq) := clr_clean _
  have voq : Valid S lct (recv S dq oq) := valid_recv L _ hoq
  have hzq := sz_recv (S := S) dq oq
  have hpq := phi_recv (S := S) dq oq
  generalize (bq != dq.rev) = Bq at *
  generalize clr S dq = Dq at *
  generalize recvD S dq dp = dp1 at *
  generalize recv S dq oq = Oq at *
  obtain ⟨h2, g2, e2, s2⟩ := propagate_mk (S := S) (lct := lct) (c := ⟨Bq, q, Dq, Oq⟩ :: c) (b := bp) (x := node l u du r) (u := p) (d := dp1) (o := op) s1.H rfl
  have s2t : seq S (mk Bq (mk (bp != dp1.rev) (node l u (recvD S dp1 du) r) p (clr S dp1) (recv S dp1 op)) q Dq Oq) = seq S (mk bq (mk bp (node l u du r) p dp op) q dq oq) := by
    rw [← s1t]
    refine seq_mk_congr _ _ _ ?_
    rw [← seq_prop L (mk bp (node l u du r) p dp1 op), prop_mk]
    rfl
  have cp : Clean S (clr S dp1) := clr_clean _
  have vop : Valid S lct (recv S dp1 op) := valid_recv L _ hop
  have hzp := sz_recv (S := S) dp1 op
  have hpp := phi_recv (S := S) dp1 op
  have s2' : St n par g1 (plug c (mk Bq (mk bp (node l u du r) p dp1 op) q Dq Oq)) h2 g2 (plug (⟨Bq, q, Dq, Oq⟩ :: c) (mk (bp != dp1.rev) (node l u (recvD S dp1 du) r) p (clr S dp1) (recv S dp1 op))) := s2
  clear s2
  generalize (bp != dp1.rev) = Bp at *
  generalize clr S dp1 = Dp at *
  generalize recvD S dp1 du = du1 at *
  generalize recv S dp1 op = Op at *
  obtain ⟨h3, g3, e3, s3⟩ := propagate_st (S := S) (lct := lct) (c := ⟨Bp, p, Dp, Op⟩ :: ⟨Bq, q, Dq, Oq⟩ :: c) (l := l) (u := u) (d := du1) (r := r) s2'.H rfl
  have cu : Clean S (clr S du1) := clr_clean _
  have s3t : ∀ t, t = prop S (node l u du1 r) → seq S (mk Bq (mk Bp t p Dp Op) q Dq Oq) = seq S (mk bq (mk bp (node l u du r) p dp op) q dq oq) := by
    intro t ht
    rw [← s2t]
    refine seq_mk_congr _ _ _ (seq_mk_congr _ _ _ ?_)
    rw [ht, seq_prop L]
  have e4 : side h3 q p = some (some Bq) := by
    refine side_ok (c := c) (t := mk Bp (prop S (node l u du1 r)) p Dp Op) (o := Oq) (dp := Dq) (par := par) (n := n) (g := g3) ?_ (root_mk ..)
    exact s3.H
  have e5 : side h3 p u = some (some Bp) := by
    refine side_ok (c := ⟨Bq, q, Dq, Oq⟩ :: c) (t := prop S (node l u du1 r)) (o := Op) (dp := Dp) (par := par) (n := n) (g := g3) ?_ (root_prop _)
    exact s3.H
  have hz : ∀ hx, turn lct u p q Bq Bp h3 = some hx → zigzig S lct u p q h = aggregate lct u hx := by
    intro hx ex
    unfold zigzig
    rw [e1, Option.bind_some, e2, Option.bind_some, e3, Option.bind_some, e4, Option.bind_some]
    dsimp only
    rw [e5, Option.bind_some, Option.bind_some, ex, Option.bind_some]
  by_cases hB : Bp = Bq
  · subst hB
    obtain ⟨x, y, e6, vx, vy⟩ := prop_node (lct := lct) L Bp u du1 hl hr
    have hs := s3t _ e6.symm
    have hz6 : sz x + sz y = sz l + sz r := by
      have := sz_prop (S := S) (node l u du1 r)
      rw [e6, sz_mk, sz_node] at this; omega
    have hp6 : phi x + phi y = phi l + phi r := by
      have := phi_prop (S := S) (node l u du1 r)
      rw [e6, phi_mk, phi_node, hz6] at this; omega
    rw [e6] at s3
    generalize clr S du1 = Du at *
    have s3' : St n par g2 (plug (⟨Bp, q, Dq, Oq⟩ :: c) (mk Bp (node l u du1 r) p Dp Op)) h3 g3 (plug c (mk Bp (mk Bp (mk Bp x u Du y) p Dp Op) q Dq Oq)) := s3
    obtain ⟨h4, g4, e7, s4⟩ := rotate_st (b := Bp) (u := p) s3'.H rfl
    obtain ⟨h5, g5, e8, s5⟩ := rotate_st (b := Bp) (u := u) s4.H rfl
    have e9 : plug c (mk Bp x u Du (mk Bp y p Dp (mk Bp Op q Dq Oq))) = plug (⟨!Bp, p, Dp, y⟩ :: ⟨!Bp, u, Du, x⟩ :: c) (mk Bp Op q Dq Oq) := by
      show _ = plug c (mk (!Bp) (mk (!Bp) (mk Bp Op q Dq Oq) p Dp y) u Du x)
      rw [mk_swap, mk_swap]
    obtain ⟨h6, g6, e10, s6⟩ := aggregate_mk (lct := lct) s5.H e9
    obtain ⟨h7, g7, e11, s7⟩ := aggregate_mk (lct := lct) (c := ⟨!Bp, u, Du, x⟩ :: c) (b := !Bp) (x := agg lct (mk Bp Op q Dq Oq)) (u := p) (d := Dp) (o := y) s6.H rfl
    obtain ⟨h8, g8, e12, s8⟩ := aggregate_mk (lct := lct) (c := c) (b := !Bp) (x := agg lct (mk (!Bp) (agg lct (mk Bp Op q Dq Oq)) p Dp y)) (u := u) (d := Du) (o := x) s7.H rfl
    refine ⟨h8, g8, _, ?_, (((((((s1.trans s2').trans s3').trans s4).trans s5).trans s6).trans s7).trans s8), ?_, ?_, ?_⟩
    · rw [hz h7, e12]
      unfold turn
      rw [if_pos rfl, e7, Option.bind_some, e8, Option.bind_some, e10, Option.bind_some, e11]
    · refine up_mk L (!Bp) (valid_mk_agg L cp (!Bp) (valid_mk_agg L cq Bp vop voq) vy) vx cu ?_
      rw [← hs, seq_mk_clean L cu, seq_agg, seq_mk_clean L cp, seq_agg, seq_mk_clean L cq, seq_mk_clean L cq, seq_mk_clean L cp, seq_mk_clean L cu]
      cases Bp <;> simp
    · simp only [sz_agg, sz_mk, sz_node]; omega
    · simp only [phi_agg, phi_mk, sz_agg, sz_mk, sz_node, phi_node, rk]
      have h := zigzig_phi (sz x) (sz y) (sz Op) (sz Oq)
      have e1 : sz Op + sz Oq + 1 + sz y + 1 + sz x + 1 = sz x + sz y + 1 + sz Op + 1 + sz Oq + 1 := by omega
      rw [← hz6, ← hzp, ← hzq, e1]
      omega
  · have hB' : Bp = !Bq := by
      revert hB; cases Bp <;> cases Bq <;> simp
    subst hB'
    obtain ⟨x, y, e6, vx, vy⟩ := prop_node (lct := lct) L (!Bq) u du1 hl hr
    have hs := s3t _ e6.symm
    have hz6 : sz x + sz y = sz l + sz r := by
      have := sz_prop (S := S) (node l u du1 r)
      rw [e6, sz_mk, sz_node] at this; omega
    have hp6 : phi x + phi y = phi l + phi r := by
      have := phi_prop (S := S) (node l u du1 r)
      rw [e6, phi_mk, phi_node, hz6] at this; omega
    rw [e6] at s3
    generalize clr S du1 = Du at *
    have s3' : St n par g2 (plug (⟨Bq, q, Dq, Oq⟩ :: c) (mk (!Bq) (node l u du1 r) p Dp Op)) h3 g3 (plug (⟨Bq, q, Dq, Oq⟩ :: c) (mk (!Bq) (mk (!Bq) x u Du y) p Dp Op)) := s3
    obtain ⟨h4, g4, e7, s4⟩ := rotate_st (b := !Bq) (u := u) s3'.H rfl
    have e8 : plug (⟨Bq, q, Dq, Oq⟩ :: c) (mk (!Bq) x u Du (mk (!Bq) y p Dp Op)) = plug c (mk Bq (mk Bq (mk (!Bq) y p Dp Op) u Du x) q Dq Oq) := by
      show plug c (mk Bq (mk (!Bq) x u Du (mk (!Bq) y p Dp Op)) q Dq Oq) = _
      rw [mk_swap Bq x]
    obtain ⟨h5, g5, e9, s5⟩ := rotate_st (b := Bq) (u := u) s4.H e8
    obtain ⟨h6, g6, e10, s6⟩ := aggregate_mk (lct := lct) (c := ⟨Bq, u, Du, mk Bq x q Dq Oq⟩ :: c) (b := !Bq) (x := y) (u := p) (d := Dp) (o := Op) s5.H rfl
    have e11 : plug (⟨Bq, u, Du, mk Bq x q Dq Oq⟩ :: c) (agg lct (mk (!Bq) y p Dp Op)) = plug (⟨!Bq, u, Du, agg lct (mk (!Bq) y p Dp Op)⟩ :: c) (mk Bq x q Dq Oq) := by
      show plug c (mk Bq (agg lct (mk (!Bq) y p Dp Op)) u Du (mk Bq x q Dq Oq)) = plug c (mk (!Bq) (mk Bq x q Dq Oq) u Du (agg lct (mk (!Bq) y p Dp Op)))
      rw [mk_swap Bq (mk Bq x q Dq Oq)]
    obtain ⟨h7, g7, e12, s7⟩ := aggregate_mk (lct := lct) s6.H e11
    obtain ⟨h8, g8, e13, s8⟩ := aggregate_mk (lct := lct) (c := c) (b := !Bq) (x := agg lct (mk Bq x q Dq Oq)) (u := u) (d := Du) (o := agg lct (mk (!Bq) y p Dp Op)) s7.H rfl
    refine ⟨h8, g8, _, ?_, (((((((s1.trans s2').trans s3').trans s4).trans s5).trans s6).trans s7).trans s8), ?_, ?_, ?_⟩
    · rw [hz h7, e13]
      unfold turn
      rw [if_neg hB, e7, Option.bind_some, e9, Option.bind_some, e10, Option.bind_some, e12]
    · refine up_mk L (!Bq) (valid_mk_agg L cq Bq vx voq) (valid_mk_agg L cp (!Bq) vy vop) cu ?_
      rw [← hs, seq_mk_clean L cu, seq_agg, seq_agg, seq_mk_clean L cp, seq_mk_clean L cq, seq_mk_clean L cq, seq_mk_clean L cp, seq_mk_clean L cu]
      cases Bq <;> simp
    · simp only [sz_agg, sz_mk, sz_node]; omega
    · simp only [phi_agg, phi_mk, sz_agg, sz_mk, sz_node, phi_node, rk]
      have h := zigzag_phi (sz x) (sz y) (sz Op) (sz Oq)
      have e1 : sz x + sz Oq + 1 + (sz y + sz Op + 1) + 1 = sz x + sz y + 1 + sz Op + 1 + sz Oq + 1 := by omega
      rw [← hz6, ← hzp, ← hzq, e1]
      omega

/-- The siblings on the path are right. -/
def ValidC (S : Acts M A) (lct : Bool) (c : List (Fr M A)) : Prop := ∀ x ∈ c, Valid S lct x.o

theorem round_one (L : Laws S) {z : Fr M A} {l r : BT M A} {u : Nat} {d : Dat M A} (I : H n h g par (plug [z] (node l u d r))) (hl : Valid S lct l) (hr : Valid S lct r) (hz : Valid S lct z.o) :
    ∃ h' g' t, round S lct u h = some h' ∧ St n par g (plug [z] (node l u d r)) h' g' t ∧ Up S lct u t (plug [z] (node l u d r)) ∧ phi t + rk (node l u d r) ≤ phi (plug [z] (node l u d r)) + rk (plug [z] (node l u d r)) := by
  obtain ⟨h', g', t, e, s, k⟩ := zig_ok (lct := lct) L (b := z.b) (l := l) (u := u) (du := d) (r := r) (p := z.i) (dp := z.d) (o := z.o) I hl hr hz
  refine ⟨h', g', t, ?_, s, k⟩
  have k2 := ((Rp_plug g par [z] _).1 I.rp).2
  have hu : u < n := I.lt u ((nodes_plug [z] (node l u d r)).mem_iff.2 (by simp [nodes]))
  unfold round
  rw [I.rep.val u hu, Option.bind_some, k2.1]
  dsimp only [top]
  rw [Option.bind_some, isRoot_true (t := plug [z] (node l u d r)) I (root_mk ..), Option.bind_some, if_pos rfl, e]

theorem round_two (L : Laws S) {z w : Fr M A} {c : List (Fr M A)} {l r : BT M A} {u : Nat} {d : Dat M A} (I : H n h g par (plug (z :: w :: c) (node l u d r))) (hl : Valid S lct l) (hr : Valid S lct r) (hz : Valid S lct z.o) (hw : Valid S lct w.o) :
    ∃ h' g' t, round S lct u h = some h' ∧ St n par g (plug (z :: w :: c) (node l u d r)) h' g' (plug c t) ∧ Up S lct u t (plug [z, w] (node l u d r)) ∧ sz t = sz (plug [z, w] (node l u d r)) ∧
      phi t + 3 * rk (node l u d r) + 1 ≤ phi (plug [z, w] (node l u d r)) + 3 * rk (plug [z, w] (node l u d r)) := by
  obtain ⟨h', g', t, e, s, k⟩ := zigzig_ok (lct := lct) L (c := c) (bq := w.b) (bp := z.b) (l := l) (u := u) (du := d) (r := r) (p := z.i) (dp := z.d) (op := z.o) (q := w.i) (dq := w.d) (oq := w.o) I hl hr hz hw
  refine ⟨h', g', t, ?_, s, k⟩
  obtain ⟨k1, k2⟩ := (Rp_plug g par (z :: w :: c) _).1 I.rp
  have hall := nodes_plug (z :: w :: c) (node l u d r)
  have hu : u < n := I.lt u (hall.mem_iff.2 (by simp [nodes]))
  have hzn : z.i < n := I.lt z.i (hall.mem_iff.2 (by simp [cnodes]))
  unfold round
  rw [I.rep.val u hu, Option.bind_some, k2.1]
  dsimp only [top]
  rw [Option.bind_some, isRoot_false (z := w) (c := c) (t := mk z.b (node l u d r) z.i z.d z.o) I (root_mk ..), Option.bind_some, if_neg (by simp), I.rep.val z.i hzn, Option.bind_some, k1.1, mkN_p]
  exact e

theorem loop_ok (L : Laws S) {u : Nat} : ∀ (k : Nat) {c : List (Fr M A)} {l r : BT M A} {d : Dat M A} {h : Heap M A} {g : Nat → Node M A}, c.length ≤ k → c ≠ [] → H n h g par (plug c (node l u d r)) →
    Valid S lct l → Valid S lct r → ValidC S lct c →
    ∃ h' g' t, (∀ fuel, k ≤ fuel → loop S lct u fuel h = some h') ∧ St n par g (plug c (node l u d r)) h' g' t ∧ Up S lct u t (plug c (node l u d r)) ∧
      c.length + 2 * phi t + 6 * rk (node l u d r) ≤ 2 * phi (plug c (node l u d r)) + 6 * rk (plug c (node l u d r)) + 1 := by
  intro k
  induction k with
  | zero =>
    intro c l r d h g hc hne
    exact absurd (List.length_eq_zero_iff.1 (by omega)) hne
  | succ k ih =>
    intro c l r d h g hc hne I hl hr hv
    cases c with
    | nil => exact absurd rfl hne
    | cons z c =>
      cases c with
      | nil =>
        obtain ⟨h1, g1, t, e, s, k1, p1⟩ := round_one L I hl hr (hv z (by simp))
        refine ⟨h1, g1, t, fun fuel hf => ?_, s, k1, ?_⟩
        · obtain ⟨f, rfl⟩ : ∃ f, fuel = f + 1 := ⟨fuel - 1, by omega⟩
          rw [loop, e, Option.bind_some, isRoot_true s.H (by obtain ⟨_, _, _, e, _⟩ := k1; rw [e]; rfl), Option.bind_some, if_pos rfl]
        · have h1 : rk (node l u d r) ≤ rk (plug [z] (node l u d r)) := log_le (by rw [plug, plug, sz_mk]; omega)
          simp only [List.length_cons, List.length_nil]
          omega
      | cons w c =>
        obtain ⟨h1, g1, t, e, s, k1, z1, p1⟩ := round_two L I hl hr (hv z (by simp)) (hv w (by simp))
        obtain ⟨l1, d1, r1, rfl, v1, c1, q1⟩ := k1
        have hseq : seq S (plug c (node l1 u d1 r1)) = seq S (plug (z :: w :: c) (node l u d r)) := seq_plug_congr c q1
        have hphi : phi (plug c (node l1 u d1 r1)) + phi (plug [z, w] (node l u d r)) = phi (plug (z :: w :: c) (node l u d r)) + phi (node l1 u d1 r1) := phi_plug_congr c z1
        have hrk : rk (plug c (node l1 u d1 r1)) = rk (plug (z :: w :: c) (node l u d r)) := congrArg (Nat.log 2) (sz_plug_congr c z1)
        have hrk1 : rk (node l1 u d1 r1) = rk (plug [z, w] (node l u d r)) := congrArg (Nat.log 2) z1
        cases c with
        | nil =>
          refine ⟨h1, g1, _, fun fuel hf => ?_, s, ⟨l1, d1, r1, rfl, v1, c1, hseq⟩, ?_⟩
          · obtain ⟨f, rfl⟩ : ∃ f, fuel = f + 1 := ⟨fuel - 1, by omega⟩
            rw [loop, e, Option.bind_some, isRoot_true s.H rfl, Option.bind_some, if_pos rfl]
          · simp only [List.length_cons, List.length_nil]
            simp only [plug] at hphi hrk hrk1 p1 ⊢
            omega
        | cons y c =>
          obtain ⟨h2, g2, t2, e2, s2, ⟨l2, d2, r2, et, v2, c2, q2⟩, p2⟩ := ih (by simp only [List.length_cons] at hc ⊢; omega) (by simp) s.H v1.1 v1.2.1 (fun x hx => hv x (by simp at hx ⊢; tauto))
          refine ⟨h2, g2, t2, fun fuel hf => ?_, s.trans s2, ⟨l2, d2, r2, et, v2, c2, q2.trans hseq⟩, ?_⟩
          · obtain ⟨f, rfl⟩ : ∃ f, fuel = f + 1 := ⟨fuel - 1, by omega⟩
            rw [loop, e, Option.bind_some, isRoot_false s.H rfl, Option.bind_some, if_neg (by simp)]
            exact e2 f (by omega)
          · simp only [List.length_cons] at p2 ⊢
            omega

/-- `splay(u)` keeps the sequence, brings `u` to the root, repairs the aggregates of `u` and its former ancestors, and leaves nothing pending at `u`.
The budget needed is the depth of `u`, which the drop of the potential pays for up to a logarithmic part. -/
theorem splay_pot (L : Laws S) {c : List (Fr M A)} {l r : BT M A} {u : Nat} {d : Dat M A} (I : H n h g par (plug c (node l u d r)))
    (hl : Valid S lct l) (hr : Valid S lct r) (hv : ValidC S lct c) :
    ∃ h' g' t, (∀ fuel, c.length ≤ fuel → splay S lct fuel u h = some h') ∧ St n par g (plug c (node l u d r)) h' g' t ∧ Up S lct u t (plug c (node l u d r)) ∧
      c.length + 2 * phi t + 6 * rk (node l u d r) ≤ 2 * phi (plug c (node l u d r)) + 6 * rk (plug c (node l u d r)) + 1 := by
  cases c with
  | nil =>
    obtain ⟨h1, g1, e1, s1⟩ := propagate_st (S := S) (lct := lct) (c := []) (l := l) (u := u) (d := d) (r := r) I rfl
    obtain ⟨x, y, e2, vx, vy⟩ := prop_node (lct := lct) L true u d hl hr
    have hs : seq S (mk true x u (clr S d) y) = seq S (node l u d r) := by rw [← e2, seq_prop L]
    have hp : phi (mk true x u (clr S d) y) = phi (node l u d r) := by rw [← e2, phi_prop]
    rw [e2] at s1
    obtain ⟨h2, g2, e3, s2⟩ := aggregate_mk (lct := lct) (c := []) s1.H rfl
    refine ⟨h2, g2, _, fun _ _ => by rw [splay, isRoot_true I rfl, Option.bind_some, if_pos rfl, e1, Option.bind_some, e3], s1.trans s2, up_mk L true vx vy (clr_clean d) hs, ?_⟩
    simp only [plug, List.length_nil]
    rw [phi_agg, hp]
    omega
  | cons z c =>
    obtain ⟨h', g', t, e, w⟩ := loop_ok L _ (le_refl _) (by simp) I hl hr hv
    refine ⟨h', g', t, fun fuel hf => ?_, w⟩
    rw [splay, isRoot_false I rfl, Option.bind_some, if_neg (by simp)]
    exact e fuel hf

/-- The same for one budget and without the potential. -/
theorem splay_ok (L : Laws S) {c : List (Fr M A)} {l r : BT M A} {u : Nat} {d : Dat M A} (I : H n h g par (plug c (node l u d r)))
    (hl : Valid S lct l) (hr : Valid S lct r) (hv : ValidC S lct c) {fuel : Nat} (hf : c.length ≤ fuel) :
    ∃ h' g' t, splay S lct fuel u h = some h' ∧ St n par g (plug c (node l u d r)) h' g' t ∧ Up S lct u t (plug c (node l u d r)) := by
  obtain ⟨h', g', t, e, s, k, _⟩ := splay_pot L I hl hr hv
  exact ⟨h', g', t, e fuel hf, s, k⟩

end Verif.Splay
