import Verif.Splay.Tree
/-!
The nodes of the heap form a tree.
-/
namespace Verif.Splay
open Verif Verif.LazySegTree BT

variable {M A : Type} [Monoid M] {S : Acts M A} {lct : Bool}

def Rp (g : Nat → Node M A) : Option Nat → BT M A → Prop
  | _, nil => True
  | par, node l i d r => g i = ⟨root l, root r, par, d⟩ ∧ Rp g (some i) l ∧ Rp g (some i) r

def top (par : Option Nat) : List (Fr M A) → Option Nat
  | [] => par
  | x :: _ => some x.i

def mkN (b : Bool) (x o par : Option Nat) (d : Dat M A) : Node M A := if b then ⟨x, o, par, d⟩ else ⟨o, x, par, d⟩

def RpC (g : Nat → Node M A) (par : Option Nat) : Option Nat → List (Fr M A) → Prop
  | _, [] => True
  | hole, x :: c => g x.i = mkN x.b hole (root x.o) (top par c) x.d ∧ Rp g (some x.i) x.o ∧ RpC g par (some x.i) c

theorem Rp_mk (g : Nat → Node M A) (par : Option Nat) (b : Bool) (x : BT M A) (i : Nat) (d : Dat M A) (o : BT M A) :
    Rp g par (mk b x i d o) ↔ g i = mkN b (root x) (root o) par d ∧ Rp g (some i) x ∧ Rp g (some i) o := by
  unfold mk mkN
  cases b
  · simp only [Bool.false_eq_true, if_false, Rp]; tauto
  · simp only [if_true, Rp]

theorem Rp_plug (g : Nat → Node M A) (par : Option Nat) : ∀ (c : List (Fr M A)) (t : BT M A), Rp g par (plug c t) ↔ RpC g par (root t) c ∧ Rp g (top par c) t := by
  intro c
  induction c with
  | nil => intro t; simp [plug, RpC, top]
  | cons x c ih =>
    intro t
    rw [plug, ih, root_mk, Rp_mk, RpC]
    simp only [top]
    tauto

theorem Rp_congr {g g' : Nat → Node M A} : ∀ {t : BT M A} {par : Option Nat}, Rp g par t → (∀ j ∈ nodes t, g' j = g j) → Rp g' par t := by
  intro t
  induction t with
  | nil => intro _ _ _; trivial
  | node l i d r ihl ihr =>
    rintro par ⟨h1, h2, h3⟩ hg
    refine ⟨by rw [hg i (by simp [nodes])]; exact h1, ihl h2 (fun j hj => hg j (by simp [nodes, hj])), ihr h3 (fun j hj => hg j (by simp [nodes, hj]))⟩

theorem RpC_congr {g g' : Nat → Node M A} {par : Option Nat} : ∀ {c : List (Fr M A)} {hole : Option Nat}, RpC g par hole c → (∀ j ∈ cnodes c, g' j = g j) → RpC g' par hole c := by
  intro c
  induction c with
  | nil => intro _ _ _; trivial
  | cons x c ih =>
    rintro hole ⟨h1, h2, h3⟩ hg
    refine ⟨by rw [hg x.i (by simp [cnodes])]; exact h1, Rp_congr h2 (fun j hj => hg j (by simp [cnodes, hj])), ih h3 (fun j hj => hg j (by simp [cnodes, hj]))⟩

theorem root_mem {t : BT M A} {j : Nat} (h : root t = some j) : j ∈ nodes t := by
  cases t with
  | nil => cases h
  | node l i d r => cases h; simp [nodes]

/-- A subtree whose root has been changed. -/
theorem Rp_change {g g' : Nat → Node M A} {par par' : Option Nat} (F : Dat M A → Dat M A) {t : BT M A} (nd : (nodes t).Nodup) (h : Rp g par t)
    (hg : ∀ j ∈ nodes t, g' j = if root t = some j then ⟨(g j).l, (g j).r, par', F (g j).d⟩ else g j) :
    Rp g' par' (match t with
      | nil => nil
      | node l i d r => node l i (F d) r) := by
  cases t with
  | nil => trivial
  | node l i d r =>
    obtain ⟨h1, h2, h3⟩ := h
    have hni : i ∉ nodes l ++ nodes r := (List.nodup_cons.1 nd).1
    refine ⟨?_, Rp_congr h2 fun j hj => ?_, Rp_congr h3 fun j hj => ?_⟩
    · rw [hg i (by simp [nodes]), if_pos (by rfl), h1]
    · rw [hg j (by simp [nodes, hj]), if_neg]
      intro e; cases e; exact hni (List.mem_append_left _ hj)
    · rw [hg j (by simp [nodes, hj]), if_neg]
      intro e; cases e; exact hni (List.mem_append_right _ hj)

theorem Rp_par {g g' : Nat → Node M A} {par par' : Option Nat} {t : BT M A} (nd : (nodes t).Nodup) (h : Rp g par t)
    (hg : ∀ j ∈ nodes t, g' j = if root t = some j then { g j with p := par' } else g j) : Rp g' par' t := by
  have := Rp_change (g' := g') (par' := par') id nd h (fun j hj => by rw [hg j hj]; rfl)
  cases t <;> exact this

theorem Rp_recv {g g' : Nat → Node M A} {par : Option Nat} {d : Dat M A} {t : BT M A} (nd : (nodes t).Nodup) (h : Rp g par t)
    (hg : ∀ j ∈ nodes t, g' j = if root t = some j then { g j with d := recvD S d (g j).d } else g j) : Rp g' par (recv S d t) := by
  have := Rp_change (g' := g') (par' := par) (recvD S d) nd h (fun j hj => by
    rw [hg j hj]
    split
    · next e =>
      cases t with
      | nil => cases e
      | node l i d r =>
        cases e
        rw [h.1]
    · rfl)
  cases t <;> exact this

/-- The heap `h` (with the view `g`) contains the tree `T`, hanging below `par` without being one of its children. -/
structure H (n : Nat) (h : Heap M A) (g : Nat → Node M A) (par : Option Nat) (T : BT M A) : Prop where
  rep : Rep h n g
  rp : Rp g par T
  nd : (nodes T).Nodup
  lt : ∀ i ∈ nodes T, i < n
  pr : ∀ q, par = some q → q < n ∧ q ∉ nodes T ∧ ∀ i ∈ nodes T, (g q).l ≠ some i ∧ (g q).r ≠ some i

variable {n : Nat} {h : Heap M A} {g : Nat → Node M A} {par : Option Nat}

/-- Change of a subtree keeping its nodes, described by its effect on the view. -/
theorem H.replace {c : List (Fr M A)} {t t' : BT M A} (I : H n h g par (plug c t)) {h' : Heap M A} {g' : Nat → Node M A} (hr : Rep h' n g')
    (hp : (nodes t').Perm (nodes t)) (hroot : root t' = root t) (ht : Rp g' (top par c) t') (hg : ∀ j, j ∉ nodes t → g' j = g j) :
    H n h' g' par (plug c t') ∧ ∀ j, j ∉ nodes (plug c t) → g' j = g j := by
  have hnp := nodes_plug c t
  have hnp' := nodes_plug c t'
  have hall : (nodes (plug c t')).Perm (nodes (plug c t)) := hnp'.trans ((hp.append_right _).trans hnp.symm)
  have hfr : ∀ j, j ∉ nodes (plug c t) → g' j = g j := by
    intro j hj
    exact hg j (fun h => hj (hnp.mem_iff.2 (List.mem_append_left _ h)))
  have nd := hnp.nodup_iff.1 I.nd
  refine ⟨⟨hr, (Rp_plug g' par c t').2 ⟨?_, ht⟩, hall.nodup_iff.2 I.nd, fun i hi => I.lt i (hall.mem_iff.1 hi), fun q hq => ?_⟩, hfr⟩
  · rw [hroot]
    refine RpC_congr ((Rp_plug g par c t).1 I.rp).1 fun j hj => hg j fun h => ?_
    exact (List.nodup_append.1 nd).2.2 j h j hj rfl
  · obtain ⟨h1, h2, h3⟩ := I.pr q hq
    refine ⟨h1, fun h => h2 (hall.mem_iff.1 h), fun i hi => ?_⟩
    rw [hfr q h2]
    exact h3 i (hall.mem_iff.1 hi)

theorem modN_ok (hr : Rep h n g) {i : Nat} (hi : i < n) (F : Node M A → Node M A) : ∃ h', modN h i F = some h' ∧ Rep h' n (upd g i (F (g i))) := by
  unfold modN
  rw [hr.val i hi, Option.bind_some]
  exact hr.wr hi _

def updO (g : Nat → Node M A) (c : Option Nat) (F : Node M A → Node M A) (j : Nat) : Node M A := if c = some j then F (g j) else g j

theorem modO_ok (hr : Rep h n g) {c : Option Nat} (hc : ∀ i, c = some i → i < n) (F : Node M A → Node M A) : ∃ h', modO h c F = some h' ∧ Rep h' n (updO g c F) := by
  unfold modO
  cases c with
  | none => exact ⟨h, rfl, hr.congr fun i _ => by unfold updO; rw [if_neg (by simp)]⟩
  | some i =>
    obtain ⟨h', e, k⟩ := modN_ok hr (hc i rfl) F
    refine ⟨h', e, k.congr fun j _ => ?_⟩
    unfold updO upd
    by_cases hj : j = i
    · subst hj; rw [if_pos rfl, if_pos rfl]
    · rw [if_neg hj, if_neg (by intro e; cases e; exact hj rfl)]

theorem updO_ne {g : Nat → Node M A} {c : Option Nat} {F : Node M A → Node M A} {j : Nat} (hj : c ≠ some j) : updO g c F j = g j := by unfold updO; rw [if_neg hj]

/-! ### aggregate -/

theorem kid_ok (hr : Rep h n g) {t : BT M A} {u : Nat} (ht : Rp g (some u) t) (hlt : ∀ j ∈ nodes t, j < n) : kid lct h u (root t) = some (root t) := by
  cases t with
  | nil => rfl
  | node l i d r =>
    unfold kid root
    dsimp only
    cases lct with
    | false => rfl
    | true =>
      rw [if_pos rfl, hr.val i (hlt i (by simp [nodes])), Option.map_some, ht.1]
      simp

theorem getO_ok (hr : Rep h n g) {t : BT M A} {u : Option Nat} (ht : Rp g u t) (hlt : ∀ j ∈ nodes t, j < n) : getO h (root t) = some ((root t).map g) := by
  cases t with
  | nil => rfl
  | node l i d r =>
    unfold getO root
    dsimp only
    rw [hr.val i (hlt i (by simp [nodes]))]
    rfl

theorem addL_ok {t : BT M A} {u : Option Nat} (ht : Rp g u t) (d : Dat M A) : addL lct d ((root t).map g) = addL' lct d t := by
  cases t with
  | nil => rfl
  | node l i e r => unfold addL addL' root; simp only [Option.map_some, ht.1]

theorem addR_ok {t : BT M A} {u : Option Nat} (ht : Rp g u t) (d : Dat M A) : addR lct d ((root t).map g) = addR' lct d t := by
  cases t with
  | nil => rfl
  | node l i e r => unfold addR addR' root; simp only [Option.map_some, ht.1]

theorem aggregate_ok {c : List (Fr M A)} {l r : BT M A} {u : Nat} {d : Dat M A} (I : H n h g par (plug c (node l u d r))) :
    ∃ h' g', aggregate lct u h = some h' ∧ H n h' g' par (plug c (agg lct (node l u d r))) ∧ ∀ j, j ∉ nodes (plug c (node l u d r)) → g' j = g j := by
  have hnp := nodes_plug c (node l u d r)
  have hlt : ∀ j ∈ nodes (node l u d r), j < n := fun j hj => I.lt j (hnp.mem_iff.2 (List.mem_append_left _ hj))
  obtain ⟨h1, h2, h3⟩ := ((Rp_plug g par c _).1 I.rp).2
  have hu : u < n := hlt u (by simp [nodes])
  have hl : ∀ j ∈ nodes l, j < n := fun j hj => hlt j (by simp [nodes, hj])
  have hr : ∀ j ∈ nodes r, j < n := fun j hj => hlt j (by simp [nodes, hj])
  unfold aggregate
  rw [I.rep.val u hu, Option.bind_some, h1]
  dsimp only
  rw [kid_ok I.rep h2 hl, Option.bind_some, kid_ok I.rep h3 hr, Option.bind_some, getO_ok I.rep h2 hl, Option.bind_some, getO_ok I.rep h3 hr, Option.bind_some]
  obtain ⟨h', e, k⟩ := modN_ok I.rep hu (fun x => { x with d := addR lct (addL lct { x.d with prod := x.d.m, rprod := x.d.m, sum := if lct then x.d.sum else 1 } ((root l).map g)) ((root r).map g) })
  refine ⟨h', _, e, I.replace k (by rw [nodes_agg]) (root_agg _) ?_ ?_⟩
  · have nd := (List.nodup_append.1 (hnp.nodup_iff.1 I.nd)).1
    have hnu : u ∉ nodes l ++ nodes r := (List.nodup_cons.1 nd).1
    refine ⟨?_, Rp_congr h2 fun j hj => upd_ne _ _ ?_, Rp_congr h3 fun j hj => upd_ne _ _ ?_⟩
    · rw [upd_same, h1]
      dsimp only
      rw [addL_ok h2, addR_ok h3]
      rfl
    · rintro rfl; exact hnu (List.mem_append_left _ hj)
    · rintro rfl; exact hnu (List.mem_append_right _ hj)
  · intro j hj
    exact upd_ne _ _ (fun e => hj (by rw [e]; simp [nodes]))

/-! ### propagate -/

theorem nodup_parts {l r : BT M A} {u : Nat} {d : Dat M A} (nd : (nodes (node l u d r)).Nodup) :
    (nodes l).Nodup ∧ (nodes r).Nodup ∧ u ∉ nodes l ∧ u ∉ nodes r ∧ ∀ j ∈ nodes l, j ∉ nodes r := by
  have h := List.nodup_cons.1 nd
  have h2 := List.nodup_append.1 h.2
  exact ⟨h2.1, h2.2.1, fun k => h.1 (List.mem_append_left _ k), fun k => h.1 (List.mem_append_right _ k), fun j hj hj' => h2.2.2 j hj j hj' rfl⟩

theorem pushRev_ok (hr : Rep h n g) {u : Nat} {cl cr : Option Nat} (rev : Bool) (hu : u < n) (hl : ∀ i, cl = some i → i < n) (hrr : ∀ i, cr = some i → i < n)
    (hul : cl ≠ some u) (hur : cr ≠ some u) (hlr : ∀ i, cl = some i → cr ≠ some i) :
    ∃ h' g', pushRev u rev cl cr h = some h' ∧ Rep h' n g' ∧
      g' u = (if rev then ⟨(g u).r, (g u).l, (g u).p, { (g u).d with rev := false }⟩ else g u) ∧
      (∀ j, j ≠ u → g' j = if rev = true ∧ (cl = some j ∨ cr = some j) then { g j with d := flipD (g j).d } else g j) := by
  unfold pushRev
  cases rev with
  | false => exact ⟨h, g, rfl, hr, rfl, fun j _ => by rw [if_neg (by simp)]⟩
  | true =>
    rw [if_pos rfl]
    obtain ⟨h1, e1, k1⟩ := modN_ok hr hu (fun x => { x with l := x.r, r := x.l })
    obtain ⟨h2, e2, k2⟩ := modO_ok k1 hrr (fun x => { x with d := flipD x.d })
    obtain ⟨h3, e3, k3⟩ := modO_ok k2 hl (fun x => { x with d := flipD x.d })
    obtain ⟨h4, e4, k4⟩ := modN_ok k3 hu (fun x => { x with d := { x.d with rev := false } })
    rw [e1, Option.bind_some, e2, Option.bind_some, e3, Option.bind_some]
    refine ⟨h4, _, e4, k4, ?_, fun j hj => ?_⟩
    · rw [upd_same, updO_ne hul, updO_ne hur, upd_same, if_pos rfl]
    · rw [upd_ne _ _ hj]
      by_cases h1 : cl = some j
      · have h2 := hlr j h1
        rw [if_pos ⟨rfl, Or.inl h1⟩]
        unfold updO
        rw [if_pos h1, if_neg h2, upd_ne _ _ hj]
      · rw [updO_ne h1]
        by_cases h2 : cr = some j
        · rw [if_pos ⟨rfl, Or.inr h2⟩]
          unfold updO
          rw [if_pos h2, upd_ne _ _ hj]
        · rw [updO_ne h2, if_neg (by tauto), upd_ne _ _ hj]

theorem propagate_ok {c : List (Fr M A)} {l r : BT M A} {u : Nat} {d : Dat M A} (I : H n h g par (plug c (node l u d r))) :
    ∃ h' g', propagate S lct u h = some h' ∧ H n h' g' par (plug c (prop S (node l u d r))) ∧ ∀ j, j ∉ nodes (plug c (node l u d r)) → g' j = g j := by
  have hnp := nodes_plug c (node l u d r)
  have hlt : ∀ j ∈ nodes (node l u d r), j < n := fun j hj => I.lt j (hnp.mem_iff.2 (List.mem_append_left _ hj))
  obtain ⟨h1, h2, h3⟩ := ((Rp_plug g par c _).1 I.rp).2
  have hu : u < n := hlt u (by simp [nodes])
  have hl : ∀ j ∈ nodes l, j < n := fun j hj => hlt j (by simp [nodes, hj])
  have hr : ∀ j ∈ nodes r, j < n := fun j hj => hlt j (by simp [nodes, hj])
  obtain ⟨ndl, ndr, nul, nur, nlr⟩ := nodup_parts (List.nodup_append.1 (hnp.nodup_iff.1 I.nd)).1
  have hul : root l ≠ some u := fun e => nul (root_mem e)
  have hur : root r ≠ some u := fun e => nur (root_mem e)
  unfold propagate
  rw [I.rep.val u hu, Option.bind_some, h1]
  dsimp only
  rw [kid_ok I.rep h2 hl, Option.bind_some, kid_ok I.rep h3 hr, Option.bind_some]
  obtain ⟨ha, ea, ka⟩ := modO_ok I.rep (c := root l) (fun i e => hl i (root_mem e)) (fun y => { y with d := actD S d.f y.d })
  obtain ⟨hb, eb, kb⟩ := modO_ok ka (c := root r) (fun i e => hr i (root_mem e)) (fun y => { y with d := actD S d.f y.d })
  obtain ⟨hc, gc, ec, kc, uc, oc⟩ := pushRev_ok kb (u := u) (cl := root l) (cr := root r) d.rev hu (fun i e => hl i (root_mem e)) (fun i e => hr i (root_mem e)) hul hur
    (fun i e1 e2 => nlr i (root_mem e1) (root_mem e2))
  obtain ⟨hd, ed, kd⟩ := modN_ok kc hu (fun x => { x with d := { x.d with f := S.ida } })
  rw [ea, Option.bind_some, eb, Option.bind_some, ec, Option.bind_some]
  have hgu : updO (updO g (root l) (fun y => { y with d := actD S d.f y.d })) (root r) (fun y => { y with d := actD S d.f y.d }) u = ⟨root l, root r, top par c, d⟩ := by
    rw [updO_ne hur, updO_ne hul, h1]
  have hout : ∀ j, j ≠ u → root l ≠ some j → root r ≠ some j → upd gc u { gc u with d := { (gc u).d with f := S.ida } } j = g j := by
    intro j h1 h2 h3
    rw [upd_ne _ _ h1, oc j h1, if_neg (by tauto), updO_ne h3, updO_ne h2]
  have hRl : Rp (upd gc u { gc u with d := { (gc u).d with f := S.ida } }) (some u) (recv S d l) := by
    refine Rp_recv ndl h2 fun j hj => ?_
    have hju : j ≠ u := by rintro rfl; exact nul hj
    have hjr : root r ≠ some j := fun e => nlr j hj (root_mem e)
    by_cases hjl : root l = some j
    · rw [if_pos hjl, upd_ne _ _ hju, oc j hju]
      have e1 : updO (updO g (root l) (fun y => { y with d := actD S d.f y.d })) (root r) (fun y => { y with d := actD S d.f y.d }) j = { g j with d := actD S d.f (g j).d } := by
        rw [updO_ne hjr]; unfold updO; rw [if_pos hjl]
      rw [e1]
      unfold recvD
      by_cases hd : d.rev = true
      · rw [if_pos ⟨hd, Or.inl hjl⟩, if_pos hd]
      · rw [if_neg (fun e => hd e.1), if_neg hd]
    · rw [if_neg hjl]; exact hout j hju hjl hjr
  have hRr : Rp (upd gc u { gc u with d := { (gc u).d with f := S.ida } }) (some u) (recv S d r) := by
    refine Rp_recv ndr h3 fun j hj => ?_
    have hju : j ≠ u := by rintro rfl; exact nur hj
    have hjl : root l ≠ some j := fun e => nlr j (root_mem e) hj
    by_cases hjr : root r = some j
    · rw [if_pos hjr, upd_ne _ _ hju, oc j hju]
      have e1 : updO (updO g (root l) (fun y => { y with d := actD S d.f y.d })) (root r) (fun y => { y with d := actD S d.f y.d }) j = { g j with d := actD S d.f (g j).d } := by
        unfold updO; rw [if_pos hjr, if_neg hjl]
      rw [e1]
      unfold recvD
      by_cases hd : d.rev = true
      · rw [if_pos ⟨hd, Or.inr hjr⟩, if_pos hd]
      · rw [if_neg (fun e => hd e.1), if_neg hd]
    · rw [if_neg hjr]; exact hout j hju hjl hjr
  refine ⟨hd, _, ed, I.replace kd (nodes_prop _) (root_prop _) ?_ fun j hj => ?_⟩
  · unfold prop
    rw [Rp_mk]
    refine ⟨?_, hRl, hRr⟩
    rw [upd_same, uc, hgu, root_recv, root_recv]
    unfold mkN clr
    cases hd : d.rev <;> simp [hd]
  · have hj' : j ∉ nodes l ∧ j ∉ nodes r ∧ j ≠ u := ⟨fun e => hj (by simp [nodes, e]), fun e => hj (by simp [nodes, e]), fun e => hj (by simp [nodes, e])⟩
    exact hout j hj'.2.2 (fun e => hj'.1 (root_mem e)) (fun e => hj'.2.1 (root_mem e))

end Verif.Splay
