import Verif.FibHeap.Props
/-!
The operations of `FibonacciHeap` with a counter of their steps, for C132.

One step is: a call of an operation, a call of `_Consolidate`, a round of the loop of `_ExpandChildren`, of the outer loop of `_ExtractTop` or of its inner loop which melds, or an increment of `k` there.
Apart from that, every step runs a bounded number of instructions.
-/
namespace Verif.FibHeap

variable {α : Type} (lt : α → α → Bool)

/-- `consolidate` (lines 259-278) with the number of calls. -/
def consolidateC : Nat → Hp α → Nat → Option (Hp α × Nat)
  | 0, _, _ => none
  | f+1, H, x => (getN H x).bind (fun n => n.par.bind (fun p => (getN H p).bind (fun pn =>
      (if pn.marked then pn.par.bind (fun _ => consolidateC f H p) else some (H, 0)).bind (fun r =>
        ((cutPrep r.1 p).bind (fun H => cutLink H x p)).map (fun H => (H, r.2 + 1))))))

/-- `updateOld` (lines 97-108). -/
def updateOldC (H : Hp α) (k : Nat) (n : Nd α) (v : α) : Option (Hp α × Nat) :=
  if lt n.val v = false then some (H, 1) else
    (setN H k { n with val := v }).bind (fun H => (needsCut lt H n v).bind (fun b =>
      (if b then consolidateC H.nd.length H k else some (H, 0)).bind (fun r =>
        r.1.root.bind (fun r' => (getN r.1 r').map (fun rn => (if lt rn.val v then { r.1 with root := some k } else r.1, r.2 + 1))))))

/-- `push`, `update` (lines 74-109). -/
def pushC (H : Hp α) (k : Nat) (v : α) : Option (Hp α × Nat) :=
  (H.nd[k]?).bind (fun o => match o with
    | some n => if n.en then updateOldC lt H k n v else (pushNew lt H k v).map (fun H => (H, 1))
    | none => (pushNew lt H k v).map (fun H => (H, 1)))

/-- `expand` (lines 221-231) with the number of rounds. -/
def expandC : Nat → Hp α → Nat → Option (Hp α × Nat)
  | 0, _, _ => none
  | f+1, H, x => (getN H x).bind (fun n =>
      match n.child with
      | [] => if n.deg = 0 then some (H, 0) else none
      | c :: cs => if n.deg = 0 then none else
          (setN H x { n with child := cs, deg := n.deg - 1 }).bind (fun H => (getN H c).bind (fun m =>
            (setN H c { m with par := none, marked := false }).bind (fun H => (tabPush H m.deg c).bind (fun H => (expandC f H x).map (fun r => (r.1, r.2 + 1)))))))

/-- `meldLoop` (lines 243-249) with the number of rounds. -/
def meldLoopC : Nat → Hp α → Nat → Option ((Nat × Hp α) × Nat)
  | 0, _, _ => none
  | f+1, H, x => (getN H x).bind (fun n => (H.tab[n.deg]?).bind (fun ring =>
      match ring with
      | [] => some ((x, H), 0)
      | u :: _ => (tabPop H n.deg u).bind (fun H => (meld lt H x u).bind (fun r =>
          (getN r.2 r.1).bind (fun m => if m.deg ≠ n.deg + 1 then none else (meldLoopC f r.2 r.1).map (fun s => (s.1, s.2 + 1)))))))

/-- `meldAt` (lines 240-250). -/
def meldAtC (H : Hp α) (k x : Nat) : Option (Hp α × Nat) :=
  (tabPop H k x).bind (fun H => (getN H x).bind (fun n => if n.deg ≠ k then none else
    (meldLoopC lt (H.tab.length + 1) H x).bind (fun r => (getN r.1.2 r.1.1).bind (fun m => (tabPush r.1.2 m.deg r.1.1).map (fun H => (H, r.2))))))

/-- `extract` (lines 233-257): every round is a step, in addition to the ones of the inner loop. -/
def extractC : Nat → Hp α → Nat → Option (Hp α × Nat)
  | 0, _, _ => none
  | f+1, H, k => if H.tab.length ≤ k then some (H, 0) else
      (H.tab[k]?).bind (fun ring =>
        match ring with
        | [] => (extractC f H (k+1)).map (fun r => (r.1, r.2 + 1))
        | [x] => (getN H x).bind (fun n => (beats lt H n.val).bind (fun b => (extractC f { H with root := if b then some x else H.root } (k+1)).map (fun r => (r.1, r.2 + 1))))
        | x :: _ :: _ => (meldAtC lt H k x).bind (fun s => (extractC f s.1 k).map (fun r => (r.1, r.2 + s.2 + 1))))

/-- `pop` (lines 112-121). -/
def popC (H : Hp α) : Option (Hp α × Nat) :=
  H.root.bind (fun r => (getN H r).bind (fun n => (tabPop { H with root := none } n.deg r).bind (fun H =>
    (expandC (n.deg + 1) H r).bind (fun s => (extractC lt (s.1.nd.length + s.1.tab.length + 1) s.1 0).bind (fun t => (free t.1 r).map (fun H => (H, s.2 + t.2 + 1)))))))

/-- `erase` (lines 124-138). -/
def eraseC (H : Hp α) (k : Nat) : Option (Hp α × Nat) :=
  (getN H k).bind (fun n => if n.en = false then none else
    (if n.par.isSome then consolidateC H.nd.length H k else some (H, 0)).bind (fun s => (getN s.1 k).bind (fun n => if n.par.isSome then none else
      (tabPop s.1 n.deg k).bind (fun H' => (expandC (n.deg + 1) H' k).bind (fun t =>
        (if H.root = some k then extractC lt (t.1.nd.length + t.1.tab.length + 1) t.1 0 else some (t.1, 0)).bind (fun u => (free u.1 k).map (fun H => (H, s.2 + t.2 + u.2 + 1))))))))

/-! ### The counter does not change the results -/

theorem map_bind' {A B C : Type} (o : Option A) (f : A → Option B) (g : B → C) : (o.bind f).map g = o.bind (fun a => (f a).map g) := by cases o <;> rfl
theorem bind_map' {A B C : Type} (o : Option A) (f : A → B) (g : B → Option C) : (o.map f).bind g = o.bind (fun a => g (f a)) := by cases o <;> rfl
theorem map_map' {A B C : Type} (o : Option A) (f : A → B) (g : B → C) : (o.map f).map g = o.map (fun a => g (f a)) := by cases o <;> rfl
theorem bind_congr' {A B : Type} {o : Option A} {f g : A → Option B} (h : ∀ a, f a = g a) : o.bind f = o.bind g := by cases o <;> simp [h]
theorem map_id' {A : Type} (o : Option A) : o.map (fun a => a) = o := by cases o <;> rfl

theorem consolidateC_fst : ∀ (f : Nat) (H : Hp α) (x : Nat), (consolidateC f H x).map (fun r => r.1) = consolidate f H x := by
  intro f
  induction f with
  | zero => intro H x; rfl
  | succ f ih =>
    intro H x
    rw [consolidateC, consolidate, map_bind']
    refine bind_congr' (fun n => ?_)
    rw [map_bind']
    refine bind_congr' (fun p => ?_)
    rw [map_bind']
    refine bind_congr' (fun pn => ?_)
    rw [map_bind']
    have : (if pn.marked = true then pn.par.bind (fun _ => consolidate f H p) else some H) = (if pn.marked = true then pn.par.bind (fun _ => consolidateC f H p) else some (H, 0)).map (fun r => r.1) := by
      split_ifs
      · rw [map_bind']
        exact bind_congr' (fun _ => (ih H p).symm)
      · rfl
    rw [this, bind_map']
    refine bind_congr' (fun r => ?_)
    rw [map_map', map_id']

theorem updateOldC_fst (H : Hp α) (k : Nat) (n : Nd α) (v : α) : (updateOldC lt H k n v).map (fun r => r.1) = updateOld lt H k n v := by
  unfold updateOldC updateOld
  split_ifs
  · rfl
  · rw [map_bind']
    refine bind_congr' (fun H => ?_)
    rw [map_bind']
    refine bind_congr' (fun b => ?_)
    rw [map_bind']
    have : (if b = true then consolidate H.nd.length H k else some H) = (if b = true then consolidateC H.nd.length H k else some (H, 0)).map (fun r => r.1) := by
      split_ifs
      · exact (consolidateC_fst _ _ _).symm
      · rfl
    rw [this, bind_map']
    refine bind_congr' (fun r => ?_)
    rw [map_bind']
    refine bind_congr' (fun r' => ?_)
    rw [map_map']

theorem pushC_fst (H : Hp α) (k : Nat) (v : α) : (pushC lt H k v).map (fun r => r.1) = push lt H k v := by
  unfold pushC push
  rw [map_bind']
  refine bind_congr' (fun o => ?_)
  cases o with
  | none => dsimp only; rw [map_map', map_id']
  | some n =>
    dsimp only
    split_ifs
    · exact updateOldC_fst lt H k n v
    · rw [map_map', map_id']

theorem expandC_fst : ∀ (f : Nat) (H : Hp α) (x : Nat), (expandC f H x).map (fun r => r.1) = expand f H x := by
  intro f
  induction f with
  | zero => intro H x; rfl
  | succ f ih =>
    intro H x
    rw [expandC, expand, map_bind']
    refine bind_congr' (fun n => ?_)
    cases n.child with
    | nil => dsimp only; split_ifs <;> rfl
    | cons c cs =>
      dsimp only
      split_ifs
      · rfl
      · rw [map_bind']
        refine bind_congr' (fun H => ?_)
        rw [map_bind']
        refine bind_congr' (fun m => ?_)
        rw [map_bind']
        refine bind_congr' (fun H => ?_)
        rw [map_bind']
        refine bind_congr' (fun H => ?_)
        rw [map_map']
        exact ih H x

theorem meldLoopC_fst : ∀ (f : Nat) (H : Hp α) (x : Nat), (meldLoopC lt f H x).map (fun r => r.1) = meldLoop lt f H x := by
  intro f
  induction f with
  | zero => intro H x; rfl
  | succ f ih =>
    intro H x
    rw [meldLoopC, meldLoop, map_bind']
    refine bind_congr' (fun n => ?_)
    rw [map_bind']
    refine bind_congr' (fun ring => ?_)
    cases ring with
    | nil => rfl
    | cons u us =>
      dsimp only
      rw [map_bind']
      refine bind_congr' (fun H => ?_)
      rw [map_bind']
      refine bind_congr' (fun r => ?_)
      rw [map_bind']
      refine bind_congr' (fun m => ?_)
      split_ifs
      · rfl
      · rw [map_map']
        exact ih r.2 r.1

theorem meldAtC_fst (H : Hp α) (k x : Nat) : (meldAtC lt H k x).map (fun r => r.1) = meldAt lt H k x := by
  unfold meldAtC meldAt
  rw [map_bind']
  refine bind_congr' (fun H => ?_)
  rw [map_bind']
  refine bind_congr' (fun n => ?_)
  split_ifs
  · rfl
  · rw [map_bind', ← meldLoopC_fst, bind_map']
    refine bind_congr' (fun r => ?_)
    rw [map_bind']
    refine bind_congr' (fun m => ?_)
    rw [map_map', map_id']

theorem extractC_fst : ∀ (f : Nat) (H : Hp α) (k : Nat), (extractC lt f H k).map (fun r => r.1) = extract lt f H k := by
  intro f
  induction f with
  | zero => intro H k; rfl
  | succ f ih =>
    intro H k
    rw [extractC, extract]
    split_ifs
    · rfl
    · rw [map_bind']
      refine bind_congr' (fun ring => ?_)
      match ring with
      | [] => dsimp only; rw [map_map']; exact ih _ _
      | [x] =>
        dsimp only
        rw [map_bind']
        refine bind_congr' (fun n => ?_)
        rw [map_bind']
        refine bind_congr' (fun b => ?_)
        rw [map_map']
        exact ih _ _
      | x :: y :: l =>
        dsimp only
        rw [map_bind', ← meldAtC_fst, bind_map']
        refine bind_congr' (fun s => ?_)
        rw [map_map']
        exact ih _ _

theorem popC_fst (H : Hp α) : (popC lt H).map (fun r => r.1) = pop lt H := by
  unfold popC pop
  rw [map_bind']
  refine bind_congr' (fun r => ?_)
  rw [map_bind']
  refine bind_congr' (fun n => ?_)
  rw [map_bind']
  refine bind_congr' (fun H => ?_)
  rw [map_bind', ← expandC_fst, bind_map']
  refine bind_congr' (fun s => ?_)
  rw [map_bind', ← extractC_fst, bind_map']
  refine bind_congr' (fun t => ?_)
  rw [map_map', map_id']

theorem eraseC_fst (H : Hp α) (k : Nat) : (eraseC lt H k).map (fun r => r.1) = erase lt H k := by
  unfold eraseC erase
  rw [map_bind']
  refine bind_congr' (fun n => ?_)
  by_cases h : n.en = false
  · rw [if_pos h, if_pos h]; rfl
  · rw [if_neg h, if_neg h, map_bind']
    have e1 : (if n.par.isSome = true then consolidate H.nd.length H k else some H) = (if n.par.isSome = true then consolidateC H.nd.length H k else some (H, 0)).map (fun r => r.1) := by
      by_cases hp : n.par.isSome = true
      · rw [if_pos hp, if_pos hp, consolidateC_fst]
      · rw [if_neg hp, if_neg hp]; rfl
    rw [e1, bind_map']
    refine bind_congr' (fun s => ?_)
    rw [map_bind']
    refine bind_congr' (fun n => ?_)
    by_cases hp : n.par.isSome = true
    · rw [if_pos hp, if_pos hp]; rfl
    · rw [if_neg hp, if_neg hp, map_bind']
      refine bind_congr' (fun H' => ?_)
      rw [map_bind', ← expandC_fst, bind_map']
      refine bind_congr' (fun t => ?_)
      have e2 : (if H.root = some k then extract lt (t.1.nd.length + t.1.tab.length + 1) t.1 0 else some t.1) =
          (if H.root = some k then extractC lt (t.1.nd.length + t.1.tab.length + 1) t.1 0 else some (t.1, 0)).map (fun r => r.1) := by
        by_cases hr : H.root = some k
        · rw [if_pos hr, if_pos hr, extractC_fst]
        · rw [if_neg hr, if_neg hr]; rfl
      rw [map_bind', e2, bind_map']
      refine bind_congr' (fun u => ?_)
      rw [map_map', map_id']

end Verif.FibHeap
