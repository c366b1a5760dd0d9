import Verif.SegHld.Init
import Mathlib.Algebra.FreeMonoid.Basic
/-!
C49: both classes against a list of values.
-/
namespace Verif.SegHld
open MulOpposite

variable {M A : Type} [Monoid M]

/-! ### Specification -/

/-- A call.  `update` exists in the lazy class only, `get` and `get_reversed` in the plain class only. -/
inductive Op (M A : Type) where
  | set (i : Nat) (x : M)
  | get (i : Nat)
  | getRev (i : Nat)
  | query (l r : Nat)
  | rquery (l r : Nat)
  | update (l r : Nat) (v : A)

/-- The calls of the plain class with existing indices. -/
def OkPlain (n : Nat) : Op M A → Prop
  | .set i _ => i < n
  | .get i => i < n
  | .getRev i => i < n
  | .query _ _ => True
  | .rquery _ _ => True
  | .update _ _ _ => False

/-- The calls of the lazy class with existing indices. -/
def OkLazy (n : Nat) : Op M A → Prop
  | .set i _ => i < n
  | .get _ => False
  | .getRev _ => False
  | .query _ _ => True
  | .rquery _ _ => True
  | .update _ _ _ => True

/-- What a call does to the list of values, and what it returns. -/
def specStep (act : A → M → M) (vs : List M) : Op M A → List M × Option M
  | .set i x => (vs.set i x, none)
  | .get i => (vs, vs[i]?)
  | .getRev i => (vs, vs[i]?)
  | .query l r => (vs, some ((vs.take r).drop l).prod)
  | .rquery l r => (vs, some ((vs.take r).drop l).reverse.prod)
  | .update l r v => (vs.mapIdx (fun j x => if l ≤ j ∧ j < r then act v x else x), none)

/-- The answers of a sequence of calls. -/
def specRun (act : A → M → M) : List M → List (Op M A) → List (Option M)
  | _, [] => []
  | vs, o :: os => (specStep act vs o).2 :: specRun act (specStep act vs o).1 os

/-- The values of a new object: `1` where no value is given. -/
def initial (n : Nat) (init : Option (List M)) : List M := (List.range n).map (fun j => (init.getD []).getD j 1)

/-! ### The program -/

/-- The constructor without or with values (lines 16-56, 58-70). -/
def construct (S : Acts M A) (ws : List Nat) : Option (List M) → Option (Obj M A)
  | none => build S ws
  | some xs => ofRange S ws xs

/-- A call of the plain class. -/
def stepPlain (o : Obj M A) : Op M A → Option (Obj M A × Option M)
  | .set i x => (set o i x).map (fun o' => (o', none))
  | .get i => (get o i).map (fun v => (o, some v))
  | .getRev i => (getRev o i).map (fun v => (o, some v))
  | .query l r => (query o false l r).map (fun v => (o, some v))
  | .rquery l r => (query o true l r).map (fun v => (o, some v))
  | .update _ _ _ => none

/-- A call of the lazy class. -/
def stepLazy (S : Acts M A) (o : Obj M A) : Op M A → Option (Obj M A × Option M)
  | .set i x => (lset S o i x).map (fun o' => (o', none))
  | .get _ => none
  | .getRev _ => none
  | .query l r => (lquery S o false l r).map (fun q => (q.1, some q.2))
  | .rquery l r => (lquery S o true l r).map (fun q => (q.1, some q.2))
  | .update l r v => (lupdate S o l r v).map (fun o' => (o', none))

/-- A sequence of calls. -/
def runWith (step : Obj M A → Op M A → Option (Obj M A × Option M)) : Obj M A → List (Op M A) → Option (List (Option M))
  | _, [] => some []
  | o, p :: ps => (step o p).bind (fun q => (runWith step q.1 ps).map (fun as => q.2 :: as))

/-- The plain class has no operators. -/
def noActs (M : Type) : Acts M Unit := ⟨(), fun _ _ => (), fun _ m => m, fun _ => false⟩

theorem noActs_laws : Laws (noActs M) := ⟨fun _ => rfl, fun _ _ _ => rfl, fun _ _ _ => rfl, fun _ _ _ => rfl⟩

/-! ### Proofs -/

/-- The object holds the list `vs`. -/
def Holds (S : Acts M A) (vs : List M) (o : Obj M A) : Prop :=
  ∃ N sh vv aa e, Good S vs.length N sh vv aa e o ∧ ∀ j, j < vs.length → vs[j]? = some (e 0 j)

theorem construct_holds {S : Acts M A} (L : Laws S) (ws : List Nat) (h0 : ws ≠ []) (hw : ∀ w ∈ ws, 0 < w) (init : Option (List M)) (hx : ∀ xs, init = some xs → xs.length ≤ ws.length) :
    ∃ o, construct S ws init = some o ∧ Holds S (initial ws.length init) o := by
  have hlen : (initial ws.length init).length = ws.length := by simp [initial]
  have hval : ∀ j, j < ws.length → (initial ws.length init)[j]? = some ((init.getD []).getD j 1) := by
    intro j hj
    simp [initial, hj]
  cases init with
  | none =>
    obtain ⟨o, N, sh, h1, h2⟩ := build_good L ws h0 hw
    refine ⟨o, h1, N, sh, _, _, _, by rw [hlen]; exact h2, fun j hj => ?_⟩
    rw [hval j (by omega)]; rfl
  | some xs =>
    obtain ⟨o, N, sh, vv, h1, h2⟩ := ofRange_good L ws h0 hw xs (hx xs rfl)
    refine ⟨o, h1, N, sh, _, _, _, by rw [hlen]; exact h2, fun j hj => ?_⟩
    rw [hval j (by omega)]; rfl

theorem proj_clip (rev : Bool) (vs : List M) {f : Nat → M} (hf : ∀ j, j < vs.length → vs[j]? = some (f j)) (l r : Nat) :
    proj rev (clip f l r 0 vs.length) = if rev then ((vs.take r).drop l).reverse.prod else ((vs.take r).drop l).prod := by
  unfold clip
  rw [show max l 0 = l by omega, prodV_list vs hf]
  cases rev <;> rfl

theorem set_spec {vs : List M} {e e' : Nat → M} (h : ∀ j, j < vs.length → vs[j]? = some (e j)) {i : Nat} (x : M) (he : ∀ j, e' j = if j = i then x else e j) :
    ∀ j, j < (vs.set i x).length → (vs.set i x)[j]? = some (e' j) := by
  intro j hj
  rw [List.length_set] at hj
  rw [he, List.getElem?_set]
  by_cases h1 : i = j
  · subst h1; rw [if_pos rfl, if_pos rfl, if_pos hj]
  · rw [if_neg h1, if_neg (Ne.symm h1), h j hj]

theorem leaf_val {S : Acts M A} {vs : List M} {o : Obj M A} {N : Nat} {sh : Nat → Shp} {vv : Nat → M × Mᵐᵒᵖ} {aa : Nat → A} {e : Nat → Nat → M} (L : Laws S) (G : Good S vs.length N sh vv aa e o) (ht : ∀ k, k < N → Triv S (aa k))
    (hv : ∀ j, j < vs.length → vs[j]? = some (e 0 j)) {i : Nat} (hi : i < vs.length) : ∃ k x, o.target[i]? = some k ∧ o.tree[k]? = some (nd sh vv aa k) ∧ vv k = emb x ∧ vs[i]? = some x := by
  obtain ⟨k, k1, k2, k3, k4⟩ := G.tg i hi
  obtain ⟨x, x1, x2⟩ := (G.locV k k2).1 k3
  refine ⟨k, x, k1, G.rep.val k k2, x1, ?_⟩
  have key : ∀ k, k < N → Has sh k i → e k i = e 0 i := by
    intro k
    induction k using Nat.strongRecOn with
    | ind k ih =>
      intro hk hki
      rcases Nat.eq_zero_or_pos k with h | h
      · rw [h]
      · obtain ⟨q, a, b, p1, p2, p3, p4⟩ := G.wf.parent hk h
        have := G.locE q (by omega) k (by rcases p4 with rfl | rfl; exact Or.inl p3.lc; exact Or.inr p3.rc) i hki
        rw [ht q (by omega)] at this
        rw [← this, ih q p1 (by omega) (hki.up G.wf p3 p4)]
  rw [hv i hi, ← key k k2 (by have := k3.1; unfold Has; omega), ← k4, x2, ht k k2]

/-- C49 for `SegmentHld`: on every sequence of positive weights, with every monoid and every sequence of calls with existing indices, the answers are those of a list of values. -/
theorem C49_plain (ws : List Nat) (h0 : ws ≠ []) (hw : ∀ w ∈ ws, 0 < w) (init : Option (List M)) (hx : ∀ xs, init = some xs → xs.length ≤ ws.length)
    (ops : List (Op M Unit)) (hops : ∀ p ∈ ops, OkPlain ws.length p) :
    (construct (noActs M) ws init).bind (fun o => runWith stepPlain o ops) = some (specRun (noActs M).act (initial ws.length init) ops) := by
  obtain ⟨o, h1, h2⟩ := construct_holds noActs_laws ws h0 hw init hx
  rw [h1, Option.bind_some]
  have hlen : (initial ws.length init).length = ws.length := by simp [initial]
  rw [← hlen] at hops
  generalize initial ws.length init = vs at *
  clear h1 hlen
  induction ops generalizing vs o with
  | nil => rfl
  | cons p ops ih =>
    obtain ⟨N, sh, vv, aa, e, G, hv⟩ := h2
    have ht : ∀ k, k < N → Triv (noActs M) (aa k) := fun _ _ _ => rfl
    have hq : ∀ rev l r, query o rev l r = some (if rev then ((vs.take r).drop l).reverse.prod else ((vs.take r).drop l).prod) := by
      intro rev l r
      unfold query
      rw [G.rep.len, queryRec_ok noActs_laws G.wf G.rep G.locE G.locV ht rev l r N 0 (Nat.le_refl _) G.wf.pos, G.wf.root.1, G.wf.root.2.1, proj_clip rev vs hv]
    have hp := hops p (List.mem_cons_self ..)
    have hrest : ∀ q ∈ ops, OkPlain vs.length q := fun q hq => hops q (List.mem_cons_of_mem _ hq)
    have hsame : Holds (noActs M) vs o := ⟨N, sh, vv, aa, e, G, hv⟩
    unfold runWith specRun
    cases p with
    | set i x =>
      obtain ⟨o', vv', s1, s2⟩ := set_ok noActs_laws G ht (j := i) hp x
      have hl : (vs.set i x).length = vs.length := List.length_set
      rw [show stepPlain o (.set i x) = some (o', none) by unfold stepPlain; dsimp only; rw [s1]; rfl, Option.bind_some]
      dsimp only
      rw [ih o' (vs.set i x) (by rw [hl]; exact hrest) ⟨N, sh, vv', aa, _, by rw [hl]; exact s2, set_spec hv x (fun j => rfl)⟩]
      rfl
    | get i =>
      obtain ⟨k, x, k1, k2, k3, k4⟩ := leaf_val noActs_laws G ht hv (i := i) hp
      have : get o i = some x := by
        unfold get
        rw [k1, Option.bind_some, k2]
        show some (vv k).1 = some x
        rw [k3]; rfl
      rw [show stepPlain o (.get i) = some (o, some x) by unfold stepPlain; dsimp only; rw [this]; rfl, Option.bind_some]
      dsimp only
      rw [ih o vs hrest hsame]
      show some (some x :: _) = some (vs[i]? :: _)
      rw [k4]; rfl
    | getRev i =>
      obtain ⟨k, x, k1, k2, k3, k4⟩ := leaf_val noActs_laws G ht hv (i := i) hp
      have : getRev o i = some x := by
        unfold getRev
        rw [k1, Option.bind_some, k2]
        show some (vv k).2.unop = some x
        rw [k3]; rfl
      rw [show stepPlain o (.getRev i) = some (o, some x) by unfold stepPlain; dsimp only; rw [this]; rfl, Option.bind_some]
      dsimp only
      rw [ih o vs hrest hsame]
      show some (some x :: _) = some (vs[i]? :: _)
      rw [k4]; rfl
    | query l r =>
      rw [show stepPlain o (.query l r) = some (o, some ((vs.take r).drop l).prod) by unfold stepPlain; dsimp only; rw [hq]; rfl, Option.bind_some]
      dsimp only
      rw [ih o vs hrest hsame]; rfl
    | rquery l r =>
      rw [show stepPlain o (.rquery l r) = some (o, some ((vs.take r).drop l).reverse.prod) by unfold stepPlain; dsimp only; rw [hq]; rfl, Option.bind_some]
      dsimp only
      rw [ih o vs hrest hsame]; rfl
    | update l r v => exact absurd hp (by simp [OkPlain])

/-- C49 for `LazySegmentHld`, for every operator type obeying the laws. -/
theorem C49_lazy {S : Acts M A} (L : Laws S) (ws : List Nat) (h0 : ws ≠ []) (hw : ∀ w ∈ ws, 0 < w) (init : Option (List M)) (hx : ∀ xs, init = some xs → xs.length ≤ ws.length)
    (ops : List (Op M A)) (hops : ∀ p ∈ ops, OkLazy ws.length p) :
    (construct S ws init).bind (fun o => runWith (stepLazy S) o ops) = some (specRun S.act (initial ws.length init) ops) := by
  obtain ⟨o, h1, h2⟩ := construct_holds L ws h0 hw init hx
  rw [h1, Option.bind_some]
  have hlen : (initial ws.length init).length = ws.length := by simp [initial]
  rw [← hlen] at hops
  generalize initial ws.length init = vs at *
  clear h1 hlen
  induction ops generalizing vs o with
  | nil => rfl
  | cons p ops ih =>
    obtain ⟨N, sh, vv, aa, e, G, hv⟩ := h2
    have hq : ∀ rev l r, ∃ o', lquery S o rev l r = some (o', if rev then ((vs.take r).drop l).reverse.prod else ((vs.take r).drop l).prod) ∧ Holds S vs o' := by
      intro rev l r
      obtain ⟨t', vv', aa', e', q1, q2, q3, q4, q5⟩ := lqueryRec_ok L G.wf rev l r N 0 vv aa e o.tree (Nat.le_refl _) G.wf.pos G.rep (fun k hk => ⟨G.locE k hk, G.locV k hk⟩)
      rw [G.wf.root.1, G.wf.root.2.1, proj_clip rev vs hv] at q1
      refine ⟨{ o with tree := t' }, ?_, N, sh, vv', aa', e', ⟨G.wf, G.len, q2, fun k hk => (q3 k hk).1, fun k hk => (q3 k hk).2, G.tg⟩, by rw [q4]; exact hv⟩
      unfold lquery
      rw [G.rep.len, q1]; rfl
    have hp := hops p (List.mem_cons_self ..)
    have hrest : ∀ q ∈ ops, OkLazy vs.length q := fun q hq => hops q (List.mem_cons_of_mem _ hq)
    unfold runWith specRun
    cases p with
    | set i x =>
      obtain ⟨o', vv', aa', e', s1, s2, s3⟩ := lset_ok L G (j := i) hp x
      have hl : (vs.set i x).length = vs.length := List.length_set
      rw [show stepLazy S o (.set i x) = some (o', none) by unfold stepLazy; dsimp only; rw [s1]; rfl, Option.bind_some]
      dsimp only
      rw [ih o' (vs.set i x) (by rw [hl]; exact hrest) ⟨N, sh, vv', aa', e', by rw [hl]; exact s2, set_spec hv x s3⟩]
      rfl
    | get i => exact absurd hp (by simp [OkLazy])
    | getRev i => exact absurd hp (by simp [OkLazy])
    | query l r =>
      obtain ⟨o', q1, q2⟩ := hq false l r
      rw [show stepLazy S o (.query l r) = some (o', some ((vs.take r).drop l).prod) by unfold stepLazy; dsimp only; rw [q1]; rfl, Option.bind_some]
      dsimp only
      rw [ih o' vs hrest q2]; rfl
    | rquery l r =>
      obtain ⟨o', q1, q2⟩ := hq true l r
      rw [show stepLazy S o (.rquery l r) = some (o', some ((vs.take r).drop l).reverse.prod) by unfold stepLazy; dsimp only; rw [q1]; rfl, Option.bind_some]
      dsimp only
      rw [ih o' vs hrest q2]; rfl
    | update l r v =>
      obtain ⟨t', vv', aa', e', q1, q2, q3, q4, q5, q6⟩ := updateRec_ok L G.wf l r v N 0 vv aa e o.tree (Nat.le_refl _) G.wf.pos G.rep (fun k hk _ => ⟨G.locE k hk, G.locV k hk⟩)
      have hna : ∀ k, ¬ Anc sh k 0 := by rintro k ⟨h, -⟩; omega
      have hu : lupdate S o l r v = some { o with tree := t' } := by
        unfold lupdate
        rw [G.rep.len, q1]; rfl
      rw [show stepLazy S o (.update l r v) = some ({ o with tree := t' }, none) by unfold stepLazy; dsimp only; rw [hu]; rfl, Option.bind_some]
      dsimp only
      have hl : (vs.mapIdx (fun j x => if l ≤ j ∧ j < r then S.act v x else x)).length = vs.length := List.length_mapIdx
      rw [ih _ (vs.mapIdx (fun j x => if l ≤ j ∧ j < r then S.act v x else x)) (by rw [hl]; exact hrest) ⟨N, sh, vv', aa', e', by
          rw [hl]; exact ⟨G.wf, G.len, q2, fun k hk => (q3 k hk (hna k)).1, fun k hk => (q3 k hk (hna k)).2, G.tg⟩, by
          intro j hj
          rw [hl] at hj
          rw [List.getElem?_mapIdx, hv j hj, q4 j ⟨by rw [G.wf.root.1]; omega, by rw [G.wf.root.2.1]; exact hj⟩]
          rfl⟩]
      rfl

/-! ### Concrete cases -/

/-- Strings, written as lists, under concatenation: not commutative. -/
abbrev Str := FreeMonoid Nat

instance : DecidableEq Str := inferInstanceAs (DecidableEq (List Nat))

/-- A string. -/
def str (l : List Nat) : Str := FreeMonoid.ofList l

example : (construct (noActs Str) [5, 1, 1, 2, 1] (some [str [0], str [1], str [2], str [3], str [4]])).bind (fun o => runWith stepPlain o
    [.query 1 4, .rquery 0 5, .set 2 (str [7, 8]), .query 0 3, .rquery 1 4, .get 2, .getRev 4]) =
    some [some (str [1, 2, 3]), some (str [4, 3, 2, 1, 0]), none, some (str [0, 1, 7, 8]), some (str [3, 7, 8, 1]), some (str [7, 8]), some (str [4])] := by decide +kernel

/-- Adding a constant to every letter. -/
def addActs : Acts Str Nat := ⟨0, fun f g => f + g, fun f m => (FreeMonoid.toList m).map (f + ·), fun f => f != 0⟩

theorem addActs_laws : Laws addActs := by
  refine ⟨fun m => ?_, fun f g m => ?_, fun f a b => ?_, fun f m h => ?_⟩
  · show (FreeMonoid.toList m).map (0 + ·) = FreeMonoid.toList m
    simp
  · show (FreeMonoid.toList m).map (f + g + ·) = ((FreeMonoid.toList m).map (g + ·)).map (f + ·)
    simp [Nat.add_assoc]
  · show (FreeMonoid.toList a ++ FreeMonoid.toList b).map (f + ·) = (FreeMonoid.toList a).map (f + ·) ++ (FreeMonoid.toList b).map (f + ·)
    exact List.map_append
  · have : f = 0 := by simpa [addActs] using h
    subst this
    show (FreeMonoid.toList m).map (0 + ·) = FreeMonoid.toList m
    simp

example : (construct addActs [5, 1, 1, 2, 1] (some [str [0], str [1], str [2], str [3]])).bind (fun o => runWith (stepLazy addActs) o
    [.update 0 5 10, .query 1 4, .set 2 (str [7, 8]), .update 2 4 100, .rquery 0 5, .query 0 3]) =
    some [none, some (str [11, 12, 13]), none, none, some (str [113, 107, 108, 11, 10]), some (str [10, 11, 107, 108])] := by decide +kernel

end Verif.SegHld
