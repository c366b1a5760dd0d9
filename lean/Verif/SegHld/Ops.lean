import Verif.SegHld.Local
/-!
Queries and updates of the two classes.
-/
namespace Verif.SegHld
open MulOpposite

variable {M A : Type} [Monoid M]

/-- The wanted component. -/
def proj (rev : Bool) (w : M × Mᵐᵒᵖ) : M := if rev then w.2.unop else w.1

theorem proj_mul (rev : Bool) (x y : M × Mᵐᵒᵖ) : proj rev (x * y) = if rev then proj rev y * proj rev x else proj rev x * proj rev y := by
  cases rev <;> simp [proj]

/-- The part of `[L, R)` inside `[l, r)`. -/
def clip (f : Nat → M) (l r L R : Nat) : M × Mᵐᵒᵖ := prodV f (max l L) (min r R)

theorem clip_split (f : Nat → M) (l r : Nat) {L m R : Nat} (h1 : L ≤ m) (h2 : m ≤ R) : clip f l r L m * clip f l r m R = clip f l r L R := by
  unfold clip
  by_cases hr : r ≤ m
  · rw [prodV_nil f (show min r R ≤ max l m by omega), mul_one, show min r m = min r R by omega]
  · by_cases hl : m ≤ l
    · rw [prodV_nil f (show min r m ≤ max l L by omega), one_mul, show max l m = max l L by omega]
    · rw [show min r m = m by omega, show max l m = m by omega]
      exact prodV_append f (by omega) (by omega)

theorem clip_congr {f g : Nat → M} {l r L R : Nat} (h : ∀ j, L ≤ j → j < R → f j = g j) : clip f l r L R = clip g l r L R :=
  prodV_congr (fun j h1 h2 => h j (by omega) (by omega))

/-! ### Plain class -/

theorem queryRec_ok {S : Acts M A} (L : Laws S) {n N : Nat} {sh : Nat → Shp} (w : WF n N sh) {vv : Nat → M × Mᵐᵒᵖ} {aa : Nat → A} {e : Nat → Nat → M} {t : List (Node M A)}
    (R : Rep t N (nd sh vv aa)) (hE : ∀ k, k < N → LocE S sh aa e k) (hV : ∀ k, k < N → LocV S N sh vv aa e k) (ht : ∀ k, k < N → Triv S (aa k)) (rev : Bool) (l r : Nat) :
    ∀ f u, N ≤ f + u → u < N → queryRec rev l r t f (some u) = some (proj rev (clip (e u) l r (sh u).l (sh u).r)) := by
  intro f
  induction f with
  | zero => intro u h1 h2; omega
  | succ f ih =>
    intro u hf hu
    unfold queryRec
    rw [R.val u hu, Option.bind_some]
    have hs : (nd sh vv aa u).s = sh u := rfl
    rw [hs]
    by_cases h1 : (sh u).r ≤ l ∨ r ≤ (sh u).l
    · rw [if_pos h1, clip, prodV_nil _ (by omega)]
      cases rev <;> rfl
    · rw [if_neg h1]
      by_cases h2 : l ≤ (sh u).l ∧ (sh u).r ≤ r
      · rw [if_pos h2, clip, show max l (sh u).l = (sh u).l by omega, show min r (sh u).r = (sh u).r by omega, ← full_triv L w hu (hE u hu) (hV u hu) (ht u hu)]
        rfl
      · rw [if_neg h2]
        rcases w.fin u hu with hl | ⟨a, b, hi⟩
        · exfalso; have := hl.1; omega
        · have g1 := hi.ia; have g2 := hi.ab; have g3 := hi.bN; have g4 := hi.al; have g5 := hi.am; have g6 := hi.br
          have ra := w.rng a (by omega)
          have rb := w.rng b (by omega)
          rw [hi.lc, hi.rc, ih a (by omega) (by omega), ih b (by omega) (by omega)]
          have e1 : clip (e a) l r (sh a).l (sh a).r = clip (e u) l r (sh u).l (sh b).l := by
            rw [← g4, ← g5]
            exact clip_congr (fun j q1 q2 => by rw [hE u hu a (Or.inl hi.lc) j ⟨q1, q2⟩, ht u hu])
          have e2 : clip (e b) l r (sh b).l (sh b).r = clip (e u) l r (sh b).l (sh u).r := by
            rw [← g6]
            exact clip_congr (fun j q1 q2 => by rw [hE u hu b (Or.inr hi.rc) j ⟨q1, q2⟩, ht u hu])
          rw [e1, e2, ← clip_split (e u) l r (show (sh u).l ≤ (sh b).l by omega) (show (sh b).l ≤ (sh u).r by omega), proj_mul]
          cases rev <;> rfl

/-- Nodes that wait for `take` while climbing from below `q`. -/
def Pend (sh : Nat → Shp) (j : Nat) (q : Option Nat) (k : Nat) : Prop := Has sh k j ∧ ∃ u, q = some u ∧ k ≤ u

theorem pend_parent {n N : Nat} {sh : Nat → Shp} (w : WF n N sh) {u j k : Nat} (hu : u < N) (huj : Has sh u j) (hk : ¬ Pend sh j (sh u).p k) : k < u → ¬ Has sh k j := by
  intro hlt hkj
  obtain ⟨q, a, b, g1, g2, g3, g4⟩ := w.parent hu (by omega)
  exact hk ⟨hkj, q, g2, w.gap j u hu (by omega) huj q g2 k hlt hkj⟩

/-- `take` restores the value of a node whose children are right. -/
theorem take_local {S : Acts M A} (L : Laws S) {n N : Nat} {sh : Nat → Shp} (w : WF n N sh) {vv : Nat → M × Mᵐᵒᵖ} {aa : Nat → A} {e : Nat → Nat → M} {u a b : Nat} (hi : Inner N sh u a b)
    (hEa : LocE S sh aa e a) (hEb : LocE S sh aa e b) (hVa : LocV S N sh vv aa e a) (hVb : LocV S N sh vv aa e b) (ta : Triv S (aa a)) (tb : Triv S (aa b)) :
    LocV S N sh (upd vv u (vv a * vv b)) aa e u := by
  have g1 := hi.ia; have g2 := hi.ab; have g3 := hi.bN
  refine ⟨fun hl => absurd hl hi.not_leaf, fun a' b' hi' => ?_⟩
  obtain ⟨q1, q2⟩ := hi.unique hi'
  subst q1; subst q2
  rw [upd_same, ← full_triv L w (by omega) hEa hVa ta, ← full_triv L w (by omega) hEb hVb tb]

theorem locV_upd {S : Acts M A} {N : Nat} {sh : Nat → Shp} {vv : Nat → M × Mᵐᵒᵖ} {aa : Nat → A} {e : Nat → Nat → M} {u k : Nat} {x : M × Mᵐᵒᵖ} (h : k ≠ u) (hV : LocV S N sh vv aa e k) :
    LocV S N sh (upd vv u x) aa e k := by
  unfold LocV
  rw [upd_ne _ _ h]
  exact hV

theorem climb_ok {S : Acts M A} (L : Laws S) {n N : Nat} {sh : Nat → Shp} (w : WF n N sh) {aa : Nat → A} {e : Nat → Nat → M} (hE : ∀ k, k < N → LocE S sh aa e k) (ht : ∀ k, k < N → Triv S (aa k)) (j : Nat) :
    ∀ f (q : Option Nat) (vv : Nat → M × Mᵐᵒᵖ) (t : List (Node M A)), (∀ u, q = some u → u < f ∧ u < N ∧ Has sh u j ∧ ¬ Leaf (sh u)) → Rep t N (nd sh vv aa) →
      (∀ k, k < N → ¬ Pend sh j q k → LocV S N sh vv aa e k) →
      ∃ t' vv', climb f q t = some t' ∧ Rep t' N (nd sh vv' aa) ∧ ∀ k, k < N → LocV S N sh vv' aa e k := by
  intro f
  induction f with
  | zero =>
    intro q vv t hq R hV
    cases q with
    | none => exact ⟨t, vv, rfl, R, fun k hk => hV k hk (by rintro ⟨-, u, hu, -⟩; cases hu)⟩
    | some u => have := (hq u rfl).1; omega
  | succ f ih =>
    intro q vv t hq R hV
    cases q with
    | none => exact ⟨t, vv, rfl, R, fun k hk => hV k hk (by rintro ⟨-, u, hu, -⟩; cases hu)⟩
    | some u =>
      obtain ⟨h1, hu, huj, hnl⟩ := hq u rfl
      rcases w.fin u hu with hl | ⟨a, b, hi⟩
      · exact absurd hl hnl
      · have g1 := hi.ia; have g2 := hi.ab; have g3 := hi.bN
        obtain ⟨t1, w1, r1⟩ := takeAt_ok R hi
        have hnp : ∀ k, u < k → ¬ Pend sh j (some u) k := by
          rintro k hk ⟨-, v, hv, hkv⟩; cases hv; omega
        have hloc := take_local L w hi (hE a (by omega)) (hE b (by omega)) (hV a (by omega) (hnp a (by omega))) (hV b (by omega) (hnp b (by omega))) (ht a (by omega)) (ht b (by omega))
        obtain ⟨t', vv', k1, k2, k3⟩ := ih (sh u).p (upd vv u (vv a * vv b)) t1 (by
            intro q hq'
            have h0 : 0 < u := by
              rcases Nat.eq_zero_or_pos u with h | h
              · subst h; rw [w.root.2.2] at hq'; cases hq'
              · exact h
            obtain ⟨q', a', b', p1, p2, p3, p4⟩ := w.parent hu h0
            rw [hq'] at p2; cases p2
            exact ⟨by omega, by omega, huj.up w p3 p4, p3.not_leaf⟩) r1 (by
            intro k hk hpk
            by_cases e : k = u
            · subst e; exact hloc
            · refine locV_upd e (hV k hk ?_)
              rintro ⟨hkj, v, hv, hkv⟩
              cases hv
              exact pend_parent w hu huj hpk (by omega) hkj)
        refine ⟨t', vv', ?_, k2, k3⟩
        unfold climb
        rw [w1, Option.bind_some, r1.val u hu, Option.bind_some]
        exact k1

/-! ### Objects -/

/-- The object holds the values `e 0`. -/
structure Good (S : Acts M A) (n N : Nat) (sh : Nat → Shp) (vv : Nat → M × Mᵐᵒᵖ) (aa : Nat → A) (e : Nat → Nat → M) (o : Obj M A) : Prop where
  wf : WF n N sh
  len : o.n = n
  rep : Rep o.tree N (nd sh vv aa)
  locE : ∀ k, k < N → LocE S sh aa e k
  locV : ∀ k, k < N → LocV S N sh vv aa e k
  tg : ∀ j, j < n → ∃ k, o.target[j]? = some k ∧ k < N ∧ Leaf (sh k) ∧ (sh k).l = j

/-- The values after replacing index `j`, seen from any node. -/
def setE (e : Nat → Nat → M) (j : Nat) (x : M) : Nat → Nat → M := fun k i => if i = j then x else e k i

theorem setE_locE {S : Acts M A} {n N : Nat} {sh : Nat → Shp} (w : WF n N sh) {aa : Nat → A} {e : Nat → Nat → M} {j : Nat} {x : M} (ht : ∀ k, k < N → Has sh k j → Triv S (aa k)) {k : Nat} (hk : k < N) (hE : LocE S sh aa e k) :
    LocE S sh aa (setE e j x) k := by
  intro c hc i hi
  unfold setE
  by_cases e1 : i = j
  · subst e1
    rw [if_pos rfl, if_pos rfl, ht k hk ((child_of w hk hc).2.2.2 _ hi)]
  · rw [if_neg e1, if_neg e1]; exact hE c hc i hi

theorem setE_locV {S : Acts M A} {n N : Nat} {sh : Nat → Shp} (w : WF n N sh) {vv : Nat → M × Mᵐᵒᵖ} {aa : Nat → A} {e : Nat → Nat → M} {j : Nat} {x : M} {k : Nat} (hk : k < N) (hj : ¬ Has sh k j) (hV : LocV S N sh vv aa e k) :
    LocV S N sh vv aa (setE e j x) k := by
  refine ⟨fun hl => ?_, fun a b hi => ?_⟩
  · obtain ⟨y, y1, y2⟩ := hV.1 hl
    refine ⟨y, y1, ?_⟩
    unfold setE
    rw [if_neg (by rintro rfl; have := hl.1; exact hj ⟨Nat.le_refl _, by omega⟩)]
    exact y2
  · rw [hV.2 a b hi]
    congr 1
    · apply prodV_congr
      intro i q1 q2
      unfold setE
      rw [if_neg (by rintro rfl; exact hj (Has.up w hi (Or.inl rfl) ⟨q1, q2⟩))]
    · apply prodV_congr
      intro i q1 q2
      unfold setE
      rw [if_neg (by rintro rfl; exact hj (Has.up w hi (Or.inr rfl) ⟨q1, q2⟩))]

/-- After the leaf of `j` is replaced, only nodes above it have wrong values. -/
theorem set_leaf {S : Acts M A} {n N : Nat} {sh : Nat → Shp} (w : WF n N sh) {vv : Nat → M × Mᵐᵒᵖ} {aa : Nat → A} {e : Nat → Nat → M} {j u : Nat} {x : M} (hu : u < N) (hl : Leaf (sh u)) (hj : (sh u).l = j) (ht : Triv S (aa u))
    (hV : ∀ k, k < N → LocV S N sh vv aa e k) : ∀ k, k < N → ¬ Pend sh j (sh u).p k → LocV S N sh (upd vv u (emb x)) aa (setE e j x) k := by
  have huj : Has sh u j := by have := hl.1; unfold Has; omega
  intro k hk hp
  by_cases e1 : k = u
  · subst e1
    refine ⟨fun _ => ⟨x, by rw [upd_same], by unfold setE; rw [if_pos hj, ht]⟩, fun a b hi => absurd hl hi.not_leaf⟩
  · have hkj : ¬ Has sh k j := by
      intro hkj
      rcases Nat.lt_or_gt_of_ne e1 with h | h
      · exact pend_parent w hu huj hp h hkj
      · exact w.leaf_last hl huj k hk hkj h
    exact locV_upd e1 (setE_locV w hk hkj (hV k hk))

theorem parent_ok {n N : Nat} {sh : Nat → Shp} (w : WF n N sh) {u j : Nat} (hu : u < N) (huj : Has sh u j) : ∀ q, (sh u).p = some q → q < u ∧ q < N ∧ Has sh q j ∧ ¬ Leaf (sh q) := by
  intro q hq
  have h0 : 0 < u := by
    rcases Nat.eq_zero_or_pos u with h | h
    · subst h; rw [w.root.2.2] at hq; cases hq
    · exact h
  obtain ⟨q', a', b', p1, p2, p3, p4⟩ := w.parent hu h0
  rw [hq] at p2; cases p2
  exact ⟨p1, by omega, huj.up w p3 p4, p3.not_leaf⟩

theorem set_ok {S : Acts M A} (L : Laws S) {n N : Nat} {sh : Nat → Shp} {vv : Nat → M × Mᵐᵒᵖ} {aa : Nat → A} {e : Nat → Nat → M} {o : Obj M A} (G : Good S n N sh vv aa e o) (ht : ∀ k, k < N → Triv S (aa k)) {j : Nat} (hj : j < n) (x : M) :
    ∃ o' vv', set o j x = some o' ∧ Good S n N sh vv' aa (setE e j x) o' := by
  obtain ⟨u, k1, k2, k3, k4⟩ := G.tg j hj
  obtain ⟨t1, w1, r1⟩ := setAt_ok G.rep k2 x
  have huj : Has sh u j := by have := k3.1; unfold Has; omega
  obtain ⟨t2, vv2, c1, c2, c3⟩ := climb_ok L G.wf (fun k hk => setE_locE G.wf (x := x) (j := j) (fun k hk _ => ht k hk) hk (G.locE k hk)) ht j N (sh u).p (upd vv u (emb x)) t1
    (fun q hq => by have := parent_ok G.wf k2 huj q hq; exact ⟨this.2.1, this.2⟩) r1 (set_leaf G.wf k2 k3 k4 (ht u k2) G.locV)
  refine ⟨{ o with tree := t2 }, vv2, ?_, ⟨G.wf, G.len, c2, fun k hk => setE_locE G.wf (fun k hk _ => ht k hk) hk (G.locE k hk), c3, G.tg⟩⟩
  unfold set
  rw [k1, Option.bind_some, w1, Option.bind_some, r1.val u k2, Option.bind_some, G.rep.len]
  have hp : (nd sh (upd vv u (emb x)) aa u).s.p = (sh u).p := rfl
  rw [hp, c1]; rfl

/-! ### Lazy class: update -/

/-- A strict ancestor (by index and overlap). -/
def Anc (sh : Nat → Shp) (k u : Nat) : Prop := k < u ∧ ∃ j, Has sh k j ∧ Has sh u j

/-- Inside the subtree of `u` (by index and range). -/
def Sub (sh : Nat → Shp) (u k : Nat) : Prop := u ≤ k ∧ (sh u).l ≤ (sh k).l ∧ (sh k).r ≤ (sh u).r

theorem anc_child {n N : Nat} {sh : Nat → Shp} (w : WF n N sh) {u a b c k : Nat} (hi : Inner N sh u a b) (hc : c = a ∨ c = b) (hk : Anc sh k c) : k = u ∨ Anc sh k u := by
  obtain ⟨h1, j, h2, h3⟩ := hk
  have g1 := hi.ia; have g2 := hi.ab; have g3 := hi.bN
  have hp : (sh c).p = some u := by rcases hc with rfl | rfl; exact hi.ap; exact hi.bp
  have := w.gap j c (by rcases hc with rfl | rfl <;> omega) (by rcases hc with rfl | rfl <;> omega) h3 u hp k h1 h2
  rcases Nat.lt_or_ge k u with h | h
  · exact Or.inr ⟨h, j, h2, h3.up w hi hc⟩
  · left; omega

/-- A node with a smaller index that meets `u` contains it. -/
theorem anc_contains {n N : Nat} {sh : Nat → Shp} (w : WF n N sh) : ∀ u, u < N → ∀ k, Anc sh k u → ∀ i, Has sh u i → Has sh k i := by
  intro u
  induction u using Nat.strongRecOn with
  | ind u ih =>
    intro hu k hk i hi
    obtain ⟨h1, j, h2, h3⟩ := hk
    obtain ⟨q, a, b, p1, p2, p3, p4⟩ := w.parent hu (by omega)
    rcases anc_child w p3 p4 ⟨h1, j, h2, h3⟩ with h | h
    · subst h; exact hi.up w p3 p4
    · exact ih q p1 (by omega) k h i (hi.up w p3 p4)

theorem anc_down {n N : Nat} {sh : Nat → Shp} (w : WF n N sh) {u a b c k : Nat} (hi : Inner N sh u a b) (hc : c = a ∨ c = b) (hk : Anc sh k u) : Anc sh k c := by
  have g1 := hi.ia; have g2 := hi.ab; have g3 := hi.bN
  have hcN : c < N := by rcases hc with rfl | rfl <;> omega
  have huc : u < c := by rcases hc with rfl | rfl <;> omega
  have hl : Has sh c (sh c).l := ⟨Nat.le_refl _, (w.rng c hcN).1⟩
  exact ⟨by have := hk.1; omega, (sh c).l, anc_contains w u (by omega) k hk _ (hl.up w hi hc), hl⟩

theorem sub_child {n N : Nat} {sh : Nat → Shp} (w : WF n N sh) {u a b c k : Nat} (hi : Inner N sh u a b) (hc : c = a ∨ c = b) (hk : Sub sh c k) : Sub sh u k ∧ k ≠ u := by
  have g1 := hi.ia; have g2 := hi.ab; have g3 := hi.bN; have g4 := hi.al; have g5 := hi.am; have g6 := hi.br
  have ra := w.rng a (by omega)
  have rb := w.rng b (by omega)
  unfold Sub at *
  rcases hc with rfl | rfl <;> omega

/-- A child is in the subtree. -/
theorem par_sub {n N : Nat} {sh : Nat → Shp} (w : WF n N sh) {u k : Nat} (hk : k < N) (h : (sh k).p = some u) : Sub sh u k ∧ u < k := by
  have h0 : 0 < k := by
    rcases Nat.eq_zero_or_pos k with h' | h'
    · subst h'; rw [w.root.2.2] at h; cases h
    · exact h'
  obtain ⟨q', a', b', p1, p2, p3, p4⟩ := w.parent hk h0
  rw [h] at p2; cases p2
  have := (sub_child w p3 p4 (⟨Nat.le_refl _, Nat.le_refl _, Nat.le_refl _⟩ : Sub sh k k))
  exact ⟨this.1, by omega⟩

/-- The effect of an update on a value. -/
def updE (S : Acts M A) (l r : Nat) (v : A) (f : Nat → M) (j : Nat) : M := if l ≤ j ∧ j < r then S.act v (f j) else f j

theorem updateRec_ok {S : Acts M A} (L : Laws S) {n N : Nat} {sh : Nat → Shp} (w : WF n N sh) (l r : Nat) (v : A) :
    ∀ f u (vv : Nat → M × Mᵐᵒᵖ) (aa : Nat → A) (e : Nat → Nat → M) (t : List (Node M A)), N ≤ f + u → u < N → Rep t N (nd sh vv aa) →
      (∀ k, k < N → ¬ Anc sh k u → LocE S sh aa e k ∧ LocV S N sh vv aa e k) →
      ∃ t' vv' aa' e', updateRec S l r v f (some u) t = some t' ∧ Rep t' N (nd sh vv' aa') ∧ (∀ k, k < N → ¬ Anc sh k u → LocE S sh aa' e' k ∧ LocV S N sh vv' aa' e' k) ∧
        (∀ j, Has sh u j → e' u j = updE S l r v (e u) j) ∧ Triv S (aa' u) ∧ (∀ k, k < N → ¬ Sub sh u k → e' k = e k ∧ vv' k = vv k ∧ aa' k = aa k) := by
  intro f
  induction f with
  | zero => intro u vv aa e t h1 h2; omega
  | succ f ih =>
    intro u vv aa e t hf hu R hloc
    have hself : ¬ Anc sh u u := by rintro ⟨h, -⟩; omega
    unfold updateRec
    rw [R.val u hu, Option.bind_some]
    have hs : (nd sh vv aa u).s = sh u := rfl
    rw [hs]
    have hup : (sh u).p ≠ some u := fun h => by have := (par_sub w hu h).2; omega
    by_cases h1 : (sh u).r ≤ l ∨ r ≤ (sh u).l
    · rw [if_pos h1]
      obtain ⟨t', vv', aa', e', p1, p2, p3, p4, p5, p6, p7, p8⟩ := propagate_ok L w (e := e) R hu
      refine ⟨t', vv', aa', e', p1, p2, fun k hk ha => ⟨p4 k hk (hloc k hk ha).1, p5 k hk (hloc k hk ha).2⟩, ?_, p3, ?_⟩
      · intro j hj
        rw [p6 u hu hup]
        unfold updE
        unfold Has at hj
        rw [if_neg (by omega)]
      · intro k hk hns
        have hku : k ≠ u := by rintro rfl; exact hns ⟨Nat.le_refl _, Nat.le_refl _, Nat.le_refl _⟩
        have hkp : (sh k).p ≠ some u := fun h => hns (par_sub w hk h).1
        exact ⟨p6 k hk hkp, p8 k hku, p7 k hk hku hkp⟩
    · rw [if_neg h1]
      by_cases h2 : l ≤ (sh u).l ∧ (sh u).r ≤ r
      · rw [if_pos h2]
        obtain ⟨t1, w1, r1⟩ := compAt_ok (S := S) R hu v
        rw [w1, Option.bind_some]
        -- the values seen from `u` after composing
        have hE1 : ∀ k, k < N → ¬ Anc sh k u → LocE S sh (upd aa u (S.comp v (aa u))) (upd e u (fun j => S.act v (e u j))) k ∧ LocV S N sh vv (upd aa u (S.comp v (aa u))) (upd e u (fun j => S.act v (e u j))) k := by
          intro k hk ha
          obtain ⟨q1, q2⟩ := hloc k hk ha
          have hch : ∀ c, (sh k).lc = some c ∨ (sh k).rc = some c → c ≠ u := by
            rintro c hc rfl
            obtain ⟨c1, c2, c3, c4⟩ := child_of w hk hc
            refine ha ⟨c3, (sh c).l, c4 _ ?_, ?_⟩
            · exact ⟨Nat.le_refl _, (w.rng c c1).1⟩
            · exact ⟨Nat.le_refl _, (w.rng c c1).1⟩
          by_cases hku : k = u
          · subst hku
            constructor
            · intro c hc j hj
              rw [upd_same, upd_same, upd_ne _ _ (hch c hc), L.act_comp, ← q1 c hc j hj]
            · refine ⟨fun hl => ?_, fun a b hi => ?_⟩
              · obtain ⟨x, x1, x2⟩ := q2.1 hl
                exact ⟨x, x1, by rw [upd_same, upd_same, L.act_comp, x2]⟩
              · rw [upd_ne _ _ (hch a (Or.inl hi.lc)), upd_ne _ _ (hch b (Or.inr hi.rc))]
                exact q2.2 a b hi
          · constructor
            · intro c hc j hj
              rw [upd_ne _ _ hku, upd_ne _ _ hku, upd_ne _ _ (hch c hc)]
              exact q1 c hc j hj
            · refine ⟨fun hl => ?_, fun a b hi => ?_⟩
              · rw [upd_ne _ _ hku, upd_ne _ _ hku]; exact q2.1 hl
              · rw [upd_ne _ _ (hch a (Or.inl hi.lc)), upd_ne _ _ (hch b (Or.inr hi.rc))]
                exact q2.2 a b hi
        obtain ⟨t', vv', aa', e', p1, p2, p3, p4, p5, p6, p7, p8⟩ := propagate_ok L w (e := upd e u (fun j => S.act v (e u j))) r1 hu
        refine ⟨t', vv', aa', e', p1, p2, fun k hk ha => ⟨p4 k hk (hE1 k hk ha).1, p5 k hk (hE1 k hk ha).2⟩, ?_, p3, ?_⟩
        · intro j hj
          rw [p6 u hu hup, upd_same]
          unfold updE
          unfold Has at hj
          rw [if_pos (by omega)]
        · intro k hk hns
          have hku : k ≠ u := by rintro rfl; exact hns ⟨Nat.le_refl _, Nat.le_refl _, Nat.le_refl _⟩
          have hkp : (sh k).p ≠ some u := fun h => hns (par_sub w hk h).1
          exact ⟨by rw [p6 k hk hkp, upd_ne _ _ hku], p8 k hku, by rw [p7 k hk hku hkp, upd_ne _ _ hku]⟩
      · rw [if_neg h2]
        obtain ⟨t0, vv0, aa0, e0, p1, p2, p3, p4, p5, p6, p7, p8⟩ := propagate_ok L w (e := e) R hu
        rw [p1, Option.bind_some]
        rcases w.fin u hu with hl | ⟨a, b, hi⟩
        · exfalso; have := hl.1; omega
        · have g1 := hi.ia; have g2 := hi.ab; have g3 := hi.bN; have g4 := hi.al; have g5 := hi.am; have g6 := hi.br
          have ra := w.rng a (by omega)
          have rb := w.rng b (by omega)
          rw [if_pos (by omega), hi.lc, hi.rc]
          have hloc0 : ∀ k, k < N → ¬ Anc sh k u → LocE S sh aa0 e0 k ∧ LocV S N sh vv0 aa0 e0 k :=
            fun k hk ha => ⟨p4 k hk (hloc k hk ha).1, p5 k hk (hloc k hk ha).2⟩
          have hu0 := hloc0 u hu hself
          have e0u : e0 u = e u := p6 u hu hup
          have hua : Anc sh u a := ⟨g1, (sh a).l, ⟨by omega, by omega⟩, ⟨Nat.le_refl _, ra.1⟩⟩
          have hub : Anc sh u b := ⟨by omega, (sh b).l, ⟨by omega, by omega⟩, ⟨Nat.le_refl _, rb.1⟩⟩
          obtain ⟨t1, vv1, aa1, e1, a1, a2, a3, a4, a5, a6⟩ := ih a vv0 aa0 e0 t0 (by omega) (by omega) p2
            (fun k hk ha => hloc0 k hk (fun h => ha (anc_down w hi (Or.inl rfl) h)))
          obtain ⟨t2, vv2, aa2, e2, b1, b2, b3, b4, b5, b6⟩ := ih b vv1 aa1 e1 t1 (by omega) (by omega) a2
            (fun k hk ha => a3 k hk (fun h => by
              rcases anc_child w hi (Or.inl rfl) h with h' | h'
              · subst h'; exact ha hub
              · exact ha (anc_down w hi (Or.inr rfl) h')))
          have hloc2 : ∀ k, k < N → k ≠ u → ¬ Anc sh k u → LocE S sh aa2 e2 k ∧ LocV S N sh vv2 aa2 e2 k := fun k hk h3 h4 => b3 k hk (fun h => by
            rcases anc_child w hi (Or.inr rfl) h with h' | h'
            · exact h3 h'
            · exact h4 h')
          have hnu : ∀ k, u < k → ¬ Anc sh k u := by rintro k hk ⟨h, -⟩; omega
          have sa : ¬ Sub sh b a := by unfold Sub; omega
          have sb : ¬ Sub sh a b := by unfold Sub; omega
          have sua : ¬ Sub sh a u := by unfold Sub; omega
          have sub : ¬ Sub sh b u := by unfold Sub; omega
          obtain ⟨u1, u2, u3⟩ := a6 u hu sua
          obtain ⟨u4, u5, u6⟩ := b6 u hu sub
          have ta : Triv S (aa2 a) := by rw [(b6 a (by omega) sa).2.2]; exact a5
          have tu : Triv S (aa2 u) := by rw [u6, u3]; exact p3
          obtain ⟨t3, w3, r3⟩ := takeAt_ok b2 hi
          rw [a1, Option.bind_some, b1, Option.bind_some]
          have hV3 := take_local L w hi (hloc2 a (by omega) (by omega) (hnu a g1)).1 (hloc2 b (by omega) (by omega) (hnu b (by omega))).1 (hloc2 a (by omega) (by omega) (hnu a g1)).2 (hloc2 b (by omega) (by omega) (hnu b (by omega))).2 ta b5
          have hch : ∀ k, k < N → ¬ Anc sh k u → ∀ c, (sh k).lc = some c ∨ (sh k).rc = some c → c ≠ u := by
            rintro k hk ha c hc rfl
            obtain ⟨c1, c2, c3, c4⟩ := child_of w hk hc
            refine ha ⟨c3, (sh c).l, c4 _ ?_, ?_⟩
            · exact ⟨Nat.le_refl _, (w.rng c c1).1⟩
            · exact ⟨Nat.le_refl _, (w.rng c c1).1⟩
          refine ⟨t3, upd vv2 u (vv2 a * vv2 b), aa2, upd e2 u (updE S l r v (e u)), w3, r3, ?_, ?_, tu, ?_⟩
          · intro k hk ha
            have hc := hch k hk ha
            by_cases hku : k = u
            · subst hku
              constructor
              · intro c hc' j hj
                rw [upd_same, upd_ne _ _ (hc c hc'), tu]
                have hcc : c = a ∨ c = b := by
                  rcases hc' with h | h
                  · rw [hi.lc] at h; left; exact (Option.some.inj h).symm
                  · rw [hi.rc] at h; right; exact (Option.some.inj h).symm
                have h0 := hu0.1 c hc' j hj
                rw [p3, e0u] at h0
                rcases hcc with rfl | rfl
                · rw [(b6 c (by omega) sa).1, a4 j hj]
                  unfold updE
                  rw [h0]
                · rw [b4 j hj, (a6 c (by omega) sb).1]
                  unfold updE
                  rw [h0]
              · refine ⟨fun hl => absurd hl hi.not_leaf, fun a' b' hi' => ?_⟩
                rw [upd_ne _ _ (hc a' (Or.inl hi'.lc)), upd_ne _ _ (hc b' (Or.inr hi'.rc))]
                exact hV3.2 a' b' hi'
            · obtain ⟨q1, q2⟩ := hloc2 k hk hku ha
              constructor
              · intro c hc' j hj
                rw [upd_ne _ _ hku, upd_ne _ _ (hc c hc')]
                exact q1 c hc' j hj
              · refine locV_upd hku ⟨fun hl => ?_, fun a' b' hi' => ?_⟩
                · rw [upd_ne _ _ hku]; exact q2.1 hl
                · rw [upd_ne _ _ (hc a' (Or.inl hi'.lc)), upd_ne _ _ (hc b' (Or.inr hi'.rc))]
                  exact q2.2 a' b' hi'
          · intro j hj
            rw [upd_same]
          · intro k hk hns
            have hku : k ≠ u := by rintro rfl; exact hns ⟨Nat.le_refl _, Nat.le_refl _, Nat.le_refl _⟩
            have hkp : (sh k).p ≠ some u := fun h => hns (par_sub w hk h).1
            obtain ⟨x1, x2, x3⟩ := a6 k hk (fun h => hns (sub_child w hi (Or.inl rfl) h).1)
            obtain ⟨y1, y2, y3⟩ := b6 k hk (fun h => hns (sub_child w hi (Or.inr rfl) h).1)
            exact ⟨by rw [upd_ne _ _ hku, y1, x1, p6 k hk hkp], by rw [upd_ne _ _ hku, y2, x2, p8 k hku], by rw [y3, x3, p7 k hk hku hkp]⟩

/-! ### Lazy class: query -/

theorem lqueryRec_ok {S : Acts M A} (L : Laws S) {n N : Nat} {sh : Nat → Shp} (w : WF n N sh) (rev : Bool) (l r : Nat) :
    ∀ f u (vv : Nat → M × Mᵐᵒᵖ) (aa : Nat → A) (e : Nat → Nat → M) (t : List (Node M A)), N ≤ f + u → u < N → Rep t N (nd sh vv aa) →
      (∀ k, k < N → LocE S sh aa e k ∧ LocV S N sh vv aa e k) →
      ∃ t' vv' aa' e', lqueryRec S rev l r f (some u) t = some (t', proj rev (clip (e u) l r (sh u).l (sh u).r)) ∧ Rep t' N (nd sh vv' aa') ∧ (∀ k, k < N → LocE S sh aa' e' k ∧ LocV S N sh vv' aa' e' k) ∧
        e' u = e u ∧ (∀ k, k < N → ¬ Sub sh u k → e' k = e k) := by
  intro f
  induction f with
  | zero => intro u vv aa e t h1 h2; omega
  | succ f ih =>
    intro u vv aa e t hf hu R hloc
    unfold lqueryRec
    rw [R.val u hu, Option.bind_some]
    have hs : (nd sh vv aa u).s = sh u := rfl
    rw [hs]
    have hup : (sh u).p ≠ some u := fun h => by have := (par_sub w hu h).2; omega
    by_cases h1 : (sh u).r ≤ l ∨ r ≤ (sh u).l
    · rw [if_pos h1]
      refine ⟨t, vv, aa, e, ?_, R, hloc, rfl, fun _ _ _ => rfl⟩
      rw [clip, prodV_nil _ (by omega)]
      cases rev <;> rfl
    · rw [if_neg h1]
      obtain ⟨t0, vv0, aa0, e0, p1, p2, p3, p4, p5, p6, p7, p8⟩ := propagate_ok L w (e := e) R hu
      rw [p1, Option.bind_some]
      have hloc0 : ∀ k, k < N → LocE S sh aa0 e0 k ∧ LocV S N sh vv0 aa0 e0 k := fun k hk => ⟨p4 k hk (hloc k hk).1, p5 k hk (hloc k hk).2⟩
      have e0u : e0 u = e u := p6 u hu hup
      rw [p2.val u hu, Option.bind_some]
      have hs0 : (nd sh vv0 aa0 u).s = sh u := rfl
      rw [hs0]
      by_cases h2 : l ≤ (sh u).l ∧ (sh u).r ≤ r
      · rw [if_pos h2]
        refine ⟨t0, vv0, aa0, e0, ?_, p2, hloc0, e0u, fun k hk hns => p6 k hk (fun h => hns (par_sub w hk h).1)⟩
        rw [clip, show max l (sh u).l = (sh u).l by omega, show min r (sh u).r = (sh u).r by omega, ← e0u, ← full_triv L w hu (hloc0 u hu).1 (hloc0 u hu).2 p3]
        rfl
      · rw [if_neg h2]
        rcases w.fin u hu with hl | ⟨a, b, hi⟩
        · exfalso; have := hl.1; omega
        · have g1 := hi.ia; have g2 := hi.ab; have g3 := hi.bN; have g4 := hi.al; have g5 := hi.am; have g6 := hi.br
          have ra := w.rng a (by omega)
          have rb := w.rng b (by omega)
          have sa : ¬ Sub sh b a := by unfold Sub; omega
          have sb : ¬ Sub sh a b := by unfold Sub; omega
          have sua : ¬ Sub sh a u := by unfold Sub; omega
          have sub : ¬ Sub sh b u := by unfold Sub; omega
          rw [hi.lc, hi.rc]
          have q1 : clip (e0 a) l r (sh a).l (sh a).r = clip (e u) l r (sh u).l (sh b).l := by
            rw [← g4, ← g5]
            exact clip_congr (fun j q1 q2 => by rw [← e0u, (hloc0 u hu).1 a (Or.inl hi.lc) j ⟨q1, q2⟩, p3])
          have q2 : clip (e0 b) l r (sh b).l (sh b).r = clip (e u) l r (sh b).l (sh u).r := by
            rw [← g6]
            exact clip_congr (fun j q1 q2 => by rw [← e0u, (hloc0 u hu).1 b (Or.inr hi.rc) j ⟨q1, q2⟩, p3])
          have hfr : ∀ k, k < N → ¬ Sub sh u k → e0 k = e k := fun k hk hns => p6 k hk (fun h => hns (par_sub w hk h).1)
          have hsp := clip_split (e u) l r (show (sh u).l ≤ (sh b).l by omega) (show (sh b).l ≤ (sh u).r by omega)
          cases rev with
          | true =>
            obtain ⟨t1, vv1, aa1, e1, a1, a2, a3, a4, a5⟩ := ih b vv0 aa0 e0 t0 (by omega) (by omega) p2 hloc0
            obtain ⟨t2, vv2, aa2, e2, b1, b2, b3, b4, b5⟩ := ih a vv1 aa1 e1 t1 (by omega) (by omega) a2 a3
            refine ⟨t2, vv2, aa2, e2, ?_, b2, b3, by rw [b5 u hu sua, a5 u hu sub, e0u], fun k hk hns => ?_⟩
            · rw [if_pos rfl, a1, Option.bind_some]
              dsimp only
              rw [b1, a5 a (by omega) sa, q1, q2, ← hsp, proj_mul]
              rfl
            · rw [b5 k hk (fun h => hns (sub_child w hi (Or.inl rfl) h).1), a5 k hk (fun h => hns (sub_child w hi (Or.inr rfl) h).1), hfr k hk hns]
          | false =>
            obtain ⟨t1, vv1, aa1, e1, a1, a2, a3, a4, a5⟩ := ih a vv0 aa0 e0 t0 (by omega) (by omega) p2 hloc0
            obtain ⟨t2, vv2, aa2, e2, b1, b2, b3, b4, b5⟩ := ih b vv1 aa1 e1 t1 (by omega) (by omega) a2 a3
            refine ⟨t2, vv2, aa2, e2, ?_, b2, b3, by rw [b5 u hu sub, a5 u hu sua, e0u], fun k hk hns => ?_⟩
            · rw [if_neg (by decide), a1, Option.bind_some]
              dsimp only
              rw [b1, a5 b (by omega) sb, q1, q2, ← hsp, proj_mul]
              rfl
            · rw [b5 k hk (fun h => hns (sub_child w hi (Or.inr rfl) h).1), a5 k hk (fun h => hns (sub_child w hi (Or.inl rfl) h).1), hfr k hk hns]

/-! ### Lazy class: `set` -/

/-- The list of `set` from `u` to the root. -/
inductive Chain (sh : Nat → Shp) : Nat → List Nat → Prop
  | root {u : Nat} : (sh u).p = none → Chain sh u [u]
  | up {u q : Nat} {l : List Nat} : (sh u).p = some q → Chain sh q l → Chain sh u (u :: l)

theorem idsFrom_ok {n N : Nat} {sh : Nat → Shp} (w : WF n N sh) {vv : Nat → M × Mᵐᵒᵖ} {aa : Nat → A} {t : List (Node M A)} (R : Rep t N (nd sh vv aa)) :
    ∀ f u, u < f → u < N → ∃ l, idsFrom t f u = some l ∧ Chain sh u l := by
  intro f
  induction f with
  | zero => intro u h; omega
  | succ f ih =>
    intro u hf hu
    unfold idsFrom
    rw [R.val u hu, Option.bind_some]
    have hs : (nd sh vv aa u).s = sh u := rfl
    rw [hs]
    cases hp : (sh u).p with
    | none => exact ⟨[u], rfl, Chain.root hp⟩
    | some q =>
      have h := (par_sub w hu hp).2
      obtain ⟨l, h1, h2⟩ := ih q (by omega) (by omega)
      exact ⟨u :: l, by dsimp only; rw [h1]; rfl, Chain.up hp h2⟩

theorem propAll_append (S : Acts M A) (l1 l2 : List Nat) : ∀ t : List (Node M A), propAll S (l1 ++ l2) t = (propAll S l1 t).bind (propAll S l2) := by
  induction l1 with
  | nil => intro t; rfl
  | cons a l1 ih =>
    intro t
    show (propagate S a t).bind (propAll S (l1 ++ l2)) = ((propagate S a t).bind (propAll S l1)).bind (propAll S l2)
    cases propagate S a t with
    | none => rfl
    | some t' => exact ih t'

theorem propAll_ok {S : Acts M A} (L : Laws S) {n N : Nat} {sh : Nat → Shp} (w : WF n N sh) (j : Nat) {u : Nat} {l : List Nat} (hc : Chain sh u l) :
    ∀ (vv : Nat → M × Mᵐᵒᵖ) (aa : Nat → A) (e : Nat → Nat → M) (t : List (Node M A)), u < N → Has sh u j → Rep t N (nd sh vv aa) →
      (∀ k, k < N → LocE S sh aa e k ∧ LocV S N sh vv aa e k) →
      ∃ t' vv' aa' e', propAll S l.reverse t = some t' ∧ Rep t' N (nd sh vv' aa') ∧ (∀ k, k < N → LocE S sh aa' e' k ∧ LocV S N sh vv' aa' e' k) ∧ e' 0 = e 0 ∧
        ∀ k, k ≤ u → Has sh k j → Triv S (aa' k) := by
  have h0 : (sh 0).p ≠ some u := by rw [w.root.2.2]; exact fun h => by cases h
  have h0' : ∀ u, (sh 0).p ≠ some u := by intro u; rw [w.root.2.2]; exact fun h => by cases h
  induction hc with
  | @root u hp =>
    intro vv aa e t hu huj R hloc
    obtain ⟨t0, vv0, aa0, e0, p1, p2, p3, p4, p5, p6, p7, p8⟩ := propagate_ok L w (e := e) R hu
    refine ⟨t0, vv0, aa0, e0, ?_, p2, fun k hk => ⟨p4 k hk (hloc k hk).1, p5 k hk (hloc k hk).2⟩, p6 0 w.pos (h0' u), fun k hk hkj => ?_⟩
    · show (propagate S u t).bind (propAll S []) = some t0
      rw [p1]; rfl
    · rcases Nat.eq_zero_or_pos u with h | h
      · have : k = u := by omega
        subst this; exact p3
      · obtain ⟨q, a, b, k1, k2, -⟩ := w.parent hu h
        rw [hp] at k2; cases k2
  | @up u q l hp hc ih =>
    intro vv aa e t hu huj R hloc
    obtain ⟨k1, k2, k3, k4⟩ := parent_ok w hu huj q hp
    obtain ⟨t1, vv1, aa1, e1, q1, q2, q3, q4, q5⟩ := ih (h0' q) vv aa e t k2 k3 R hloc
    obtain ⟨t0, vv0, aa0, e0, p1, p2, p3, p4, p5, p6, p7, p8⟩ := propagate_ok L w (e := e1) q2 hu
    refine ⟨t0, vv0, aa0, e0, ?_, p2, fun k hk => ⟨p4 k hk (q3 k hk).1, p5 k hk (q3 k hk).2⟩, by rw [p6 0 w.pos (h0' u), q4], fun k hk hkj => ?_⟩
    · rw [List.reverse_cons, propAll_append, q1]
      show (propagate S u t1).bind (propAll S []) = some t0
      rw [p1]; rfl
    · rcases Nat.lt_or_ge k u with h | h
      · have hkN : k < N := by omega
        rw [p7 k hkN (by omega) (fun h' => by have := (par_sub w hkN h').2; omega)]
        exact q5 k (w.gap j u hu (by omega) huj q hp k h hkj) hkj
      · have : k = u := by omega
        subst this; exact p3

theorem xor_sib (a b c : Nat) (h : c = a ∨ c = b) : a ^^^ b ^^^ c = if c = a then b else a := by
  by_cases e : c = a
  · rw [if_pos e, e, Nat.xor_comm a b, Nat.xor_assoc, Nat.xor_self, Nat.xor_zero]
  · rcases h with h | h
    · exact absurd h e
    · rw [if_neg e, h, Nat.xor_assoc, Nat.xor_self, Nat.xor_zero]

theorem fixUp_ok {S : Acts M A} (L : Laws S) {n N : Nat} {sh : Nat → Shp} (w : WF n N sh) (j : Nat) {u : Nat} {l : List Nat} (hc : Chain sh u l) :
    ∀ (vv : Nat → M × Mᵐᵒᵖ) (aa : Nat → A) (e : Nat → Nat → M) (t : List (Node M A)), u < N → Has sh u j → Rep t N (nd sh vv aa) →
      (∀ k, k < N → LocE S sh aa e k) → (∀ k, k < N → ¬ Pend sh j (sh u).p k → LocV S N sh vv aa e k) → (∀ k, k < N → Has sh k j → Triv S (aa k)) →
      ∃ t' vv' aa' e', fixUp S u l.tail t = some t' ∧ Rep t' N (nd sh vv' aa') ∧ (∀ k, k < N → LocE S sh aa' e' k ∧ LocV S N sh vv' aa' e' k) ∧ e' 0 = e 0 := by
  have h0' : ∀ u, (sh 0).p ≠ some u := by intro u; rw [w.root.2.2]; exact fun h => by cases h
  induction hc with
  | @root u hp =>
    intro vv aa e t hu huj R hE hV ht
    exact ⟨t, vv, aa, e, rfl, R, fun k hk => ⟨hE k hk, hV k hk (by rintro ⟨-, v, hv, -⟩; rw [hp] at hv; cases hv)⟩, rfl⟩
  | @up u q l hp hc ih =>
    intro vv aa e t hu huj R hE hV ht
    obtain ⟨k1, k2, k3, k4⟩ := parent_ok w hu huj q hp
    have h0 : 0 < u := by omega
    obtain ⟨q', a, b, z1, z2, hi, z4⟩ := w.parent hu h0
    rw [hp] at z2; cases z2
    have g1 := hi.ia; have g2 := hi.ab; have g3 := hi.bN; have g4 := hi.al; have g5 := hi.am; have g6 := hi.br
    have ra := w.rng a (by omega)
    have rb := w.rng b (by omega)
    -- the sibling
    obtain ⟨s, hs, hsc, hsj⟩ : ∃ s, a ^^^ b ^^^ u = s ∧ (s = a ∧ u = b ∨ s = b ∧ u = a) ∧ ∀ k, k < N → (k = s ∨ (sh k).p = some s) → ¬ Has sh k j := by
      refine ⟨_, xor_sib a b u z4, ?_, ?_⟩
      · rcases z4 with h | h
        · rw [if_pos h]; exact Or.inr ⟨rfl, h⟩
        · rw [if_neg (by omega)]; exact Or.inl ⟨rfl, h⟩
      · intro k hk hks hkj
        have hsj : Has sh (if u = a then b else a) j := by
          rcases hks with h | h
          · rw [← h]; exact hkj
          · have := (par_sub w hk h).1
            unfold Sub at this; unfold Has at hkj ⊢; omega
        rcases z4 with h | h
        · rw [if_pos h] at hsj; rw [h] at huj; unfold Has at hsj huj; omega
        · rw [if_neg (by omega)] at hsj; rw [h] at huj; unfold Has at hsj huj; omega
    have hsN : s < N := by omega
    obtain ⟨t0, vv0, aa0, e0, p1, p2, p3, p4, p5, p6, p7, p8⟩ := propagate_ok L w (e := e) R hsN
    have ht0 : ∀ k, k < N → Has sh k j → Triv S (aa0 k) := by
      intro k hk hkj
      rw [p7 k hk (fun h => hsj k hk (Or.inl h) hkj) (fun h => hsj k hk (Or.inr h) hkj)]
      exact ht k hk hkj
    obtain ⟨t1, w1, r1⟩ := takeAt_ok p2 hi
    have hnp : ∀ k, q < k → ¬ Pend sh j (some q) k := by
      rintro k hk ⟨-, v, hv, hkv⟩; cases hv; omega
    rw [hp] at hV
    have tt : Triv S (aa0 a) ∧ Triv S (aa0 b) := by
      rcases hsc with ⟨h1, h2⟩ | ⟨h1, h2⟩
      · exact ⟨h1 ▸ p3, h2 ▸ ht0 u hu huj⟩
      · exact ⟨h2 ▸ ht0 u hu huj, h1 ▸ p3⟩
    have hloc := take_local L w hi (p4 a (by omega) (hE a (by omega))) (p4 b (by omega) (hE b (by omega))) (p5 a (by omega) (hV a (by omega) (hnp a (by omega)))) (p5 b (by omega) (hV b (by omega) (hnp b (by omega)))) tt.1 tt.2
    obtain ⟨t', vv', aa', e', y1, y2, y3, y4⟩ := ih (upd vv0 q (vv0 a * vv0 b)) aa0 e0 t1 k2 k3 r1 (fun k hk => p4 k hk (hE k hk)) (by
        intro k hk hpk
        by_cases e1 : k = q
        · subst e1; exact hloc
        · refine locV_upd e1 (p5 k hk (hV k hk ?_))
          rintro ⟨hkj, v, hv, hkv⟩
          cases hv
          exact pend_parent w k2 k3 hpk (by omega) hkj) ht0
    refine ⟨t', vv', aa', e', ?_, y2, y3, by rw [y4, p6 0 w.pos (h0' s)]⟩
    obtain ⟨l', rfl⟩ : ∃ l', l = q :: l' := by
      cases hc with
      | root h => exact ⟨_, rfl⟩
      | up h1 h2 => exact ⟨_, rfl⟩
    show fixUp S u (q :: l') t = some t'
    unfold fixUp
    rw [R.val q k2, Option.bind_some]
    have hs' : (nd sh vv aa q).s = sh q := rfl
    rw [hs', hi.lc, hi.rc, Option.bind_some, Option.bind_some, hs, p1, Option.bind_some, w1, Option.bind_some]
    exact y1

theorem lset_ok {S : Acts M A} (L : Laws S) {n N : Nat} {sh : Nat → Shp} {vv : Nat → M × Mᵐᵒᵖ} {aa : Nat → A} {e : Nat → Nat → M} {o : Obj M A} (G : Good S n N sh vv aa e o) {j : Nat} (hj : j < n) (x : M) :
    ∃ o' vv' aa' e', lset S o j x = some o' ∧ Good S n N sh vv' aa' e' o' ∧ ∀ i, e' 0 i = if i = j then x else e 0 i := by
  obtain ⟨u, k1, k2, k3, k4⟩ := G.tg j hj
  have huj : Has sh u j := by have := k3.1; unfold Has; omega
  obtain ⟨l, c1, c2⟩ := idsFrom_ok G.wf G.rep N u k2 k2
  obtain ⟨t1, vv1, aa1, e1, q1, q2, q3, q4, q5⟩ := propAll_ok L G.wf j c2 vv aa e o.tree k2 huj G.rep (fun k hk => ⟨G.locE k hk, G.locV k hk⟩)
  have ht : ∀ k, k < N → Has sh k j → Triv S (aa1 k) := fun k hk hkj => q5 k (by
    rcases Nat.lt_or_ge u k with h | h
    · exact absurd h (G.wf.leaf_last k3 huj k hk hkj)
    · exact h) hkj
  obtain ⟨t2, w2, r2⟩ := setAt_ok q2 k2 x
  obtain ⟨t3, vv3, aa3, e3, y1, y2, y3, y4⟩ := fixUp_ok L G.wf j c2 (upd vv1 u (emb x)) aa1 (setE e1 j x) t2 k2 huj r2 (fun k hk => setE_locE G.wf ht hk (q3 k hk).1)
    (set_leaf G.wf k2 k3 k4 (ht u k2 huj) (fun k hk => (q3 k hk).2)) ht
  refine ⟨{ o with tree := t3 }, vv3, aa3, e3, ?_, ⟨G.wf, G.len, y2, fun k hk => (y3 k hk).1, fun k hk => (y3 k hk).2, G.tg⟩, fun i => by rw [y4]; unfold setE; rw [q4]⟩
  unfold lset
  rw [k1, Option.bind_some, G.rep.len, c1, Option.bind_some, q1, Option.bind_some, w2, Option.bind_some, y1]; rfl

end Verif.SegHld
