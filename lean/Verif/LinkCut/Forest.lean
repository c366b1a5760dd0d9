import Verif.LinkCut.Model
import Verif.Splay.Rot
/-!
The splay trees of the heap as vertical paths of a rooted forest.
-/
namespace Verif.LinkCut
open Verif Verif.LazySegTree Verif.Splay BT

variable {M A : Type} [Monoid M] {S : Acts M A}

/-- `s` goes down from a child of `pp`. -/
def Path (P : Nat → Option Nat) : Option Nat → List Nat → Prop
  | _, [] => True
  | pp, a :: s => P a = pp ∧ Path P (some a) s

theorem Path.congr {P P' : Nat → Option Nat} : ∀ {s : List Nat} {pp : Option Nat}, Path P pp s → (∀ a ∈ s, P' a = P a) → Path P' pp s := by
  intro s
  induction s with
  | nil => intro _ _ _; trivial
  | cons a s ih =>
    rintro pp ⟨h1, h2⟩ h
    exact ⟨by rw [h a (by simp)]; exact h1, ih h2 fun b hb => h b (by simp [hb])⟩

theorem Path.append_iff {P : Nat → Option Nat} : ∀ {s : List Nat} {pp : Option Nat} {a : Nat} {t : List Nat}, Path P pp (s ++ a :: t) ↔ Path P pp (s ++ [a]) ∧ Path P (some a) t := by
  intro s
  induction s with
  | nil => intro pp a t; simp [Path]
  | cons b s ih =>
    intro pp a t
    show (P b = pp ∧ Path P (some b) (s ++ a :: t)) ↔ (P b = pp ∧ Path P (some b) (s ++ [a])) ∧ Path P (some a) t
    rw [ih, and_assoc]

theorem Path.dep {P : Nat → Option Nat} {dep : Nat → Nat} (hd : ∀ a b, P a = some b → dep b < dep a) : ∀ {s : List Nat} {q : Nat}, Path P (some q) s → ∀ a ∈ s, dep q < dep a := by
  intro s
  induction s with
  | nil => intro q _ a ha; cases ha
  | cons b s ih =>
    rintro q ⟨h1, h2⟩ a ha
    have hb := hd b q h1
    rcases List.mem_cons.1 ha with rfl | ha
    · exact hb
    · exact lt_trans hb (ih h2 a ha)

/-- Splay trees with the pointer above their root. -/
abbrev Forest (M A : Type) := List (BT M A × Option Nat)

def alln (F : Forest M A) : List Nat := F.flatMap (fun x => nodes x.1)

theorem alln_cons (x : BT M A × Option Nat) (F : Forest M A) : alln (x :: F) = nodes x.1 ++ alln F := rfl

theorem mem_alln {F : Forest M A} {q : Nat} : q ∈ alln F ↔ ∃ x ∈ F, q ∈ nodes x.1 := by unfold alln; rw [List.mem_flatMap]

theorem alln_perm {F F' : Forest M A} (h : F.Perm F') : (alln F).Perm (alln F') := h.flatMap_right _

/-- The forest `F` lives in the heap; its trees hold the paths of the parent function `P`, whose acyclicity is witnessed by `dep`, with the values `val`. -/
structure G0 (S : Acts M A) (n : Nat) (h : Heap M A) (g : Nat → Node M A) (F : Forest M A) (P : Nat → Option Nat) (dep : Nat → Nat) (val : Nat → M) : Prop where
  rep : Rep h n g
  nd : (alln F).Nodup
  lt : ∀ i ∈ alln F, i < n
  rp : ∀ x ∈ F, Rp g x.2 x.1
  path : ∀ x ∈ F, ∃ s, seq S x.1 = s.map (fun a => (a, val a)) ∧ Path P x.2 s
  par : ∀ x ∈ F, x.1 ≠ nil → ∀ q, x.2 = some q → q ∈ alln F
  dep : ∀ a b, P a = some b → dep b < dep a

variable {n : Nat} {h : Heap M A} {g : Nat → Node M A} {F F' : Forest M A} {P : Nat → Option Nat} {dep : Nat → Nat} {val : Nat → M}

theorem G0.perm (I : G0 S n h g F P dep val) (hp : F.Perm F') : G0 S n h g F' P dep val := by
  have ha := alln_perm hp
  exact ⟨I.rep, ha.nodup_iff.1 I.nd, fun i hi => I.lt i (ha.mem_iff.2 hi), fun x hx => I.rp x (hp.mem_iff.2 hx), fun x hx => I.path x (hp.mem_iff.2 hx),
    fun x hx h q hq => ha.mem_iff.1 (I.par x (hp.mem_iff.2 hx) h q hq), I.dep⟩

theorem seq_fst {t : BT M A} {s : List Nat} (h : seq S t = s.map (fun a => (a, val a))) : s.Perm (nodes t) := by
  have := seq_nodes (S := S) t
  rw [h, List.map_map] at this
  have e : (Prod.fst ∘ fun a => (a, val a)) = id := rfl
  rw [e, List.map_id] at this
  exact this

theorem kid_mem : ∀ {t : BT M A} {par : Option Nat}, Rp g par t → ∀ q ∈ nodes t, ∀ i, (g q).l = some i ∨ (g q).r = some i → i ∈ nodes t := by
  intro t
  induction t with
  | nil => intro _ _ q hq; cases hq
  | node l j d r ihl ihr =>
    rintro par ⟨h1, h2, h3⟩ q hq i hi
    rw [nodes, List.mem_cons, List.mem_append] at hq ⊢
    rcases hq with rfl | hq | hq
    · rw [h1] at hi
      rcases hi with e | e
      · exact Or.inr (Or.inl (root_mem e))
      · exact Or.inr (Or.inr (root_mem e))
    · exact Or.inr (Or.inl (ihl h2 q hq i hi))
    · exact Or.inr (Or.inr (ihr h3 q hq i hi))

theorem G0.disj {x : BT M A × Option Nat} (I : G0 S n h g (x :: F) P dep val) {j : Nat} (hj : j ∈ nodes x.1) : j ∉ alln F := fun h' =>
  (List.nodup_append.1 (by have := I.nd; rwa [alln_cons] at this)).2.2 j hj j h' rfl

theorem G0.up {x : BT M A × Option Nat} (I : G0 S n h g (x :: F) P dep val) (hx : x.1 ≠ nil) {q : Nat} (hq : x.2 = some q) : q ∉ nodes x.1 ∧ q ∈ alln F := by
  obtain ⟨s, e, hp⟩ := I.path x (by simp)
  have h1 : q ∉ nodes x.1 := by
    intro hm
    rw [hq] at hp
    exact lt_irrefl _ (hp.dep I.dep q ((seq_fst e).mem_iff.2 hm))
  refine ⟨h1, ?_⟩
  have := I.par x (by simp) hx q hq
  rw [alln_cons, List.mem_append] at this
  tauto

theorem G0.toH {x : BT M A × Option Nat} (I : G0 S n h g (x :: F) P dep val) (hx : x.1 ≠ nil) : H n h g x.2 x.1 := by
  refine ⟨I.rep, I.rp x (by simp), ?_, fun i hi => I.lt i (by rw [alln_cons]; simp [hi]), fun q hq => ?_⟩
  · have := I.nd
    rw [alln_cons] at this
    exact (List.nodup_append.1 this).1
  · obtain ⟨h1, h2⟩ := I.up hx hq
    refine ⟨I.lt q (by rw [alln_cons]; simp [h2]), h1, fun i hi => ?_⟩
    obtain ⟨y, hy, hqy⟩ := mem_alln.1 h2
    have hk := kid_mem (I.rp y (by simp [hy])) q hqy i
    have hni : i ∉ nodes y.1 := fun h' => I.disj hi (mem_alln.2 ⟨y, hy, h'⟩)
    exact ⟨fun e => hni (hk (Or.inl e)), fun e => hni (hk (Or.inr e))⟩

/-- A step inside the first tree. -/
theorem G0.step {x : BT M A × Option Nat} (I : G0 S n h g (x :: F) P dep val) (hx : x.1 ≠ nil) {h' : Heap M A} {g' : Nat → Node M A} {t' : BT M A} (s : St n x.2 g x.1 h' g' t') (hs : seq S t' = seq S x.1) :
    G0 S n h' g' ((t', x.2) :: F) P dep val ∧ (alln ((t', x.2) :: F)).Perm (alln (x :: F)) ∧ ∀ j, j ∉ alln (x :: F) → g' j = g j := by
  have hp : (alln ((t', x.2) :: F)).Perm (alln (x :: F)) := by rw [alln_cons, alln_cons]; exact s.perm.append_right _
  refine ⟨⟨s.H.rep, hp.nodup_iff.2 I.nd, fun i hi => I.lt i (hp.mem_iff.1 hi), ?_, ?_, ?_, I.dep⟩, hp, fun j hj => s.fr j fun h' => hj (by rw [alln_cons]; simp [h'])⟩
  · intro y hy
    rcases List.mem_cons.1 hy with rfl | hy
    · exact s.H.rp
    · refine Rp_congr (I.rp y (by simp [hy])) fun j hj => s.fr j fun h' => ?_
      exact I.disj h' (mem_alln.2 ⟨y, hy, hj⟩)
  · intro y hy
    rcases List.mem_cons.1 hy with rfl | hy
    · obtain ⟨s1, e1, p1⟩ := I.path x (by simp)
      exact ⟨s1, by rw [← e1]; exact hs, p1⟩
    · exact I.path y (by simp [hy])
  · intro y hy hn q hq
    refine hp.mem_iff.2 ?_
    rcases List.mem_cons.1 hy with rfl | hy
    · exact I.par x (by simp) hx q hq
    · exact I.par y (by simp [hy]) hn q hq

/-- A node of a tree and its position. -/
theorem locate : ∀ {t : BT M A} {q : Nat}, q ∈ nodes t → ∃ c l d r, t = plug c (node l q d r) := by
  intro t
  induction t with
  | nil => intro q hq; cases hq
  | node l i d r ihl ihr =>
    intro q hq
    rw [nodes, List.mem_cons, List.mem_append] at hq
    have app : ∀ (c : List (Fr M A)) (z : Fr M A) (t : BT M A), plug (c ++ [z]) t = mk z.b (plug c t) z.i z.d z.o := by
      intro c z
      induction c with
      | nil => intro t; rfl
      | cons w c ih => intro t; rw [List.cons_append, plug, plug, ih]
    rcases hq with rfl | hq | hq
    · exact ⟨[], l, d, r, rfl⟩
    · obtain ⟨c, l', d', r', e⟩ := ihl hq
      refine ⟨c ++ [⟨true, i, d, r⟩], l', d', r', ?_⟩
      rw [app, ← e]; rfl
    · obtain ⟨c, l', d', r', e⟩ := ihr hq
      refine ⟨c ++ [⟨false, i, d, l⟩], l', d', r', ?_⟩
      rw [app, ← e]; rfl

theorem valid_plug {lct : Bool} : ∀ {c : List (Fr M A)} {t : BT M A}, Valid S lct (plug c t) → Valid S lct t ∧ ValidC S lct c := by
  intro c
  induction c with
  | nil => intro t h; exact ⟨h, fun x hx => by cases hx⟩
  | cons z c ih =>
    intro t h
    obtain ⟨h1, h2⟩ := ih h
    have hz : Valid S lct t ∧ Valid S lct z.o := by
      unfold mk at h1
      split at h1
      · exact ⟨h1.1, h1.2.1⟩
      · exact ⟨h1.2.1, h1.1⟩
    refine ⟨hz.1, fun x hx => ?_⟩
    rcases List.mem_cons.1 hx with rfl | hx
    · exact hz.2
    · exact h2 x hx

theorem ctx_le (c : List (Fr M A)) : c.length ≤ (cnodes c).length := by
  induction c with
  | nil => exact le_refl _
  | cons z c ih => simp only [cnodes, List.length_cons, List.length_append]; omega

theorem len_le {l : List Nat} (nd : l.Nodup) (hl : ∀ i ∈ l, i < n) : l.length ≤ n := by
  have := (List.subperm_of_subset nd (fun i hi => List.mem_range.2 (hl i hi))).length_le
  rwa [List.length_range] at this

/-- All aggregates are right. -/
def VAll (S : Acts M A) (F : Forest M A) : Prop := ∀ x ∈ F, Valid S true x.1

theorem VAll.perm (h : VAll S F) (hp : F.Perm F') : VAll S F' := fun x hx => h x (hp.mem_iff.2 hx)

/-- Splaying a node of the first tree. -/
theorem G0.splay (L : Laws S) {t : BT M A} {pp : Option Nat} (I : G0 S n h g ((t, pp) :: F) P dep val) (hv : Valid S true t) {q : Nat} (hq : q ∈ nodes t) {fuel : Nat} (hf : n ≤ fuel) :
    ∃ h' g' l d r, splay S true fuel q h = some h' ∧ G0 S n h' g' ((node l q d r, pp) :: F) P dep val ∧ Valid S true (node l q d r) ∧ Clean S d ∧ seq S (node l q d r) = seq S t ∧
      (nodes (node l q d r)).Perm (nodes t) ∧ ∀ j, j ∉ alln ((t, pp) :: F) → g' j = g j := by
  obtain ⟨c, l, d, r, rfl⟩ := locate hq
  obtain ⟨v1, v2⟩ := valid_plug hv
  have hne : plug c (node l q d r) ≠ nil := by
    intro e
    rw [e] at hq; cases hq
  have hH := I.toH hne
  have hc : c.length ≤ fuel := by
    have h1 := len_le hH.nd hH.lt
    have h2 := (nodes_plug c (node l q d r)).length_eq
    have h3 := ctx_le c
    rw [List.length_append] at h2
    dsimp only at h1
    omega
  obtain ⟨h', g', t', e, s, l', d', r', rfl, v', c', q'⟩ := splay_ok L hH v1.1 v1.2.1 v2 hc
  obtain ⟨I', _, f'⟩ := I.step hne s q'
  exact ⟨h', g', l', d', r', e, I', v', c', q', s.perm, f'⟩

end Verif.LinkCut
