import Verif.DynAc.Erase
import Verif.DynAc.Proofs
import Verif.AcMachine.Props
/-!
Invariants of the dynamic machine under insertions and erasures.  Erased nodes stay in the vector and keep their edges and some links; `A` is the set of nodes still in the trie.
-/
namespace Verif.DynAc
open Verif.AcMachine

variable {α T : Type} [DecidableEq α]

/-- All nodes, erased or not, form a forest with labels. -/
structure Fo (N : Nat) (g : Nat → Nd α) (lab : Nat → List α) : Prop where
  pos : 0 < N
  root : lab 0 = []
  dep : ∀ v, v < N → (lab v).length ≤ v
  ne : ∀ v, v < N → v ≠ 0 → lab v ≠ []
  edge : ∀ u, u < N → ∀ c v, (c, v) ∈ (g u).e → v < N ∧ v ≠ 0 ∧ lab v = lab u ++ [c]
  fn : ∀ u, u < N → ((g u).e.map Prod.fst).Nodup

/-- The nodes in the trie. -/
structure Al (N : Nat) (g : Nat → Nd α) (A : Nat → Prop) : Prop where
  lt : ∀ v, A v → v < N
  root : A 0
  down : ∀ u, A u → ∀ c v, (c, v) ∈ (g u).e → A v
  up : ∀ v, A v → v ≠ 0 → ∃ q c, A q ∧ (c, v) ∈ (g q).e

/-- `u` is the node of the trie with the longest suffix of `w`. -/
def Lg (A : Nat → Prop) (lab : Nat → List α) (w : List α) (u : Nat) : Prop := A u ∧ lab u <:+ w ∧ ∀ v, A v → lab v <:+ w → (lab v).length ≤ (lab u).length

/-- The links: those of nodes in the trie lead into the trie, except for the pending ones.  Under the assumption `b` they lead to the longest proper suffix, and the sets of the nodes in the trie are exact. -/
structure Li (b : Prop) (N M : Nat) (A : Nat → Prop) (P : Nat → Nat → Prop) (g : Nat → Nd α) (lab : Nat → List α) (st : St α) (F : Nat → Option Nat) (I : Nat → List Nat) : Prop where
  rep : Rep st.1 N (wf g F)
  rip : Rep st.2 N I
  link : ∀ v, v < M → v ≠ 0 → ∃ f, F v = some f ∧ f < N ∧ lab f <:+ (lab v).tail ∧ (A v → A f ∨ P v f) ∧ (b → A v → P v f ∨ Lg A lab (lab v).tail f)
  mem : ∀ v, v < N → (I v).Nodup ∧ ∀ x ∈ I v, x < M ∧ x ≠ 0 ∧ lab v <:+ (lab x).tail ∧ (b → A v → A x ∧ F x = some v)
  comp : ∀ v, v < M → A v → v ≠ 0 → ∀ f, F v = some f → v ∈ I f

/-- Nothing is pending. -/
def NoP : Nat → Nat → Prop := fun _ _ => False

theorem Fo.short {N : Nat} {g : Nat → Nd α} {lab : Nat → List α} (t : Fo N g lab) {v f : Nat} (hv : v < N) (h0 : v ≠ 0) (h : lab f <:+ (lab v).tail) : (lab f).length < (lab v).length := by
  have := h.length_le
  rw [List.length_tail] at this
  have : 0 < (lab v).length := List.length_pos_iff.2 (t.ne v hv h0)
  omega

theorem fn_inj {l : List (α × Nat)} (h : (l.map Prod.fst).Nodup) {c : α} {v w : Nat} (hv : (c, v) ∈ l) (hw : (c, w) ∈ l) : v = w := by
  induction l with
  | nil => cases hv
  | cons p l ih =>
    rw [List.map_cons, List.nodup_cons] at h
    rcases List.mem_cons.1 hv with h1 | h1 <;> rcases List.mem_cons.1 hw with h2 | h2
    · rw [← h1] at h2
      exact (Prod.mk.inj h2).2.symm
    · exact absurd (List.mem_map.2 ⟨_, h2, by rw [← h1]⟩) h.1
    · exact absurd (List.mem_map.2 ⟨_, h1, by rw [← h2]⟩) h.1
    · exact ih h.2 h1 h2

/-- A label occurs once in the trie. -/
theorem Al.inj {N : Nat} {g : Nat → Nd α} {lab : Nat → List α} {A : Nat → Prop} (t : Fo N g lab) (a : Al N g A) : ∀ n u v, (lab u).length = n → A u → A v → lab u = lab v → u = v := by
  intro n
  induction n with
  | zero =>
    intro u v hn hu hv he
    have h1 : u = 0 := by
      by_contra h0
      exact t.ne u (a.lt u hu) h0 (List.length_eq_zero_iff.1 hn)
    have h2 : v = 0 := by
      by_contra h0
      exact t.ne v (a.lt v hv) h0 (by rw [← he]; exact List.length_eq_zero_iff.1 hn)
    rw [h1, h2]
  | succ n ih =>
    intro u v hn hu hv he
    have hu0 : u ≠ 0 := by
      rintro rfl
      rw [t.root] at hn
      cases hn
    have hv0 : v ≠ 0 := by
      rintro rfl
      rw [he, t.root] at hn
      cases hn
    obtain ⟨q, c, q1, q2⟩ := a.up u hu hu0
    obtain ⟨r, d, r1, r2⟩ := a.up v hv hv0
    have e1 := (t.edge q (a.lt q q1) c u q2).2.2
    have e2 := (t.edge r (a.lt r r1) d v r2).2.2
    rw [e1, e2] at he
    obtain ⟨h1, h2⟩ := List.append_inj' he rfl
    have hcd : c = d := by simpa using h2
    subst hcd
    have hl : (lab q).length = n := by
      rw [e1, List.length_append, List.length_singleton] at hn
      omega
    have := ih q r hl q1 r1 h1
    subst this
    exact fn_inj (t.fn q (a.lt q q1)) q2 r2

/-- The way to a node of the trie. -/
theorem Al.way {N : Nat} {g : Nat → Nd α} {lab : Nat → List α} {A : Nat → Prop} (t : Fo N g lab) (a : Al N g A) (c : α) (p : List α) : ∀ (r : List α) u, A u → lab u = p ++ c :: r →
    ∃ w z, A w ∧ lab w = p ∧ (c, z) ∈ (g w).e := by
  intro r
  induction r using List.reverseRecOn with
  | nil =>
    intro u hu he
    have hu0 : u ≠ 0 := by
      rintro rfl
      rw [t.root] at he
      simp at he
    obtain ⟨q, d, q1, q2⟩ := a.up u hu hu0
    have e1 := (t.edge q (a.lt q q1) d u q2).2.2
    rw [e1] at he
    obtain ⟨h1, h2⟩ := List.append_inj' he rfl
    have hcd : d = c := by simpa using h2
    subst hcd
    exact ⟨q, u, q1, h1, q2⟩
  | append_singleton r e ih =>
    intro u hu he
    have hu0 : u ≠ 0 := by
      rintro rfl
      rw [t.root] at he
      simp at he
    obtain ⟨q, d, q1, q2⟩ := a.up u hu hu0
    have e1 := (t.edge q (a.lt q q1) d u q2).2.2
    rw [e1, show p ++ c :: (r ++ [e]) = (p ++ c :: r) ++ [e] by simp] at he
    obtain ⟨h1, h2⟩ := List.append_inj' he rfl
    exact ih q q1 h1

/-! ### Setting a link -/

theorem setFailD_li {b : Prop} {N M : Nat} {A : Nat → Prop} {P : Nat → Nat → Prop} {g : Nat → Nd α} {lab : Nat → List α} {st : St α} {F : Nat → Option Nat} {I : Nat → List Nat} (S : Li b N M A P g lab st F I)
    {u f : Nat} (hu : u < N) (hu0 : u ≠ 0) (huM : u ≤ M) (hf : f < N) (h1 : lab f <:+ (lab u).tail) (h2 : A u → A f ∨ P u f) (h3 : b → A u → P u f ∨ Lg A lab (lab u).tail f) (h4 : b → A f → A u)
    (h5 : b → ∀ w, w < N → A w → u ∈ I w → w = f) :
    ∃ st' I', setFailD st u f = some st' ∧ Li b N (max M (u+1)) A P g lab st' (upd F u (some f)) I' := by
  obtain ⟨n1, w1, r1⟩ := setFail_ok S.rep hu f
  obtain ⟨i1, w2, r2⟩ := S.rip.wr hf (setIns (I f) u)
  refine ⟨(n1, i1), _, ?_, r1, r2, ?_, ?_, ?_⟩
  · unfold setFailD
    rw [w1, Option.bind_some, S.rip.val f hf, Option.bind_some, w2, Option.map_some]
  · intro v hv h0
    by_cases e : v = u
    · subst e
      exact ⟨f, upd_same _ _ _, hf, h1, h2, h3⟩
    · obtain ⟨f', a1, a2⟩ := S.link v (by omega) h0
      exact ⟨f', by rw [upd_ne _ _ e, a1], a2⟩
  · have old : ∀ v, v < N → ∀ x ∈ I v, x < max M (u+1) ∧ x ≠ 0 ∧ lab v <:+ (lab x).tail ∧ (b → A v → A x ∧ upd F u (some f) x = some v) := by
      intro v hv x hx
      obtain ⟨a1, a2, a3, a4⟩ := (S.mem v hv).2 x hx
      refine ⟨by omega, a2, a3, fun hb hA => ⟨(a4 hb hA).1, ?_⟩⟩
      by_cases e : x = u
      · subst e
        rw [upd_same, h5 hb v hv hA hx]
      · rw [upd_ne _ _ e, (a4 hb hA).2]
    intro v hv
    by_cases e : v = f
    · subst e
      rw [upd_same]
      refine ⟨nodup_setIns (S.mem v hv).1, fun x hx => ?_⟩
      rcases mem_setIns.1 hx with h | h
      · exact old v hv x h
      · subst h
        exact ⟨by omega, hu0, h1, fun hb hA => ⟨h4 hb hA, upd_same _ _ _⟩⟩
    · rw [upd_ne _ _ e]
      exact ⟨(S.mem v hv).1, old v hv⟩
  · intro v hv hA h0 f' hF
    by_cases e : v = u
    · subst e
      rw [upd_same] at hF
      have := Option.some.inj hF
      subst this
      rw [upd_same]
      exact mem_setIns.2 (Or.inr rfl)
    · rw [upd_ne _ _ e] at hF
      have := S.comp v (by omega) hA h0 f' hF
      by_cases e' : f' = f
      · subst e'
        rw [upd_same]
        exact mem_setIns.2 (Or.inl this)
      · rwa [upd_ne _ _ e']

/-! ### Taking nodes out of the links -/

theorem setDel_rep {ifl : List (List Nat)} {N : Nat} {I : Nat → List Nat} (R : Rep ifl N I) {f : Nat} (hf : f < N) (x : Nat) :
    ∃ i, setDel ifl f x = some i ∧ Rep i N (upd I f ((I f).filter (fun y => decide (y ≠ x)))) := by
  obtain ⟨i1, w2, r2⟩ := R.wr hf ((I f).filter (fun y => decide (y ≠ x)))
  exact ⟨i1, by unfold setDel; rw [R.val f hf, Option.bind_some, w2], r2⟩

theorem mem_del {I : Nat → List Nat} {f x v y : Nat} : y ∈ upd I f ((I f).filter (fun y => decide (y ≠ x))) v ↔ y ∈ I v ∧ (v = f → y ≠ x) := by
  by_cases e : v = f
  · subst e
    rw [upd_same, List.mem_filter, decide_eq_true_iff]
    exact ⟨fun h => ⟨h.1, fun _ => h.2⟩, fun h => ⟨h.1, h.2 rfl⟩⟩
  · rw [upd_ne _ _ e]
    exact ⟨fun h => ⟨h, fun h => absurd h e⟩, fun h => h.1⟩

theorem nodup_del {I : Nat → List Nat} {f x v : Nat} (h : (I v).Nodup) : (upd I f ((I f).filter (fun y => decide (y ≠ x))) v).Nodup := by
  by_cases e : v = f
  · subst e
    rw [upd_same]
    exact h.filter _
  · rwa [upd_ne _ _ e]

theorem setDel_li {b : Prop} {N M : Nat} {A : Nat → Prop} {P : Nat → Nat → Prop} {g : Nat → Nd α} {lab : Nat → List α} {st : St α} {F : Nat → Option Nat} {I : Nat → List Nat} (S : Li b N M A P g lab st F I)
    {f x : Nat} (hf : f < N) (hx : ¬ A x) : ∃ i, setDel st.2 f x = some i ∧ Li b N M A P g lab (st.1, i) F (upd I f ((I f).filter (fun y => decide (y ≠ x)))) := by
  obtain ⟨i1, w2, r2⟩ := setDel_rep S.rip hf x
  refine ⟨i1, w2, S.rep, r2, S.link, fun v hv => ⟨nodup_del (S.mem v hv).1, fun y hy => (S.mem v hv).2 y (mem_del.1 hy).1⟩, fun v hv hA h0 f' hF => ?_⟩
  refine mem_del.2 ⟨S.comp v hv hA h0 f' hF, fun _ => ?_⟩
  rintro rfl
  exact hx hA

theorem retarget_li {b : Prop} {N : Nat} {A : Nat → Prop} {g : Nat → Nd α} {lab : Nat → List α} (t : Fo N g lab) {x f : Nat} (hx : x < N) (hx0 : x ≠ 0) (hA : ¬ A x) (hAf : A f) (hf : f < N) (hfx : lab f <:+ (lab x).tail) :
    ∀ (l : List Nat), l.Nodup → (∀ v ∈ l, v < N ∧ v ≠ 0 ∧ lab x <:+ (lab v).tail ∧ (b → A v ∧ Lg A lab (lab v).tail f)) → ∀ {st : St α} {F : Nat → Option Nat} {I : Nat → List Nat}, F x = some f → (b → ∀ v ∈ l, F v = some x) →
      Li b N N A (fun v f' => f' = x ∧ v ∈ l) g lab st F I → ∃ st' F' I', retarget x l st = some st' ∧ Li b N N A NoP g lab st' F' I' := by
  intro l
  induction l with
  | nil =>
    intro _ _ st F I _ _ S
    refine ⟨st, F, I, rfl, S.rep, S.rip, fun v hv h0 => ?_, S.mem, S.comp⟩
    obtain ⟨f', a1, a2, a3, a4, a5⟩ := S.link v hv h0
    refine ⟨f', a1, a2, a3, fun hv => ?_, fun hb hv => ?_⟩
    · rcases a4 hv with h | ⟨-, h⟩
      · exact Or.inl h
      · cases h
    · rcases a5 hb hv with ⟨-, h⟩ | h
      · cases h
      · exact Or.inr h
  | cons v l ih =>
    intro hn hl st F I hF hFl S
    rw [List.nodup_cons] at hn
    obtain ⟨v1, v2, v3, v4⟩ := hl v List.mem_cons_self
    have hvx : v ≠ x := by
      rintro rfl
      have := t.short v1 v2 v3
      omega
    have hfx' : f ≠ x := by
      rintro rfl
      have := t.short hx hx0 hfx
      omega
    obtain ⟨i, e1, S1⟩ := setDel_li S hf hA
    obtain ⟨st2, I2, e2, S2⟩ := setFailD_li S1 v1 v2 (Nat.le_of_lt v1) hf ((hfx.trans (List.tail_suffix _)).trans v3) (fun _ => Or.inl hAf) (fun hb _ => Or.inr (v4 hb).2) (fun hb _ => (v4 hb).1)
      (fun hb w hw hAw hm => by
        have h1 := (((S1.mem w hw).2 v hm).2.2.2 hb hAw).2
        rw [hFl hb v List.mem_cons_self] at h1
        rw [← Option.some.inj h1] at hAw
        exact absurd hAw hA)
    rw [show max N (v+1) = N by omega] at S2
    obtain ⟨st3, F3, I3, e3, S3⟩ := ih hn.2 (fun w hw => hl w (List.mem_cons_of_mem _ hw)) (F := upd F v (some f)) (by rw [upd_ne _ _ (Ne.symm hvx), hF]) (fun hb w hw => by
      have : w ≠ v := by
        rintro rfl
        exact hn.1 hw
      rw [upd_ne _ _ this]
      exact hFl hb w (List.mem_cons_of_mem _ hw)) ⟨S2.rep, S2.rip, fun w hw h0 => by
      by_cases e : w = v
      · subst e
        exact ⟨f, upd_same _ _ _, hf, (hfx.trans (List.tail_suffix _)).trans v3, fun _ => Or.inl hAf, fun hb _ => Or.inr (v4 hb).2⟩
      · obtain ⟨f', a1, a2, a3, a4, a5⟩ := S2.link w hw h0
        refine ⟨f', a1, a2, a3, fun h => ?_, fun hb h => ?_⟩
        · rcases a4 h with h | ⟨h1, h2⟩
          · exact Or.inl h
          · refine Or.inr ⟨h1, ?_⟩
            rcases List.mem_cons.1 h2 with h3 | h3
            · exact absurd h3 e
            · exact h3
        · rcases a5 hb h with ⟨h1, h2⟩ | h
          · refine Or.inl ⟨h1, ?_⟩
            rcases List.mem_cons.1 h2 with h3 | h3
            · exact absurd h3 e
            · exact h3
          · exact Or.inr h, S2.mem, S2.comp⟩
    refine ⟨st3, F3, I3, ?_, S3⟩
    unfold retarget
    have hff : (wf g F x).fail = some f := hF
    rw [S.rep.val x hx, Option.bind_some, hff, Option.bind_some, if_neg hfx', e1, Option.bind_some, e2, Option.bind_some, e3]

theorem unlink_li {b : Prop} {N : Nat} {A : Nat → Prop} {g : Nat → Nd α} {lab : Nat → List α} (t : Fo N g lab) (inj : ∀ u v, A u → A v → lab u = lab v → u = v) {ord : List Nat → List Nat} (hord : ∀ l, (ord l).Perm l)
    {x : Nat} (hx : x < N) (hx0 : x ≠ 0) (hA : A x) {st : St α} {F : Nat → Option Nat} {I : Nat → List Nat} (S : Li b N N A NoP g lab st F I) :
    ∃ st' F' I', unlink ord st x = some st' ∧ Li b N N (fun v => A v ∧ v ≠ x) NoP g lab st' F' I' := by
  obtain ⟨f, f1, f2, f3, f4, f5⟩ := S.link x hx hx0
  have hAf : A f := (f4 hA).resolve_right id
  have hfx : f ≠ x := by
    rintro rfl
    have := t.short hx hx0 f3
    omega
  obtain ⟨i, e1, r1⟩ := setDel_rep S.rip f2 x
  have S1 : Li b N N (fun v => A v ∧ v ≠ x) (fun v f' => f' = x ∧ v ∈ ord (I x)) g lab (st.1, i) F (upd I f ((I f).filter (fun y => decide (y ≠ x)))) := by
    refine ⟨S.rep, r1, fun v hv h0 => ?_, fun v hv => ⟨nodup_del (S.mem v hv).1, fun y hy => ?_⟩, fun v hv hA h0 f hF => mem_del.2 ⟨S.comp v hv hA.1 h0 f hF, fun _ => hA.2⟩⟩
    · obtain ⟨f', a1, a2, a3, a4, a5⟩ := S.link v hv h0
      refine ⟨f', a1, a2, a3, fun h => ?_, fun hb h => ?_⟩
      · by_cases e : f' = x
        · subst e
          exact Or.inr ⟨rfl, (hord _).mem_iff.2 (S.comp v hv h.1 h0 f' a1)⟩
        · exact Or.inl ⟨(a4 h.1).resolve_right id, e⟩
      · by_cases e : f' = x
        · subst e
          exact Or.inl ⟨rfl, (hord _).mem_iff.2 (S.comp v hv h.1 h0 f' a1)⟩
        · have := (a5 hb h.1).resolve_left id
          exact Or.inr ⟨⟨this.1, e⟩, this.2.1, fun w hw => this.2.2 w hw.1⟩
    · obtain ⟨hy, hy2⟩ := mem_del.1 hy
      obtain ⟨a1, a2, a3, a4⟩ := (S.mem v hv).2 y hy
      refine ⟨a1, a2, a3, fun hb hAv => ?_⟩
      obtain ⟨c1, c2⟩ := a4 hb hAv.1
      refine ⟨⟨c1, ?_⟩, c2⟩
      rintro rfl
      rw [f1] at c2
      exact hy2 (Option.some.inj c2).symm rfl
  obtain ⟨st', F', I', e2, S2⟩ := retarget_li t hx hx0 (A := fun v => A v ∧ v ≠ x) (fun h => h.2 rfl) ⟨hAf, hfx⟩ f2 f3 (ord (I x)) ((hord _).nodup_iff.2 (S.mem x hx).1) (fun v hv => by
    obtain ⟨a1, a2, a3, a4⟩ := (S.mem x hx).2 v ((hord _).mem_iff.1 hv)
    refine ⟨a1, a2, a3, fun hb => ?_⟩
    obtain ⟨c1, c2⟩ := a4 hb hA
    have hvx : v ≠ x := by
      rintro rfl
      have := t.short a1 a2 a3
      omega
    refine ⟨⟨c1, hvx⟩, ⟨hAf, hfx⟩, (f3.trans (List.tail_suffix _)).trans a3, fun w hw hws => ?_⟩
    obtain ⟨f', d1, d2, d3, d4, d5⟩ := S.link v a1 a2
    rw [c2] at d1
    have := Option.some.inj d1
    subst this
    have hl := ((d5 hb c1).resolve_left id).2.2 w hw.1 hws
    have hs := suffix_of_len hws d3 hl
    have hne : (lab w).length ≠ (lab x).length := fun h => hw.2 (inj w x hw.1 hA (hs.eq_of_length h))
    exact ((f5 hb hA).resolve_left id).2.2 w hw.1 (suffix_tail hs (by omega))) f1 (fun hb v hv => ((S.mem x hx).2 v ((hord _).mem_iff.1 hv)).2.2.2 hb hA |>.2) S1
  refine ⟨st', F', I', ?_, S2⟩
  unfold unlink
  have hff : (wf g F x).fail = some f := f1
  rw [S.rep.val x hx, Option.bind_some, hff, Option.bind_some, e1, Option.bind_some, r1.val x hx, Option.bind_some, upd_ne _ _ (Ne.symm hfx), e2]

theorem Li.congrA {b : Prop} {N M : Nat} {A A' : Nat → Prop} {P : Nat → Nat → Prop} {g : Nat → Nd α} {lab : Nat → List α} {st : St α} {F : Nat → Option Nat} {I : Nat → List Nat} (S : Li b N M A P g lab st F I)
    (h : ∀ v, A v ↔ A' v) : Li b N M A' P g lab st F I := by
  have : A = A' := funext (fun v => propext (h v))
  rwa [← this]

theorem unlinks_li {b : Prop} {N : Nat} {g : Nat → Nd α} {lab : Nat → List α} (t : Fo N g lab) {ord : List Nat → List Nat} (hord : ∀ l, (ord l).Perm l) : ∀ (l : List Nat) {A : Nat → Prop}, (∀ u v, A u → A v → lab u = lab v → u = v) →
    l.Nodup → (∀ x ∈ l, x < N ∧ x ≠ 0 ∧ A x) →
    ∀ {st : St α} {F : Nat → Option Nat} {I : Nat → List Nat}, Li b N N A NoP g lab st F I → ∃ st' F' I', unlinks ord l st = some st' ∧ Li b N N (fun v => A v ∧ v ∉ l) NoP g lab st' F' I' := by
  intro l
  induction l with
  | nil =>
    intro A _ _ _ st F I S
    exact ⟨st, F, I, rfl, S.congrA (fun v => ⟨fun h => ⟨h, List.not_mem_nil⟩, fun h => h.1⟩)⟩
  | cons x l ih =>
    intro A inj hn hl st F I S
    obtain ⟨x1, x2, x3⟩ := hl x List.mem_cons_self
    rw [List.nodup_cons] at hn
    obtain ⟨st1, F1, I1, e1, S1⟩ := unlink_li t inj hord x1 x2 x3 S
    obtain ⟨st2, F2, I2, e2, S2⟩ := ih (A := fun v => A v ∧ v ≠ x) (fun u v hu hv => inj u v hu.1 hv.1) hn.2 (fun y hy => by
      obtain ⟨y1, y2, y3⟩ := hl y (List.mem_cons_of_mem _ hy)
      refine ⟨y1, y2, y3, ?_⟩
      rintro rfl
      exact hn.1 hy) S1
    refine ⟨st2, F2, I2, by unfold unlinks; rw [e1, Option.bind_some, e2], S2.congrA (fun v => ?_)⟩
    rw [List.mem_cons, not_or, and_assoc]

end Verif.DynAc
