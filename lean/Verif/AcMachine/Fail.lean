import Verif.AcMachine.Trie
import Mathlib.Data.List.Perm.Subperm
/-!
Failure links: `build` makes them point to the longest proper suffix in the trie.
-/
namespace Verif.AcMachine

variable {α T : Type} [DecidableEq α]

/-- `u` is the longest suffix of `w` in the trie. -/
def IsLong (N : Nat) (lab : Nat → List α) (w : List α) (u : Nat) : Prop := u < N ∧ lab u <:+ w ∧ ∀ v, v < N → lab v <:+ w → (lab v).length ≤ (lab u).length

/-- The link `f` of `v` is right. -/
def OKF (N : Nat) (lab : Nat → List α) (f : Option Nat) (v : Nat) : Prop := ∃ x, f = some x ∧ IsLong N lab (lab v).tail x

/-- The nodes with other links. -/
def wf (g : Nat → Nd α) (F : Nat → Option Nat) (u : Nat) : Nd α := { g u with fail := F u }

theorem suffix_tail {x s : List α} (h : x <:+ s) (hl : x.length < s.length) : x <:+ s.tail := by
  cases s with
  | nil => simp at hl
  | cons a s =>
    rcases List.suffix_cons_iff.1 h with h | h
    · rw [h] at hl; omega
    · exact h

theorem tail_suffix {x s : List α} (h : x <:+ s.tail) : x <:+ s := h.trans (List.tail_suffix s)

theorem suffix_snoc {x w : List α} {c : α} (h : x ++ [c] <:+ w ++ [c]) : x <:+ w := by
  obtain ⟨p, hp⟩ := h
  rw [← List.append_assoc] at hp
  exact ⟨p, List.append_inj_left' hp rfl⟩

theorem snoc_suffix {x w : List α} (c : α) (h : x <:+ w) : x ++ [c] <:+ w ++ [c] := by
  obtain ⟨p, hp⟩ := h
  exact ⟨p, by rw [← List.append_assoc, hp]⟩

theorem suffix_snoc_last {x w : List α} {c d : α} (h : x ++ [d] <:+ w ++ [c]) : d = c := by
  obtain ⟨p, hp⟩ := h
  rw [← List.append_assoc] at hp
  have := List.append_inj_right' hp rfl
  exact (List.cons.inj this).1

theorem suffix_of_len {x y w : List α} (hx : x <:+ w) (hy : y <:+ w) (h : x.length ≤ y.length) : x <:+ y := List.suffix_of_suffix_length_le hx hy h

/-- The loop along the links finds the longest suffix of `w c`. -/
theorem chase_ok {N : Nat} {g : Nat → Nd α} {lab : Nat → List α} (t : Tr N g lab) {F : Nat → Option Nat} {nodes : List (Nd α)} (R : Rep nodes N (wf g F)) (c : α) (w : List α) (d : Nat)
    (hF : ∀ v, v < N → v ≠ 0 → (lab v).length ≤ d → OKF N lab (F v) v) :
    ∀ n s, (lab s).length < n → s < N → (lab s).length ≤ d → lab s <:+ w → (∀ v, v < N → ∀ x, lab v = x ++ [c] → x <:+ w → x.length ≤ (lab s).length) →
      ∃ u, chase nodes c n s = some u ∧ IsLong N lab (w ++ [c]) u := by
  intro n
  induction n with
  | zero => intro s h; omega
  | succ n ih =>
    intro s hn hs hd hsw hmax
    have hbound : ∀ v, v < N → lab v <:+ w ++ [c] → lab v = [] ∨ ∃ x, lab v = x ++ [c] ∧ x <:+ w ∧ x.length ≤ (lab s).length := by
      intro v hv hvw
      rcases Nat.eq_zero_or_pos v with h0 | h0
      · subst h0; exact Or.inl t.root
      · obtain ⟨q, e, h1, h2⟩ := t.par v hv h0
        rw [h2] at hvw
        have he := suffix_snoc_last hvw
        subst he
        exact Or.inr ⟨lab q, h2, suffix_snoc hvw, hmax v hv _ h2 (suffix_snoc hvw)⟩
    unfold chase go
    rw [R.val s hs, Option.map_some, Option.bind_some]
    have hee : (wf g F s).e = (g s).e := rfl
    rw [hee]
    cases ha : assoc (g s).e c with
    | some v =>
      obtain ⟨v1, v2⟩ := t.assoc_some hs ha
      refine ⟨v, rfl, v1, by rw [v2]; exact snoc_suffix c hsw, fun x hx hxw => ?_⟩
      rcases hbound x hx hxw with h | ⟨y, y1, y2, y3⟩
      · rw [h]; exact Nat.zero_le _
      · rw [y1, v2, List.length_append, List.length_append]; omega
    | none =>
      have hno := t.assoc_none hs ha
      by_cases h0 : s = 0
      · subst h0
        have : goRes 0 (none : Option Nat) = some 0 := rfl
        rw [this]
        refine ⟨0, rfl, hs, by rw [t.root]; exact List.nil_suffix, fun x hx hxw => ?_⟩
        rcases hbound x hx hxw with h | ⟨y, y1, y2, y3⟩
        · rw [h]; exact Nat.zero_le _
        · exfalso
          rw [t.root, List.length_nil] at y3
          have hy : y = [] := List.eq_nil_of_length_eq_zero (by omega)
          exact hno x hx (by rw [y1, t.root, hy])
      · have : goRes s (none : Option Nat) = none := if_neg h0
        rw [this]
        obtain ⟨f, f1, f2, f3, f4⟩ := hF s hs h0 hd
        have hff : (wf g F s).fail = some f := f1
        have hne := t.ne_nil hs h0
        have hlen : (lab f).length < (lab s).length := by
          have := f3.length_le
          rw [List.length_tail] at this
          have : 0 < (lab s).length := List.length_pos_iff.2 hne
          omega
        dsimp only
        rw [Option.bind_some, hff, Option.bind_some]
        refine ih f (by omega) f2 (by omega) ((tail_suffix f3).trans hsw) (fun v hv x hx hxw => ?_)
        have h1 := hmax v hv x hx hxw
        have h2 : x <:+ lab s := suffix_of_len hxw hsw h1
        have h3 : x.length ≠ (lab s).length := fun h => hno v hv (by rw [hx, h2.eq_of_length h])
        obtain ⟨y, y1, y2⟩ := t.init hv hx
        have := f4 y y1 (by rw [y2]; exact suffix_tail h2 (by omega))
        rw [y2] at this
        exact this

/-! ### `build` -/

theorem setFail_ok {N : Nat} {g : Nat → Nd α} {F : Nat → Option Nat} {nodes : List (Nd α)} (R : Rep nodes N (wf g F)) {u : Nat} (hu : u < N) (f : Nat) :
    ∃ n1, setFail nodes u f = some n1 ∧ Rep n1 N (wf g (upd F u (some f))) := by
  obtain ⟨n1, w1, r1⟩ := R.wr hu { wf g F u with fail := some f }
  refine ⟨n1, ?_, r1.congr (fun i hi => ?_)⟩
  · unfold setFail
    rw [R.val u hu, Option.bind_some, w1]
  · unfold wf
    by_cases e : i = u
    · subst e; rw [upd_same, upd_same]
    · rw [upd_ne _ _ e, upd_ne _ _ e]

theorem rootLoop_ok {N : Nat} {g : Nat → Nd α} {lab : Nat → List α} (t : Tr N g lab) : ∀ (l : List (α × Nat)) (q : List Nat) {F : Nat → Option Nat} {nodes : List (Nd α)} (_ : Rep nodes N (wf g F)),
    (∀ p ∈ l, p.2 < N ∧ lab p.2 = [p.1]) →
    ∃ n1 F1, rootLoop l q nodes = some (q ++ l.map Prod.snd, n1) ∧ Rep n1 N (wf g F1) ∧ (∀ p ∈ l, OKF N lab (F1 p.2) p.2) ∧ (∀ x, x ∉ l.map Prod.snd → F1 x = F x) := by
  intro l
  induction l with
  | nil => intro q F nodes R _; exact ⟨nodes, F, by simp [rootLoop], R, by simp, by simp⟩
  | cons p l ih =>
    intro q F nodes R h
    obtain ⟨p1, p2⟩ := h p (List.mem_cons_self ..)
    obtain ⟨n1, w1, r1⟩ := setFail_ok R p1 0
    obtain ⟨n2, F2, w2, r2, k1, k2⟩ := ih (q ++ [p.2]) r1 (fun p' hp' => h p' (List.mem_cons_of_mem _ hp'))
    have hok : OKF N lab (some 0) p.2 := by
      refine ⟨0, rfl, t.pos, by rw [t.root]; exact List.nil_suffix, fun v hv hvw => ?_⟩
      rw [p2] at hvw
      rw [List.tail_cons, List.suffix_nil] at hvw
      rw [hvw]; exact Nat.zero_le _
    refine ⟨n2, F2, ?_, r2, ?_, ?_⟩
    · unfold rootLoop
      rw [w1, Option.bind_some, w2]
      simp
    · intro p' hp'
      rcases List.mem_cons.1 hp' with h1 | h1
      · subst h1
        by_cases hm : p'.2 ∈ l.map Prod.snd
        · obtain ⟨q', q1, q2⟩ := List.mem_map.1 hm
          rw [← q2]; exact k1 q' q1
        · rw [k2 _ hm, upd_same]; exact hok
      · exact k1 p' h1
    · intro x hx
      rw [List.map_cons, List.mem_cons] at hx
      rw [k2 x (fun h => hx (Or.inr h)), upd_ne _ _ (fun h => hx (Or.inl h))]

theorem kidLoop_ok {N : Nat} {g : Nat → Nd α} {lab : Nat → List α} (t : Tr N g lab) {h : Nat} (hh : h < N) (hh0 : h ≠ 0) : ∀ (l : List (α × Nat)) (q : List Nat) {F : Nat → Option Nat} {nodes : List (Nd α)} (_ : Rep nodes N (wf g F)),
    (∀ v, v < N → v ≠ 0 → (lab v).length ≤ (lab h).length → OKF N lab (F v) v) → (∀ p ∈ l, p.2 < N ∧ lab p.2 = lab h ++ [p.1]) →
    ∃ n1 F1, kidLoop h l q nodes = some (q ++ l.map Prod.snd, n1) ∧ Rep n1 N (wf g F1) ∧ (∀ p ∈ l, OKF N lab (F1 p.2) p.2) ∧ (∀ x, x ∉ l.map Prod.snd → F1 x = F x) := by
  intro l
  induction l with
  | nil => intro q F nodes R _ _; exact ⟨nodes, F, by simp [kidLoop], R, by simp, by simp⟩
  | cons p l ih =>
    intro q F nodes R hF hl
    obtain ⟨p1, p2⟩ := hl p (List.mem_cons_self ..)
    obtain ⟨f, f1, f2, f3, f4⟩ := hF h hh hh0 (Nat.le_refl _)
    have hne := t.ne_nil hh hh0
    have hlen : (lab f).length < (lab h).length := by
      have := f3.length_le
      rw [List.length_tail] at this
      have : 0 < (lab h).length := List.length_pos_iff.2 hne
      omega
    have hdep := t.depth f f2
    obtain ⟨u, u1, u2⟩ := chase_ok t R p.1 (lab h).tail (lab h).length hF N f (by omega) f2 (by omega) f3 (by
      intro v hv x hx hxw
      obtain ⟨y, y1, y2⟩ := t.init hv hx
      rw [← y2]
      exact f4 y y1 (by rw [y2]; exact hxw))
    have htl : (lab h).tail ++ [p.1] = (lab p.2).tail := by
      rw [p2, List.tail_append_of_ne_nil hne]
    rw [htl] at u2
    obtain ⟨n1, w1, r1⟩ := setFail_ok R p1 u
    have hpl : (lab p.2).length = (lab h).length + 1 := by rw [p2, List.length_append]; rfl
    obtain ⟨n2, F2, w2, r2, k1, k2⟩ := ih (q ++ [p.2]) r1 (fun v hv h0 hd => by
      rw [upd_ne _ _ (by rintro rfl; omega)]; exact hF v hv h0 hd) (fun p' hp' => hl p' (List.mem_cons_of_mem _ hp'))
    refine ⟨n2, F2, ?_, r2, ?_, ?_⟩
    · unfold kidLoop
      rw [R.val h hh, Option.bind_some]
      have hff : (wf g F h).fail = some f := f1
      rw [hff, Option.bind_some, R.len, u1, Option.bind_some, w1, Option.bind_some, w2]
      simp
    · intro p' hp'
      rcases List.mem_cons.1 hp' with h1 | h1
      · subst h1
        by_cases hm : p'.2 ∈ l.map Prod.snd
        · obtain ⟨q', q1, q2⟩ := List.mem_map.1 hm
          rw [← q2]; exact k1 q' q1
        · rw [k2 _ hm, upd_same]; exact ⟨u, rfl, u2⟩
      · exact k1 p' h1
    · intro x hx
      rw [List.map_cons, List.mem_cons] at hx
      rw [k2 x (fun h => hx (Or.inr h)), upd_ne _ _ (fun h => hx (Or.inl h))]

/-- Invariant of the search: `D` are the visited nodes, `Q` the queue. -/
structure BI (N : Nat) (lab : Nat → List α) (F : Nat → Option Nat) (D Q : List Nat) : Prop where
  nodup : (D ++ Q).Nodup
  lt : ∀ v ∈ D ++ Q, v < N ∧ v ≠ 0
  ok : ∀ v ∈ D ++ Q, OKF N lab (F v) v
  kids : ∀ v, v < N → ∀ q c, q < N → lab v = lab q ++ [c] → q = 0 ∨ q ∈ D → v ∈ D ++ Q
  pars : ∀ v ∈ D ++ Q, ∀ q c, q < N → lab v = lab q ++ [c] → q = 0 ∨ q ∈ D
  sorted : Q.Pairwise (fun a b => (lab a).length ≤ (lab b).length)
  close : ∀ a ∈ Q, ∀ b ∈ Q, (lab b).length ≤ (lab a).length + 1

theorem BI.before {N : Nat} {g : Nat → Nd α} {lab : Nat → List α} (t : Tr N g lab) {F : Nat → Option Nat} {D Q : List Nat} {h : Nat} (B : BI N lab F D (h :: Q)) :
    ∀ v, v < N → v ≠ 0 → (lab v).length ≤ (lab h).length → v ∈ D ++ (h :: Q) := by
  intro v
  induction v using Nat.strongRecOn with
  | ind v ih =>
    intro hv h0 hl
    obtain ⟨q, c, h1, h2⟩ := t.par v hv (by omega)
    have hlen : (lab v).length = (lab q).length + 1 := by rw [h2, List.length_append]; rfl
    apply B.kids v hv q c (by omega) h2
    by_cases hq : q = 0
    · exact Or.inl hq
    · right
      rcases List.mem_append.1 (ih q h1 (by omega) hq (by omega)) with hm | hm
      · exact hm
      · exfalso
        rcases List.mem_cons.1 hm with e | e
        · subst e; omega
        · have := (List.pairwise_cons.1 B.sorted).1 q e
          omega

/-- With an empty queue all nodes have been visited. -/
theorem BI.all {N : Nat} {g : Nat → Nd α} {lab : Nat → List α} (t : Tr N g lab) {F : Nat → Option Nat} {D : List Nat} (B : BI N lab F D []) : ∀ v, v < N → v ≠ 0 → v ∈ D ++ [] := by
  intro v
  induction v using Nat.strongRecOn with
  | ind v ih =>
    intro hv h0
    obtain ⟨q, c, h1, h2⟩ := t.par v hv (by omega)
    apply B.kids v hv q c (by omega) h2
    by_cases hq : q = 0
    · exact Or.inl hq
    · exact Or.inr (by simpa using ih q h1 (by omega) hq)

theorem map_snd_nodup {l : List (α × Nat)} (hn : l.Nodup) {lab : Nat → List α} {b : List α} (h : ∀ p ∈ l, lab p.2 = b ++ [p.1]) : (l.map Prod.snd).Nodup := by
  induction l with
  | nil => simp
  | cons p l ih =>
    rw [List.nodup_cons] at hn
    rw [List.map_cons, List.nodup_cons]
    refine ⟨fun hm => ?_, ih hn.2 (fun p' hp' => h p' (List.mem_cons_of_mem _ hp'))⟩
    obtain ⟨q, q1, q2⟩ := List.mem_map.1 hm
    have e1 := h p (List.mem_cons_self ..)
    have e2 := h q (List.mem_cons_of_mem _ q1)
    rw [q2, e1] at e2
    have e3 := (List.cons.inj (List.append_cancel_left e2)).1
    exact hn.1 (by rw [show p = q from Prod.ext e3 q2.symm]; exact q1)

theorem pairwise_of_mem {r : Nat → Nat → Prop} : ∀ {l : List Nat}, (∀ a ∈ l, ∀ b ∈ l, r a b) → l.Pairwise r := by
  intro l
  induction l with
  | nil => intro _; exact List.Pairwise.nil
  | cons a l ih =>
    intro h
    rw [List.pairwise_cons]
    exact ⟨fun b hb => h a (List.mem_cons_self ..) b (List.mem_cons_of_mem _ hb), ih (fun x hx y hy => h x (List.mem_cons_of_mem _ hx) y (List.mem_cons_of_mem _ hy))⟩

/-- One round. -/
theorem BI.step {N : Nat} {g : Nat → Nd α} {lab : Nat → List α} (t : Tr N g lab) {F F1 : Nat → Option Nat} {D Q : List Nat} {h : Nat} (B : BI N lab F D (h :: Q)) {l : List (α × Nat)} (hl : l.Perm (g h).e)
    (k1 : ∀ p ∈ l, OKF N lab (F1 p.2) p.2) (k2 : ∀ x, x ∉ l.map Prod.snd → F1 x = F x) : BI N lab F1 (D ++ [h]) (Q ++ l.map Prod.snd) := by
  have hhm : h ∈ D ++ (h :: Q) := List.mem_append_right _ (List.mem_cons_self ..)
  obtain ⟨hh, hh0⟩ := B.lt h hhm
  have hle : ∀ p ∈ l, p.2 < N ∧ lab p.2 = lab h ++ [p.1] := fun p hp => (t.edge h hh p.1 p.2).1 (hl.mem_iff.1 hp)
  have hhD : h ∉ D := by
    intro hm
    have := List.nodup_append.1 B.nodup
    exact this.2.2 h hm h (List.mem_cons_self ..) rfl
  have hnew : ∀ x ∈ l.map Prod.snd, x ∉ D ++ (h :: Q) := by
    intro x hx hm
    obtain ⟨p, p1, p2⟩ := List.mem_map.1 hx
    subst p2
    rcases B.pars p.2 hm h p.1 hh (hle p p1).2 with h1 | h1
    · exact hh0 h1
    · exact hhD h1
  have hmem : ∀ x, x ∈ (D ++ [h]) ++ (Q ++ l.map Prod.snd) ↔ x ∈ D ++ (h :: Q) ∨ x ∈ l.map Prod.snd := by
    intro x
    simp only [List.mem_append, List.mem_cons, List.not_mem_nil, or_false]
    tauto
  have hnd : (l.map Prod.snd).Nodup := map_snd_nodup (hl.nodup_iff.2 (t.nd h hh)) (fun p hp => (hle p hp).2)
  have hlen : ∀ x ∈ l.map Prod.snd, (lab x).length = (lab h).length + 1 := by
    intro x hx
    obtain ⟨p, p1, p2⟩ := List.mem_map.1 hx
    subst p2
    rw [(hle p p1).2, List.length_append]; rfl
  have hQ : ∀ x ∈ Q, (lab h).length ≤ (lab x).length ∧ (lab x).length ≤ (lab h).length + 1 :=
    fun x hx => ⟨(List.pairwise_cons.1 B.sorted).1 x hx, B.close h (List.mem_cons_self ..) x (List.mem_cons_of_mem _ hx)⟩
  refine ⟨?_, ?_, ?_, ?_, ?_, ?_, ?_⟩
  · rw [show (D ++ [h]) ++ (Q ++ l.map Prod.snd) = (D ++ (h :: Q)) ++ l.map Prod.snd by simp, List.nodup_append]
    exact ⟨B.nodup, hnd, fun a ha b hb e => hnew b hb (e ▸ ha)⟩
  · intro v hv
    rcases (hmem v).1 hv with h1 | h1
    · exact B.lt v h1
    · obtain ⟨p, p1, p2⟩ := List.mem_map.1 h1
      refine ⟨p2 ▸ (hle p p1).1, ?_⟩
      intro h0
      have := hlen v h1
      rw [h0, t.root] at this
      simp at this
  · intro v hv
    rcases (hmem v).1 hv with h1 | h1
    · rw [k2 v (fun h2 => hnew v h2 h1)]; exact B.ok v h1
    · obtain ⟨p, p1, p2⟩ := List.mem_map.1 h1
      rw [← p2]; exact k1 p p1
  · intro v hv q c hq hlab hqd
    rw [hmem]
    by_cases e : q = h
    · right
      subst e
      exact List.mem_map.2 ⟨(c, v), hl.mem_iff.2 ((t.edge q hq c v).2 ⟨hv, hlab⟩), rfl⟩
    · left
      apply B.kids v hv q c hq hlab
      rcases hqd with h1 | h1
      · exact Or.inl h1
      · rcases List.mem_append.1 h1 with h2 | h2
        · exact Or.inr h2
        · exact absurd (List.mem_singleton.1 h2) e
  · intro v hv q c hq hlab
    rcases (hmem v).1 hv with h1 | h1
    · rcases B.pars v h1 q c hq hlab with h2 | h2
      · exact Or.inl h2
      · exact Or.inr (List.mem_append_left _ h2)
    · obtain ⟨p, p1, p2⟩ := List.mem_map.1 h1
      right
      have e1 := (hle p p1).2
      rw [p2, hlab] at e1
      have : q = h := t.inj q h hq hh (List.append_inj_left' e1 rfl)
      rw [this]
      exact List.mem_append_right _ (List.mem_singleton_self _)
  · rw [List.pairwise_append]
    refine ⟨(List.pairwise_cons.1 B.sorted).2, ?_, fun a ha b hb => ?_⟩
    · exact pairwise_of_mem (fun a ha b hb => Nat.le_of_eq (by rw [hlen a ha, hlen b hb]))
    · rw [hlen b hb]; exact (hQ a ha).2
  · intro a ha b hb
    rcases List.mem_append.1 ha with h1 | h1
    · rcases List.mem_append.1 hb with h2 | h2
      · exact B.close a (List.mem_cons_of_mem _ h1) b (List.mem_cons_of_mem _ h2)
      · rw [hlen b h2]; have := (hQ a h1).1; omega
    · rw [hlen a h1]
      rcases List.mem_append.1 hb with h2 | h2
      · have := (hQ b h2).2; omega
      · rw [hlen b h2]; omega

theorem nodup_len {N : Nat} {l : List Nat} (hn : l.Nodup) (h : ∀ v ∈ l, v < N) : l.length ≤ N := by
  have : List.Subperm l (List.range N) := List.subperm_of_subset hn (fun v hv => List.mem_range.2 (h v hv))
  have := this.length_le
  rwa [List.length_range] at this

theorem bfs_ok {N : Nat} {g : Nat → Nd α} {lab : Nat → List α} (t : Tr N g lab) {ord : List (α × Nat) → List (α × Nat)} (hord : ∀ l, (ord l).Perm l) :
    ∀ n (D Q : List Nat) {F : Nat → Option Nat} {nodes : List (Nd α)} (_ : Rep nodes N (wf g F)) (_ : BI N lab F D Q), N ≤ n + D.length →
      ∃ n1 F1, bfs ord n Q nodes = some n1 ∧ Rep n1 N (wf g F1) ∧ ∀ v, v < N → v ≠ 0 → OKF N lab (F1 v) v := by
  intro n
  induction n with
  | zero =>
    intro D Q F nodes R B hn
    cases Q with
    | nil => exact ⟨nodes, F, rfl, R, by
        exact fun v hv h0 => B.ok v (B.all t v hv h0)⟩
    | cons h Q =>
      exfalso
      have := nodup_len B.nodup (fun v hv => (B.lt v hv).1)
      rw [List.length_append, List.length_cons] at this
      omega
  | succ n ih =>
    intro D Q F nodes R B hn
    cases Q with
    | nil => exact ⟨nodes, F, rfl, R, by
        exact fun v hv h0 => B.ok v (B.all t v hv h0)⟩
    | cons h Q =>
      obtain ⟨hh, hh0⟩ := B.lt h (List.mem_append_right _ (List.mem_cons_self ..))
      obtain ⟨n1, F1, w1, r1, k1, k2⟩ := kidLoop_ok t hh hh0 (ord (g h).e) Q R (fun v hv h0 hd => B.ok v (B.before t v hv h0 hd))
        (fun p hp => (t.edge h hh p.1 p.2).1 ((hord _).mem_iff.1 hp))
      obtain ⟨n2, F2, w2, r2, k3⟩ := ih (D ++ [h]) (Q ++ (ord (g h).e).map Prod.snd) r1 (B.step t (hord _) k1 k2) (by rw [List.length_append, List.length_singleton]; omega)
      refine ⟨n2, F2, ?_, r2, k3⟩
      unfold bfs
      rw [R.val h hh, Option.bind_some]
      have hee : (wf g F h).e = (g h).e := rfl
      rw [hee, w1, Option.bind_some, w2]

/-- After `build` every link points to the longest proper suffix in the trie. -/
theorem build_ok {s : Ac α T} {N : Nat} {g : Nat → Nd α} {lab : Nat → List α} (R : Rep s.nodes N g) (t : Tr N g lab) {ord : List (α × Nat) → List (α × Nat)} (hord : ∀ l, (ord l).Perm l) :
    ∃ n1 F1, build ord s = some ⟨s.cont, n1⟩ ∧ Rep n1 N (wf g F1) ∧ ∀ v, v < N → v ≠ 0 → OKF N lab (F1 v) v := by
  have R0 : Rep s.nodes N (wf g (fun v => (g v).fail)) := R.congr (fun i hi => rfl)
  have hle : ∀ p ∈ ord (g 0).e, p.2 < N ∧ lab p.2 = [] ++ [p.1] := fun p hp => by
    have := (t.edge 0 t.pos p.1 p.2).1 ((hord _).mem_iff.1 hp)
    rwa [t.root] at this
  obtain ⟨n1, F1, w1, r1, k1, k2⟩ := rootLoop_ok t (ord (g 0).e) [] R0 (fun p hp => by simpa using hle p hp)
  have hlen : ∀ x ∈ (ord (g 0).e).map Prod.snd, (lab x).length = 1 := by
    intro x hx
    obtain ⟨p, p1, p2⟩ := List.mem_map.1 hx
    subst p2
    rw [(hle p p1).2]; rfl
  have B : BI N lab F1 [] ((ord (g 0).e).map Prod.snd) := by
    refine ⟨?_, ?_, ?_, ?_, ?_, ?_, ?_⟩
    · exact map_snd_nodup ((hord _).nodup_iff.2 (t.nd 0 t.pos)) (fun p hp => (hle p hp).2)
    · intro v hv
      obtain ⟨p, p1, p2⟩ := List.mem_map.1 hv
      refine ⟨p2 ▸ (hle p p1).1, fun h0 => ?_⟩
      have := hlen v hv
      rw [h0, t.root] at this
      simp at this
    · intro v hv
      obtain ⟨p, p1, p2⟩ := List.mem_map.1 hv
      rw [← p2]; exact k1 p p1
    · rintro v hv q c hq hlab (h | h)
      · subst h
        exact List.mem_map.2 ⟨(c, v), (hord _).mem_iff.2 ((t.edge 0 hq c v).2 ⟨hv, hlab⟩), rfl⟩
      · cases h
    · intro v hv q c hq hlab
      left
      have := hlen v hv
      rw [hlab, List.length_append, List.length_singleton] at this
      exact t.inj q 0 hq t.pos (by rw [t.root]; exact List.eq_nil_of_length_eq_zero (by omega))
    · exact pairwise_of_mem (fun a ha b hb => Nat.le_of_eq (by rw [hlen a ha, hlen b hb]))
    · intro a ha b hb
      rw [hlen a ha, hlen b hb]; omega
  obtain ⟨n2, F2, w2, r2, k3⟩ := bfs_ok t hord N [] _ r1 B (by simp)
  refine ⟨n2, F2, ?_, r2, k3⟩
  unfold build
  rw [R.val 0 t.pos, Option.bind_some, w1, Option.bind_some, R.len]
  dsimp only
  rw [List.nil_append, w2]; rfl

end Verif.AcMachine
