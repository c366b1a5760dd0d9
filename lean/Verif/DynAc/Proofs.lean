import Verif.DynAc.Model
import Verif.AcMachine.Search
import Mathlib.Tactic.Ring
/-!
Invariants of the dynamic machine.  `b` stands for the assumption under which the links are the longest proper suffixes; without it they are only proper suffixes.
-/
namespace Verif.DynAc
open Verif.AcMachine

variable {α T : Type} [DecidableEq α]

/-- Nodes below `M` have links to proper suffixes; the sets hold only nodes of which the label is a proper suffix. -/
structure SI (b : Prop) (N M : Nat) (g : Nat → Nd α) (lab : Nat → List α) (st : St α) (F : Nat → Option Nat) (I : Nat → List Nat) : Prop where
  rep : Rep st.1 N (wf g F)
  rip : Rep st.2 N I
  link : ∀ v, v < M → v ≠ 0 → ∃ f, F v = some f ∧ f < N ∧ lab f <:+ (lab v).tail ∧ (b → IsLong N lab (lab v).tail f)
  mem : ∀ v, v < N → (I v).Nodup ∧ ∀ x ∈ I v, x < M ∧ x ≠ 0 ∧ lab v <:+ (lab x).tail ∧ (b → F x = some v)

theorem IsLong.uniq {N : Nat} {g : Nat → Nd α} {lab : Nat → List α} (t : Tr N g lab) {w : List α} {x y : Nat} (hx : IsLong N lab w x) (hy : IsLong N lab w y) : x = y := by
  apply t.inj x y hx.1 hy.1
  have h1 := hx.2.2 y hy.1 hy.2.1
  have h2 := hy.2.2 x hx.1 hx.2.1
  exact (suffix_of_len hx.2.1 hy.2.1 h2).eq_of_length (by omega)

theorem mem_setIns {l : List Nat} {x y : Nat} : y ∈ setIns l x ↔ y ∈ l ∨ y = x := by
  unfold setIns
  split
  · constructor
    · exact Or.inl
    · rintro (h | h)
      · exact h
      · rw [h]; assumption
  · rw [List.mem_append, List.mem_singleton]

theorem nodup_setIns {l : List Nat} {x : Nat} (h : l.Nodup) : (setIns l x).Nodup := by
  unfold setIns
  split
  · exact h
  · rw [List.nodup_append]
    refine ⟨h, by simp, ?_⟩
    rintro a ha b hb rfl
    rw [List.mem_singleton] at hb
    subst hb
    contradiction

theorem setFailD_ok {b : Prop} {N M : Nat} {g : Nat → Nd α} {lab : Nat → List α} (t : Tr N g lab) {st : St α} {F : Nat → Option Nat} {I : Nat → List Nat} (S : SI b N M g lab st F I)
    {u f : Nat} (hu : u < N) (hu0 : u ≠ 0) (huM : u ≤ M) (hf : f < N) (h1 : lab f <:+ (lab u).tail) (h2 : b → IsLong N lab (lab u).tail f) :
    ∃ st' F' I', setFailD st u f = some st' ∧ SI b N (max M (u+1)) g lab st' F' I' := by
  obtain ⟨n1, w1, r1⟩ := setFail_ok S.rep hu f
  obtain ⟨i1, w2, r2⟩ := S.rip.wr hf (setIns (I f) u)
  refine ⟨(n1, i1), _, _, ?_, r1, r2, ?_, ?_⟩
  · unfold setFailD
    rw [w1, Option.bind_some, S.rip.val f hf, Option.bind_some, w2, Option.map_some]
  · intro v hv h0
    by_cases e : v = u
    · subst e
      exact ⟨f, upd_same _ _ _, hf, h1, h2⟩
    · obtain ⟨f', a1, a2⟩ := S.link v (by omega) h0
      exact ⟨f', by rw [upd_ne _ _ e, a1], a2⟩
  · have old : ∀ v, v < N → ∀ x ∈ I v, x < max M (u+1) ∧ x ≠ 0 ∧ lab v <:+ (lab x).tail ∧ (b → upd F u (some f) x = some v) := by
      intro v hv x hx
      obtain ⟨a1, a2, a3, a4⟩ := (S.mem v hv).2 x hx
      refine ⟨by omega, a2, a3, fun hb => ?_⟩
      by_cases e : x = u
      · subst e
        obtain ⟨f', c1, c2, c3, c4⟩ := S.link x a1 a2
        have := IsLong.uniq t (c4 hb) (h2 hb)
        rw [upd_same, ← this, ← c1, a4 hb]
      · rw [upd_ne _ _ e, a4 hb]
    intro v hv
    by_cases e : v = f
    · subst e
      rw [upd_same]
      refine ⟨nodup_setIns (S.mem v hv).1, fun x hx => ?_⟩
      rcases mem_setIns.1 hx with h | h
      · exact old v hv x h
      · subst h
        exact ⟨by omega, hu0, h1, fun _ => upd_same _ _ _⟩
    · rw [upd_ne _ _ e]
      exact ⟨(S.mem v hv).1, old v hv⟩

/-- The loop along the links finds a suffix of `w c`. -/
theorem chase_weak {N : Nat} {g : Nat → Nd α} {lab : Nat → List α} (t : Tr N g lab) {F : Nat → Option Nat} {nodes : List (Nd α)} (R : Rep nodes N (wf g F)) (c : α) (w : List α) (d : Nat)
    (hF : ∀ v, v < N → v ≠ 0 → (lab v).length ≤ d → ∃ f, F v = some f ∧ f < N ∧ lab f <:+ (lab v).tail) :
    ∀ n s, (lab s).length < n → s < N → (lab s).length ≤ d → lab s <:+ w → ∃ u, chase nodes c n s = some u ∧ u < N ∧ lab u <:+ w ++ [c] := by
  intro n
  induction n with
  | zero => intro s h; omega
  | succ n ih =>
    intro s hn hs hd hsw
    unfold chase go
    rw [R.val s hs, Option.map_some, Option.bind_some]
    have hee : (wf g F s).e = (g s).e := rfl
    rw [hee]
    cases ha : assoc (g s).e c with
    | some v =>
      obtain ⟨v1, v2⟩ := t.assoc_some hs ha
      exact ⟨v, rfl, v1, by rw [v2]; exact snoc_suffix c hsw⟩
    | none =>
      by_cases h0 : s = 0
      · subst h0
        have : goRes 0 (none : Option Nat) = some 0 := rfl
        rw [this]
        exact ⟨0, rfl, hs, by rw [t.root]; exact List.nil_suffix⟩
      · have : goRes s (none : Option Nat) = none := if_neg h0
        rw [this]
        obtain ⟨f, f1, f2, f3⟩ := hF s hs h0 hd
        have hff : (wf g F s).fail = some f := f1
        have hlen : (lab f).length < (lab s).length := by
          have := f3.length_le
          rw [List.length_tail] at this
          have : 0 < (lab s).length := List.length_pos_iff.2 (t.ne_nil hs h0)
          omega
        dsimp only
        rw [Option.bind_some, hff, Option.bind_some]
        exact ih f (by omega) f2 (by omega) ((tail_suffix f3).trans hsw)

/-- Adding a letter to the longest suffix. -/
theorem IsLong.snoc {N : Nat} {g : Nat → Nd α} {lab : Nat → List α} (t : Tr N g lab) {w : List α} {u u' : Nat} {c : α} (h : IsLong N lab w u) (hu' : u' < N) (hl : lab u' = lab u ++ [c]) : IsLong N lab (w ++ [c]) u' := by
  refine ⟨hu', by rw [hl]; exact snoc_suffix c h.2.1, fun v hv hvs => ?_⟩
  rcases Nat.eq_zero_or_pos v with h0 | h0
  · subst h0; rw [t.root]; exact Nat.zero_le _
  · obtain ⟨q, e, h1, h2⟩ := t.par v hv h0
    rw [h2] at hvs ⊢
    have he := suffix_snoc_last hvs
    subst he
    have := h.2.2 q (by omega) (suffix_snoc hvs)
    rw [hl, List.length_append, List.length_append]
    omega

theorem tail_snoc {l : List α} (h : l ≠ []) (c : α) : (l ++ [c]).tail = l.tail ++ [c] := by
  cases l with
  | nil => exact absurd rfl h
  | cons a l => rfl

/-! ### The links of the new nodes -/

theorem newFail_ok {b : Prop} {N M d : Nat} {g : Nat → Nd α} {lab : Nat → List α} (t : Tr N g lab) {key : List α} {s : List Nat} {k : Nat}
    (hs : ∀ i, i < key.length → ∃ x, s[i]? = some x ∧ x < N ∧ lab x = key.take (i+1)) (hsk : s[k]? = some M) (hk : k < key.length) (hM : M ≠ 0)
    (hsmall : ∀ v, v < N → (lab v).length ≤ k → v < M) {st : St α} {F : Nat → Option Nat} {I : Nat → List Nat} (S : SI b N M g lab st F I) (hd : d ≤ k) :
    ∃ st' F' I', newFail key s k st = some st' ∧ SI b N (M+1) g lab st' F' I' := by
  obtain ⟨M', e', hMN, hlM⟩ := hs k hk
  rw [hsk] at e'
  have := Option.some.inj e'
  subst this
  have mx : max M (M+1) = M + 1 := by omega
  unfold newFail
  rw [hsk, Option.bind_some]
  by_cases h0 : k = 0
  · rw [if_pos h0]
    subst h0
    have hl1 : (lab M).tail = [] := by
      rw [hlM]
      cases key with
      | nil => simp at hk
      | cons a l => simp
    obtain ⟨st', F', I', h1, h2⟩ := setFailD_ok t S hMN hM (le_refl _) t.pos (by rw [t.root]; exact List.nil_suffix) (fun _ => by
      rw [hl1]
      exact ⟨t.pos, by rw [t.root], fun v _ hv => by rw [List.suffix_nil.1 hv]; exact Nat.zero_le _⟩)
    rw [mx] at h2
    exact ⟨st', F', I', h1, h2⟩
  · rw [if_neg h0]
    obtain ⟨q, q1, q2, q3⟩ := hs (k-1) (by omega)
    rw [show k - 1 + 1 = k by omega] at q3
    have hql : (lab q).length = k := by rw [q3, List.length_take]; omega
    have hq0 : q ≠ 0 := by
      rintro rfl
      rw [t.root, List.length_nil] at hql
      omega
    obtain ⟨f, f1, f2, f3, f4⟩ := S.link q (hsmall q q2 (by omega)) hq0
    have hc : key[k]? = some key[k] := List.getElem?_eq_getElem hk
    have hlM' : lab M = lab q ++ [key[k]] := by
      rw [hlM, q3, List.take_succ, hc]; rfl
    have hfl : (lab f).length < k := by
      have := f3.length_le
      rw [List.length_tail, hql] at this
      omega
    have hlen : (lab f).length < N := by
      have := t.depth f f2
      omega
    have hF : ∀ v, v < N → v ≠ 0 → (lab v).length ≤ k → ∃ f, F v = some f ∧ f < N ∧ lab f <:+ (lab v).tail ∧ (b → IsLong N lab (lab v).tail f) :=
      fun v hv hv0 hvl => S.link v (hsmall v hv hvl) hv0
    obtain ⟨u, u1, u2, u3⟩ := chase_weak t S.rep key[k] (lab q).tail k (fun v hv hv0 hvl => by
      obtain ⟨f, a1, a2, a3, _⟩ := hF v hv hv0 hvl
      exact ⟨f, a1, a2, a3⟩) N f hlen f2 (by omega) f3
    have hne : lab q ≠ [] := t.ne_nil q2 hq0
    obtain ⟨st', F', I', h1, h2⟩ := setFailD_ok t S hMN hM (le_refl _) u2 (by rw [hlM', tail_snoc hne]; exact u3) (fun hb => by
      rw [hlM', tail_snoc hne]
      have fl := f4 hb
      obtain ⟨u', e1, e2⟩ := chase_ok t S.rep key[k] (lab q).tail k (fun v hv hv0 hvl => by
        obtain ⟨f, a1, a2, a3, a4⟩ := hF v hv hv0 hvl
        exact ⟨f, a1, a4 hb⟩) N f hlen f2 (by omega) f3 (fun v hv x hx hxw => by
          obtain ⟨y, y1, y2⟩ := t.init hv hx
          rw [← y2]
          exact fl.2.2 y y1 (by rw [y2]; exact hxw))
      rw [u1] at e1
      have := Option.some.inj e1
      subst this
      exact e2)
    rw [mx] at h2
    refine ⟨st', F', I', ?_, h2⟩
    have hff : (wf g F q).fail = some f := f1
    rw [q1, Option.bind_some, S.rep.val q q2, Option.bind_some, hff, Option.bind_some, hc, Option.bind_some, S.rep.len, u1, Option.bind_some, h1]

theorem newFails_ok {b : Prop} {N : Nat} {g : Nat → Nd α} {lab : Nat → List α} (t : Tr N g lab) {key : List α} {s : List Nat}
    (hs : ∀ i, i < key.length → ∃ x, s[i]? = some x ∧ x < N ∧ lab x = key.take (i+1)) : ∀ n k M, k + n = key.length → M + n = N → M ≠ 0 → (∀ i, i < n → s[k+i]? = some (M+i)) →
      ∀ {st : St α} {F : Nat → Option Nat} {I : Nat → List Nat}, SI b N M g lab st F I → ∃ st' F' I', newFails key s n k st = some st' ∧ SI b N N g lab st' F' I' := by
  intro n
  induction n with
  | zero =>
    intro k M _ hM _ _ st F I S
    have : M = N := by omega
    subst this
    exact ⟨st, F, I, rfl, S⟩
  | succ n ih =>
    intro k M hk hM hM0 hsM st F I S
    have hsk := hsM 0 (by omega)
    obtain ⟨st1, F1, I1, h1, S1⟩ := newFail_ok (d := 0) t hs (k := k) (M := M) hsk (by omega) hM0 (fun v hv hl => by
      by_contra hc
      obtain ⟨i, hi⟩ : ∃ i, v = M + i := ⟨v - M, by omega⟩
      have e1 := hsM i (by omega)
      obtain ⟨x, x1, x2, x3⟩ := hs (k+i) (by omega)
      rw [e1] at x1
      have := Option.some.inj x1
      subst this
      rw [hi, x3, List.length_take] at hl
      omega) S (Nat.zero_le _)
    obtain ⟨st2, F2, I2, h2, S2⟩ := ih (k+1) (M+1) (by omega) (by omega) (by omega) (fun i hi => by
      have := hsM (i+1) (by omega)
      rwa [show k + (i+1) = k + 1 + i by omega, show M + (i+1) = M + 1 + i by omega] at this) S1
    exact ⟨st2, F2, I2, by unfold newFails; rw [h1, Option.bind_some, h2], S2⟩

/-! ### The update of older links -/

/-- What is known of an entry of the queue. -/
def Item (b : Prop) (N : Nat) (lab : Nat → List α) (key : List α) (s : List Nat) (v k : Nat) : Prop :=
  v < N ∧ v ≠ 0 ∧ (k < key.length → key.take k <:+ (lab v).tail ∧ (b → ∀ c x, key[k]? = some c → s[k]? = some x → IsLong N lab ((lab v).tail ++ [c]) x))

theorem follow_ok {b : Prop} {N : Nat} {g : Nat → Nd α} {lab : Nat → List α} (t : Tr N g lab) {key : List α} {s : List Nat}
    (hs : ∀ i, i < key.length → ∃ x, s[i]? = some x ∧ x < N ∧ lab x = key.take (i+1)) : ∀ n v k, k + n = key.length → Item b N lab key s v k →
      ∀ {st : St α} {F : Nat → Option Nat} {I : Nat → List Nat}, SI b N N g lab st F I →
        ∃ v' k' st' F' I', follow key s n v k st = some (v', k', st') ∧ SI b N N g lab st' F' I' ∧ (lab v).length ≤ (lab v').length ∧ k' ≤ key.length ∧ Item b N lab key s v' k' ∧
          ∀ c, key[k']? = some c → ∀ x, x < N → lab x ≠ lab v' ++ [c] := by
  intro n
  induction n with
  | zero =>
    intro v k hk hi st F I S
    refine ⟨v, k, st, F, I, rfl, S, le_refl _, by omega, hi, fun c hc => ?_⟩
    rw [List.getElem?_eq_none (by omega)] at hc
    cases hc
  | succ n ih =>
    intro v k hk hi st F I S
    obtain ⟨hv, hv0, hi⟩ := hi
    obtain ⟨i1, i2⟩ := hi (by omega)
    have hkl : k < key.length := by omega
    have hc : key[k]? = some key[k] := List.getElem?_eq_getElem hkl
    unfold follow go
    rw [hc, Option.bind_some, S.rep.val v hv, Option.map_some, Option.bind_some]
    have hee : (wf g F v).e = (g v).e := rfl
    rw [hee]
    cases ha : assoc (g v).e key[k] with
    | none =>
      have : goRes v (none : Option Nat) = none := if_neg hv0
      rw [this]
      refine ⟨v, k, st, F, I, rfl, S, le_refl _, by omega, ⟨hv, hv0, fun _ => ⟨i1, i2⟩⟩, fun c hc' => ?_⟩
      rw [hc] at hc'
      have := Option.some.inj hc'
      subst this
      exact t.assoc_none hv ha
    | some next =>
      obtain ⟨v1, v2⟩ := t.assoc_some hv ha
      have hn0 : next ≠ 0 := by
        rintro rfl
        rw [t.root] at v2
        simp at v2
      obtain ⟨f, f1, f2, f3, f4⟩ := S.link next v1 hn0
      obtain ⟨x, x1, x2, x3⟩ := hs k hkl
      have hne : lab v ≠ [] := t.ne_nil hv hv0
      have htk : key.take (k+1) = key.take k ++ [key[k]] := by
        rw [List.take_succ, hc]; rfl
      have ht : (lab next).tail = (lab v).tail ++ [key[k]] := by rw [v2, tail_snoc hne]
      have hsuf : lab x <:+ (lab next).tail := by
        rw [ht, x3, htk]
        exact snoc_suffix _ i1
      obtain ⟨st1, F1, I1, h1, S1⟩ := setFailD_ok t S v1 hn0 (by omega) x2 hsuf (fun hb => by
        rw [ht]; exact i2 hb _ _ hc x1)
      rw [show max N (next+1) = N by omega] at S1
      obtain ⟨v', k', st', F', I', a1, a2, a3, a4, a5, a6⟩ := ih next (k+1) (by omega) ⟨v1, hn0, fun hk1 => ⟨by rw [← x3]; exact hsuf, fun hb c y hc' hy => by
        obtain ⟨y', y1, y2, y3⟩ := hs (k+1) hk1
        rw [hy] at y1
        have := Option.some.inj y1
        subst this
        have hx : IsLong N lab (lab next).tail x := by rw [ht]; exact i2 hb _ _ hc x1
        exact IsLong.snoc t hx y2 (by rw [y3, x3, List.take_succ, hc']; rfl)⟩⟩ S1
      refine ⟨v', k', st', F', I', ?_, a2, ?_, a4, a5, a6⟩
      · have : goRes v (some next) = some next := rfl
        rw [this]
        dsimp only
        rw [S.rep.val next v1, Option.bind_some]
        have hff : (wf g F next).fail = some f := f1
        rw [hff]
        dsimp only
        rw [S.rep.val f f2, Option.map_some, Option.bind_some, x1, Option.bind_some, h1, Option.bind_some, a1]
      · rw [v2, List.length_append] at a3
        omega

/-- The entries pushed for a node. -/
theorem push_item {b : Prop} {N : Nat} {g : Nat → Nd α} {lab : Nat → List α} (t : Tr N g lab) {key : List α} {s : List Nat} {v k : Nat}
    (hs : ∀ i, i < key.length → ∃ x, s[i]? = some x ∧ x < N ∧ lab x = key.take (i+1)) (hi : Item b N lab key s v k) (hk : k < key.length)
    (hno : ∀ c, key[k]? = some c → ∀ x, x < N → lab x ≠ lab v ++ [c]) {x : Nat} (hx : x < N) (hx0 : x ≠ 0) (hvx : lab v <:+ (lab x).tail) (hl : b → IsLong N lab (lab x).tail v) : Item b N lab key s x k := by
  obtain ⟨hv, hv0, hi⟩ := hi
  obtain ⟨i1, i2⟩ := hi hk
  refine ⟨hx, hx0, fun _ => ⟨(tail_suffix i1).trans hvx, fun hb c y hc hy => ?_⟩⟩
  have hL := i2 hb c y hc hy
  refine ⟨hL.1, ?_, fun z hz hzs => ?_⟩
  · refine hL.2.1.trans (snoc_suffix c ?_)
    exact (List.tail_suffix _).trans hvx
  · rcases Nat.eq_zero_or_pos z with h0 | h0
    · subst h0; rw [t.root]; exact Nat.zero_le _
    · obtain ⟨q, e, h1, h2⟩ := t.par z hz h0
      have hzs' := hzs
      rw [h2] at hzs'
      have he := suffix_snoc_last hzs'
      subst he
      have hq1 := suffix_snoc hzs'
      have hq2 := (hl hb).2.2 q (by omega) hq1
      have hq3 := suffix_of_len hq1 hvx hq2
      have hq4 : (lab q).length ≠ (lab v).length := fun h => hno e hc z hz (by rw [h2, hq3.eq_of_length h])
      have hq5 := suffix_tail hq3 (by omega)
      exact hL.2.2 z hz (by rw [h2]; exact snoc_suffix e hq5)

/-- The weight of a queue. -/
def weight (N : Nat) (lab : Nat → List α) (qs : List (Nat × Nat)) : Nat := (qs.map (fun q => (N+1)^(N - (lab q.1).length))).sum

theorem weight_append (N : Nat) (lab : Nat → List α) (a b : List (Nat × Nat)) : weight N lab (a ++ b) = weight N lab a + weight N lab b := by
  unfold weight
  rw [List.map_append, List.sum_append]

theorem weight_le {N : Nat} {lab : Nat → List α} {W : Nat} : ∀ (l : List (Nat × Nat)), (∀ q ∈ l, (N+1)^(N - (lab q.1).length) ≤ W) → weight N lab l ≤ l.length * W := by
  intro l
  induction l with
  | nil => intro _; exact Nat.zero_le _
  | cons a l ih =>
    intro h
    have h1 := ih (fun q hq => h q (List.mem_cons_of_mem _ hq))
    have h2 := h a List.mem_cons_self
    unfold weight at h1 ⊢
    rw [List.map_cons, List.sum_cons, List.length_cons, Nat.add_mul, Nat.one_mul]
    omega

theorem update_ok {b : Prop} {N : Nat} {g : Nat → Nd α} {lab : Nat → List α} (t : Tr N g lab) {key : List α} {s : List Nat} {ord : List Nat → List Nat} (hord : ∀ l, (ord l).Perm l)
    (hs : ∀ i, i < key.length → ∃ x, s[i]? = some x ∧ x < N ∧ lab x = key.take (i+1)) : ∀ n qs, weight N lab qs ≤ n → (∀ q ∈ qs, q.2 ≤ key.length ∧ Item b N lab key s q.1 q.2) →
      ∀ {st : St α} {F : Nat → Option Nat} {I : Nat → List Nat}, SI b N N g lab st F I → ∃ st' F' I', update ord key s n qs st = some st' ∧ SI b N N g lab st' F' I' := by
  intro n
  induction n with
  | zero =>
    intro qs hw hq st F I S
    cases qs with
    | nil => exact ⟨st, F, I, rfl, S⟩
    | cons q qs =>
      exfalso
      unfold weight at hw
      rw [List.map_cons, List.sum_cons] at hw
      have : 0 < (N+1)^(N - (lab q.1).length) := Nat.pow_pos (by omega)
      omega
  | succ n ih =>
    intro qs hw hq st F I S
    cases qs with
    | nil => exact ⟨st, F, I, rfl, S⟩
    | cons q qs =>
      obtain ⟨q1, q2⟩ := hq q List.mem_cons_self
      have hrest := fun p (hp : p ∈ qs) => hq p (List.mem_cons_of_mem _ hp)
      obtain ⟨v', k', st', F', I', a1, a2, a3, a4, a5, a6⟩ := follow_ok t hs (key.length - q.2) q.1 q.2 (by omega) q2 S
      have hw' : (N+1)^(N - (lab q.1).length) + weight N lab qs ≤ n + 1 := by
        unfold weight at hw ⊢
        rwa [List.map_cons, List.sum_cons] at hw
      have hpos : 0 < (N+1)^(N - (lab q.1).length) := Nat.pow_pos (by omega)
      unfold update
      rw [a1, Option.bind_some]
      dsimp only
      by_cases hk : k' < key.length
      · rw [if_pos hk, a2.rip.val v' a5.1, Option.bind_some]
        obtain ⟨m1, m2⟩ := a2.mem v' a5.1
        have hql : (lab q.1).length < N := by
          have := t.depth q.1 q2.1
          have := q2.1
          omega
        have hlen : (ord (I' v')).length ≤ N := by
          rw [(hord _).length_eq]
          exact nodup_len m1 (fun x hx => (m2 x hx).1)
        have hwl := weight_le (N := N) (lab := lab) (W := (N+1)^(N - (lab q.1).length - 1)) ((ord (I' v')).map (fun x => (x, k'))) (by
          intro p hp
          obtain ⟨x, x1, rfl⟩ := List.mem_map.1 hp
          obtain ⟨c1, c2, c3, -⟩ := m2 x ((hord _).mem_iff.1 x1)
          have := c3.length_le
          rw [List.length_tail] at this
          have hx0 : 0 < (lab x).length := List.length_pos_iff.2 (t.ne_nil c1 c2)
          exact Nat.pow_le_pow_right (by omega) (by dsimp only; omega))
        rw [List.length_map] at hwl
        have hpw : (N+1)^(N - (lab q.1).length) = (N+1)^(N - (lab q.1).length - 1) * (N+1) := by
          rw [← Nat.pow_succ]
          congr 1
          omega
        have hp1 : 0 < (N+1)^(N - (lab q.1).length - 1) := Nat.pow_pos (by omega)
        have hmul : (ord (I' v')).length * (N+1)^(N - (lab q.1).length - 1) ≤ N * (N+1)^(N - (lab q.1).length - 1) := Nat.mul_le_mul_right _ hlen
        have hexp : (N+1)^(N - (lab q.1).length) = N * (N+1)^(N - (lab q.1).length - 1) + (N+1)^(N - (lab q.1).length - 1) := by
          rw [hpw]; ring
        exact ih _ (by rw [weight_append]; omega) (fun p hp => by
          rcases List.mem_append.1 hp with h | h
          · exact hrest p h
          · obtain ⟨x, x1, rfl⟩ := List.mem_map.1 h
            obtain ⟨c1, c2, c3, c4⟩ := m2 x ((hord _).mem_iff.1 x1)
            refine ⟨a4, push_item t hs a5 hk a6 c1 c2 c3 (fun hb => ?_)⟩
            obtain ⟨f, f1, -, -, f4⟩ := a2.link x c1 c2
            rw [c4 hb] at f1
            rw [Option.some.inj f1]
            exact f4 hb) a2
      · rw [if_neg hk]
        exact ih qs (by omega) hrest a2

end Verif.DynAc
