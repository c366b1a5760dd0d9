import Verif.DynAc.EraseProofs
import Verif.DynAc.Insert
/-!
Insertion into a machine from which keys may have been erased.
-/
namespace Verif.DynAc
open Verif.AcMachine

variable {α T : Type} [DecidableEq α]

theorem Lg.uniq {N : Nat} {g : Nat → Nd α} {lab : Nat → List α} {A : Nat → Prop} (t : Fo N g lab) (a : Al N g A) {w : List α} {x y : Nat} (hx : Lg A lab w x) (hy : Lg A lab w y) : x = y := by
  apply a.inj t _ x y rfl hx.1 hy.1
  have h1 := hx.2.2 y hy.1 hy.2.1
  have h2 := hy.2.2 x hx.1 hx.2.1
  exact (suffix_of_len hx.2.1 hy.2.1 h2).eq_of_length (by omega)

/-- The parent in the trie. -/
theorem Al.par {N : Nat} {g : Nat → Nd α} {lab : Nat → List α} {A : Nat → Prop} (t : Fo N g lab) (a : Al N g A) {v : Nat} (hv : A v) (h0 : v ≠ 0) : ∃ q c, A q ∧ (c, v) ∈ (g q).e ∧ lab v = lab q ++ [c] := by
  obtain ⟨q, c, h1, h2⟩ := a.up v hv h0
  exact ⟨q, c, h1, h2, (t.edge q (a.lt q h1) c v h2).2.2⟩

theorem Al.nochild {N : Nat} {g : Nat → Nd α} {lab : Nat → List α} {A : Nat → Prop} (t : Fo N g lab) (a : Al N g A) {u : Nat} (hu : A u) {c : α} (h : assoc (g u).e c = none) : ∀ z, A z → lab z ≠ lab u ++ [c] := by
  intro z hz e
  obtain ⟨w, z', w1, w2, w3⟩ := a.way t c (lab u) [] z hz e
  have := a.inj t _ w u rfl w1 hu w2
  subst this
  exact assoc_none _ _ h z' w3

theorem Lg.snoc {N : Nat} {g : Nat → Nd α} {lab : Nat → List α} {A : Nat → Prop} (t : Fo N g lab) (a : Al N g A) {w : List α} {u u' : Nat} {c : α} (h : Lg A lab w u) (hu' : A u') (hl : lab u' = lab u ++ [c]) : Lg A lab (w ++ [c]) u' := by
  refine ⟨hu', by rw [hl]; exact snoc_suffix c h.2.1, fun v hv hvs => ?_⟩
  by_cases h0 : v = 0
  · subst h0; rw [t.root]; exact Nat.zero_le _
  · obtain ⟨q, e, h1, -, h2⟩ := a.par t hv h0
    rw [h2] at hvs ⊢
    have he := suffix_snoc_last hvs
    subst he
    have := h.2.2 q h1 (suffix_snoc hvs)
    rw [hl, List.length_append, List.length_append]
    omega

/-- The loop along the links stays in the trie and finds a suffix. -/
theorem chase_al {N : Nat} {g : Nat → Nd α} {lab : Nat → List α} {A : Nat → Prop} (t : Fo N g lab) (a : Al N g A) {F : Nat → Option Nat} {nodes : List (Nd α)} (R : Rep nodes N (wf g F)) (c : α) (w : List α) (d : Nat)
    (hF : ∀ v, A v → v ≠ 0 → (lab v).length ≤ d → ∃ f, F v = some f ∧ A f ∧ lab f <:+ (lab v).tail) :
    ∀ n s, (lab s).length < n → A s → (lab s).length ≤ d → lab s <:+ w → ∃ u, chase nodes c n s = some u ∧ A u ∧ lab u <:+ w ++ [c] := by
  intro n
  induction n with
  | zero => intro s h; omega
  | succ n ih =>
    intro s hn hs hd hsw
    have hsN := a.lt s hs
    unfold chase go
    rw [R.val s hsN, Option.map_some, Option.bind_some]
    have hee : (wf g F s).e = (g s).e := rfl
    rw [hee]
    cases ha : assoc (g s).e c with
    | some v =>
      have hm := assoc_some _ _ _ ha
      exact ⟨v, rfl, a.down s hs c v hm, by rw [(t.edge s hsN c v hm).2.2]; exact snoc_suffix c hsw⟩
    | none =>
      by_cases h0 : s = 0
      · subst h0
        have : goRes 0 (none : Option Nat) = some 0 := rfl
        rw [this]
        exact ⟨0, rfl, hs, by rw [t.root]; exact List.nil_suffix⟩
      · have : goRes s (none : Option Nat) = none := if_neg h0
        rw [this]
        obtain ⟨f, f1, f2, f3⟩ := hF s hs h0 hd
        have hff : (wf g F s).fail = some f := f1
        have hlen := t.short hsN h0 f3
        dsimp only
        rw [Option.bind_some, hff, Option.bind_some]
        exact ih f (by omega) f2 (by omega) ((tail_suffix f3).trans hsw)

/-- With the right links it finds the longest one. -/
theorem chase_lg {N : Nat} {g : Nat → Nd α} {lab : Nat → List α} {A : Nat → Prop} (t : Fo N g lab) (a : Al N g A) {F : Nat → Option Nat} {nodes : List (Nd α)} (R : Rep nodes N (wf g F)) (c : α) (w : List α) (d : Nat)
    (hF : ∀ v, A v → v ≠ 0 → (lab v).length ≤ d → ∃ f, F v = some f ∧ Lg A lab (lab v).tail f) :
    ∀ n s, (lab s).length < n → A s → (lab s).length ≤ d → lab s <:+ w → (∀ v, A v → ∀ x, lab v = x ++ [c] → x <:+ w → x.length ≤ (lab s).length) →
      ∃ u, chase nodes c n s = some u ∧ Lg A lab (w ++ [c]) u := by
  intro n
  induction n with
  | zero => intro s h; omega
  | succ n ih =>
    intro s hn hs hd hsw hmax
    have hsN := a.lt s hs
    have hbound : ∀ v, A v → lab v <:+ w ++ [c] → lab v = [] ∨ ∃ x, lab v = x ++ [c] ∧ x <:+ w ∧ x.length ≤ (lab s).length := by
      intro v hv hvw
      by_cases h0 : v = 0
      · subst h0; exact Or.inl t.root
      · obtain ⟨q, e, h1, -, h2⟩ := a.par t hv h0
        rw [h2] at hvw
        have he := suffix_snoc_last hvw
        subst he
        exact Or.inr ⟨lab q, h2, suffix_snoc hvw, hmax v hv _ h2 (suffix_snoc hvw)⟩
    unfold chase go
    rw [R.val s hsN, Option.map_some, Option.bind_some]
    have hee : (wf g F s).e = (g s).e := rfl
    rw [hee]
    cases ha : assoc (g s).e c with
    | some v =>
      have hm := assoc_some _ _ _ ha
      have v2 := (t.edge s hsN c v hm).2.2
      refine ⟨v, rfl, a.down s hs c v hm, by rw [v2]; exact snoc_suffix c hsw, fun x hx hxw => ?_⟩
      rcases hbound x hx hxw with h | ⟨y, y1, y2, y3⟩
      · rw [h]; exact Nat.zero_le _
      · rw [y1, v2, List.length_append, List.length_append]; omega
    | none =>
      have hno := a.nochild t hs ha
      by_cases h0 : s = 0
      · subst h0
        have : goRes 0 (none : Option Nat) = some 0 := rfl
        rw [this]
        refine ⟨0, rfl, hs, by rw [t.root]; exact List.nil_suffix, fun x hx hxw => ?_⟩
        rcases hbound x hx hxw with h | ⟨y, y1, y2, y3⟩
        · rw [h]; exact Nat.zero_le _
        · exfalso
          rw [t.root, List.length_nil] at y3
          have hy : y = [] := List.eq_nil_of_length_eq_zero (by omega)
          exact hno x hx (by rw [y1, t.root, hy])
      · have : goRes s (none : Option Nat) = none := if_neg h0
        rw [this]
        obtain ⟨f, f1, f2, f3, f4⟩ := hF s hs h0 hd
        have hff : (wf g F s).fail = some f := f1
        have hlen := t.short hsN h0 f3
        dsimp only
        rw [Option.bind_some, hff, Option.bind_some]
        refine ih f (by omega) f2 (by omega) ((tail_suffix f3).trans hsw) (fun v hv x hx hxw => ?_)
        have h1 := hmax v hv x hx hxw
        have h2 : x <:+ lab s := suffix_of_len hxw hsw h1
        have h3 : x.length ≠ (lab s).length := fun h => hno v hv (by rw [hx, h2.eq_of_length h])
        have hv0 : v ≠ 0 := by
          rintro rfl
          rw [t.root] at hx
          simp at hx
        obtain ⟨q, e, q1, -, q2⟩ := a.par t hv hv0
        rw [hx] at q2
        have hq := (List.append_inj' q2 rfl).1
        have := f4 q q1 (by rw [← hq]; exact suffix_tail h2 (by omega))
        rw [← hq] at this
        exact this

/-! ### The links of the new nodes -/

theorem newFail_li {b : Prop} {N M : Nat} {A : Nat → Prop} {g : Nat → Nd α} {lab : Nat → List α} (t : Fo N g lab) (a : Al N g A) {key : List α} {s : List Nat} {k : Nat}
    (hs : ∀ i, i < key.length → ∃ x, s[i]? = some x ∧ A x ∧ lab x = key.take (i+1)) (hsk : s[k]? = some M) (hk : k < key.length) (hM : M ≠ 0)
    (hsmall : ∀ v, v < N → (lab v).length ≤ k → A v → v < M) {st : St α} {F : Nat → Option Nat} {I : Nat → List Nat} (S : Li b N M A NoP g lab st F I) :
    ∃ st' F' I', newFail key s k st = some st' ∧ Li b N (M+1) A NoP g lab st' F' I' := by
  obtain ⟨M', e', hMA, hlM⟩ := hs k hk
  rw [hsk] at e'
  have := Option.some.inj e'
  subst this
  have hMN := a.lt M hMA
  have mx : max M (M+1) = M + 1 := by omega
  have h5 : b → ∀ f w, w < N → A w → M ∈ I w → w = f := fun _ f w hw _ hm => by
    have := ((S.mem w hw).2 M hm).1
    omega
  unfold newFail
  rw [hsk, Option.bind_some]
  by_cases h0 : k = 0
  · rw [if_pos h0]
    subst h0
    have hl1 : (lab M).tail = [] := by
      rw [hlM]
      cases key with
      | nil => simp at hk
      | cons a l => simp
    obtain ⟨st', I', h1, h2⟩ := setFailD_li S hMN hM (le_refl _) t.pos (by rw [t.root]; exact List.nil_suffix) (fun _ => Or.inl a.root) (fun _ _ => by
      rw [hl1]
      exact Or.inr ⟨a.root, by rw [t.root], fun v _ hv => by rw [List.suffix_nil.1 hv]; exact Nat.zero_le _⟩) (fun _ _ => hMA) (fun hb w => h5 hb 0 w)
    rw [mx] at h2
    exact ⟨st', _, I', h1, h2⟩
  · rw [if_neg h0]
    obtain ⟨q, q1, q2, q3⟩ := hs (k-1) (by omega)
    rw [show k - 1 + 1 = k by omega] at q3
    have hqN := a.lt q q2
    have hql : (lab q).length = k := by rw [q3, List.length_take]; omega
    have hq0 : q ≠ 0 := by
      rintro rfl
      rw [t.root, List.length_nil] at hql
      omega
    obtain ⟨f, f1, f2, f3, f4, f5⟩ := S.link q (hsmall q hqN (by omega) q2) hq0
    have hAf : A f := (f4 q2).resolve_right id
    have hc : key[k]? = some key[k] := List.getElem?_eq_getElem hk
    have hlM' : lab M = lab q ++ [key[k]] := by
      rw [hlM, q3, List.take_succ, hc]; rfl
    have hfl : (lab f).length < k := by
      have := t.short hqN hq0 f3
      omega
    have hlen : (lab f).length < N := by
      have := t.dep f f2
      omega
    obtain ⟨u, u1, u2, u3⟩ := chase_al t a S.rep key[k] (lab q).tail k (fun v hv hv0 hvl => by
      obtain ⟨f, a1, a2, a3, a4, _⟩ := S.link v (hsmall v (a.lt v hv) hvl hv) hv0
      exact ⟨f, a1, (a4 hv).resolve_right id, a3⟩) N f hlen hAf (by omega) f3
    have hne : lab q ≠ [] := t.ne q hqN hq0
    obtain ⟨st', I', h1, h2⟩ := setFailD_li S hMN hM (le_refl _) (a.lt u u2) (by rw [hlM', tail_snoc hne]; exact u3) (fun _ => Or.inl u2) (fun hb _ => by
      rw [hlM', tail_snoc hne]
      have fl := (f5 hb q2).resolve_left id
      obtain ⟨u', e1, e2⟩ := chase_lg t a S.rep key[k] (lab q).tail k (fun v hv hv0 hvl => by
        obtain ⟨f, a1, a2, a3, a4, a5⟩ := S.link v (hsmall v (a.lt v hv) hvl hv) hv0
        exact ⟨f, a1, (a5 hb hv).resolve_left id⟩) N f hlen hAf (by omega) f3 (fun v hv x hx hxw => by
          have hv0 : v ≠ 0 := by
            rintro rfl
            rw [t.root] at hx
            simp at hx
          obtain ⟨y, e, y1, -, y2⟩ := a.par t hv hv0
          rw [hx] at y2
          have hy := (List.append_inj' y2 rfl).1
          rw [hy]
          exact fl.2.2 y y1 (by rw [← hy]; exact hxw))
      rw [u1] at e1
      have := Option.some.inj e1
      subst this
      exact Or.inr e2) (fun _ _ => hMA) (fun hb w => h5 hb u w)
    rw [mx] at h2
    refine ⟨st', _, I', ?_, h2⟩
    have hff : (wf g F q).fail = some f := f1
    rw [q1, Option.bind_some, S.rep.val q hqN, Option.bind_some, hff, Option.bind_some, hc, Option.bind_some, S.rep.len, u1, Option.bind_some, h1]

theorem newFails_li {b : Prop} {N : Nat} {A : Nat → Prop} {g : Nat → Nd α} {lab : Nat → List α} (t : Fo N g lab) (a : Al N g A) {key : List α} {s : List Nat}
    (hs : ∀ i, i < key.length → ∃ x, s[i]? = some x ∧ A x ∧ lab x = key.take (i+1)) : ∀ n k M, k + n = key.length → M + n = N → M ≠ 0 → (∀ i, i < n → s[k+i]? = some (M+i)) →
      ∀ {st : St α} {F : Nat → Option Nat} {I : Nat → List Nat}, Li b N M A NoP g lab st F I → ∃ st' F' I', newFails key s n k st = some st' ∧ Li b N N A NoP g lab st' F' I' := by
  intro n
  induction n with
  | zero =>
    intro k M _ hM _ _ st F I S
    have : M = N := by omega
    subst this
    exact ⟨st, F, I, rfl, S⟩
  | succ n ih =>
    intro k M hk hM hM0 hsM st F I S
    have hsk := hsM 0 (by omega)
    obtain ⟨st1, F1, I1, h1, S1⟩ := newFail_li t a hs (k := k) (M := M) hsk (by omega) hM0 (fun v hv hl _ => by
      by_contra hc
      obtain ⟨i, hi⟩ : ∃ i, v = M + i := ⟨v - M, by omega⟩
      have e1 := hsM i (by omega)
      obtain ⟨x, x1, x2, x3⟩ := hs (k+i) (by omega)
      rw [e1] at x1
      have := Option.some.inj x1
      subst this
      rw [hi, x3, List.length_take] at hl
      omega) S
    obtain ⟨st2, F2, I2, h2, S2⟩ := ih (k+1) (M+1) (by omega) (by omega) (by omega) (fun i hi => by
      have := hsM (i+1) (by omega)
      rwa [show k + (i+1) = k + 1 + i by omega, show M + (i+1) = M + 1 + i by omega] at this) S1
    exact ⟨st2, F2, I2, by unfold newFails; rw [h1, Option.bind_some, h2], S2⟩

/-! ### The update of older links -/

/-- What is known of an entry of the queue. -/
def ItemA (b : Prop) (N : Nat) (A : Nat → Prop) (lab : Nat → List α) (key : List α) (s : List Nat) (v k : Nat) : Prop :=
  v < N ∧ v ≠ 0 ∧ (b → A v) ∧ (k < key.length → key.take k <:+ (lab v).tail ∧ (b → ∀ c x, key[k]? = some c → s[k]? = some x → Lg A lab ((lab v).tail ++ [c]) x))

theorem follow_li {b : Prop} {N : Nat} {A : Nat → Prop} {g : Nat → Nd α} {lab : Nat → List α} (t : Fo N g lab) (a : Al N g A) {key : List α} {s : List Nat}
    (hs : ∀ i, i < key.length → ∃ x, s[i]? = some x ∧ A x ∧ lab x = key.take (i+1)) : ∀ n v k, k + n = key.length → ItemA b N A lab key s v k →
      ∀ {st : St α} {F : Nat → Option Nat} {I : Nat → List Nat}, Li b N N A NoP g lab st F I →
        ∃ v' k' st' F' I', follow key s n v k st = some (v', k', st') ∧ Li b N N A NoP g lab st' F' I' ∧ (lab v).length ≤ (lab v').length ∧ k' ≤ key.length ∧ ItemA b N A lab key s v' k' ∧
          (b → ∀ c, key[k']? = some c → ∀ x, A x → lab x ≠ lab v' ++ [c]) := by
  intro n
  induction n with
  | zero =>
    intro v k hk hi st F I S
    refine ⟨v, k, st, F, I, rfl, S, le_refl _, by omega, hi, fun _ c hc => ?_⟩
    rw [List.getElem?_eq_none (by omega)] at hc
    cases hc
  | succ n ih =>
    intro v k hk hi st F I S
    obtain ⟨hv, hv0, hvA, hi⟩ := hi
    obtain ⟨i1, i2⟩ := hi (by omega)
    have hkl : k < key.length := by omega
    have hc : key[k]? = some key[k] := List.getElem?_eq_getElem hkl
    unfold follow go
    rw [hc, Option.bind_some, S.rep.val v hv, Option.map_some, Option.bind_some]
    have hee : (wf g F v).e = (g v).e := rfl
    rw [hee]
    cases ha : assoc (g v).e key[k] with
    | none =>
      have : goRes v (none : Option Nat) = none := if_neg hv0
      rw [this]
      refine ⟨v, k, st, F, I, rfl, S, le_refl _, by omega, ⟨hv, hv0, hvA, fun _ => ⟨i1, i2⟩⟩, fun hb c hc' => ?_⟩
      rw [hc] at hc'
      have := Option.some.inj hc'
      subst this
      exact a.nochild t (hvA hb) ha
    | some next =>
      have hm := assoc_some _ _ _ ha
      obtain ⟨v1, hn0, v2⟩ := t.edge v hv _ _ hm
      have hnA : b → A next := fun hb => a.down v (hvA hb) _ _ hm
      obtain ⟨f, f1, f2, f3, f4, f5⟩ := S.link next v1 hn0
      obtain ⟨x, x1, x2, x3⟩ := hs k hkl
      have hne : lab v ≠ [] := t.ne v hv hv0
      have htk : key.take (k+1) = key.take k ++ [key[k]] := by
        rw [List.take_succ, hc]; rfl
      have ht : (lab next).tail = (lab v).tail ++ [key[k]] := by rw [v2, tail_snoc hne]
      have hsuf : lab x <:+ (lab next).tail := by
        rw [ht, x3, htk]
        exact snoc_suffix _ i1
      have hlg : b → Lg A lab (lab next).tail x := fun hb => by
        rw [ht]; exact i2 hb _ _ hc x1
      obtain ⟨st1, I1, h1, S1⟩ := setFailD_li S v1 hn0 (by omega) (a.lt x x2) hsuf (fun _ => Or.inl x2) (fun hb _ => Or.inr (hlg hb)) (fun hb _ => hnA hb) (fun hb w hw hAw hmw => by
        have e1 := (((S.mem w hw).2 next hmw).2.2.2 hb hAw).2
        rw [f1] at e1
        rw [← Option.some.inj e1]
        exact Lg.uniq t a ((f5 hb (hnA hb)).resolve_left id) (hlg hb))
      rw [show max N (next+1) = N by omega] at S1
      obtain ⟨v', k', st', F', I', a1, a2, a3, a4, a5, a6⟩ := ih next (k+1) (by omega) ⟨v1, hn0, hnA, fun hk1 => ⟨by rw [← x3]; exact hsuf, fun hb c y hc' hy => by
        obtain ⟨y', y1, y2, y3⟩ := hs (k+1) hk1
        rw [hy] at y1
        have := Option.some.inj y1
        subst this
        exact Lg.snoc t a (hlg hb) y2 (by rw [y3, x3, List.take_succ, hc']; rfl)⟩⟩ S1
      refine ⟨v', k', st', F', I', ?_, a2, ?_, a4, a5, a6⟩
      · have : goRes v (some next) = some next := rfl
        rw [this]
        dsimp only
        rw [S.rep.val next v1, Option.bind_some]
        have hff : (wf g F next).fail = some f := f1
        rw [hff]
        dsimp only
        rw [S.rep.val f f2, Option.map_some, Option.bind_some, x1, Option.bind_some, h1, Option.bind_some, a1]
      · rw [v2, List.length_append] at a3
        omega

/-- The entries pushed for a node. -/
theorem push_itemA {b : Prop} {N : Nat} {A : Nat → Prop} {g : Nat → Nd α} {lab : Nat → List α} (t : Fo N g lab) (a : Al N g A) {key : List α} {s : List Nat} {v k : Nat}
    (hi : ItemA b N A lab key s v k) (hk : k < key.length)
    (hno : b → ∀ c, key[k]? = some c → ∀ x, A x → lab x ≠ lab v ++ [c]) {x : Nat} (hx : x < N) (hx0 : x ≠ 0) (hxA : b → A x) (hvx : lab v <:+ (lab x).tail) (hl : b → Lg A lab (lab x).tail v) : ItemA b N A lab key s x k := by
  obtain ⟨hv, hv0, hvA, hi⟩ := hi
  obtain ⟨i1, i2⟩ := hi hk
  refine ⟨hx, hx0, hxA, fun _ => ⟨(tail_suffix i1).trans hvx, fun hb c y hc hy => ?_⟩⟩
  have hL := i2 hb c y hc hy
  refine ⟨hL.1, ?_, fun z hz hzs => ?_⟩
  · refine hL.2.1.trans (snoc_suffix c ?_)
    exact (List.tail_suffix _).trans hvx
  · by_cases h0 : z = 0
    · subst h0; rw [t.root]; exact Nat.zero_le _
    · obtain ⟨q, e, h1, -, h2⟩ := a.par t hz h0
      have hzs' := hzs
      rw [h2] at hzs'
      have he := suffix_snoc_last hzs'
      subst he
      have hq1 := suffix_snoc hzs'
      have hq2 := (hl hb).2.2 q h1 hq1
      have hq3 := suffix_of_len hq1 hvx hq2
      have hq4 : (lab q).length ≠ (lab v).length := fun h => hno hb e hc z hz (by rw [h2, hq3.eq_of_length h])
      have hq5 := suffix_tail hq3 (by omega)
      exact hL.2.2 z hz (by rw [h2]; exact snoc_suffix e hq5)

theorem update_li {b : Prop} {N : Nat} {A : Nat → Prop} {g : Nat → Nd α} {lab : Nat → List α} (t : Fo N g lab) (a : Al N g A) {key : List α} {s : List Nat} {ord : List Nat → List Nat} (hord : ∀ l, (ord l).Perm l)
    (hs : ∀ i, i < key.length → ∃ x, s[i]? = some x ∧ A x ∧ lab x = key.take (i+1)) : ∀ n qs, weight N lab qs ≤ n → (∀ q ∈ qs, q.2 ≤ key.length ∧ ItemA b N A lab key s q.1 q.2) →
      ∀ {st : St α} {F : Nat → Option Nat} {I : Nat → List Nat}, Li b N N A NoP g lab st F I → ∃ st' F' I', update ord key s n qs st = some st' ∧ Li b N N A NoP g lab st' F' I' := by
  intro n
  induction n with
  | zero =>
    intro qs hw hq st F I S
    cases qs with
    | nil => exact ⟨st, F, I, rfl, S⟩
    | cons q qs =>
      exfalso
      unfold weight at hw
      rw [List.map_cons, List.sum_cons] at hw
      have : 0 < (N+1)^(N - (lab q.1).length) := Nat.pow_pos (by omega)
      omega
  | succ n ih =>
    intro qs hw hq st F I S
    cases qs with
    | nil => exact ⟨st, F, I, rfl, S⟩
    | cons q qs =>
      obtain ⟨q1, q2⟩ := hq q List.mem_cons_self
      have hrest := fun p (hp : p ∈ qs) => hq p (List.mem_cons_of_mem _ hp)
      obtain ⟨v', k', st', F', I', a1, a2, a3, a4, a5, a6⟩ := follow_li t a hs (key.length - q.2) q.1 q.2 (by omega) q2 S
      have hw' : (N+1)^(N - (lab q.1).length) + weight N lab qs ≤ n + 1 := by
        unfold weight at hw ⊢
        rwa [List.map_cons, List.sum_cons] at hw
      have hpos : 0 < (N+1)^(N - (lab q.1).length) := Nat.pow_pos (by omega)
      unfold update
      rw [a1, Option.bind_some]
      dsimp only
      by_cases hk : k' < key.length
      · rw [if_pos hk, a2.rip.val v' a5.1, Option.bind_some]
        obtain ⟨m1, m2⟩ := a2.mem v' a5.1
        have hql : (lab q.1).length < N := by
          have := t.dep q.1 q2.1
          have := q2.1
          omega
        have hlen : (ord (I' v')).length ≤ N := by
          rw [(hord _).length_eq]
          exact nodup_len m1 (fun x hx => (m2 x hx).1)
        have hwl := weight_le (N := N) (lab := lab) (W := (N+1)^(N - (lab q.1).length - 1)) ((ord (I' v')).map (fun x => (x, k'))) (by
          intro p hp
          obtain ⟨x, x1, rfl⟩ := List.mem_map.1 hp
          obtain ⟨c1, c2, c3, -⟩ := m2 x ((hord _).mem_iff.1 x1)
          have := t.short c1 c2 c3
          exact Nat.pow_le_pow_right (by omega) (by dsimp only; omega))
        rw [List.length_map] at hwl
        have hpw : (N+1)^(N - (lab q.1).length) = (N+1)^(N - (lab q.1).length - 1) * (N+1) := by
          rw [← Nat.pow_succ]
          congr 1
          omega
        have hp1 : 0 < (N+1)^(N - (lab q.1).length - 1) := Nat.pow_pos (by omega)
        have hmul : (ord (I' v')).length * (N+1)^(N - (lab q.1).length - 1) ≤ N * (N+1)^(N - (lab q.1).length - 1) := Nat.mul_le_mul_right _ hlen
        have hexp : (N+1)^(N - (lab q.1).length) = N * (N+1)^(N - (lab q.1).length - 1) + (N+1)^(N - (lab q.1).length - 1) := by
          rw [hpw]; ring
        exact ih _ (by rw [weight_append]; omega) (fun p hp => by
          rcases List.mem_append.1 hp with h | h
          · exact hrest p h
          · obtain ⟨x, x1, rfl⟩ := List.mem_map.1 h
            obtain ⟨c1, c2, c3, c4⟩ := m2 x ((hord _).mem_iff.1 x1)
            refine ⟨a4, push_itemA t a a5 hk a6 c1 c2 (fun hb => (c4 hb (a5.2.2.1 hb)).1) c3 (fun hb => ?_)⟩
            obtain ⟨f, f1, -, -, -, f5⟩ := a2.link x c1 c2
            obtain ⟨d1, d2⟩ := c4 hb (a5.2.2.1 hb)
            rw [d2] at f1
            rw [Option.some.inj f1]
            exact (f5 hb d1).resolve_left id) a2
      · rw [if_neg hk]
        exact ih qs (by omega) hrest a2

/-! ### The trie -/

theorem walkP_al {N : Nat} {g : Nat → Nd α} {lab : Nat → List α} {A : Nat → Prop} (t : Fo N g lab) (a : Al N g A) {nodes : List (Nd α)} (R : Rep nodes N g) :
    ∀ (k : List α) (u : Nat), A u → ∃ v s r, walkP nodes u k = some (v, s, r) ∧ A v ∧ s.length + r.length = k.length ∧ k = k.take s.length ++ r ∧ lab v = lab u ++ k.take s.length ∧
      (∀ i, i < s.length → ∃ x, s[i]? = some x ∧ A x ∧ lab x = lab u ++ k.take (i+1)) ∧ ∀ c r', r = c :: r' → assoc (g v).e c = none := by
  intro k
  induction k with
  | nil =>
    intro u hu
    exact ⟨u, [], [], rfl, hu, rfl, rfl, by simp, fun i hi => by simp at hi, fun c r' h => by cases h⟩
  | cons c k ih =>
    intro u hu
    unfold walkP
    rw [R.val u (a.lt u hu), Option.bind_some]
    cases ha : assoc (g u).e c with
    | none =>
      dsimp only
      refine ⟨u, [], c :: k, rfl, hu, by simp, by simp, by simp, fun i hi => by simp at hi, fun d r' h => ?_⟩
      rw [List.cons.injEq] at h
      rw [← h.1]; exact ha
    | some w =>
      dsimp only
      have hm := assoc_some _ _ _ ha
      have hw := a.down u hu c w hm
      have hl := (t.edge u (a.lt u hu) c w hm).2.2
      obtain ⟨v, s, r, h1, h2, h3, h4, h5, h6, h7⟩ := ih w hw
      refine ⟨v, w :: s, r, by rw [h1]; rfl, h2, by rw [List.length_cons, List.length_cons]; omega, ?_, ?_, fun i hi => ?_, h7⟩
      · rw [List.length_cons, List.take_succ_cons, List.cons_append, ← h4]
      · rw [h5, hl, List.length_cons, List.take_succ_cons, List.append_assoc]; rfl
      · cases i with
        | zero => exact ⟨w, rfl, hw, by rw [hl]; simp⟩
        | succ i =>
          obtain ⟨x, x1, x2, x3⟩ := h6 i (by rw [List.length_cons] at hi; omega)
          exact ⟨x, by rw [List.getElem?_cons_succ, x1], x2, by rw [x3, hl, List.append_assoc, List.take_succ_cons]; rfl⟩

/-- A new node `N` below `u`. -/
theorem extend_one {N : Nat} {g : Nat → Nd α} {lab : Nat → List α} {A : Nat → Prop} (t : Fo N g lab) (a : Al N g A) {nodes : List (Nd α)} (R : Rep nodes N g) {u : Nat} (hu : A u) {c : α} (hc : assoc (g u).e c = none) :
    ∃ n1 g1, addEdge (nodes ++ [Nd.new]) u c nodes.length = some n1 ∧ Rep n1 (N+1) g1 ∧ Fo (N+1) g1 (upd lab N (lab u ++ [c])) ∧ Al (N+1) g1 (fun x => A x ∨ x = N) ∧ (∀ x, x < N → (g1 x).id = (g x).id ∧ (g1 x).fail = (g x).fail) ∧
      g1 N = Nd.new := by
  have huN := a.lt u hu
  have R1 := rep_push R (Nd.new (α := α))
  have hun : u ≠ N := by omega
  have hfil : (g u).e.filter (fun p => decide (p.1 ≠ c)) = (g u).e := by
    rw [List.filter_eq_self]
    rintro ⟨d, w⟩ hm
    apply decide_eq_true
    rintro rfl
    exact assoc_none _ _ hc w hm
  obtain ⟨n1, w1, r1⟩ := R1.wr (show u < N + 1 by omega) { (upd g N Nd.new u) with e := assocSet (upd g N Nd.new u).e c nodes.length }
  rw [upd_ne _ _ hun, R.len] at r1
  have hg : ∀ x, x < N → x ≠ u → upd (upd g N Nd.new) u { g u with e := assocSet (g u).e c N } x = g x := by
    intro x hx hxu
    rw [upd_ne _ _ hxu, upd_ne _ _ (by omega)]
  have hgN : upd (upd g N Nd.new) u { g u with e := assocSet (g u).e c N } N = Nd.new := by
    rw [upd_ne _ _ (Ne.symm hun), upd_same]
  have hset : assocSet (g u).e c N = (g u).e ++ [(c, N)] := by
    unfold assocSet
    rw [hfil]
  have hlab : ∀ x, x < N → upd lab N (lab u ++ [c]) x = lab x := fun x hx => upd_ne _ _ (by omega)
  have hmem : ∀ x, x < N + 1 → ∀ d v, (d, v) ∈ (upd (upd g N Nd.new) u { g u with e := assocSet (g u).e c N } x).e ↔ (x < N ∧ (d, v) ∈ (g x).e) ∨ (x = u ∧ d = c ∧ v = N) := by
    intro x hx d v
    by_cases h1 : x = N
    · subst h1
      rw [hgN]
      constructor
      · intro h; cases h
      · rintro (⟨h, -⟩ | ⟨h, -⟩) <;> omega
    · by_cases hxu : x = u
      · subst hxu
        rw [upd_same]
        show (d, v) ∈ assocSet (g x).e c N ↔ _
        rw [hset, List.mem_append, List.mem_singleton, Prod.mk.injEq]
        constructor
        · rintro (h | h)
          · exact Or.inl ⟨huN, h⟩
          · exact Or.inr ⟨rfl, h⟩
        · rintro (⟨-, h⟩ | ⟨-, h⟩)
          · exact Or.inl h
          · exact Or.inr h
      · rw [hg x (by omega) hxu]
        constructor
        · intro h; exact Or.inl ⟨by omega, h⟩
        · rintro (⟨-, h⟩ | ⟨h, -⟩)
          · exact h
          · exact absurd h hxu
  refine ⟨n1, _, ?_, r1, ⟨by omega, ?_, ?_, ?_, ?_, ?_⟩, ⟨?_, Or.inl a.root, ?_, ?_⟩, ?_, hgN⟩
  · unfold addEdge
    rw [R1.val u (by omega), Option.bind_some, w1]
  · rw [hlab 0 t.pos, t.root]
  · intro x hx
    by_cases h1 : x = N
    · subst h1
      have := t.dep u huN
      rw [upd_same, List.length_append, List.length_singleton]
      omega
    · rw [hlab x (by omega)]
      exact t.dep x (by omega)
  · intro x hx h0
    by_cases h1 : x = N
    · subst h1
      rw [upd_same]
      simp
    · rw [hlab x (by omega)]
      exact t.ne x (by omega) h0
  · intro x hx d v hm
    rcases (hmem x hx d v).1 hm with ⟨h1, h2⟩ | ⟨h1, h2, h3⟩
    · obtain ⟨a1, a2, a3⟩ := t.edge x h1 d v h2
      exact ⟨by omega, a2, by rw [hlab v a1, hlab x h1, a3]⟩
    · subst h1; subst h2; subst h3
      have := t.pos
      exact ⟨by omega, by omega, by rw [upd_same, hlab x huN]⟩
  · intro x hx
    by_cases h1 : x = N
    · subst h1
      rw [hgN]
      exact List.nodup_nil
    · by_cases hxu : x = u
      · subst hxu
        rw [upd_same]
        show ((assocSet (g x).e c N).map Prod.fst).Nodup
        rw [hset, List.map_append, List.nodup_append]
        refine ⟨t.fn x huN, by simp, ?_⟩
        rintro p hp q hq rfl
        rw [List.map_singleton, List.mem_singleton] at hq
        subst hq
        obtain ⟨⟨d, w⟩, h1, h2⟩ := List.mem_map.1 hp
        dsimp only at h2
        subst h2
        exact assoc_none _ _ hc w h1
      · rw [hg x (by omega) hxu]
        exact t.fn x (by omega)
  · rintro v (h | h)
    · have := a.lt v h; omega
    · omega
  · rintro x hx d v hm
    rcases (hmem x (by rcases hx with h | h; have := a.lt x h; omega; omega) d v).1 hm with ⟨h1, h2⟩ | ⟨h1, h2, h3⟩
    · rcases hx with h | h
      · exact Or.inl (a.down x h d v h2)
      · omega
    · exact Or.inr h3
  · rintro v (h | h) h0
    · obtain ⟨q, d, q1, q2⟩ := a.up v h h0
      exact ⟨q, d, Or.inl q1, (hmem q (by have := a.lt q q1; omega) d v).2 (Or.inl ⟨a.lt q q1, q2⟩)⟩
    · exact ⟨u, c, Or.inl hu, (hmem u (by omega) c v).2 (Or.inr ⟨rfl, rfl, h⟩)⟩
  · intro x hx
    by_cases hxu : x = u
    · subst hxu
      rw [upd_same]
      exact ⟨rfl, rfl⟩
    · rw [hg x hx hxu]
      exact ⟨rfl, rfl⟩

theorem Al.congrA {N : Nat} {g : Nat → Nd α} {A A' : Nat → Prop} (a : Al N g A) (h : ∀ v, A v ↔ A' v) : Al N g A' := by
  have : A = A' := funext (fun v => propext (h v))
  rwa [← this]

theorem extendP_al : ∀ (k : List α) {N : Nat} {g : Nat → Nd α} {lab : Nat → List α} {A : Nat → Prop} (_ : Fo N g lab) (_ : Al N g A) {nodes : List (Nd α)} (_ : Rep nodes N g) {u : Nat} (_ : A u)
      (_ : ∀ c k', k = c :: k' → assoc (g u).e c = none),
    ∃ v n1 g1 lab1, extendP k u nodes = some (v, List.range' N k.length, n1) ∧ Rep n1 (N + k.length) g1 ∧ Fo (N + k.length) g1 lab1 ∧ Al (N + k.length) g1 (fun x => A x ∨ N ≤ x ∧ x < N + k.length) ∧
      (k ≠ [] → v + 1 = N + k.length) ∧ (∀ x, x < N → lab1 x = lab x ∧ (g1 x).id = (g x).id ∧ (g1 x).fail = (g x).fail) ∧
      (∀ i, i < k.length → (g1 (N+i)).id = none ∧ (g1 (N+i)).fail = none ∧ lab1 (N+i) = lab u ++ k.take (i+1)) := by
  intro k
  induction k with
  | nil =>
    intro N g lab A t a nodes R u hu hc
    exact ⟨u, nodes, g, lab, rfl, R, t, a.congrA (fun v => ⟨Or.inl, fun h => by
      rcases h with h | ⟨h1, h2⟩
      · exact h
      · rw [List.length_nil] at h2; omega⟩), fun h => absurd rfl h, fun x hx => ⟨rfl, rfl, rfl⟩, fun i hi => by simp at hi⟩
  | cons c k ih =>
    intro N g lab A t a nodes R u hu hc
    obtain ⟨n1, g1, w1, r1, t1, a1, i1, i2⟩ := extend_one t a R hu (hc c k rfl)
    have hlab : ∀ x, x < N → upd lab N (lab u ++ [c]) x = lab x := fun x hx => upd_ne _ _ (by omega)
    obtain ⟨v, n2, g2, lab2, w2, r2, t2, a2, v5, v4, v6⟩ := ih t1 a1 r1 (u := N) (Or.inr rfl) (by
      intro d k' _
      rw [i2]; rfl)
    have hNk : N + 1 + k.length = N + (c :: k).length := by rw [List.length_cons]; omega
    rw [hNk] at r2 t2 a2 v5
    refine ⟨v, n2, g2, lab2, ?_, r2, t2, a2.congrA (fun x => ?_), fun _ => ?_, fun x hx => ?_, fun i hi => ?_⟩
    · unfold extendP
      rw [w1, Option.bind_some, R.len, w2, Option.map_some, List.length_cons, List.range'_succ]
    · rw [List.length_cons]
      constructor
      · rintro ((h | h) | h)
        · exact Or.inl h
        · exact Or.inr (by omega)
        · exact Or.inr (by omega)
      · rintro (h | h)
        · exact Or.inl (Or.inl h)
        · by_cases e : x = N
          · exact Or.inl (Or.inr e)
          · exact Or.inr (by omega)
    · cases k with
      | nil =>
        rw [extendP] at w2
        cases w2
        rfl
      | cons d k => exact v5 (by simp)
    · obtain ⟨b1, b2, b3⟩ := v4 x (by omega)
      exact ⟨by rw [b1, hlab x hx], by rw [b2, (i1 x hx).1], by rw [b3, (i1 x hx).2]⟩
    · cases i with
      | zero =>
        obtain ⟨b1, b2, b3⟩ := v4 N (by omega)
        rw [Nat.add_zero]
        exact ⟨by rw [b2, i2]; rfl, by rw [b3, i2]; rfl, by rw [b1, upd_same]; simp⟩
      | succ i =>
        obtain ⟨b1, b2, b3⟩ := v6 i (by rw [List.length_cons] at hi; omega)
        rw [show N + (i+1) = N + 1 + i by omega]
        refine ⟨b1, b2, ?_⟩
        rw [b3, upd_same, List.append_assoc, List.take_succ_cons]; rfl

end Verif.DynAc
