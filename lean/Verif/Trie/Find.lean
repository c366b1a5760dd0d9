import Verif.Trie.Basic
/-! Descent, `find`, `lower_bound`, `upper_bound`. -/
namespace Verif.Trie
open Verif

variable {V : Type} {W x y z i j p : Nat} {K : Finset Nat} {rt xf : Bool} {s : St V} {val : Nat → Option V}

/-- `i` is the depth of the deepest node on the path of `x`. -/
structure Top (W : Nat) (K : Finset Nat) (x i : Nat) : Prop where
  le : i ≤ W
  has : i = 0 ∨ Has W K i (pre W x i)
  no : ∀ j, i < j → j ≤ W → ¬ Has W K j (pre W x j)

theorem Top.ex (h : Top W K x i) (hx : x < 2 ^ W) : Ex W K i (pre W x i) := by
  rcases h.has with rfl | h
  · exact Or.inr ⟨rfl, pre_zero hx⟩
  · exact Or.inl h

theorem ex_of (hx : x < 2 ^ W) (h : i = 0 ∨ Has W K i (pre W x i)) : Ex W K i (pre W x i) := by
  rcases h with rfl | h
  · exact Or.inr ⟨rfl, pre_zero hx⟩
  · exact Or.inl h

theorem no_of_succ (hi : i < W) (h : ¬ Has W K (i+1) (pre W x (i+1))) : ∀ j, i < j → j ≤ W → ¬ Has W K j (pre W x j) :=
  fun _ h1 h2 h3 => h (h3.up h1 h2)

theorem Inv.flag (I : Inv W rt s K val) (hi : i < W) (hx : x < 2 ^ W) (h : i = 0 ∨ Has W K i (pre W x i)) : ∃ u, s.node i (pre W x i) = some u ∧ Flags W K i (pre W x i) u ∧ JOk W K i (pre W x i) u.jump ∧ (child u (bit W x i) = true ↔ Has W K (i+1) (pre W x (i+1))) := by
  obtain ⟨u, e, f, g⟩ := I.node i hi _ (ex_of hx h)
  exact ⟨u, e, f, g, by rw [pre_succ hi]; exact f _ (bit_lt _ _ _)⟩

theorem descend_ok (I : Inv W rt s K val) (hx : x < 2 ^ W) : ∀ k i, i + k = W → (i = 0 ∨ Has W K i (pre W x i)) → ∃ r, descend W s x k i (pre W x i) = some (r, pre W x r) ∧ Top W K x r := by
  intro k
  induction k with
  | zero => intro i hi h; exact ⟨i, rfl, by omega, h, fun j h1 h2 => by omega⟩
  | succ k ih =>
    intro i hi h
    obtain ⟨u, e, _, _, hc⟩ := I.flag (by omega) hx h
    unfold descend
    rw [e, Option.bind_some]
    by_cases c : child u (bit W x i) = true
    · rw [if_pos c, ← pre_succ (by omega)]
      exact ih (i+1) (by omega) (Or.inr (hc.1 c))
    · rw [if_neg c]
      exact ⟨i, rfl, by omega, h, no_of_succ (by omega) fun h1 => c (hc.2 h1)⟩

theorem search_ok (I : Inv W rt s K val) : ∀ f l h, l < h → h ≤ W + 1 → (l = 0 ∨ Has W K l (pre W x l)) → (∀ j, h ≤ j → j ≤ W → ¬ Has W K j (pre W x j)) → h - l ≤ f →
    ∃ r, search W s x f l h (l, pre W x l) = some (r, (r, pre W x r)) ∧ Top W K x r := by
  intro f
  induction f with
  | zero => intro l h h1 _ _ _ h2; omega
  | succ f ih =>
    intro l h hlh hW hl hh hf
    unfold search
    by_cases c : l + 1 < h
    · rw [if_pos c]
      have hm : l < l + (h - l) / 2 ∧ l + (h - l) / 2 < h := by omega
      generalize l + (h - l) / 2 = m at hm ⊢
      have htb := I.tb m (pre W x m)
      by_cases ht : s.tb m (pre W x m) = true
      · rw [if_pos ht]
        refine ih m h hm.2 hW (Or.inr ?_) hh (by omega)
        rcases htb.1 ht with ⟨_, _, h1⟩ | ⟨h1, _⟩
        · exact h1
        · omega
      · rw [if_neg ht]
        refine ih l m hm.1 (by omega) hl (fun j h1 h2 h3 => ht (htb.2 (Or.inl ⟨by omega, by omega, h3.up h1 h2⟩))) (by omega)
    · rw [if_neg c]
      exact ⟨l, rfl, by omega, hl, fun j h1 h2 => hh j (by omega) h2⟩

theorem traverse_ok (I : Inv W rt s K val) (hx : x < 2 ^ W) (xf : Bool) (hi : i ≤ W) (h : i = 0 ∨ Has W K i (pre W x i)) : ∃ r, traverse xf W s x i (pre W x i) = some (r, pre W x r) ∧ Top W K x r := by
  unfold traverse
  cases xf with
  | true =>
    obtain ⟨r, e, t⟩ := search_ok I (x := x) (W + 2) i (W + 1) (by omega) (le_refl _) h (fun j h1 h2 => by omega) (by omega)
    exact ⟨r, by rw [if_pos rfl, e]; rfl, t⟩
  | false =>
    obtain ⟨r, e, t⟩ := descend_ok I hx (W - i) i (by omega) h
    exact ⟨r, by rw [if_neg (by simp)]; exact e, t⟩

theorem traverse_root (I : Inv W rt s K val) (hx : x < 2 ^ W) (xf : Bool) : ∃ r, traverse xf W s x 0 0 = some (r, pre W x r) ∧ Top W K x r := by
  have := traverse_ok I hx xf (Nat.zero_le W) (Or.inl rfl)
  rwa [pre_zero hx] at this

theorem Top.mem (h : Top W K x i) (hW : 0 < W) : x ∈ K ↔ i = W := by
  constructor
  · intro hx
    by_contra hc
    exact h.no W (by have := h.le; omega) (le_refl _) ⟨x, hx, rfl⟩
  · intro e
    subst e
    rcases h.has with e | ⟨z, hz, e⟩
    · omega
    · rw [pre_W, pre_W] at e
      exact e ▸ hz

/-- The node where the path of an absent key ends, and its `jump`. -/
theorem fork_ok (I : Inv W rt s K val) (hx : x < 2 ^ W) (h : Top W K x i) (hi : i < W) :
    ∃ u j, s.node i (pre W x i) = some u ∧ Flags W K i (pre W x i) u ∧ JOk W K i (pre W x i) u.jump ∧ u.jump = some j ∧
      (bit W x i = 1 → IsPrev K (some x) j) ∧ (bit W x i = 0 → IsNext K (some x) j) ∧ child u (bit W x i) = false ∧
      (K ≠ ∅ → Has W K (i+1) (2 * pre W x i + (1 - bit W x i))) ∧ Ptr K j := by
  obtain ⟨u, e, fl, g, hc⟩ := I.flag hi hx h.has
  have hno := h.no (i+1) (by omega) hi
  have hcf : child u (bit W x i) = false := by
    cases hh : child u (bit W x i) with
    | false => rfl
    | true => exact absurd (hc.1 hh) hno
  by_cases hK : K = ∅
  · refine ⟨u, none, e, fl, g, g.empty hK, fun _ z hz => ?_, fun _ z hz => ?_, hcf, fun h => absurd hK h, trivial⟩
    · rw [hK] at hz; exact absurd hz.1 (Finset.notMem_empty z)
    · rw [hK] at hz; exact absurd hz.1 (Finset.notMem_empty z)
  · have hb := bit_lt W x i
    have hex : Has W K i (pre W x i) := by
      rcases h.has with e | h
      · subst e
        obtain ⟨z, hz⟩ := Finset.nonempty_iff_ne_empty.2 hK
        exact ⟨z, hz, by rw [pre_zero (I.lt z hz), pre_zero hx]⟩
      · exact h
    have hoth : Has W K (i+1) (2 * pre W x i + (1 - bit W x i)) := by
      obtain ⟨z, hz, e⟩ := hex
      refine ⟨z, hz, ?_⟩
      have h1 := pre_succ (x := z) hi
      have h2 := bit_lt W z i
      have h3 : bit W z i ≠ bit W x i := fun h4 => hno ⟨z, hz, by rw [h1, e, h4, pre_succ hi]⟩
      rw [h1, e]; omega
    rw [pre_succ hi] at hno
    obtain ⟨y, ey, hy, hyp, hext⟩ := g.one _ hb hoth hno
    have hne : ∀ z ∈ K, pre W z i = pre W x i → bit W z i = 1 - bit W x i := fun z hz e => by
      have h2 := bit_lt W z i
      have h3 : bit W z i ≠ bit W x i := fun h4 => hno ⟨z, hz, by rw [pre_succ hi, e, h4]⟩
      omega
    have hyb := hne y hy hyp
    have hys := pre_succ (x := y) hi
    have hxs := pre_succ (x := x) hi
    refine ⟨u, some y, e, fl, g, ey, fun hb1 => ⟨⟨hy, lt_of_pre (W := W) (i := i+1) (by omega)⟩, ?_⟩, fun hb0 => ⟨⟨hy, lt_of_pre (W := W) (i := i+1) (by omega)⟩, ?_⟩, hcf, fun _ => hoth, hy⟩
    · rintro z ⟨hz, hzx⟩
      have h1 := pre_mono (W := W) (i := i) (le_of_lt hzx)
      rcases Nat.lt_or_eq_of_le h1 with h1 | h1
      · exact le_of_lt (lt_of_pre (W := W) (i := i) (by omega))
      · exact (hext z hz h1).1 hb1
    · rintro z ⟨hz, hzx⟩
      have h1 := pre_mono (W := W) (i := i) (le_of_lt hzx)
      rcases Nat.lt_or_eq_of_le h1 with h1 | h1
      · exact le_of_lt (lt_of_pre (W := W) (i := i) (by omega))
      · exact (hext z hz h1.symm).2 hb0

theorem lowerBound_ok (I : Inv W rt s K val) (hW : 0 < W) (hx : x < 2 ^ W) (xf : Bool) : ∃ r, lowerBound xf W s x = some r ∧ IsMin (fun z => z ∈ K ∧ x ≤ z) r := by
  obtain ⟨i, e, t⟩ := traverse_root I hx xf
  unfold lowerBound
  rw [e, Option.bind_some]
  dsimp only
  by_cases hi : i = W
  · rw [if_pos hi]
    subst hi
    rw [pre_W]
    exact ⟨_, rfl, ⟨(t.mem hW).2 rfl, le_refl _⟩, fun z hz => hz.2⟩
  · rw [if_neg hi]
    have hxK : x ∉ K := fun h => hi ((t.mem hW).1 h)
    have hle : ∀ z, z ∈ K ∧ Above (some x) z ↔ z ∈ K ∧ x ≤ z := fun z => by
      simp only [Above]
      constructor
      · rintro ⟨a, b⟩; exact ⟨a, by omega⟩
      · rintro ⟨a, b⟩
        have : z ≠ x := fun e => hxK (e ▸ a)
        exact ⟨a, by omega⟩
    obtain ⟨u, j, e1, _, _, e2, h1, h0, _, _, hp⟩ := fork_ok I hx t (by have := t.le; omega)
    rw [e1, Option.bind_some, e2, Option.bind_some]
    by_cases c : bit W x i = 0
    · rw [if_pos c]
      exact ⟨j, rfl, (h0 c).congr hle⟩
    · rw [if_neg c]
      have c1 : bit W x i = 1 := by have := bit_lt W x i; omega
      obtain ⟨l, el, _, hn, _⟩ := I.leaf j hp
      exact ⟨l.next, by rw [el]; rfl, IsMin.congr (next_of_prev hxK (h1 c1) hn) hle⟩

theorem upperBound_ok (I : Inv W rt s K val) (hW : 0 < W) (hx : x < 2 ^ W) (xf : Bool) : ∃ r, upperBound xf W s x = some r ∧ IsMin (fun z => z ∈ K ∧ x < z) r := by
  obtain ⟨r, e, h⟩ := lowerBound_ok I hW hx xf
  unfold upperBound
  rw [e, Option.bind_some]
  cases r with
  | none =>
    have hn : ∀ z, ¬ (z ∈ K ∧ x < z) := fun z hz => h z ⟨hz.1, by omega⟩
    by_cases c : keyOf none = x
    · rw [if_pos c]
      obtain ⟨l, el, _, hnx, _⟩ := I.leaf none trivial
      refine ⟨l.next, by rw [el]; rfl, ?_⟩
      have : l.next = none := by
        cases hl : l.next with
        | none => rfl
        | some y =>
          rw [hl] at hnx
          have : keyOf none = 0 := rfl
          exact absurd ⟨hnx.1.1, by omega⟩ (h y)
      rw [this]
      exact hn
    · rw [if_neg c]
      exact ⟨none, rfl, hn⟩
  | some y =>
    have hk : keyOf (some y) = y := rfl
    by_cases c : keyOf (some y) = x
    · rw [if_pos c]
      rw [hk] at c
      subst c
      obtain ⟨l, el, _, hnx, _⟩ := I.leaf (some y) h.1.1
      exact ⟨l.next, by rw [el]; rfl, hnx⟩
    · rw [if_neg c]
      rw [hk] at c
      exact ⟨some y, rfl, ⟨h.1.1, by have := h.1.2; omega⟩, fun z hz => h.2 z ⟨hz.1, by omega⟩⟩

theorem find_ok (I : Inv W rt s K val) (hW : 0 < W) (hx : x < 2 ^ W) (xf : Bool) : find xf W s x = some (if x ∈ K then some x else none) := by
  unfold find
  cases xf with
  | true =>
    rw [if_pos rfl]
    have h : s.tb W x = true ↔ x ∈ K := by
      rw [I.tb]
      constructor
      · rintro (⟨_, _, z, hz, e⟩ | ⟨h, _⟩)
        · rw [pre_W] at e; exact e ▸ hz
        · omega
      · intro h; exact Or.inl ⟨by omega, le_refl _, x, h, pre_W⟩
    simp only [h]
  | false =>
    rw [if_neg (by simp)]
    obtain ⟨i, e, t⟩ := traverse_root I hx false
    rw [e]
    have h := t.mem hW
    by_cases c : i = W
    · subst c
      rw [if_pos (h.2 rfl)]
      simp [pre_W]
    · rw [if_neg (fun a => c (h.1 a))]
      simp [c]

end Verif.Trie
