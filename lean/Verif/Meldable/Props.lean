import Verif.Meldable.Proof
import Mathlib.Data.Multiset.AddSub
/-!
`MeldableHeap`: several priority queues.
-/
namespace Verif.Meldable
open Verif.FibHeap (SWO)

variable {T : Type}

/-- What a call may return and does, on the multisets held by the heaps: `Cond` is "less", so the top is a greatest value; `meld` moves everything. -/
def Spec (lt : T → T → Bool) (M : Nat → Multiset T) (op : Op T) (o : Out T) (M' : Nat → Multiset T) : Prop :=
  match op with
  | .push i x => o = .unit ∧ M' = upd M i (x ::ₘ M i)
  | .pop i => ∃ x, o = .val x ∧ (∀ y ∈ M i, lt x y = false) ∧ M i = x ::ₘ M' i ∧ ∀ j, j ≠ i → M' j = M j
  | .top i => ∃ x, o = .val x ∧ x ∈ M i ∧ (∀ y ∈ M i, lt x y = false) ∧ M' = M
  | .size i => o = .num (M i).card ∧ M' = M
  | .clear i => o = .unit ∧ M' = upd M i 0
  | .meld i j => o = .unit ∧ M' = upd (upd M i (M i + M j)) j 0
  | .absorb i j => o = .unit ∧ M' = upd (upd M i (M i + M j)) j 0

/-- The outputs of a program are those of priority queues. -/
def Legal (lt : T → T → Bool) : (Nat → Multiset T) → List (Op T) → List (Out T) → Prop
  | _, [], [] => True
  | M, op :: ops, o :: outs => ∃ M', Spec lt M op o M' ∧ Legal lt M' ops outs
  | _, _, _ => False

/-- A program uses existing heaps, takes nothing from an empty heap and melds different heaps; `n i` is the number of values in heap `i`. -/
def Fits (k : Nat) : (Nat → Nat) → List (Op T) → Prop
  | _, [] => True
  | n, .push i _ :: ops => i < k ∧ Fits k (upd n i (n i + 1)) ops
  | n, .pop i :: ops => i < k ∧ 0 < n i ∧ Fits k (upd n i (n i - 1)) ops
  | n, .top i :: ops => i < k ∧ 0 < n i ∧ Fits k n ops
  | n, .size i :: ops => i < k ∧ Fits k n ops
  | n, .clear i :: ops => i < k ∧ Fits k (upd n i 0) ops
  | n, .meld i j :: ops => i < k ∧ j < k ∧ i ≠ j ∧ Fits k (upd (upd n i (n i + n j)) j 0) ops
  | n, .absorb i j :: ops => i < k ∧ j < k ∧ i ≠ j ∧ Fits k (upd (upd n i (n i + n j)) j 0) ops

/-- The program clears a heap right after melding it into another. -/
def NoMeld : List (Op T) → Prop
  | [] => True
  | .meld _ _ :: _ => False
  | _ :: ops => NoMeld ops

/-- One heap object. -/
structure Holds (lt : T → T → Bool) (s : St T) (i : Nat) (t : BT T) (M : Multiset T) : Prop where
  ob : ∃ p, s.objs[i]? = some ⟨p, t.sz⟩ ∧ Own s.mem p t
  ord : Ordered lt t
  nd : t.ids.Nodup
  el : (t.elems : Multiset T) = M

/-- All heap objects, on disjoint nodes. -/
structure World (lt : T → T → Bool) (k : Nat) (s : St T) (τ : Nat → BT T) (M : Nat → Multiset T) : Prop where
  len : s.objs.length = k
  obj : ∀ i, i < k → Holds lt s i (τ i) (M i)
  dis : ∀ i j, i < k → j < k → i ≠ j → ∀ u ∈ (τ i).ids, u ∉ (τ j).ids

variable {lt : T → T → Bool} {k : Nat} {s : St T} {τ : Nat → BT T} {M : Nat → Multiset T}

theorem World.card (W : World lt k s τ M) {i : Nat} (hi : i < k) : (M i).card = (τ i).sz := by
  rw [← (W.obj i hi).el, Multiset.coe_card, BT.elems_len]

theorem init_ok (k : Nat) : World lt k (init k : St T) (fun _ => .nil) (fun _ => 0) := by
  refine ⟨List.length_replicate .., fun i hi => ⟨⟨none, ?_, rfl⟩, trivial, List.nodup_nil, rfl⟩, fun i j _ _ _ u hu => by cases hu⟩
  unfold init
  dsimp only
  rw [List.getElem?_replicate, if_pos hi]
  rfl

/-- Heap `i` gets a new tree on nodes that no other heap uses; the rest of the memory is as before. -/
theorem World.replace (W : World lt k s τ M) {i : Nat} (hi : i < k) {h : List (Node T)} {c : Nat} {p : Option Nat} {t : BT T} {N : Multiset T}
    (o : Own h p t) (d : Ordered lt t) (nd : t.ids.Nodup) (el : (t.elems : Multiset T) = N)
    (hf : ∀ j, j < k → j ≠ i → ∀ u ∈ (τ j).ids, h[u]? = s.mem[u]?) (hd : ∀ j, j < k → j ≠ i → ∀ u ∈ (τ j).ids, u ∉ t.ids) :
    World lt k ⟨h, c, s.objs.set i ⟨p, t.sz⟩⟩ (upd τ i t) (upd M i N) := by
  refine ⟨by rw [List.length_set, W.len], fun j hj => ?_, fun a b ha hb hab u hu => ?_⟩
  · by_cases hji : j = i
    · subst hji
      rw [upd_same, upd_same]
      exact ⟨⟨p, List.getElem?_set_self (by rw [W.len]; exact hj), o⟩, d, nd, el⟩
    · rw [upd_ne _ _ hji, upd_ne _ _ hji]
      have H := W.obj j hj
      obtain ⟨q, e, oq⟩ := H.ob
      exact ⟨⟨q, by dsimp only; rw [List.getElem?_set_ne (Ne.symm hji)]; exact e, oq.frame _ _ (hf j hj hji)⟩, H.ord, H.nd, H.el⟩
  · by_cases hai : a = i
    · subst hai
      rw [upd_same] at hu
      rw [upd_ne _ _ (Ne.symm hab)]
      exact fun hm => hd b hb (Ne.symm hab) u hm hu
    · rw [upd_ne _ _ hai] at hu
      by_cases hbi : b = i
      · subst hbi
        rw [upd_same]
        exact hd a ha hai u hu
      · rw [upd_ne _ _ hbi]
        exact W.dis a b ha hb hab u hu

theorem World.push (hlt : SWO lt) (ρ : Nat → Bool) (W : World lt k s τ M) {i : Nat} (hi : i < k) (x : T) :
    ∃ s' τ', push lt ρ s i x = some s' ∧ World lt k s' τ' (upd M i (x ::ₘ M i)) := by
  have H := W.obj i hi
  obtain ⟨p, e, o⟩ := H.ob
  unfold Meldable.push
  rw [e, Option.bind_some]
  have fr0 : ∀ u, u < s.mem.length → (s.mem ++ [(⟨x, none, none⟩ : Node T)])[u]? = s.mem[u]? := fun u hu => List.getElem?_append_left hu
  have o1 : Own (s.mem ++ [(⟨x, none, none⟩ : Node T)]) p (τ i) := o.frame _ _ (fun u hu => fr0 u (o.lt _ _ u hu))
  have o2 : Own (s.mem ++ [(⟨x, none, none⟩ : Node T)]) (some s.mem.length) (.node s.mem.length x .nil .nil) := ⟨rfl, none, none, by simp, rfl, rfl⟩
  have nd : ((τ i).ids ++ (BT.node s.mem.length x .nil .nil).ids).Nodup := by
    refine List.nodup_append.2 ⟨H.nd, List.nodup_singleton _, fun u hu v hv huv => ?_⟩
    have := o.lt _ _ u hu
    have hv' : v = s.mem.length := by simpa [BT.ids] using hv
    omega
  obtain ⟨h', c', q, t, e', ot, i', el, d, ln, fr⟩ := meldM_ok hlt ρ ⟨s.mem ++ [⟨x, none, none⟩], s.cnt, s.objs⟩ o1 o2 nd H.ord ⟨by simp [BT.elems], trivial, trivial⟩
  dsimp only
  rw [e', Option.bind_some]
  unfold wr
  rw [if_pos (by rw [W.len]; exact hi)]
  have hsz : (τ i).sz + 1 = t.sz := by
    have := el.length_eq
    rw [BT.elems_len, List.length_append, BT.elems_len, BT.elems_len] at this
    exact this.symm
  have notin : ∀ j, j < k → j ≠ i → ∀ u ∈ (τ j).ids, u ∉ (τ i).ids ++ (BT.node s.mem.length x .nil .nil).ids := by
    intro j hj hji u hu hm
    obtain ⟨q', _, oj⟩ := (W.obj j hj).ob
    rcases List.mem_append.1 hm with hm | hm
    · exact W.dis j i hj hi hji u hu hm
    · have hv' : u = s.mem.length := by simpa [BT.ids] using hm
      have := oj.lt _ _ u hu
      omega
  have W' := W.replace hi (h := h') (c := c') (N := x ::ₘ M i) ot d (i'.nodup_iff.2 nd) (by
    rw [← H.el, Multiset.cons_coe]
    refine Multiset.coe_eq_coe.2 (el.trans ?_)
    show List.Perm ((τ i).elems ++ [x]) (x :: (τ i).elems)
    exact List.perm_append_comm) (fun j hj hji u hu => by
      obtain ⟨q', _, oj⟩ := (W.obj j hj).ob
      rw [fr u (notin j hj hji u hu)]
      exact fr0 u (oj.lt _ _ u hu)) (fun j hj hji u hu hm => notin j hj hji u hu (i'.mem_iff.1 hm))
  rw [← hsz] at W'
  exact ⟨_, _, rfl, W'⟩

theorem World.pop (hlt : SWO lt) (ρ : Nat → Bool) (W : World lt k s τ M) {i : Nat} (hi : i < k) (hne : 0 < (M i).card) :
    ∃ x N s' τ', pop lt ρ s i = some (x, s') ∧ top s i = some x ∧ (∀ y ∈ M i, lt x y = false) ∧ M i = x ::ₘ N ∧ World lt k s' τ' (upd M i N) := by
  have H := W.obj i hi
  rw [W.card hi] at hne
  obtain ⟨p, e, o⟩ := H.ob
  unfold Meldable.pop Meldable.top
  rw [e, Option.bind_some, Option.bind_some]
  have hd := H.ord
  have hnd := H.nd
  have hel := H.el
  cases hτ : τ i with
  | nil => rw [hτ] at hne; exact absurd hne (by simp [BT.sz])
  | node id x l r =>
    rw [hτ] at o hd hnd hel e
    obtain ⟨rfl, a, b, e1, ol, or⟩ := o
    have nd' : (l.ids ++ r.ids).Nodup := (List.nodup_cons.1 hnd).2
    dsimp only
    rw [Option.bind_some, Option.bind_some, e1, Option.bind_some, Option.map_some]
    obtain ⟨h', c', q, t, e', ot, i', el, d, ln, fr⟩ := meldM_ok hlt ρ s ol or nd' hd.2.1 hd.2.2
    dsimp only
    rw [e', Option.bind_some]
    unfold wr
    rw [if_pos (by rw [W.len]; exact hi)]
    have hsz : (BT.node id x l r).sz - 1 = t.sz := by
      have := el.length_eq
      rw [BT.elems_len, List.length_append, BT.elems_len, BT.elems_len] at this
      rw [this]
      rfl
    have sub : ∀ u, u ∈ l.ids ++ r.ids → u ∈ (τ i).ids := fun u hu => by rw [hτ]; exact List.mem_cons_of_mem _ hu
    have W' := W.replace hi (h := h') (c := c') (N := (t.elems : Multiset T)) ot d (i'.nodup_iff.2 nd') rfl
      (fun j hj hji u hu => fr u (fun hm => W.dis j i hj hi hji u hu (sub u hm))) (fun j hj hji u hu hm => W.dis j i hj hi hji u hu (sub u (i'.mem_iff.1 hm)))
    rw [← hsz] at W'
    refine ⟨x, _, _, _, rfl, rfl, ?_, ?_, W'⟩
    · intro y hy
      rw [← hel] at hy
      exact hd.root_le hlt (hlt.irrefl x) y (Multiset.mem_coe.1 hy)
    · rw [← hel, Multiset.cons_coe]
      exact Multiset.coe_eq_coe.2 (List.Perm.cons x el.symm)

theorem World.clear (W : World lt k s τ M) {i : Nat} (hi : i < k) : ∃ s' τ', clear s i = some s' ∧ World lt k s' τ' (upd M i 0) := by
  unfold Meldable.clear wr
  rw [if_pos (by rw [W.len]; exact hi)]
  exact ⟨_, _, rfl, W.replace hi (h := s.mem) (c := s.cnt) (p := none) (t := .nil) rfl trivial List.nodup_nil rfl (fun _ _ _ _ _ => rfl) (fun _ _ _ _ _ hm => by cases hm)⟩

theorem World.absorb (hlt : SWO lt) (ρ : Nat → Bool) (W : World lt k s τ M) {i j : Nat} (hi : i < k) (hj : j < k) (hij : i ≠ j) :
    ∃ s' τ', (meld lt ρ s i j).bind (fun s => Meldable.clear s j) = some s' ∧ World lt k s' τ' (upd (upd M i (M i + M j)) j 0) := by
  have Hi := W.obj i hi
  have Hj := W.obj j hj
  obtain ⟨p, e, o⟩ := Hi.ob
  obtain ⟨p', e', o'⟩ := Hj.ob
  have nd : ((τ i).ids ++ (τ j).ids).Nodup := List.nodup_append.2 ⟨Hi.nd, Hj.nd, fun u hu v hv huv => W.dis i j hi hj hij u hu (huv ▸ hv)⟩
  obtain ⟨h', c', q, t, em, ot, i', el, d, ln, fr⟩ := meldM_ok hlt ρ s o o' nd Hi.ord Hj.ord
  have hsz : (τ i).sz + (τ j).sz = t.sz := by
    have := el.length_eq
    rw [BT.elems_len, List.length_append, BT.elems_len, BT.elems_len] at this
    exact this.symm
  unfold meld
  rw [e, Option.bind_some, e', Option.bind_some]
  dsimp only
  rw [em, Option.bind_some]
  unfold Meldable.clear wr
  rw [if_pos (by rw [W.len]; exact hi), Option.map_some, Option.bind_some]
  dsimp only
  rw [if_pos (by rw [List.length_set, W.len]; exact hj)]
  -- empty heap `j` first, then give its nodes to `i`
  have W1 := W.replace hj (h := s.mem) (c := s.cnt) (p := none) (t := .nil) (N := 0) rfl trivial List.nodup_nil rfl (fun _ _ _ _ _ => rfl) (fun _ _ _ _ _ hm => by cases hm)
  have W2 := W1.replace hi (h := h') (c := c') (N := M i + M j) ot d (i'.nodup_iff.2 nd) (by
    rw [← Hi.el, ← Hj.el, Multiset.coe_add]
    exact Multiset.coe_eq_coe.2 el) (fun a ha hai u hu => by
      by_cases haj : a = j
      · subst haj; rw [upd_same] at hu; cases hu
      · rw [upd_ne _ _ haj] at hu
        exact fr u (fun hm => (List.mem_append.1 hm).elim (W.dis a i ha hi hai u hu) (W.dis a j ha hj haj u hu))) (fun a ha hai u hu hm => by
      by_cases haj : a = j
      · subst haj; rw [upd_same] at hu; cases hu
      · rw [upd_ne _ _ haj] at hu
        exact (List.mem_append.1 (i'.mem_iff.1 hm)).elim (W.dis a i ha hi hai u hu) (W.dis a j ha hj haj u hu))
  rw [← hsz] at W2
  have e1 : (s.objs.set i ⟨q, (τ i).sz + (τ j).sz⟩).set j ⟨none, 0⟩ = (s.objs.set j ⟨none, (BT.nil : BT T).sz⟩).set i ⟨q, (τ i).sz + (τ j).sz⟩ := List.set_comm _ _ hij
  have e2 : upd (upd M i (M i + M j)) j 0 = upd (upd M j 0) i (M i + M j) := by
    funext a
    unfold upd
    by_cases h1 : a = i
    · rw [if_neg (by omega), if_pos h1, if_pos h1]
    · rw [if_neg h1, if_neg h1]
  rw [e1, e2]
  exact ⟨_, _, rfl, W2⟩

theorem card_upd {i : Nat} {N : Multiset T} {n : Nat → Nat} (h : ∀ j, n j = (M j).card) {c : Nat} (hc : c = N.card) : ∀ j, upd n i c j = (upd M i N j).card := by
  intro j
  by_cases hj : j = i
  · subst hj; rw [upd_same, upd_same, hc]
  · rw [upd_ne _ _ hj, upd_ne _ _ hj, h j]

theorem run_ok (hlt : SWO lt) (ρ : Nat → Bool) : ∀ (ops : List (Op T)) (s : St T) (τ : Nat → BT T) (M : Nat → Multiset T) (n : Nat → Nat), World lt k s τ M → (∀ j, n j = (M j).card) → Fits k n ops → NoMeld ops →
    ∃ s' outs, run lt ρ s ops = some (s', outs) ∧ Legal lt M ops outs ∧ ∃ τ' M', World lt k s' τ' M' := by
  intro ops
  induction ops with
  | nil => intro s τ M n W hn hf hm; exact ⟨s, [], rfl, trivial, τ, M, W⟩
  | cons op ops ih =>
    intro s τ M n W hn hf hm
    cases op with
    | push i x =>
      obtain ⟨hi, hf⟩ := hf
      obtain ⟨s1, τ1, e1, W1⟩ := W.push hlt ρ hi x
      obtain ⟨s2, outs, e2, L2⟩ := ih s1 τ1 _ _ W1 (card_upd hn (by rw [Multiset.card_cons, hn i])) hf hm
      exact ⟨s2, Out.unit :: outs, by rw [run, step, e1, Option.map_some, Option.bind_some, e2, Option.map_some], ⟨_, ⟨rfl, rfl⟩, L2.1⟩, L2.2⟩
    | pop i =>
      obtain ⟨hi, hpos, hf⟩ := hf
      obtain ⟨x, N, s1, τ1, e1, _, hx, hN, W1⟩ := W.pop hlt ρ hi (by rw [← hn i]; exact hpos)
      obtain ⟨s2, outs, e2, L2⟩ := ih s1 τ1 _ _ W1 (card_upd hn (by rw [hn i, hN, Multiset.card_cons]; rfl)) hf hm
      exact ⟨s2, Out.val x :: outs, by rw [run, step, e1, Option.map_some, Option.bind_some, e2, Option.map_some], ⟨_, ⟨x, rfl, hx, by rw [upd_same]; exact hN, fun j hj => upd_ne _ _ hj⟩, L2.1⟩, L2.2⟩
    | top i =>
      obtain ⟨hi, hpos, hf⟩ := hf
      obtain ⟨x, N, s1, τ1, _, e1, hx, hN, _⟩ := W.pop hlt ρ hi (by rw [← hn i]; exact hpos)
      obtain ⟨s2, outs, e2, L2⟩ := ih s τ _ _ W hn hf hm
      exact ⟨s2, Out.val x :: outs, by rw [run, step, e1, Option.map_some, Option.bind_some, e2, Option.map_some], ⟨_, ⟨x, rfl, by rw [hN]; exact Multiset.mem_cons_self x N, hx, rfl⟩, L2.1⟩, L2.2⟩
    | size i =>
      obtain ⟨hi, hf⟩ := hf
      obtain ⟨p, e, _⟩ := (W.obj i hi).ob
      obtain ⟨s2, outs, e2, L2⟩ := ih s τ _ _ W hn hf hm
      refine ⟨s2, Out.num (M i).card :: outs, by rw [run, step, size, e, Option.map_some, Option.map_some, Option.bind_some, e2, Option.map_some, W.card hi], ⟨_, ⟨rfl, rfl⟩, L2.1⟩, L2.2⟩
    | clear i =>
      obtain ⟨hi, hf⟩ := hf
      obtain ⟨s1, τ1, e1, W1⟩ := W.clear hi
      obtain ⟨s2, outs, e2, L2⟩ := ih s1 τ1 _ _ W1 (card_upd hn rfl) hf hm
      exact ⟨s2, Out.unit :: outs, by rw [run, step, e1, Option.map_some, Option.bind_some, e2, Option.map_some], ⟨_, ⟨rfl, rfl⟩, L2.1⟩, L2.2⟩
    | meld i j => exact absurd hm (by simp [NoMeld])
    | absorb i j =>
      obtain ⟨hi, hj, hij, hf⟩ := hf
      obtain ⟨s1, τ1, e1, W1⟩ := W.absorb hlt ρ hi hj hij
      obtain ⟨s2, outs, e2, L2⟩ := ih s1 τ1 _ _ W1 (card_upd (card_upd hn (by rw [Multiset.card_add, hn i, hn j])) rfl) hf hm
      refine ⟨s2, Out.unit :: outs, ?_, ⟨_, ⟨rfl, rfl⟩, L2.1⟩, L2.2⟩
      rw [run, step]
      obtain ⟨sm, em, ec⟩ := Option.bind_eq_some_iff.1 e1
      rw [em, Option.bind_some, ec, Option.map_some, Option.bind_some, e2, Option.map_some]

/-- **C78 (in full).** Every program on `k` heaps behaves as on `k` independent priority queues, where `a.meld(b)` moves the content of `b` to `a`. -/
def C78_full (lt : T → T → Bool) (ρ : Nat → Bool) : Prop :=
  ∀ (k : Nat) (ops : List (Op T)), Fits k (fun _ => 0) ops → ∃ s outs, run lt ρ (init k) ops = some (s, outs) ∧ Legal lt (fun _ => 0) ops outs

/-- **C78 (part).** It does if every heap given to `meld` is cleared (or never used again, which is the same) right after: whatever `rand()` returns, every `top` and `pop` gives a greatest value of its heap,
`pop` removes exactly that one, `meld` unites two heaps, `size` counts, and no call fails. -/
theorem C78_partial (hlt : SWO lt) (ρ : Nat → Bool) (k : Nat) (ops : List (Op T)) (hf : Fits k (fun _ => 0) ops) (hm : NoMeld ops) :
    ∃ s outs, run lt ρ (init k) ops = some (s, outs) ∧ Legal lt (fun _ => 0) ops outs := by
  obtain ⟨s, outs, e, L, _⟩ := run_ok hlt ρ ops (init k) _ _ _ (init_ok k) (fun _ => rfl) hf hm
  exact ⟨s, outs, e, L⟩

def ltN (a b : Nat) : Bool := decide (a < b)

theorem ltN_swo : SWO ltN := by
  refine ⟨?_, ?_, ?_⟩ <;> unfold ltN
  · simp
  · intro a b h; simp at h ⊢; omega
  · intro a b c h1 h2; simp at h1 h2 ⊢; omega

/-- `a.push(5); b.push(3); a.meld(b); b.push(1); a.pop(); a.pop(); a.push(0); a.top();` -/
def badOps : List (Op Nat) := [.push 0 5, .push 1 3, .meld 0 1, .push 1 1, .pop 0, .pop 0, .push 0 0, .top 0]

/-- The value 1, pushed into `b` only, comes out of `a`. -/
theorem badOps_out : (run ltN (fun _ => true) (init 2) badOps).map (fun r => r.2) = some [.unit, .unit, .unit, .unit, .val 5, .val 3, .unit, .val 1] := by decide

/-- **C78 (violation).** `meld` leaves both heaps sharing nodes. -/
theorem C78_violation : ¬ C78_full ltN (fun _ => true) := by
  intro h
  obtain ⟨s, outs, e, L⟩ := h 2 badOps (by simp [badOps, Fits, upd])
  have e' := badOps_out
  rw [e] at e'
  cases Option.some.inj e'
  obtain ⟨M1, ⟨_, rfl⟩, M2, ⟨_, rfl⟩, M3, ⟨_, rfl⟩, M4, ⟨_, rfl⟩, M5, ⟨x5, h5, _, p5, _⟩, M6, ⟨x6, h6, _, p6, _⟩, M7, ⟨_, rfl⟩, M8, ⟨x8, h8, p8, _⟩, _⟩ := L
  cases h5
  cases h6
  cases h8
  simp only [upd] at p5 p8
  simp at p5 p8
  rw [← p5] at p6
  have : M6 0 = 0 := by simpa using p6
  rw [this] at p8
  simp at p8

/-- A melded heap still reports its size. -/
theorem C78_violation_size (ρ : Nat → Bool) : (run ltN ρ (init 2) [.push 0 5, .push 1 3, .meld 0 1, .size 1]).map (fun r => r.2) = some [.unit, .unit, .unit, .num 1] := by
  cases h : ρ 0 <;> simp [run, step, push, init, meldM, meldF, wr, meld, size, ltN, h]

/-! Examples: two heaps, melded and emptied. -/

def exOps : List (Op Nat) := [.push 0 4, .push 1 7, .push 0 9, .push 1 4, .push 1 8, .absorb 0 1, .top 0, .pop 0, .pop 0, .push 1 1, .pop 0, .size 0, .pop 1, .pop 0, .pop 0]

example (ρ : Nat → Bool) := C78_partial ltN_swo ρ 2 exOps (by simp [exOps, Fits, upd]) (by simp [exOps, NoMeld])
example : (run ltN (fun c => c % 3 == 0) (init 2) exOps).map (fun r => r.2) =
    some [.unit, .unit, .unit, .unit, .unit, .unit, .val 9, .val 9, .val 8, .unit, .val 7, .num 2, .val 1, .val 4, .val 4] := by decide +kernel

end Verif.Meldable
