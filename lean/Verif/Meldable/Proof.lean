import Verif.Meldable.Model
import Verif.FibHeap.Extract
import Mathlib.Data.List.Perm.Subperm
import Mathlib.Data.List.Nodup
/-!
`_meld` on disjoint trees.
-/
namespace Verif.Meldable
open Verif.FibHeap (SWO)

variable {T : Type}

/-- Ghost tree of nodes. -/
inductive BT (T : Type) where
  | nil
  | node (id : Nat) (x : T) (l r : BT T)

namespace BT
def ids : BT T → List Nat
  | nil => []
  | node id _ l r => id :: (ids l ++ ids r)
def elems : BT T → List T
  | nil => []
  | node _ x l r => x :: (elems l ++ elems r)
def sz : BT T → Nat
  | nil => 0
  | node _ _ l r => sz l + sz r + 1
theorem ids_len (t : BT T) : t.ids.length = t.sz := by
  induction t with
  | nil => rfl
  | node id x l r ihl ihr => simp only [ids, sz, List.length_cons, List.length_append, ihl, ihr]
theorem elems_len (t : BT T) : t.elems.length = t.sz := by
  induction t with
  | nil => rfl
  | node id x l r ihl ihr => simp only [elems, sz, List.length_cons, List.length_append, ihl, ihr]
end BT

/-- The memory holds the tree below `p`. -/
def Own (h : List (Node T)) : Option Nat → BT T → Prop
  | p, .nil => p = none
  | p, .node id x l r => p = some id ∧ ∃ a b, h[id]? = some ⟨x, a, b⟩ ∧ Own h a l ∧ Own h b r

/-- No value below a node is greater. -/
def Ordered (lt : T → T → Bool) : BT T → Prop
  | .nil => True
  | .node _ x l r => (∀ y ∈ l.elems ++ r.elems, lt x y = false) ∧ Ordered lt l ∧ Ordered lt r

theorem Own.frame {h h' : List (Node T)} : ∀ (t : BT T) (p : Option Nat), Own h p t → (∀ k ∈ t.ids, h'[k]? = h[k]?) → Own h' p t := by
  intro t
  induction t with
  | nil => intro p o _; exact o
  | node id x l r ihl ihr =>
    intro p o hk
    obtain ⟨e, a, b, e1, ol, or⟩ := o
    exact ⟨e, a, b, by rw [hk id (List.mem_cons_self ..)]; exact e1, ihl a ol (fun k m => hk k (List.mem_cons_of_mem _ (List.mem_append_left _ m))),
      ihr b or (fun k m => hk k (List.mem_cons_of_mem _ (List.mem_append_right _ m)))⟩

theorem Own.lt {h : List (Node T)} : ∀ (t : BT T) (p : Option Nat), Own h p t → ∀ k ∈ t.ids, k < h.length := by
  intro t
  induction t with
  | nil => intro p o k m; cases m
  | node id x l r ihl ihr =>
    intro p o k m
    obtain ⟨e, a, b, e1, ol, or⟩ := o
    rcases List.mem_cons.1 m with rfl | m
    · exact (List.getElem?_eq_some_iff.1 e1).1
    · rcases List.mem_append.1 m with m | m
      · exact ihl a ol k m
      · exact ihr b or k m

theorem own_none {h : List (Node T)} {t : BT T} (o : Own h none t) : t = .nil := by
  cases t with
  | nil => rfl
  | node => exact absurd o.1 (by simp)

theorem own_some {h : List (Node T)} {t : BT T} {i : Nat} (o : Own h (some i) t) : ∃ x l r a b, t = .node i x l r ∧ h[i]? = some ⟨x, a, b⟩ ∧ Own h a l ∧ Own h b r := by
  cases t with
  | nil => exact absurd o (by simp [Own])
  | node id x l r =>
    obtain ⟨e, a, b, e1, ol, or⟩ := o
    cases Option.some.inj e
    exact ⟨x, l, r, a, b, rfl, e1, ol, or⟩

/-- The result of a meld. -/
def Melded (lt : T → T → Bool) (h : List (Node T)) (t1 t2 : BT T) (res : Option (List (Node T) × Nat × Option Nat)) : Prop :=
  ∃ h' c' p t, res = some (h', c', p) ∧ Own h' p t ∧ t.ids.Perm (t1.ids ++ t2.ids) ∧ t.elems.Perm (t1.elems ++ t2.elems) ∧ Ordered lt t ∧ h'.length = h.length ∧
    ∀ k, k ∉ t1.ids ++ t2.ids → h'[k]? = h[k]?

theorem Melded.swap {lt : T → T → Bool} {h : List (Node T)} {t1 t2 : BT T} {res : Option (List (Node T) × Nat × Option Nat)} (m : Melded lt h t2 t1 res) : Melded lt h t1 t2 res := by
  obtain ⟨h', c', p, t, e, o, i, el, d, ln, fr⟩ := m
  exact ⟨h', c', p, t, e, o, i.trans List.perm_append_comm, el.trans List.perm_append_comm, d, ln, fun k hk => fr k (fun hm => hk (List.perm_append_comm.mem_iff.1 hm))⟩

/-- Everything in an ordered tree is bounded by its root. -/
theorem Ordered.root_le {lt : T → T → Bool} {i : Nat} {x : T} {l r : BT T} (hlt : SWO lt) (d : Ordered lt (.node i x l r)) {z : T} (hz : lt z x = false) : ∀ y ∈ (BT.node i x l r).elems, lt z y = false := by
  intro y hy
  rcases List.mem_cons.1 hy with rfl | hy
  · exact hz
  · exact hlt.ntrans z x y hz (d.1 y hy)

theorem meldF_ok {lt : T → T → Bool} (hlt : SWO lt) (ρ : Nat → Bool) : ∀ (k : Nat) (h : List (Node T)) (c : Nat) (p q : Option Nat) (t1 t2 : BT T), Own h p t1 → Own h q t2 → (t1.ids ++ t2.ids).Nodup →
    Ordered lt t1 → Ordered lt t2 → (2 * (t1.sz + t2.sz) + 1 < k ∨ (2 * (t1.sz + t2.sz) < k ∧ ∀ a ∈ t1.elems.head?, ∀ b ∈ t2.elems.head?, lt a b = false)) → Melded lt h t1 t2 (meldF lt ρ k h c p q) := by
  intro k
  induction k with
  | zero => intro h c p q t1 t2 _ _ _ _ _ hk; omega
  | succ k ih =>
    intro h c p q t1 t2 o1 o2 nd d1 d2 hk
    cases p with
    | none =>
      cases own_none o1
      rw [meldF]
      exact ⟨h, c, q, t2, rfl, o2, by simp [BT.ids], by simp [BT.elems], d2, rfl, fun _ _ => rfl⟩
    | some l =>
      cases q with
      | none =>
        cases own_none o2
        rw [meldF]
        exact ⟨h, c, some l, t1, rfl, o1, by simp [BT.ids], by simp [BT.elems], d1, rfl, fun _ _ => rfl⟩
      | some r =>
        obtain ⟨x, tl, tr, a, b, rfl, e1, ol, or⟩ := own_some o1
        obtain ⟨x', tl', tr', a', b', rfl, e2, ol', or'⟩ := own_some o2
        rw [meldF, e1, Option.bind_some, e2, Option.bind_some]
        dsimp only
        cases hc : lt x x' with
        | true =>
          rw [if_pos (by rfl)]
          refine (ih h c (some r) (some l) _ _ o2 o1 ((List.perm_append_comm.nodup_iff).1 nd) d2 d1 (Or.inr ⟨?_, ?_⟩)).swap
          · rcases hk with hk | ⟨_, hk⟩
            · omega
            · have := hk x rfl x' rfl
              rw [hc] at this
              cases this
          · intro a ha b hb
            cases ha
            cases hb
            exact hlt.asymm _ _ hc
        | false =>
          rw [if_neg (by simp)]
          have hsz : 2 * ((BT.node l x tl tr).sz + (BT.node r x' tl' tr').sz) < k + 1 := by rcases hk with hk | ⟨hk, _⟩ <;> omega
          have hsz0 : (BT.node l x tl tr).sz = tl.sz + tr.sz + 1 := rfl
          have nd' := List.nodup_append.1 nd
          have ndl : (l :: (tl.ids ++ tr.ids)).Nodup := nd'.1
          have ndlr := List.nodup_append.1 (List.nodup_cons.1 ndl).2
          have dis : ∀ u ∈ l :: (tl.ids ++ tr.ids), u ∉ (BT.node r x' tl' tr').ids := fun u hu hv => nd'.2.2 u hu u hv rfl
          have hl : l ∉ tl.ids ++ tr.ids := (List.nodup_cons.1 ndl).1
          by_cases hρ : ρ c = true
          · rw [if_pos hρ]
            obtain ⟨h', c', p, t, e, o, i, el, d, ln, fr⟩ := ih h (c+1) a (some r) tl (.node r x' tl' tr') ol o2
              (List.nodup_append.2 ⟨ndlr.1, nd'.2.1, fun u hu v hv huv => dis u (List.mem_cons_of_mem _ (List.mem_append_left _ hu)) (huv ▸ hv)⟩) d1.2.1 d2 (Or.inl (by omega))
            have hlt' : l ∉ tl.ids ++ (BT.node r x' tl' tr').ids := fun hm => (List.mem_append.1 hm).elim (fun hm => hl (List.mem_append_left _ hm)) (dis l (List.mem_cons_self ..))
            have el1 : h'[l]? = some ⟨x, a, b⟩ := by rw [fr l hlt']; exact e1
            have hll : l < h'.length := (List.getElem?_eq_some_iff.1 el1).1
            rw [e, Option.bind_some, el1, Option.bind_some]
            unfold wr
            rw [if_pos hll]
            refine ⟨_, _, _, .node l x t tr, rfl, ⟨rfl, p, b, List.getElem?_set_self hll, ?_, ?_⟩, ?_, ?_, ⟨?_, d, d1.2.2⟩, ?_, ?_⟩
            · exact o.frame t p (fun u hu => List.getElem?_set_ne (fun (e : l = u) => hlt' (i.mem_iff.1 (e ▸ hu))))
            · refine or.frame tr b (fun u hu => ?_)
              rw [List.getElem?_set_ne (fun (e : l = u) => hl (List.mem_append_right _ (e ▸ hu)))]
              refine fr u (fun hm => ?_)
              rcases List.mem_append.1 hm with hm | hm
              · exact ndlr.2.2 u hm u hu rfl
              · exact dis u (List.mem_cons_of_mem _ (List.mem_append_right _ hu)) hm
            · refine List.Perm.cons l ?_
              refine (i.append_right tr.ids).trans ?_
              show List.Perm _ ((tl.ids ++ tr.ids) ++ (BT.node r x' tl' tr').ids)
              rw [List.append_assoc, List.append_assoc]
              exact List.Perm.append_left _ List.perm_append_comm
            · refine List.Perm.cons x ?_
              refine (el.append_right tr.elems).trans ?_
              show List.Perm _ ((tl.elems ++ tr.elems) ++ (BT.node r x' tl' tr').elems)
              rw [List.append_assoc, List.append_assoc]
              exact List.Perm.append_left _ List.perm_append_comm
            · intro y hy
              rcases List.mem_append.1 hy with hy | hy
              · rcases List.mem_append.1 (el.mem_iff.1 hy) with hy | hy
                · exact d1.1 y (List.mem_append_left _ hy)
                · exact d2.root_le hlt hc y hy
              · exact d1.1 y (List.mem_append_right _ hy)
            · rw [List.length_set, ln]
            · intro u hu
              rw [List.getElem?_set_ne (fun (e : l = u) => hu (by subst e; exact List.mem_append_left _ (List.mem_cons_self ..)))]
              refine fr u (fun hm => hu ?_)
              rcases List.mem_append.1 hm with hm | hm
              · exact List.mem_append_left _ (List.mem_cons_of_mem _ (List.mem_append_left _ hm))
              · exact List.mem_append_right _ hm
          · rw [if_neg hρ]
            obtain ⟨h', c', p, t, e, o, i, el, d, ln, fr⟩ := ih h (c+1) b (some r) tr (.node r x' tl' tr') or o2
              (List.nodup_append.2 ⟨ndlr.2.1, nd'.2.1, fun u hu v hv huv => dis u (List.mem_cons_of_mem _ (List.mem_append_right _ hu)) (huv ▸ hv)⟩) d1.2.2 d2 (Or.inl (by omega))
            have hlt' : l ∉ tr.ids ++ (BT.node r x' tl' tr').ids := fun hm => (List.mem_append.1 hm).elim (fun hm => hl (List.mem_append_right _ hm)) (dis l (List.mem_cons_self ..))
            have el1 : h'[l]? = some ⟨x, a, b⟩ := by rw [fr l hlt']; exact e1
            have hll : l < h'.length := (List.getElem?_eq_some_iff.1 el1).1
            rw [e, Option.bind_some, el1, Option.bind_some]
            unfold wr
            rw [if_pos hll]
            refine ⟨_, _, _, .node l x tl t, rfl, ⟨rfl, a, p, List.getElem?_set_self hll, ?_, ?_⟩, ?_, ?_, ⟨?_, d1.2.1, d⟩, ?_, ?_⟩
            · refine ol.frame tl a (fun u hu => ?_)
              rw [List.getElem?_set_ne (fun (e : l = u) => hl (List.mem_append_left _ (e ▸ hu)))]
              refine fr u (fun hm => ?_)
              rcases List.mem_append.1 hm with hm | hm
              · exact ndlr.2.2 u hu u hm rfl
              · exact dis u (List.mem_cons_of_mem _ (List.mem_append_left _ hu)) hm
            · exact o.frame t p (fun u hu => List.getElem?_set_ne (fun (e : l = u) => hlt' (i.mem_iff.1 (e ▸ hu))))
            · refine List.Perm.cons l ?_
              refine (i.append_left tl.ids).trans ?_
              show List.Perm _ ((tl.ids ++ tr.ids) ++ (BT.node r x' tl' tr').ids)
              rw [List.append_assoc]
            · refine List.Perm.cons x ?_
              refine (el.append_left tl.elems).trans ?_
              show List.Perm _ ((tl.elems ++ tr.elems) ++ (BT.node r x' tl' tr').elems)
              rw [List.append_assoc]
            · intro y hy
              rcases List.mem_append.1 hy with hy | hy
              · exact d1.1 y (List.mem_append_left _ hy)
              · rcases List.mem_append.1 (el.mem_iff.1 hy) with hy | hy
                · exact d1.1 y (List.mem_append_right _ hy)
                · exact d2.root_le hlt hc y hy
            · rw [List.length_set, ln]
            · intro u hu
              rw [List.getElem?_set_ne (fun (e : l = u) => hu (by subst e; exact List.mem_append_left _ (List.mem_cons_self ..)))]
              refine fr u (fun hm => hu ?_)
              rcases List.mem_append.1 hm with hm | hm
              · exact List.mem_append_left _ (List.mem_cons_of_mem _ (List.mem_append_right _ hm))
              · exact List.mem_append_right _ hm

/-- Disjoint trees fit in the memory. -/
theorem sz_le {h : List (Node T)} {p q : Option Nat} {t1 t2 : BT T} (o1 : Own h p t1) (o2 : Own h q t2) (nd : (t1.ids ++ t2.ids).Nodup) : t1.sz + t2.sz ≤ h.length := by
  have : (t1.ids ++ t2.ids).Subperm (List.range h.length) := by
    refine nd.subperm (fun k hk => List.mem_range.2 ?_)
    rcases List.mem_append.1 hk with hk | hk
    · exact o1.lt t1 p k hk
    · exact o2.lt t2 q k hk
  have := this.length_le
  rwa [List.length_append, BT.ids_len, BT.ids_len, List.length_range] at this

theorem meldM_ok {lt : T → T → Bool} (hlt : SWO lt) (ρ : Nat → Bool) (s : St T) {p q : Option Nat} {t1 t2 : BT T} (o1 : Own s.mem p t1) (o2 : Own s.mem q t2) (nd : (t1.ids ++ t2.ids).Nodup)
    (d1 : Ordered lt t1) (d2 : Ordered lt t2) : Melded lt s.mem t1 t2 (meldM lt ρ s p q) := by
  have := sz_le o1 o2 nd
  exact meldF_ok hlt ρ _ _ _ _ _ _ _ o1 o2 nd d1 d2 (Or.inl (by omega))

end Verif.Meldable
