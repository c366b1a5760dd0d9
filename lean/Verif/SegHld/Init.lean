import Verif.SegHld.Ops
import Mathlib.Data.List.GetD
/-!
The constructors establish the invariant; list views of the queries.
-/
namespace Verif.SegHld
open MulOpposite

variable {M A : Type} [Monoid M]

theorem prodV_ones (l : Nat) : ∀ k, prodV (fun _ => (1 : M)) l (l + k) = 1 := by
  intro k
  induction k with
  | zero => exact prodV_nil _ (by omega)
  | succ k ih =>
    rw [← prodV_append _ (show l ≤ l + k by omega) (show l + k ≤ l + (k+1) by omega), ih, ← Nat.add_assoc, prodV_one, one_mul]
    rfl

theorem build_good {S : Acts M A} (L : Laws S) (ws : List Nat) (h0 : ws ≠ []) (hw : ∀ w ∈ ws, 0 < w) :
    ∃ o N sh, build S ws = some o ∧ Good S ws.length N sh (fun _ => 1) (fun _ => S.ida) (fun _ _ => 1) o := by
  obtain ⟨o, N, sh, b1, b2, b3, b4, b5⟩ := build_ok (M := M) S ws h0 hw
  refine ⟨o, N, sh, b1, b4, b2, b3, fun k hk c hc j hj => (L.act_id _).symm, fun k hk => ⟨fun hl => ⟨1, rfl, (L.act_id _).symm⟩, fun a b hi => ?_⟩, b5⟩
  have g1 := hi.ia; have g2 := hi.ab; have g3 := hi.bN
  have ra := b4.rng a (by omega)
  have rb := b4.rng b (by omega)
  rw [show (sh a).r = (sh a).l + ((sh a).r - (sh a).l) by omega, show (sh b).r = (sh b).l + ((sh b).r - (sh b).l) by omega, prodV_ones, prodV_ones, one_mul]

theorem ofRange_good {S : Acts M A} (L : Laws S) (ws : List Nat) (h0 : ws ≠ []) (hw : ∀ w ∈ ws, 0 < w) (xs : List M) (hx : xs.length ≤ ws.length) :
    ∃ o N sh vv, ofRange S ws xs = some o ∧ Good S ws.length N sh vv (fun _ => S.ida) (fun _ j => xs.getD j 1) o := by
  obtain ⟨o, N, sh, b1, b2, b3, b4, b5⟩ := build_ok (M := M) S ws h0 hw
  have tid : Triv S S.ida := L.act_id
  obtain ⟨t1, c1, vv1, c2, c3⟩ := forRange_inv (fun i t => ∃ vv : Nat → M × Mᵐᵒᵖ, Rep t N (nd sh vv (fun _ => S.ida)) ∧ ∀ k, k < N → Leaf (sh k) → vv k = emb (if (sh k).l < i then xs.getD (sh k).l 1 else 1))
    (body := fillStep o.target xs) (s := o.tree) (Nat.zero_le xs.length) ⟨fun _ => 1, b3, fun k hk hl => by rw [if_neg (by omega)]; rfl⟩ (by
      rintro i t - hi ⟨vv, r, hv⟩
      obtain ⟨u, k1, k2, k3, k4⟩ := b5 i (by omega)
      have hxi : xs[i]? = some xs[i] := List.getElem?_eq_getElem hi
      obtain ⟨t', w1, r1⟩ := setAt_ok r k2 xs[i]
      refine ⟨t', ?_, upd vv u (emb xs[i]), r1, fun k hk hl => ?_⟩
      · unfold fillStep
        rw [hxi, Option.bind_some, k1, Option.bind_some, w1]
      · by_cases e : k = u
        · subst e
          rw [upd_same, if_pos (by omega), k4, List.getD_eq_getElem _ _ hi]
        · rw [upd_ne _ _ e, hv k hk hl]
          have : (sh k).l ≠ i := fun h => e (b4.leaf_unique hk k2 hl k3 (by omega))
          by_cases h : (sh k).l < i
          · rw [if_pos h, if_pos (by omega)]
          · rw [if_neg h, if_neg (by omega)])
  have c3' : ∀ k, k < N → Leaf (sh k) → vv1 k = emb (xs.getD (sh k).l 1) := by
    intro k hk hl
    rw [c3 k hk hl]
    by_cases h : (sh k).l < xs.length
    · rw [if_pos h]
    · rw [if_neg h, List.getD_eq_default _ _ (by omega)]
  obtain ⟨t2, d1, vv2, d2, d3, d4⟩ := forRangeDown_inv (fun i t => ∃ vv : Nat → M × Mᵐᵒᵖ, Rep t N (nd sh vv (fun _ => S.ida)) ∧ (∀ k, k < N → Leaf (sh k) → vv k = emb (xs.getD (sh k).l 1)) ∧
      ∀ k, i ≤ k → k < N → LocV S N sh vv (fun _ => S.ida) (fun _ j => xs.getD j 1) k)
    (body := pullStep) (s := t1) (Nat.zero_le N) ⟨vv1, c2, c3', fun k h1 h2 => by omega⟩ (by
      rintro i t - hi ⟨vv, r, hv, hV⟩
      unfold pullStep
      rw [r.val i hi, Option.bind_some]
      have hs : (nd sh vv (fun _ => S.ida) i).s = sh i := rfl
      rw [hs]
      rcases b4.fin i hi with hl | ⟨a, b, hin⟩
      · have := hl.1
        rw [if_pos (by omega)]
        refine ⟨t, rfl, vv, r, hv, fun k h1 h2 => ?_⟩
        rcases Nat.lt_or_ge i k with h | h
        · exact hV k h h2
        · have : k = i := by omega
          subst this
          exact ⟨fun _ => ⟨_, hv k hi hl, (L.act_id _).symm⟩, fun a b h => absurd hl h.not_leaf⟩
      · have g1 := hin.ia; have g2 := hin.ab; have g3 := hin.bN; have g4 := hin.al; have g5 := hin.am; have g6 := hin.br
        have ra := b4.rng a (by omega)
        have rb := b4.rng b (by omega)
        rw [if_neg (by omega)]
        obtain ⟨t', w1, r1⟩ := takeAt_ok r hin
        have hE : ∀ k, LocE S sh (fun _ => S.ida) (fun _ j => xs.getD j 1) k := fun k c hc j hj => (L.act_id _).symm
        refine ⟨t', w1, _, r1, fun k hk hl => ?_, fun k h1 h2 => ?_⟩
        · rw [upd_ne _ _ (by rintro rfl; exact hin.not_leaf hl)]; exact hv k hk hl
        · by_cases e : k = i
          · subst e
            exact take_local L b4 hin (hE a) (hE b) (hV a (by omega) (by omega)) (hV b (by omega) g3) tid tid
          · exact locV_upd e (hV k (by omega) h2))
  refine ⟨⟨o.n, t2, o.target⟩, N, sh, vv2, ?_, b4, b2, d2, fun k hk c hc j hj => (L.act_id _).symm, fun k hk => d4 k (Nat.zero_le _) hk, b5⟩
  unfold ofRange
  rw [b1, Option.bind_some, c1, Option.bind_some, c2.len, d1]; rfl

/-- The list of the values of the object. -/
theorem prodV_list (vs : List M) {f : Nat → M} (hf : ∀ j, j < vs.length → vs[j]? = some (f j)) (l r : Nat) :
    prodV f l (min r vs.length) = (((vs.take r).drop l).prod, op ((vs.take r).drop l).reverse.prod) := by
  have h : (vs.take r).drop l = (List.range' l (min r vs.length - l)).map f := by
    apply List.ext_getElem?
    intro i
    by_cases hi : l + i < min r vs.length
    · rw [List.getElem?_drop, List.getElem?_take, if_pos (by omega), hf _ (by omega), List.getElem?_map, List.getElem?_range' (by omega)]
      simp
    · rw [List.getElem?_eq_none (by simp; omega), List.getElem?_eq_none (by simp; omega)]
  rw [h]
  unfold prodV
  generalize List.range' l (min r vs.length - l) = ks
  induction ks with
  | nil => simp [Prod.one_eq_mk]
  | cons k ks ih =>
    rw [List.map_cons, List.prod_cons, ih, List.map_cons, List.prod_cons, List.reverse_cons, List.prod_append]
    simp [emb]

end Verif.SegHld
