import Verif.Heap.DepqModel
import Mathlib.Order.Basic
import Mathlib.Order.Defs.LinearOrder
import Mathlib.Data.List.FinRange
/-!
# The double-ended priority queue: sifting along a diagram
-/
namespace Verif.Depq

variable {α : Type} [LinearOrder α]

/-! ### Swapping -/

def sw (g : Nat → α) (i j : Nat) : Nat → α := fun x => if x = i then g j else if x = j then g i else g x

theorem sw_left (g : Nat → α) (i j : Nat) : sw g i j i = g j := by rw [sw, if_pos rfl]
theorem sw_right (g : Nat → α) (i j : Nat) : sw g i j j = g i := by
  unfold sw
  by_cases h : j = i
  · rw [if_pos h, h]
  · rw [if_neg h, if_pos rfl]
theorem sw_ne (g : Nat → α) {i j x : Nat} (h1 : x ≠ i) (h2 : x ≠ j) : sw g i j x = g x := by rw [sw, if_neg h1, if_neg h2]

theorem sw_comm (g : Nat → α) (i j : Nat) : sw g i j = sw g j i := by
  funext x
  by_cases h1 : x = i
  · subst h1; rw [sw_left, sw_right]
  · by_cases h2 : x = j
    · subst h2; rw [sw_left, sw_right]
    · rw [sw_ne g h1 h2, sw_ne g h2 h1]

theorem swap_perm {a : List α} {i j : Nat} (hi : i < a.length) (hj : j < a.length) : ((a.set i a[j]).set j a[i]).Perm a := by
  have := Equiv.Perm.ofFn_comp_perm (Equiv.swap (⟨i, hi⟩ : Fin a.length) ⟨j, hj⟩) a.get
  rw [List.ofFn_get] at this
  refine List.Perm.trans (List.Perm.of_eq ?_) this
  apply List.ext_getElem
  · simp
  · intro k h1 h2
    simp only [List.getElem_set, List.getElem_ofFn, Function.comp, List.get_eq_getElem]
    simp only [List.length_set] at h1
    by_cases e1 : j = k
    · subst e1
      rw [if_pos rfl, Equiv.swap_apply_right]
    · rw [if_neg e1]
      by_cases e2 : i = k
      · subst e2
        rw [if_pos rfl, Equiv.swap_apply_left]
      · rw [if_neg e2, Equiv.swap_apply_of_ne_of_ne (by simp; omega) (by simp; omega)]

theorem swap_ok {a : List α} {n : Nat} {g : Nat → α} (h : Rep a n g) {i j : Nat} (hi : i < n) (hj : j < n) :
    ∃ a', swap a i j = some a' ∧ Rep a' n (sw g i j) ∧ a'.Perm a := by
  have e1 := h.val i hi
  have e2 := h.val j hj
  obtain ⟨a1, w1, r1⟩ := h.wr hi (g j)
  obtain ⟨a2, w2, r2⟩ := r1.wr hj (g i)
  refine ⟨a2, by rw [swap, e1, Option.bind_some, e2, Option.bind_some, w1, Option.bind_some, w2], ?_, ?_⟩
  · refine r2.congr (fun x _ => ?_)
    unfold sw
    by_cases h1 : x = j
    · subst h1
      rw [upd_same]
      by_cases h2 : x = i
      · rw [if_pos h2, h2]
      · rw [if_neg h2, if_pos rfl]
    · rw [upd_ne _ _ h1]
      by_cases h2 : x = i
      · subst h2; rw [upd_same, if_pos rfl]
      · rw [upd_ne _ _ h2, if_neg h2, if_neg h1]
  · have hl := h.len
    have := swap_perm (a := a) (i := i) (j := j) (by omega) (by omega)
    refine List.Perm.trans (List.Perm.of_eq ?_) this
    rw [List.getElem?_eq_some_iff] at e1 e2
    obtain ⟨_, e1⟩ := e1
    obtain ⟨_, e2⟩ := e2
    rw [e1, e2]
    unfold Verif.wr at w1 w2
    rw [if_pos (by omega)] at w1
    cases w1
    rw [if_pos (by simp; omega)] at w2
    cases w2
    rfl

/-! ### Sifting a value along an arbitrary diagram -/

section Sift
variable (E : Nat → Nat → Prop)

def Ok (g : Nat → α) : Prop := ∀ u w, E u w → g u ≤ g w
/-- Everything is in order except possibly at `h`. -/
def Hole (h : Nat) (g : Nat → α) : Prop := (∀ u w, E u w → u ≠ h → w ≠ h → g u ≤ g w) ∧ ∀ u w, E u h → E h w → g u ≤ g w
def UpOk (h : Nat) (g : Nat → α) : Prop := ∀ w, E h w → g h ≤ g w
def DnOk (h : Nat) (g : Nat → α) : Prop := ∀ u, E u h → g u ≤ g h

variable {E}

theorem ok_of_hole {h : Nat} {g : Nat → α} (hh : Hole E h g) (hu : UpOk E h g) (hd : DnOk E h g) : Ok E g := by
  intro u w e
  by_cases h1 : u = h
  · subst h1; exact hu w e
  · by_cases h2 : w = h
    · subst h2; exact hd u e
    · exact hh.1 u w e h1 h2

theorem upOk_of_pred {h u : Nat} {g : Nat → α} (hh : Hole E h g) (e : E u h) (hlt : g h < g u) : UpOk E h g :=
  fun w ew => le_trans (le_of_lt hlt) (hh.2 u w e ew)

theorem dnOk_of_succ {h w : Nat} {g : Nat → α} (hh : Hole E h g) (e : E h w) (hlt : g w < g h) : DnOk E h g :=
  fun u eu => le_trans (hh.2 u w eu e) (le_of_lt hlt)

/-- The value moves to the largest predecessor. -/
theorem sift_pred (irr : ∀ x, ¬ E x x) {h u : Nat} {g : Nat → α} (hh : Hole E h g) (e : E u h) (hmax : ∀ x, E x h → g x ≤ g u) (hlt : g h < g u) :
    Hole E u (sw g h u) ∧ UpOk E u (sw g h u) := by
  have hne : u ≠ h := fun h' => irr h (by rw [h'] at e; exact e)
  refine ⟨⟨fun x y exy hx hy => ?_, fun x y ex ey => ?_⟩, fun w ew => ?_⟩
  · by_cases h1 : x = h
    · subst h1
      have h2 : y ≠ x := fun h' => irr x (by rw [h'] at exy; exact exy)
      rw [sw_left, sw_ne g h2 hy]
      exact hh.2 u y e exy
    · rw [sw_ne g h1 hx]
      by_cases h2 : y = h
      · subst h2; rw [sw_left]; exact hmax x exy
      · rw [sw_ne g h2 hy]; exact hh.1 x y exy h1 h2
  · have hx : x ≠ u := fun h' => irr u (by rw [h'] at ex; exact ex)
    have hy : y ≠ u := fun h' => irr u (by rw [h'] at ey; exact ey)
    have h1 : sw g h u x ≤ g u := by
      by_cases h1 : x = h
      · subst h1; rw [sw_left]
      · rw [sw_ne g h1 hx]; exact hh.1 x u ex h1 hne
    have h2 : g u ≤ sw g h u y := by
      by_cases h2 : y = h
      · subst h2; rw [sw_left]
      · rw [sw_ne g h2 hy]; exact hh.1 u y ey hne h2
    exact le_trans h1 h2
  · rw [sw_right]
    have hw : w ≠ u := fun h' => irr u (by rw [h'] at ew; exact ew)
    by_cases h2 : w = h
    · subst h2; rw [sw_left]; exact le_of_lt hlt
    · rw [sw_ne g h2 hw]; exact le_trans (le_of_lt hlt) (hh.1 u w ew hne h2)

/-- The value moves to the least successor. -/
theorem sift_succ (irr : ∀ x, ¬ E x x) {h w : Nat} {g : Nat → α} (hh : Hole E h g) (e : E h w) (hmin : ∀ x, E h x → g w ≤ g x) (hlt : g w < g h) :
    Hole E w (sw g h w) ∧ DnOk E w (sw g h w) := by
  have hne : w ≠ h := fun h' => irr h (by rw [h'] at e; exact e)
  refine ⟨⟨fun x y exy hx hy => ?_, fun x y ex ey => ?_⟩, fun u eu => ?_⟩
  · by_cases h1 : y = h
    · subst h1
      have h2 : x ≠ y := fun h' => irr y (by rw [h'] at exy; exact exy)
      rw [sw_left, sw_ne g h2 hx]
      exact hh.2 x w exy e
    · rw [sw_ne g h1 hy]
      by_cases h2 : x = h
      · subst h2; rw [sw_left]; exact hmin y exy
      · rw [sw_ne g h2 hx]; exact hh.1 x y exy h2 h1
  · have hx : x ≠ w := fun h' => irr w (by rw [h'] at ex; exact ex)
    have hy : y ≠ w := fun h' => irr w (by rw [h'] at ey; exact ey)
    have h1 : sw g h w x ≤ g w := by
      by_cases h1 : x = h
      · subst h1; rw [sw_left]
      · rw [sw_ne g h1 hx]; exact hh.1 x w ex h1 hne
    have h2 : g w ≤ sw g h w y := by
      by_cases h2 : y = h
      · subst h2; rw [sw_left]
      · rw [sw_ne g h2 hy]; exact hh.1 w y ey hne h2
    exact le_trans h1 h2
  · rw [sw_right]
    have hu : u ≠ w := fun h' => irr w (by rw [h'] at eu; exact eu)
    by_cases h2 : u = h
    · subst h2; rw [sw_left]; exact le_of_lt hlt
    · rw [sw_ne g h2 hu]; exact le_trans (hh.1 u w eu h2 hne) (le_of_lt hlt)

end Sift

/-! ### The diagram of the interval heap -/

/-- The position of the lower end of node `c`. -/
def lo (n c : Nat) : Nat := if 2 * c + 1 < n then 2 * c + 1 else 2 * c

/-- The order the heap keeps, restricted to the nodes already treated (`root`). -/
inductive Edge (n root : Nat) : Nat → Nat → Prop
  | H (c p : Nat) : 1 ≤ c → p = (c-1)/2 → 2 * c < n → root ≤ 2 * p → Edge n root (2*c) (2*p)
  | L (c p l : Nat) : 1 ≤ c → p = (c-1)/2 → 2 * c < n → root ≤ 2 * p + 1 → l = lo n c → Edge n root (2*p+1) l
  | N (c : Nat) : 2 * c + 1 < n → n ≤ 2 * (2*c+1) → root ≤ 2*c+1 → Edge n root (2*c+1) (2*c)

theorem edge_inv {n root u w : Nat} (e : Edge n root u w) :
    (∃ c, 1 ≤ c ∧ 2*c < n ∧ root ≤ 2*((c-1)/2) ∧ u = 2*c ∧ w = 2*((c-1)/2)) ∨
    (∃ c, 1 ≤ c ∧ 2*c < n ∧ root ≤ 2*((c-1)/2)+1 ∧ u = 2*((c-1)/2)+1 ∧ (w = 2*c+1 ∧ 2*c+1 < n ∨ w = 2*c ∧ n ≤ 2*c+1)) ∨
    (∃ c, 2*c+1 < n ∧ n ≤ 2*(2*c+1) ∧ root ≤ 2*c+1 ∧ u = 2*c+1 ∧ w = 2*c) := by
  cases e with
  | H c p h1 h2 h3 h4 => exact Or.inl ⟨c, h1, h3, by omega, rfl, by omega⟩
  | L c p l h1 h2 h3 h4 h5 =>
    refine Or.inr (Or.inl ⟨c, h1, h3, by omega, by omega, ?_⟩)
    unfold lo at h5
    split at h5 <;> omega
  | N c h1 h2 h3 => exact Or.inr (Or.inr ⟨c, h1, h2, h3, rfl, rfl⟩)

theorem edge_irr (n root x : Nat) : ¬ Edge n root x x := by
  intro e
  rcases edge_inv e with ⟨c, h⟩ | ⟨c, h⟩ | ⟨c, h⟩ <;> omega

def Leaf (n j : Nat) : Prop := n ≤ 2 * (2 * (j/2) + 1)

/-- Lower ends are below upper ends. -/
theorem lohi {n root : Nat} {g : Nat → α} (hok : Ok (Edge n root) g) : ∀ (m c : Nat), n ≤ m + c → 2*c+1 < n → root ≤ 2*c → g (2*c+1) ≤ g (2*c) := by
  intro m
  induction m with
  | zero => intro c h1 h2 _; omega
  | succ m ih =>
    intro c h1 h2 h3
    by_cases hl : n ≤ 2*(2*c+1)
    · exact hok _ _ (Edge.N c h2 hl (by omega))
    · have e1 := hok _ _ (Edge.L (n := n) (root := root) (2*c+1) c (lo n (2*c+1)) (by omega) (by omega) (by omega) (by omega) rfl)
      have e3 := hok _ _ (Edge.H (n := n) (root := root) (2*c+1) c (by omega) (by omega) (by omega) (by omega))
      have e2 : g (lo n (2*c+1)) ≤ g (2*(2*c+1)) := by
        unfold lo
        split
        · exact ih (2*c+1) (by omega) (by assumption) (by omega)
        · exact le_refl _
      exact le_trans e1 (le_trans e2 e3)

theorem lohi' {n root : Nat} {g : Nat → α} (hok : Ok (Edge n root) g) {c : Nat} (h : 2*c+1 < n) (hr : root ≤ 2*c) : g (2*c+1) ≤ g (2*c) :=
  lohi hok n c (by omega) h hr

theorem lohi_lo {n root : Nat} {g : Nat → α} (hok : Ok (Edge n root) g) {c : Nat} (hr : root ≤ 2*c) : g (lo n c) ≤ g (2*c) := by
  unfold lo
  split
  · exact lohi' hok (by assumption) hr
  · exact le_refl _

/-! ### The loops -/

theorem cmpAt_ok {a : List α} {n : Nat} {g : Nat → α} (h : Rep a n g) (mx : Bool) {i j : Nat} (hi : i < n) (hj : j < n) :
    cmpAt mx a i j = some (comp mx (g i) (g j)) := by
  rw [cmpAt, h.val i hi, Option.bind_some, h.val j hj]; rfl

theorem comp_true (x y : α) : comp true x y = decide (x < y) := rfl
theorem comp_false (x y : α) : comp false x y = decide (y < x) := rfl

theorem heapUp_noop {a : List α} {n : Nat} {g : Nat → α} (h : Rep a n g) (mx : Bool) {root f i : Nat} (hi : i < n)
    (hc : root / 2 < i / 2 → root ≤ upTarget mx i → comp mx (g (upTarget mx i)) (g i) = false) : heapUp mx root (f+1) a i = some a := by
  rw [heapUp]
  by_cases hr : root / 2 < i / 2 ∧ root ≤ upTarget mx i
  · have ht : upTarget mx i < n := by unfold upTarget parent; split <;> omega
    rw [if_pos hr, cmpAt_ok h mx ht hi, Option.bind_some, hc hr.1 hr.2]; rfl
  · rw [if_neg hr]

theorem upT_true (i : Nat) : upTarget true i = 2*((i/2-1)/2) := by unfold upTarget parent; rw [if_pos rfl]; omega
theorem upT_false (i : Nat) : upTarget false i = 2*((i/2-1)/2)+1 := by unfold upTarget parent; rw [if_neg (by decide)]; omega

theorem minUp {n root : Nat} : ∀ (f : Nat) (a : List α) (g : Nat → α) (i : Nat), Rep a n g → i < n → i < f → i = lo n (i/2) → Hole (Edge n root) i g → UpOk (Edge n root) i g →
    ∃ a' g', heapUp false root f a i = some a' ∧ Rep a' n g' ∧ Ok (Edge n root) g' ∧ a'.Perm a := by
  intro f
  induction f with
  | zero => intro a g i _ _ h; omega
  | succ f ih =>
    intro a g i hr hi hf hlo hh hu
    have hpred : ∀ u, Edge n root u i → u = 2*((i/2-1)/2)+1 ∧ root / 2 < i / 2 ∧ root ≤ 2*((i/2-1)/2)+1 := by
      intro u e
      unfold lo at hlo
      rcases edge_inv e with ⟨c, h⟩ | ⟨c, h⟩ | ⟨c, h⟩ <;> split at hlo <;> omega
    rw [heapUp, upT_false]
    by_cases hc : root / 2 < i / 2 ∧ root ≤ 2*((i/2-1)/2)+1
    · have ht : 2*((i/2-1)/2)+1 < n := by omega
      rw [if_pos hc, cmpAt_ok hr false ht hi, Option.bind_some, comp_false]
      by_cases hlt : g i < g (2*((i/2-1)/2)+1)
      · obtain ⟨a1, s1, r1, p1⟩ := swap_ok hr (i := 2*((i/2-1)/2)+1) (j := i) ht hi
        have he : Edge n root (2*((i/2-1)/2)+1) i := Edge.L (i/2) ((i/2-1)/2) i (by omega) rfl (by omega) hc.2 hlo
        obtain ⟨q1, q2⟩ := sift_pred (edge_irr n root) hh he (fun x ex => by rw [(hpred x ex).1]) hlt
        have hsw : Rep a1 n (sw g i (2*((i/2-1)/2)+1)) := by rw [sw_comm]; exact r1
        obtain ⟨a', g', e1, e2, e3, e4⟩ := ih a1 _ (2*((i/2-1)/2)+1) hsw ht (by unfold lo at hlo; split at hlo <;> omega)
          (by unfold lo; rw [if_pos (by omega)]; omega) q1 q2
        exact ⟨a', g', by rw [decide_eq_true hlt, if_pos rfl, s1, Option.bind_some, e1], e2, e3, e4.trans p1⟩
      · refine ⟨a, g, by rw [decide_eq_false hlt]; rfl, hr, ok_of_hole hh hu (fun u e => ?_), List.Perm.refl _⟩
        rw [(hpred u e).1]; exact not_lt.mp hlt
    · rw [if_neg hc]
      exact ⟨a, g, rfl, hr, ok_of_hole hh hu (fun u e => absurd (hpred u e).2 hc), List.Perm.refl _⟩

theorem maxUp {n root : Nat} : ∀ (f : Nat) (a : List α) (g : Nat → α) (i : Nat), Rep a n g → i < n → i < f → i % 2 = 0 → Hole (Edge n root) i g → DnOk (Edge n root) i g →
    ∃ a' g', heapUp true root f a i = some a' ∧ Rep a' n g' ∧ Ok (Edge n root) g' ∧ a'.Perm a := by
  intro f
  induction f with
  | zero => intro a g i _ _ h; omega
  | succ f ih =>
    intro a g i hr hi hf hev hh hd
    have hsucc : ∀ w, Edge n root i w → w = 2*((i/2-1)/2) ∧ root / 2 < i / 2 ∧ root ≤ 2*((i/2-1)/2) := by
      intro w e
      rcases edge_inv e with ⟨c, h⟩ | ⟨c, h⟩ | ⟨c, h⟩ <;> omega
    rw [heapUp, upT_true]
    by_cases hc : root / 2 < i / 2 ∧ root ≤ 2*((i/2-1)/2)
    · have ht : 2*((i/2-1)/2) < n := by omega
      rw [if_pos hc, cmpAt_ok hr true ht hi, Option.bind_some, comp_true]
      by_cases hlt : g (2*((i/2-1)/2)) < g i
      · obtain ⟨a1, s1, r1, p1⟩ := swap_ok hr (i := 2*((i/2-1)/2)) (j := i) ht hi
        have he : Edge n root i (2*((i/2-1)/2)) := by
          have := Edge.H (n := n) (root := root) (i/2) ((i/2-1)/2) (by omega) rfl (by omega) hc.2
          rwa [show 2 * (i/2) = i by omega] at this
        obtain ⟨q1, q2⟩ := sift_succ (edge_irr n root) hh he (fun x ex => by rw [(hsucc x ex).1]) hlt
        have hsw : Rep a1 n (sw g i (2*((i/2-1)/2))) := by rw [sw_comm]; exact r1
        obtain ⟨a', g', e1, e2, e3, e4⟩ := ih a1 _ (2*((i/2-1)/2)) hsw ht (by omega) (by omega) q1 q2
        exact ⟨a', g', by rw [decide_eq_true hlt, if_pos rfl, s1, Option.bind_some, e1], e2, e3, e4.trans p1⟩
      · refine ⟨a, g, by rw [decide_eq_false hlt]; rfl, hr, ok_of_hole hh (fun u e => ?_) hd, List.Perm.refl _⟩
        rw [(hsucc u e).1]; exact not_lt.mp hlt
    · rw [if_neg hc]
      exact ⟨a, g, rfl, hr, ok_of_hole hh (fun u e => absurd (hsucc u e).2 hc) hd, List.Perm.refl _⟩

/-- Without violations the upward loops do nothing. -/
theorem ok_noop {n root : Nat} {a : List α} {g : Nat → α} (hr : Rep a n g) (hok : Ok (Edge n root) g) {i : Nat} (hi : i < n) (mx : Bool) (f : Nat) :
    heapUp mx root (f+1) a i = some a := by
  apply heapUp_noop hr mx hi
  intro h1 h2
  have hpos : i = 2*(i/2) ∨ i = 2*(i/2)+1 := by omega
  cases mx with
  | true =>
    rw [upT_true] at h2 ⊢
    rw [comp_true, decide_eq_false_iff_not, not_lt]
    have e1 := hok _ _ (Edge.H (n := n) (root := root) (i/2) ((i/2-1)/2) (by omega) rfl (by omega) h2)
    rcases hpos with h | h
    · rw [h]; rw [show 2*(i/2)/2 = i/2 by omega]; exact e1
    · have e2 := lohi' hok (c := i/2) (by omega) (by omega)
      rw [← h] at e2
      exact le_trans e2 e1
  | false =>
    rw [upT_false] at h2 ⊢
    rw [comp_false, decide_eq_false_iff_not, not_lt]
    have e1 := hok _ _ (Edge.L (n := n) (root := root) (i/2) ((i/2-1)/2) _ (by omega) rfl (by omega) h2 rfl)
    rcases hpos with h | h
    · have e2 := lohi_lo hok (c := i/2) (by omega)
      rw [← h] at e2
      exact le_trans e1 e2
    · unfold lo at e1
      rw [if_pos (by omega), ← h] at e1
      exact e1

/-! ### From a leaf -/

/-- :97-99 from position `j`. -/
def finish (a : List α) (root j : Nat) : Option (List α) :=
  (heapLeaf a j).bind (fun k => (heapUp true root (k.2 + 1) k.1 k.2).bind (fun b => heapUp false root (k.2 + 1) b k.2))

theorem finish_up {n root : Nat} {a : List α} {g : Nat → α} {j : Nat} (hr : Rep a n g) (hj : j < n) (hl : Leaf n j) (hjr : root ≤ j) (hh : Hole (Edge n root) j g)
    (hlo : j = lo n (j/2)) (hu : UpOk (Edge n root) j g) :
    ∃ a' g', (heapUp true root (j + 1) a j).bind (fun b => heapUp false root (j + 1) b j) = some a' ∧ Rep a' n g' ∧ Ok (Edge n root) g' ∧ a'.Perm a := by
  have h1 : heapUp true root (j+1) a j = some a := by
    apply heapUp_noop hr true hj
    intro h1 h2
    rw [upT_true] at h2 ⊢
    rw [comp_true, decide_eq_false_iff_not, not_lt]
    have he := Edge.H (n := n) (root := root) (j/2) ((j/2-1)/2) (by omega) rfl (by omega) h2
    by_cases hp : j = 2*(j/2)
    · rw [← hp] at he
      exact hu _ he
    · have hN : Edge n root j (2*(j/2)) := by
        have := Edge.N (n := n) (root := root) (j/2) (by omega) hl (by omega)
        rwa [show 2*(j/2)+1 = j by omega] at this
      exact le_trans (hu _ hN) (hh.1 _ _ he (by omega) (by omega))
  rw [h1, Option.bind_some]
  exact minUp (j+1) a g j hr hj (by omega) hlo hh hu

theorem finish_down {n root : Nat} {a : List α} {g : Nat → α} {j : Nat} (hr : Rep a n g) (hj : j < n) (hh : Hole (Edge n root) j g)
    (hev : j % 2 = 0) (hd : DnOk (Edge n root) j g) :
    ∃ a' g', (heapUp true root (j + 1) a j).bind (fun b => heapUp false root (j + 1) b j) = some a' ∧ Rep a' n g' ∧ Ok (Edge n root) g' ∧ a'.Perm a := by
  obtain ⟨a', g', e1, e2, e3, e4⟩ := maxUp (root := root) (j+1) a g j hr hj (by omega) hev hh hd
  exact ⟨a', g', by rw [e1, Option.bind_some, ok_noop e2 e3 hj], e2, e3, e4⟩

theorem heapLeaf_eq {n : Nat} {a : List α} {g : Nat → α} {j : Nat} (hr : Rep a n g) (hj : 2*(j/2)+1 < n) (hc : ¬ g (2*(j/2)) < g (2*(j/2)+1)) :
    heapLeaf a j = some (a, j) := by
  have hc' := cmpAt_ok hr true (i := j/2*2) (j := j/2*2+1) (by omega) (by omega)
  rw [heapLeaf, if_pos (by rw [hr.len]; omega), hc', Option.bind_some, comp_true, Nat.mul_comm (j/2) 2, decide_eq_false hc]; rfl

theorem heapLeaf_swap {n : Nat} {a : List α} {g : Nat → α} {j : Nat} (hr : Rep a n g) (hj : 2*(j/2)+1 < n) (hc : g (2*(j/2)) < g (2*(j/2)+1)) :
    ∃ a', heapLeaf a j = some (a', if j % 2 = 0 then j + 1 else j - 1) ∧ Rep a' n (sw g j (if j % 2 = 0 then j + 1 else j - 1)) ∧ a'.Perm a := by
  have hc' := cmpAt_ok hr true (i := j/2*2) (j := j/2*2+1) (by omega) (by omega)
  obtain ⟨a', s1, r1, p1⟩ := swap_ok hr (i := j) (j := if j % 2 = 0 then j + 1 else j - 1) (by omega) (by split <;> omega)
  refine ⟨a', ?_, r1, p1⟩
  rw [heapLeaf, if_pos (by rw [hr.len]; omega), hc', Option.bind_some, comp_true, Nat.mul_comm (j/2) 2, decide_eq_true hc, if_pos rfl, s1]; rfl

theorem finish_leaf {n root : Nat} {a : List α} {g : Nat → α} {j : Nat} (hr : Rep a n g) (hj : j < n) (hl : Leaf n j) (hjr : root ≤ j) (hh : Hole (Edge n root) j g) :
    ∃ a' g', finish a root j = some a' ∧ Rep a' n g' ∧ Ok (Edge n root) g' ∧ a'.Perm a := by
  unfold finish
  have hlf : n ≤ 2*(2*(j/2)+1) := hl
  by_cases hfull : 2*(j/2)+1 < n
  · have hNe : Edge n root (2*(j/2)+1) (2*(j/2)) := Edge.N (j/2) hfull hl (by omega)
    by_cases hc : g (2*(j/2)) < g (2*(j/2)+1)
    · obtain ⟨a1, s1, r1, p1⟩ := heapLeaf_swap hr hfull hc
      rw [s1, Option.bind_some]
      by_cases hp : j % 2 = 0
      · rw [if_pos hp] at r1 ⊢
        have hj0 : 2*(j/2) = j := by omega
        rw [hj0] at hNe hc
        obtain ⟨q1, q2⟩ := sift_pred (edge_irr n root) hh hNe (fun x ex => by
          rcases edge_inv ex with ⟨c, h⟩ | ⟨c, h⟩ | ⟨c, h⟩
          · omega
          · omega
          · rw [show x = j+1 by omega]) hc
        obtain ⟨a', g', e1, e2, e3, e4⟩ := finish_up r1 (j := j+1) (by omega) (by unfold Leaf; omega) (by omega) q1 (by unfold lo; rw [if_pos (by omega)]; omega) q2
        exact ⟨a', g', e1, e2, e3, e4.trans p1⟩
      · rw [if_neg hp] at r1 ⊢
        have hj0 : 2*(j/2) = j - 1 := by omega
        have hj1 : 2*(j/2)+1 = j := by omega
        rw [hj1, hj0] at hNe hc
        obtain ⟨q1, q2⟩ := sift_succ (edge_irr n root) hh hNe (fun x ex => by
          rcases edge_inv ex with ⟨c, h⟩ | ⟨c, h⟩ | ⟨c, h⟩
          · omega
          · omega
          · rw [show x = j-1 by omega]) hc
        obtain ⟨a', g', e1, e2, e3, e4⟩ := finish_down r1 (j := j-1) (by omega) q1 (by omega) q2
        exact ⟨a', g', e1, e2, e3, e4.trans p1⟩
    · rw [heapLeaf_eq hr hfull hc, Option.bind_some]
      have hc := not_lt.mp hc
      by_cases hp : j % 2 = 0
      · have hj0 : 2*(j/2) = j := by omega
        rw [hj0] at hc
        apply finish_down hr hj hh hp
        intro x ex
        rcases edge_inv ex with ⟨c, h⟩ | ⟨c, h⟩ | ⟨c, h⟩
        · omega
        · omega
        · rw [show x = j+1 by omega]; exact hc
      · have hj0 : 2*(j/2) = j - 1 := by omega
        have hj1 : 2*(j/2)+1 = j := by omega
        rw [hj1, hj0] at hc
        apply finish_up hr hj hl hjr hh (by unfold lo; rw [if_pos (by omega)]; omega)
        intro x ex
        rcases edge_inv ex with ⟨c, h⟩ | ⟨c, h⟩ | ⟨c, h⟩
        · omega
        · omega
        · rw [show x = j-1 by omega]; exact hc
  · have hle : heapLeaf a j = some (a, j) := by rw [heapLeaf, if_neg (by rw [hr.len]; omega)]
    rw [hle, Option.bind_some]
    by_cases hv : root ≤ 2*((j/2-1)/2) ∧ 1 ≤ j/2 ∧ g (2*((j/2-1)/2)) < g j
    · have he := Edge.H (n := n) (root := root) (j/2) ((j/2-1)/2) (by omega) rfl (by omega) hv.1
      rw [show 2*(j/2) = j by omega] at he
      exact finish_down hr hj hh (by omega) (dnOk_of_succ hh he hv.2.2)
    · apply finish_up hr hj hl hjr hh (by unfold lo; rw [if_neg (by omega)]; omega)
      intro x ex
      rcases edge_inv ex with ⟨c, h⟩ | ⟨c, h⟩ | ⟨c, h⟩
      · rw [show x = 2*((j/2-1)/2) by omega]
        by_contra hcon
        exact hv ⟨by omega, by omega, not_le.mp hcon⟩
      · omega
      · omega

end Verif.Depq
