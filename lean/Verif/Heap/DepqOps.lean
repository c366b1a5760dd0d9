import Verif.Heap.DepqProofs
/-!
# The double-ended priority queue: the operations
-/
namespace Verif.Depq

variable {α : Type} [LinearOrder α]

theorem pick_ok {a : List α} {n : Nat} {g : Nat → α} (h : Rep a n g) (mx : Bool) {k r : Nat} (hk : k < n) :
    pick mx a k r = some (if r < n then (if comp mx (g k) (g r) then r else k) else k) := by
  rw [pick, h.len]
  by_cases hr : r < n
  · rw [if_pos hr, if_pos hr, h.val k hk, Option.bind_some, h.val r hr]; rfl
  · rw [if_neg hr, if_neg hr]

theorem maxDown {n root : Nat} : ∀ (f : Nat) (a : List α) (g : Nat → α) (i : Nat), Rep a n g → i < n → n < f + i → i % 2 = 0 → root ≤ i →
    Hole (Edge n root) i g → (Leaf n i ∨ UpOk (Edge n root) i g) →
    ∃ a' j g', heapDown true f a i = some (a', j) ∧ Rep a' n g' ∧ a'.Perm a ∧ j < n ∧ root ≤ j ∧ Hole (Edge n root) j g' ∧
      (Leaf n j ∨ (Ok (Edge n root) g' ∧ j % 2 = 0)) := by
  intro f
  induction f with
  | zero => intro a g i _ _ h; omega
  | succ f ih =>
    intro a g i hr hi hf hev hroot hh hu
    have hl : left i = 2*(2*(i/2)+1) := by unfold left; omega
    have hrr : right' a.length i = 2*(2*(i/2)+2) := by unfold right' right; rw [if_neg (by omega)]; omega
    rw [heapDown, hl, hrr, hr.len]
    by_cases hlt : 2*(2*(i/2)+1) < n
    · have hu : UpOk (Edge n root) i g := hu.resolve_left (by unfold Leaf; omega)
      rw [if_pos hlt, pick_ok hr true hlt, Option.bind_some]
      -- the larger child
      have hpk : ∃ k, (if 2*(2*(i/2)+2) < n then (if comp true (g (2*(2*(i/2)+1))) (g (2*(2*(i/2)+2))) then 2*(2*(i/2)+2) else 2*(2*(i/2)+1)) else 2*(2*(i/2)+1)) = k ∧
          Edge n root k i ∧ ∀ x, Edge n root x i → g x ≤ g k := by
        have e1 : Edge n root (2*(2*(i/2)+1)) i := by
          have := Edge.H (n := n) (root := root) (2*(i/2)+1) (i/2) (by omega) (by omega) hlt (by omega)
          rwa [show 2*(i/2) = i by omega] at this ⊢
        have hpr : ∀ x, Edge n root x i → x = 2*(2*(i/2)+1) ∨ (x = 2*(2*(i/2)+2) ∧ 2*(2*(i/2)+2) < n) := by
          intro x ex
          rcases edge_inv ex with ⟨c, h⟩ | ⟨c, h⟩ | ⟨c, h⟩ <;> omega
        by_cases h2 : 2*(2*(i/2)+2) < n
        · have e2 : Edge n root (2*(2*(i/2)+2)) i := by
            have := Edge.H (n := n) (root := root) (2*(i/2)+2) (i/2) (by omega) (by omega) h2 (by omega)
            rwa [show 2*(i/2) = i by omega] at this ⊢
          rw [if_pos h2, comp_true]
          by_cases hc : g (2*(2*(i/2)+1)) < g (2*(2*(i/2)+2))
          · refine ⟨_, rfl, ?_, ?_⟩
            · rw [decide_eq_true hc, if_pos rfl]; exact e2
            · intro x ex
              rw [decide_eq_true hc, if_pos rfl]
              rcases hpr x ex with rfl | ⟨rfl, _⟩
              · exact le_of_lt hc
              · exact le_refl _
          · refine ⟨_, rfl, ?_, ?_⟩
            · rw [decide_eq_false hc, if_neg (by decide)]; exact e1
            · intro x ex
              rw [decide_eq_false hc, if_neg (by decide)]
              rcases hpr x ex with rfl | ⟨rfl, _⟩
              · exact le_refl _
              · exact not_lt.mp hc
        · rw [if_neg h2]
          refine ⟨_, rfl, e1, fun x ex => ?_⟩
          rcases hpr x ex with rfl | ⟨_, h⟩
          · exact le_refl _
          · omega
      obtain ⟨k, hk, hek, hmax⟩ := hpk
      rw [hk]
      have hkr : k < n ∧ i < k ∧ k % 2 = 0 := by
        rcases edge_inv hek with ⟨c, h⟩ | ⟨c, h⟩ | ⟨c, h⟩ <;> omega
      rw [cmpAt_ok hr true hi hkr.1, Option.bind_some, comp_true]
      by_cases hc : g i < g k
      · obtain ⟨a1, s1, r1, p1⟩ := swap_ok hr (i := i) (j := k) hi hkr.1
        obtain ⟨q1, q2⟩ := sift_pred (edge_irr n root) hh hek hmax hc
        obtain ⟨a', j, g', e1, e2, e3, e4, e5, e6, e7⟩ := ih a1 _ k r1 hkr.1 (by omega) hkr.2.2 (by omega) q1 (Or.inr q2)
        exact ⟨a', j, g', by rw [decide_eq_true hc, if_pos rfl, s1, Option.bind_some, e1], e2, e3.trans p1, e4, e5, e6, e7⟩
      · refine ⟨a, i, g, by rw [decide_eq_false hc]; rfl, hr, List.Perm.refl _, hi, hroot, hh, Or.inr ⟨ok_of_hole hh hu ?_, hev⟩⟩
        intro x ex
        exact le_trans (hmax x ex) (not_lt.mp hc)
    · rw [if_neg hlt]
      exact ⟨a, i, g, rfl, hr, List.Perm.refl _, hi, hroot, hh, Or.inl (by unfold Leaf; omega)⟩

theorem minDown {n root : Nat} : ∀ (f : Nat) (a : List α) (g : Nat → α) (i : Nat), Rep a n g → i < n → n < f + i → i = lo n (i/2) → root ≤ i →
    Hole (Edge n root) i g → (Leaf n i ∨ DnOk (Edge n root) i g) → (n % 4 = 3 → g i ≤ g (n-1)) →
    ∃ a' j g', heapDown false f a i = some (a', j) ∧ Rep a' n g' ∧ a'.Perm a ∧ j < n ∧ root ≤ j ∧ Hole (Edge n root) j g' ∧
      (Leaf n j ∨ (Ok (Edge n root) g' ∧ j % 2 = 1 ∧ (j = i ∧ g' = g ∨ i < j))) := by
  intro f
  induction f with
  | zero => intro a g i _ _ h; omega
  | succ f ih =>
    intro a g i hr hi hf hlo hroot hh hd hv
    by_cases hev : i % 2 = 0
    · -- the single element of the last node
      have hle : n ≤ 2*(i/2)+1 := by unfold lo at hlo; split at hlo <;> omega
      rw [heapDown, if_neg (by unfold left; rw [hr.len]; omega)]
      exact ⟨a, i, g, rfl, hr, List.Perm.refl _, hi, hroot, hh, Or.inl (by unfold Leaf; omega)⟩
    have hl : left i = 2*(2*(i/2)+1)+1 := by unfold left; omega
    rw [heapDown, hl, hr.len]
    by_cases hlt : 2*(2*(i/2)+1)+1 < n
    · have hd : DnOk (Edge n root) i g := hd.resolve_left (by unfold Leaf; omega)
      rw [if_pos hlt, pick_ok hr false hlt, Option.bind_some]
      have hrr : (right' n i < n ↔ 2*(2*(i/2)+2) < n) ∧ (2*(2*(i/2)+2) < n → right' n i = lo n (2*(i/2)+2)) := by
        unfold right' right lo
        constructor
        · split <;> omega
        · intro h
          split <;> split <;> omega
      have hpk : ∃ k, (if right' n i < n then (if comp false (g (2*(2*(i/2)+1)+1)) (g (right' n i)) then right' n i else 2*(2*(i/2)+1)+1) else 2*(2*(i/2)+1)+1) = k ∧
          Edge n root i k ∧ ∀ x, Edge n root i x → g k ≤ g x := by
        have e1 : Edge n root i (2*(2*(i/2)+1)+1) := by
          have := Edge.L (n := n) (root := root) (2*(i/2)+1) (i/2) (2*(2*(i/2)+1)+1) (by omega) (by omega) (by omega) (by omega) (by unfold lo; rw [if_pos hlt])
          rwa [show 2*(i/2)+1 = i by omega] at this ⊢
        have hpr : ∀ x, Edge n root i x → x = 2*(2*(i/2)+1)+1 ∨ (x = lo n (2*(i/2)+2) ∧ 2*(2*(i/2)+2) < n) := by
          intro x ex
          unfold lo
          rcases edge_inv ex with ⟨c, h⟩ | ⟨c, h⟩ | ⟨c, h⟩
          · omega
          · rcases (show c = 2*(i/2)+1 ∨ c = 2*(i/2)+2 by omega) with rfl | rfl
            · omega
            · right
              split <;> omega
          · omega
        by_cases h2 : 2*(2*(i/2)+2) < n
        · have e2 : Edge n root i (lo n (2*(i/2)+2)) := by
            have := Edge.L (n := n) (root := root) (2*(i/2)+2) (i/2) (lo n (2*(i/2)+2)) (by omega) (by omega) (by omega) (by omega) rfl
            rwa [show 2*(i/2)+1 = i by omega] at this
          rw [if_pos (hrr.1.mpr h2), comp_false, hrr.2 h2]
          by_cases hc : g (lo n (2*(i/2)+2)) < g (2*(2*(i/2)+1)+1)
          · refine ⟨_, rfl, ?_, ?_⟩
            · rw [decide_eq_true hc, if_pos rfl]; exact e2
            · intro x ex
              rw [decide_eq_true hc, if_pos rfl]
              rcases hpr x ex with rfl | ⟨rfl, _⟩
              · exact le_of_lt hc
              · exact le_refl _
          · refine ⟨_, rfl, ?_, ?_⟩
            · rw [decide_eq_false hc, if_neg (by decide)]; exact e1
            · intro x ex
              rw [decide_eq_false hc, if_neg (by decide)]
              rcases hpr x ex with rfl | ⟨rfl, _⟩
              · exact le_refl _
              · exact not_lt.mp hc
        · rw [if_neg (fun h => h2 (hrr.1.mp h))]
          refine ⟨_, rfl, e1, fun x ex => ?_⟩
          rcases hpr x ex with rfl | ⟨_, h⟩
          · exact le_refl _
          · omega
      obtain ⟨k, hk, hek, hmin⟩ := hpk
      rw [hk]
      have hkr : k < n ∧ i < k ∧ k = lo n (k/2) ∧ (n % 4 = 3 → k ≠ n-1) := by
        unfold lo
        rcases edge_inv hek with ⟨c, h⟩ | ⟨c, h⟩ | ⟨c, h⟩
        · omega
        · split <;> omega
        · omega
      rw [cmpAt_ok hr false hi hkr.1, Option.bind_some, comp_false]
      by_cases hc : g k < g i
      · obtain ⟨a1, s1, r1, p1⟩ := swap_ok hr (i := i) (j := k) hi hkr.1
        obtain ⟨q1, q2⟩ := sift_succ (edge_irr n root) hh hek hmin hc
        obtain ⟨a', j, g', e1, e2, e3, e4, e5, e6, e7⟩ := ih a1 _ k r1 hkr.1 (by omega) hkr.2.2.1 (by omega) q1 (Or.inr q2) (by
          intro h4
          rw [sw_right, sw_ne g (by omega) (Ne.symm (hkr.2.2.2 h4))]
          exact hv h4)
        refine ⟨a', j, g', by rw [decide_eq_true hc, if_pos rfl, s1, Option.bind_some, e1], e2, e3.trans p1, e4, e5, e6, ?_⟩
        rcases e7 with h | ⟨h1, h2, h3⟩
        · exact Or.inl h
        · exact Or.inr ⟨h1, h2, Or.inr (by rcases h3 with ⟨h3, _⟩ | h3 <;> omega)⟩
      · refine ⟨a, i, g, by rw [decide_eq_false hc]; rfl, hr, List.Perm.refl _, hi, hroot, hh, Or.inr ⟨ok_of_hole hh ?_ hd, by omega, Or.inl ⟨rfl, rfl⟩⟩⟩
        intro x ex
        exact le_trans (not_lt.mp hc) (hmin x ex)
    · rw [if_neg hlt]
      refine ⟨a, i, g, rfl, hr, List.Perm.refl _, hi, hroot, hh, ?_⟩
      by_cases hlf : n ≤ 2*(2*(i/2)+1)
      · exact Or.inl hlf
      · have hd : DnOk (Edge n root) i g := hd.resolve_left (by unfold Leaf; omega)
        refine Or.inr ⟨ok_of_hole hh ?_ hd, by omega, Or.inl ⟨rfl, rfl⟩⟩
        intro x ex
        have hx : x = n - 1 := by
          rcases edge_inv ex with ⟨c, h⟩ | ⟨c, h⟩ | ⟨c, h⟩ <;> omega
        rw [hx]
        exact hv (by omega)

theorem finish_ok {n root : Nat} {a : List α} {g : Nat → α} {j : Nat} (hr : Rep a n g) (hj : j < n) (hok : Ok (Edge n root) g)
    (hlh : 2*(j/2)+1 < n → g (2*(j/2)+1) ≤ g (2*(j/2))) : finish a root j = some a := by
  have h1 : heapLeaf a j = some (a, j) := by
    by_cases hfull : 2*(j/2)+1 < n
    · exact heapLeaf_eq hr hfull (not_lt.mpr (hlh hfull))
    · rw [heapLeaf, if_neg (by rw [hr.len]; omega)]
  rw [finish, h1, Option.bind_some, ok_noop hr hok hj, Option.bind_some, ok_noop hr hok hj]

theorem heapify_ok {n : Nat} {a : List α} {g : Nat → α} {i : Nat} (limited : Bool) {root : Nat} (hroot : root = if limited then i else 0) (hr : Rep a n g) (hi : i < n)
    (hh : Hole (Edge n root) i g) (hd : Leaf n i ∨ (UpOk (Edge n root) i g ∧ DnOk (Edge n root) i g) ∨ (i % 2 = 0 ∧ UpOk (Edge n root) i g) ∨ (i % 2 = 1 ∧ DnOk (Edge n root) i g))
    (hv : n % 4 = 3 → i % 2 = 1 → g i ≤ g (n-1)) (hp : root ≤ 2*(i/2) ∨ g i ≤ g (i-1)) :
    ∃ a' g', heapify a i limited = some a' ∧ Rep a' n g' ∧ Ok (Edge n root) g' ∧ a'.Perm a := by
  have hri : root ≤ i := by rw [hroot]; split <;> omega
  have hfin : ∀ (mx : Bool) (a1 : List α) (j : Nat), heapDown mx (a.length + 1) a i = some (a1, j) → mx = decide (i % 2 = 0) → heapify a i limited = finish a1 root j := by
    intro mx a1 j h hm
    rw [heapify, ← hm, h, Option.bind_some, ← hroot]; rfl
  by_cases hev : i % 2 = 0
  · obtain ⟨a1, j, g1, e1, e2, e3, e4, e5, e6, e7⟩ := maxDown (root := root) (a.length+1) a g i hr hi (by rw [hr.len]; omega) hev hri hh (by
      rcases hd with h | h | h | h
      · exact Or.inl h
      · exact Or.inr h.1
      · exact Or.inr h.2
      · omega)
    rw [hfin true a1 j e1 (by simp [hev])]
    rcases e7 with h | ⟨h1, h2⟩
    · obtain ⟨a', g', f1, f2, f3, f4⟩ := finish_leaf e2 e4 h e5 e6
      exact ⟨a', g', f1, f2, f3, f4.trans e3⟩
    · exact ⟨a1, g1, finish_ok e2 e4 h1 (fun h => lohi' h1 h (by omega)), e2, h1, e3⟩
  · obtain ⟨a1, j, g1, e1, e2, e3, e4, e5, e6, e7⟩ := minDown (root := root) (a.length+1) a g i hr hi (by rw [hr.len]; omega) (by unfold lo; rw [if_pos (by omega)]; omega) hri hh (by
      rcases hd with h | h | h | h
      · exact Or.inl h
      · exact Or.inr h.2
      · omega
      · exact Or.inr h.2) (fun h4 => hv h4 (by omega))
    rw [hfin false a1 j e1 (by simp [hev])]
    rcases e7 with h | ⟨h1, h2, h3⟩
    · obtain ⟨a', g', f1, f2, f3, f4⟩ := finish_leaf e2 e4 h e5 e6
      exact ⟨a', g', f1, f2, f3, f4.trans e3⟩
    · refine ⟨a1, g1, finish_ok e2 e4 h1 (fun h => ?_), e2, h1, e3⟩
      rcases h3 with ⟨rfl, rfl⟩ | h3
      · rcases hp with hp | hp
        · exact lohi' h1 h hp
        · rw [show 2*(j/2)+1 = j by omega, show 2*(j/2) = j - 1 by omega]; exact hp
      · exact lohi' h1 h (by omega)

/-! ### The queue operations -/

/-- The invariant of a queue. -/
def Inv (a : List α) : Prop := a = [] ∨ ∃ g, Rep a a.length g ∧ Ok (Edge a.length 0) g

theorem inv_bounds {n : Nat} {g : Nat → α} (hok : Ok (Edge n 0) g) : ∀ c, 2*c < n → g (2*c) ≤ g 0 ∧ g (lo n 0) ≤ g (lo n c) := by
  intro c
  induction c using Nat.strongRecOn with
  | _ c ih =>
    intro hc
    by_cases h0 : c = 0
    · subst h0; exact ⟨le_refl _, le_refl _⟩
    · obtain ⟨h1, h2⟩ := ih ((c-1)/2) (by omega) (by omega)
      have e1 := hok _ _ (Edge.H (n := n) (root := 0) c ((c-1)/2) (by omega) rfl hc (by omega))
      have e2 := hok _ _ (Edge.L (n := n) (root := 0) c ((c-1)/2) _ (by omega) rfl hc (by omega) rfl)
      have e3 : lo n ((c-1)/2) = 2*((c-1)/2)+1 := by unfold lo; rw [if_pos (by omega)]
      rw [e3] at h2
      exact ⟨le_trans e1 h1, le_trans h2 e2⟩

theorem inv_all {n : Nat} {g : Nat → α} (hok : Ok (Edge n 0) g) {i : Nat} (hi : i < n) : g i ≤ g 0 ∧ g (lo n 0) ≤ g i := by
  obtain ⟨h1, h2⟩ := inv_bounds hok (i/2) (by omega)
  have h3 := lohi_lo hok (c := i/2) (by omega)
  rcases (show i = 2*(i/2) ∨ i = 2*(i/2)+1 by omega) with h | h
  · rw [← h] at h1 h3
    exact ⟨h1, le_trans h2 h3⟩
  · have e : lo n (i/2) = i := by unfold lo; rw [if_pos (by omega)]; omega
    rw [e] at h2 h3
    exact ⟨le_trans h3 h1, h2⟩

theorem getMax_ok {a : List α} (h : Inv a) (hne : a ≠ []) : ∃ x, getMax a = some x ∧ x ∈ a ∧ ∀ y ∈ a, y ≤ x := by
  obtain ⟨g, hr, hok⟩ := h.resolve_left hne
  have hl : 0 < a.length := List.length_pos_iff.mpr hne
  refine ⟨g 0, hr.val 0 hl, List.mem_of_getElem? (hr.val 0 hl), fun y hy => ?_⟩
  obtain ⟨i, hi, rfl⟩ := List.mem_iff_getElem.mp hy
  have := hr.val i hi
  rw [List.getElem?_eq_getElem hi] at this
  rw [Option.some.inj this]
  exact (inv_all hok hi).1

theorem getMin_ok {a : List α} (h : Inv a) (hne : a ≠ []) : ∃ x, getMin a = some x ∧ x ∈ a ∧ ∀ y ∈ a, x ≤ y := by
  obtain ⟨g, hr, hok⟩ := h.resolve_left hne
  have hl : 0 < a.length := List.length_pos_iff.mpr hne
  have e : (if 1 < a.length then 1 else 0) = lo a.length 0 := rfl
  have hlo : lo a.length 0 < a.length := by unfold lo; split <;> omega
  refine ⟨g (lo a.length 0), by rw [getMin, if_neg (by omega), e, hr.val _ hlo], List.mem_of_getElem? (hr.val _ hlo), fun y hy => ?_⟩
  obtain ⟨i, hi, rfl⟩ := List.mem_iff_getElem.mp hy
  have := hr.val i hi
  rw [List.getElem?_eq_getElem hi] at this
  rw [Option.some.inj this]
  exact (inv_all hok hi).2

theorem inv_get {a : List α} (h : Inv a) (x : α) : ∃ g, Rep a a.length g ∧ Ok (Edge a.length 0) g := by
  rcases h with rfl | h
  · refine ⟨fun _ => x, ⟨rfl, fun i hi => absurd hi (by simp)⟩, fun u w _ => le_refl _⟩
  · exact h

theorem push_ok {a : List α} (h : Inv a) (x : α) : ∃ a', push a x = some a' ∧ Inv a' ∧ a'.Perm (x :: a) := by
  obtain ⟨g, hr, hok⟩ := inv_get h x
  generalize hn : a.length = n at *
  have hr' : Rep (a ++ [x]) (n+1) (upd g n x) := by
    refine ⟨by simp [hn], fun i hi => ?_⟩
    by_cases e : i = n
    · subst e
      rw [upd_same, List.getElem?_append_right (by omega), hn, Nat.sub_self]; rfl
    · rw [upd_ne _ _ e, List.getElem?_append_left (by omega)]
      exact hr.val i (by omega)
  have hg : ∀ y, y ≠ n → upd g n x y = g y := fun y hy => upd_ne g x hy
  have hh : Hole (Edge (n+1) 0) n (upd g n x) := by
    constructor
    · intro u w e hu hw
      rw [hg u hu, hg w hw]
      rcases edge_inv e with ⟨c, h1, h2, h3, rfl, rfl⟩ | ⟨c, h1, h2, h3, rfl, h4⟩ | ⟨c, h1, h2, h3, rfl, rfl⟩
      · exact hok _ _ (Edge.H c _ h1 rfl (by omega) (by omega))
      · have : w = lo n c := by unfold lo; split <;> omega
        exact hok _ _ (Edge.L c _ _ h1 rfl (by omega) (by omega) this)
      · exact hok _ _ (Edge.N c (by omega) (by omega) (by omega))
    · intro u w eu ew
      have hu : u ≠ n := fun h' => edge_irr _ _ _ (h' ▸ eu)
      have hw : w ≠ n := fun h' => edge_irr _ _ _ (h' ▸ ew)
      rw [hg u hu, hg w hw]
      by_cases hev : n % 2 = 0
      · have h1 : u = 2*((n/2-1)/2)+1 ∧ 1 ≤ n/2 := by
          rcases edge_inv eu with ⟨c, h⟩ | ⟨c, h⟩ | ⟨c, h⟩ <;> omega
        have h2 : w = 2*((n/2-1)/2) := by
          rcases edge_inv ew with ⟨c, h⟩ | ⟨c, h⟩ | ⟨c, h⟩ <;> omega
        rw [h1.1, h2]
        exact lohi' hok (by omega) (by omega)
      · have h1 : u = 2*((n/2-1)/2)+1 ∧ 1 ≤ n/2 := by
          rcases edge_inv eu with ⟨c, h⟩ | ⟨c, h⟩ | ⟨c, h⟩ <;> omega
        have h2 : w = 2*(n/2) := by
          rcases edge_inv ew with ⟨c, h⟩ | ⟨c, h⟩ | ⟨c, h⟩ <;> omega
        rw [h1.1, h2]
        exact hok _ _ (Edge.L (n/2) _ _ h1.2 rfl (by omega) (by omega) (by unfold lo; rw [if_neg (by omega)]))
  obtain ⟨a', g', e1, e2, e3, e4⟩ := heapify_ok false (root := 0) rfl hr' (Nat.lt_succ_self n) hh (Or.inl (by unfold Leaf; omega)) (by omega) (Or.inl (by omega))
  have hlen := e2.len
  refine ⟨a', by rw [push, hn, e1], Or.inr ⟨g', by rw [hlen]; exact e2, by rw [hlen]; exact e3⟩, e4.trans ?_⟩
  exact List.perm_append_comm

theorem ok_shrink {m : Nat} {g : Nat → α} (hok : Ok (Edge (m+1) 0) g) : Ok (Edge m 0) g := by
  intro u w e
  rcases edge_inv e with ⟨c, h1, h2, h3, rfl, rfl⟩ | ⟨c, h1, h2, h3, rfl, h4⟩ | ⟨c, h1, h2, h3, rfl, rfl⟩
  · exact hok _ _ (Edge.H c _ h1 rfl (by omega) (by omega))
  · have e1 := hok _ _ (Edge.L c _ _ h1 rfl (by omega) (by omega) rfl)
    rcases h4 with ⟨rfl, h5⟩ | ⟨rfl, h5⟩
    · have : lo (m+1) c = 2*c+1 := by unfold lo; rw [if_pos (by omega)]
      rwa [this] at e1
    · exact le_trans e1 (lohi_lo hok (by omega))
  · exact lohi' hok (by omega) (by omega)

/-- The list after the element at `h` was swapped to the end and removed. -/
theorem swap_dropLast {a : List α} {m h : Nat} {g : Nat → α} (hr : Rep a (m+1) g) (hh : h < m+1) :
    ∃ a1, swap a h m = some a1 ∧ Rep a1.dropLast m (sw g h m) ∧ a.Perm (g h :: a1.dropLast) := by
  obtain ⟨a1, s1, r1, p1⟩ := swap_ok hr (i := h) (j := m) hh (by omega)
  refine ⟨a1, s1, ⟨by rw [List.length_dropLast, r1.len]; rfl, fun i hi => ?_⟩, ?_⟩
  · rw [List.getElem?_dropLast, if_pos (by rw [r1.len]; omega)]
    exact r1.val i (by omega)
  · have hne : a1 ≠ [] := by
      intro h0
      have := r1.len
      rw [h0] at this
      simp at this
    have hl : a1.getLast hne = g h := by
      have := r1.val m (by omega)
      rw [sw_right] at this
      rw [List.getLast_eq_getElem]
      have hlen := r1.len
      rw [List.getElem?_eq_getElem (by omega)] at this
      have h2 := Option.some.inj this
      rw [← h2]
      congr 1
      omega
    have := List.dropLast_append_getLast hne
    rw [hl] at this
    refine p1.symm.trans ?_
    rw [← this, List.dropLast_concat]
    exact List.perm_append_comm

theorem popMax_ok {a : List α} (h : Inv a) (hne : a ≠ []) : ∃ x a', popMax a = some a' ∧ getMax a = some x ∧ Inv a' ∧ a.Perm (x :: a') := by
  obtain ⟨g, hr, hok⟩ := h.resolve_left hne
  have hl : 0 < a.length := List.length_pos_iff.mpr hne
  obtain ⟨m, hm⟩ : ∃ m, a.length = m + 1 := ⟨a.length - 1, by omega⟩
  rw [hm] at hr hok
  obtain ⟨a1, s1, r1, p1⟩ := swap_dropLast hr (h := 0) (by omega)
  have hx : getMax a = some (g 0) := hr.val 0 (by omega)
  by_cases hm0 : 0 < m
  · have hok' := ok_shrink hok
    have hsucc : ∀ w, ¬ Edge m 0 0 w := by
      intro w e
      rcases edge_inv e with ⟨c, h⟩ | ⟨c, h⟩ | ⟨c, h⟩ <;> omega
    have hh : Hole (Edge m 0) 0 (sw g 0 m) := by
      refine ⟨fun u w e hu hw => ?_, fun u w _ ew => absurd ew (hsucc w)⟩
      have : u ≠ m ∧ w ≠ m := by rcases edge_inv e with ⟨c, h⟩ | ⟨c, h⟩ | ⟨c, h⟩ <;> omega
      rw [sw_ne g hu this.1, sw_ne g hw this.2]
      exact hok' u w e
    obtain ⟨a', g', e1, e2, e3, e4⟩ := heapify_ok false (root := 0) rfl r1 hm0 hh (Or.inr (Or.inr (Or.inl ⟨rfl, fun w e => absurd e (hsucc w)⟩))) (by omega) (Or.inl (by omega))
    have hlen := e2.len
    refine ⟨g 0, a', ?_, hx, Or.inr ⟨g', by rw [hlen]; exact e2, by rw [hlen]; exact e3⟩, p1.trans (List.Perm.cons _ e4.symm)⟩
    rw [popMax, if_neg (by omega), hm, Nat.add_sub_cancel, s1, Option.bind_some, r1.len, if_pos hm0, e1]
  · refine ⟨g 0, a1.dropLast, ?_, hx, Or.inl ?_, p1⟩
    · rw [popMax, if_neg (by omega), hm, Nat.add_sub_cancel, s1, Option.bind_some, r1.len, if_neg hm0]
    · apply List.eq_nil_of_length_eq_zero
      rw [r1.len]; omega

theorem inv_single {a : List α} (h : a.length ≤ 1) : Inv a := by
  cases a with
  | nil => exact Or.inl rfl
  | cons x a =>
    cases a with
    | nil =>
      refine Or.inr ⟨fun _ => x, ⟨rfl, fun i hi => ?_⟩, fun u w _ => le_refl _⟩
      rw [show i = 0 by simp at hi; omega]; rfl
    | cons y a => simp at h

theorem popMin_ok {a : List α} (h : Inv a) (hne : a ≠ []) : ∃ x a', popMin a = some a' ∧ getMin a = some x ∧ Inv a' ∧ a.Perm (x :: a') := by
  obtain ⟨g, hr, hok⟩ := h.resolve_left hne
  have hl : 0 < a.length := List.length_pos_iff.mpr hne
  obtain ⟨m, hm⟩ : ∃ m, a.length = m + 1 := ⟨a.length - 1, by omega⟩
  rw [hm] at hr hok
  by_cases hm0 : m = 0
  · subst hm0
    obtain ⟨a1, s1, r1, p1⟩ := swap_dropLast hr (h := 0) (by omega)
    have hd : a.dropLast = [] := List.eq_nil_of_length_eq_zero (by rw [List.length_dropLast]; omega)
    refine ⟨g 0, [], by rw [popMin, if_neg (by omega), if_pos (by omega), hd], by rw [getMin, if_neg (by omega), if_neg (by omega)]; exact hr.val 0 (by omega), Or.inl rfl, ?_⟩
    have : a1.dropLast = [] := List.eq_nil_of_length_eq_zero r1.len
    rwa [this] at p1
  · obtain ⟨a1, s1, r1, p1⟩ := swap_dropLast hr (h := 1) (by omega)
    have hx : getMin a = some (g 1) := by rw [getMin, if_neg (by omega), if_pos (by omega)]; exact hr.val 1 (by omega)
    by_cases hm1 : 1 < m
    · have hok' := ok_shrink hok
      have hpred : ∀ u, ¬ Edge m 0 u 1 := by
        intro w e
        rcases edge_inv e with ⟨c, h⟩ | ⟨c, h⟩ | ⟨c, h⟩ <;> omega
      have hh : Hole (Edge m 0) 1 (sw g 1 m) := by
        refine ⟨fun u w e hu hw => ?_, fun u w eu _ => absurd eu (hpred u)⟩
        have : u ≠ m ∧ w ≠ m := by rcases edge_inv e with ⟨c, h⟩ | ⟨c, h⟩ | ⟨c, h⟩ <;> omega
        rw [sw_ne g hu this.1, sw_ne g hw this.2]
        exact hok' u w e
      obtain ⟨a', g', e1, e2, e3, e4⟩ := heapify_ok false (root := 0) rfl r1 hm1 hh (Or.inr (Or.inr (Or.inr ⟨rfl, fun w e => absurd e (hpred w)⟩))) (by
        intro h4 _
        rw [sw_left, sw_ne g (by omega) (by omega)]
        have := lohi' hok (c := m/2) (by omega) (by omega)
        rwa [show 2*(m/2)+1 = m by omega, show 2*(m/2) = m-1 by omega] at this) (Or.inl (by omega))
      have hlen := e2.len
      refine ⟨g 1, a', ?_, hx, Or.inr ⟨g', by rw [hlen]; exact e2, by rw [hlen]; exact e3⟩, p1.trans (List.Perm.cons _ e4.symm)⟩
      rw [popMin, if_neg (by omega), if_neg (by omega), hm, Nat.add_sub_cancel, s1, Option.bind_some, r1.len, if_pos hm1, e1]
    · refine ⟨g 1, a1.dropLast, ?_, hx, inv_single (by rw [r1.len]; omega), p1⟩
      rw [popMin, if_neg (by omega), if_neg (by omega), hm, Nat.add_sub_cancel, s1, Option.bind_some, r1.len, if_neg hm1]

/-! ### The constructor -/

theorem buildStep_ok {n : Nat} (hn4 : n % 4 ≠ 3) {a : List α} {g : Nat → α} {i : Nat} (hr : Rep a n g) (hi : i < n) (hok : Ok (Edge n (i+1)) g) :
    ∃ a' g', buildStep a i = some a' ∧ Rep a' n g' ∧ Ok (Edge n i) g' ∧ a'.Perm a := by
  -- the exchange inside the node
  have hpre : ∃ a1 g1, (if i % 2 = 1 then (cmpAt true a (i - 1) i).bind (fun c => if c then swap a (i - 1) i else some a) else some a) = some a1 ∧
      Rep a1 n g1 ∧ a1.Perm a ∧ (i % 2 = 1 → g1 i ≤ g1 (i-1)) ∧ ∀ x, x ≠ i → (i % 2 = 1 → x ≠ i-1) → g1 x = g x := by
    by_cases hodd : i % 2 = 1
    · rw [if_pos hodd, cmpAt_ok hr true (by omega) hi, Option.bind_some, comp_true]
      by_cases hc : g (i-1) < g i
      · obtain ⟨a1, s1, r1, p1⟩ := swap_ok hr (i := i-1) (j := i) (by omega) hi
        refine ⟨a1, _, by rw [decide_eq_true hc, if_pos rfl, s1], r1, p1, fun _ => ?_, fun x h1 h2 => sw_ne g (h2 hodd) h1⟩
        rw [sw_left, sw_right]; exact le_of_lt hc
      · exact ⟨a, g, by rw [decide_eq_false hc]; rfl, hr, List.Perm.refl _, fun _ => not_lt.mp hc, fun _ _ _ => rfl⟩
    · rw [if_neg hodd]
      exact ⟨a, g, rfl, hr, List.Perm.refl _, fun h => absurd h hodd, fun _ _ _ => rfl⟩
  obtain ⟨a1, g1, s1, r1, p1, hle, hsame⟩ := hpre
  have hno : (i % 2 = 0 → ∀ w, ¬ Edge n i i w) ∧ (i % 2 = 1 → ∀ u, ¬ Edge n i u i) := by
    constructor
    · intro h w e
      rcases edge_inv e with ⟨c, h⟩ | ⟨c, h⟩ | ⟨c, h⟩ <;> omega
    · intro h u e
      rcases edge_inv e with ⟨c, h⟩ | ⟨c, h⟩ | ⟨c, h⟩ <;> omega
  have hh : Hole (Edge n i) i g1 := by
    constructor
    · intro u w e hu hw
      have hgt : Edge n (i+1) u w ∧ (i % 2 = 1 → u ≠ i-1 ∧ w ≠ i-1) := by
        rcases edge_inv e with ⟨c, h1, h2, h3, rfl, rfl⟩ | ⟨c, h1, h2, h3, rfl, h4⟩ | ⟨c, h1, h2, h3, rfl, rfl⟩
        · exact ⟨Edge.H c _ h1 rfl (by omega) (by omega), by omega⟩
        · have : w = lo n c := by unfold lo; split <;> omega
          exact ⟨Edge.L c _ _ h1 rfl (by omega) (by omega) this, by omega⟩
        · exact ⟨Edge.N c (by omega) (by omega) (by omega), by omega⟩
      rw [hsame u hu (fun h => (hgt.2 h).1), hsame w hw (fun h => (hgt.2 h).2)]
      exact hok u w hgt.1
    · intro u w eu ew
      by_cases hodd : i % 2 = 1
      · exact absurd eu (hno.2 hodd u)
      · exact absurd ew (hno.1 (by omega) w)
  obtain ⟨a', g', e1, e2, e3, e4⟩ := heapify_ok true (root := i) rfl r1 hi hh (by
    by_cases hodd : i % 2 = 1
    · exact Or.inr (Or.inr (Or.inr ⟨hodd, fun u e => absurd e (hno.2 hodd u)⟩))
    · exact Or.inr (Or.inr (Or.inl ⟨by omega, fun u e => absurd e (hno.1 (by omega) u)⟩))) (fun h => absurd h hn4) (by
    by_cases hodd : i % 2 = 1
    · exact Or.inr (hle hodd)
    · exact Or.inl (by omega))
  exact ⟨a', g', by rw [buildStep, s1, Option.bind_some, e1], e2, e3, e4.trans p1⟩

theorem buildLoop_ok {n : Nat} (hn4 : n % 4 ≠ 3) : ∀ (i : Nat) (a : List α) (g : Nat → α), Rep a n g → i ≤ n → Ok (Edge n i) g →
    ∃ a' g', buildLoop i a = some a' ∧ Rep a' n g' ∧ Ok (Edge n 0) g' ∧ a'.Perm a := by
  intro i
  induction i with
  | zero => intro a g hr _ hok; exact ⟨a, g, rfl, hr, hok, List.Perm.refl _⟩
  | succ i ih =>
    intro a g hr hi hok
    obtain ⟨a1, g1, e1, e2, e3, e4⟩ := buildStep_ok hn4 hr (by omega) hok
    obtain ⟨a', g', f1, f2, f3, f4⟩ := ih a1 g1 e2 (by omega) e3
    exact ⟨a', g', by rw [buildLoop, e1, Option.bind_some, f1], f2, f3, f4.trans e4⟩

theorem build_ok {a : List α} (hn4 : a.length % 4 ≠ 3) : ∃ a', build a = some a' ∧ Inv a' ∧ a'.Perm a := by
  rw [build]
  by_cases h1 : a.length ≤ 1
  · rw [if_pos h1]
    exact ⟨a, rfl, inv_single h1, List.Perm.refl _⟩
  · rw [if_neg h1]
    have hr : Rep a a.length (fun i => a.getD i a[0]) := Rep.ofList a _
    by_cases h2 : a.length = 2
    · rw [if_pos h2, cmpAt_ok hr true (by omega) (by omega), Option.bind_some, comp_true]
      have hfin : ∀ (b : List α) (g : Nat → α), Rep b a.length g → g 1 ≤ g 0 → Inv b := by
        intro b g hb hle
        have hlen := hb.len
        refine Or.inr ⟨g, by rw [hlen]; exact hb, fun u w e => ?_⟩
        rw [hlen, h2] at e
        have : u = 1 ∧ w = 0 := by rcases edge_inv e with ⟨c, h⟩ | ⟨c, h⟩ | ⟨c, h⟩ <;> omega
        rw [this.1, this.2]; exact hle
      by_cases hc : a.getD 0 a[0] < a.getD 1 a[0]
      · obtain ⟨a1, s1, r1, p1⟩ := swap_ok hr (i := 0) (j := 1) (by omega) (by omega)
        refine ⟨a1, by rw [decide_eq_true hc, if_pos rfl, s1], hfin a1 _ r1 ?_, p1⟩
        rw [sw_left, sw_right]; exact le_of_lt hc
      · exact ⟨a, by rw [decide_eq_false hc]; rfl, hfin a _ hr (not_lt.mp hc), List.Perm.refl _⟩
    · rw [if_neg h2]
      obtain ⟨a', g', e1, e2, e3, e4⟩ := buildLoop_ok hn4 a.length a _ hr (Nat.le_refl _) (fun u w e => by
        exfalso
        rcases edge_inv e with ⟨c, h⟩ | ⟨c, h⟩ | ⟨c, h⟩ <;> omega)
      have hlen := e2.len
      exact ⟨a', e1, Or.inr ⟨g', by rw [hlen]; exact e2, by rw [hlen]; exact e3⟩, e4⟩

end Verif.Depq
