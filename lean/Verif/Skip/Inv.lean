import Verif.Skip.Model
import Mathlib.Data.List.Basic
/-! The links of a skip list: at every level the next node that is high enough, with the distance. -/
namespace Verif.Skip
open Verif

variable {T : Type}

/-- The first node of the list of height at least `r` and its distance. -/
def nx (ht : Nat → Nat) (r : Nat) : List Nat → Option Nat × Int
  | [] => (none, 0)
  | x :: xs => if r ≤ ht x then (some x, 1) else if (nx ht r xs).1.isSome then ((nx ht r xs).1, (nx ht r xs).2 + 1) else (none, 0)

theorem nx_hit {ht : Nat → Nat} {r : Nat} {mid : List Nat} (h : ∀ x ∈ mid, ht x < r) {y : Nat} (hy : r ≤ ht y) (post : List Nat) :
    nx ht r (mid ++ y :: post) = (some y, (mid.length : Int) + 1) := by
  induction mid with
  | nil => simp [nx, hy]
  | cons a m ih =>
    have ha := h a (by simp)
    rw [List.cons_append, nx, if_neg (by omega), ih (fun x hx => h x (by simp [hx]))]
    simp

theorem nx_skip {ht : Nat → Nat} {r : Nat} {mid : List Nat} (h : ∀ x ∈ mid, ht x < r) (post : List Nat) :
    nx ht r (mid ++ post) = if (nx ht r post).1.isSome then ((nx ht r post).1, (nx ht r post).2 + mid.length) else (none, 0) := by
  induction mid with
  | nil =>
    cases post with
    | nil => simp [nx]
    | cons x xs =>
      simp only [nx, List.nil_append]
      by_cases c : r ≤ ht x
      · simp [c]
      · by_cases c2 : (nx ht r xs).1.isSome <;> simp [c, c2]
  | cons a m ih =>
    have ha := h a (by simp)
    rw [List.cons_append, nx, if_neg (by omega), ih (fun x hx => h x (by simp [hx]))]
    by_cases c : (nx ht r post).1.isSome
    · simp [c]; omega
    · simp [c]

theorem nx_low {ht : Nat → Nat} {r : Nat} {mid : List Nat} (h : ∀ x ∈ mid, ht x < r) : nx ht r mid = (none, 0) := by
  have := nx_skip h []
  rw [List.append_nil] at this
  rw [this]; simp [nx]

/-- Either all nodes are low, or there is a first high one. -/
theorem first_high (ht : Nat → Nat) (r : Nat) (l : List Nat) : (∀ x ∈ l, ht x < r) ∨ ∃ m y post, l = m ++ y :: post ∧ (∀ x ∈ m, ht x < r) ∧ r ≤ ht y := by
  induction l with
  | nil => left; simp
  | cons a l ih =>
    by_cases c : r ≤ ht a
    · right; exact ⟨[], a, l, rfl, by simp, c⟩
    · rcases ih with h | ⟨m, y, post, rfl, h1, h2⟩
      · left
        intro x hx
        rcases List.mem_cons.1 hx with rfl | hx
        · omega
        · exact h x hx
      · right
        refine ⟨a :: m, y, post, rfl, ?_, h2⟩
        intro x hx
        rcases List.mem_cons.1 hx with rfl | hx
        · omega
        · exact h1 x hx

theorem nx_cases (ht : Nat → Nat) (r : Nat) (l : List Nat) :
    (nx ht r l = (none, 0) ∧ ∀ x ∈ l, ht x < r) ∨ ∃ m y post, l = m ++ y :: post ∧ (∀ x ∈ m, ht x < r) ∧ r ≤ ht y ∧ nx ht r l = (some y, (m.length : Int) + 1) := by
  rcases first_high ht r l with h | ⟨m, y, post, e, h1, h2⟩
  · left; exact ⟨nx_low h, h⟩
  · right; exact ⟨m, y, post, e, h1, h2, by rw [e, nx_hit h1 h2]⟩

theorem nx_cut {ht : Nat → Nat} {r u : Nat} (hu : r ≤ ht u) (m x y : List Nat) : nx ht r (m ++ u :: x) = nx ht r (m ++ u :: y) := by
  induction m with
  | nil => simp [nx, hu]
  | cons a m ih => rw [List.cons_append, List.cons_append, nx, nx, ih]

theorem nx_congr {ht ht' : Nat → Nat} {r : Nat} {l : List Nat} (h : ∀ x ∈ l, ht x = ht' x) : nx ht r l = nx ht' r l := by
  induction l with
  | nil => rfl
  | cons a l ih => rw [nx, nx, ih (fun x hx => h x (by simp [hx])), h a (by simp)]

theorem split_left {pre post a1 b : List Nat} {x : Nat} (h : pre ++ x :: post = a1 ++ b) :
    (∃ m, a1 = pre ++ x :: m ∧ post = m ++ b) ∨ (∃ p, pre = a1 ++ p ∧ b = p ++ x :: post) := by
  rcases List.append_eq_append_iff.1 h with ⟨c, h1, h2⟩ | ⟨c, h1, h2⟩
  · cases c with
    | nil => right; exact ⟨[], by simpa using h1.symm, by simpa using h2.symm⟩
    | cons y c =>
      injection h2 with e1 e2
      subst e1
      left; exact ⟨c, h1, e2⟩
  · right; exact ⟨c, h1, h2⟩

theorem split_unique {u : Nat} {pre post pre' post' : List Nat} (hn : (pre ++ u :: post).Nodup) (h : pre ++ u :: post = pre' ++ u :: post') : pre = pre' ∧ post = post' := by
  rcases split_left h with ⟨m, h1, h2⟩ | ⟨p, h1, h2⟩
  · subst h1
    exfalso
    rw [h2, List.nodup_append] at hn
    have := (List.nodup_cons.1 hn.2.1).1
    exact this (by simp)
  · cases p with
    | nil =>
      rw [List.nil_append] at h2
      injection h2 with _ h3
      exact ⟨by simpa using h1, h3.symm⟩
    | cons y p =>
      exfalso
      injection h2 with e1 e2
      subst e1
      rw [h1, List.nodup_append] at hn
      exact hn.2.2 u (by simp) u (by simp) rfl

/-- The link and its length. -/
def fld (s : St T) (u r : Nat) : Option Nat × Int := (s.next u r, s.len u r)

/-- Level `r` of the list of nodes `A` (with the sentinel). -/
def Lvl (s : St T) (A : List Nat) (r : Nat) : Prop := ∀ pre u post, A = pre ++ u :: post → r ≤ s.ht u → fld s u r = nx s.ht r post

structure Good (s : St T) (L : List Nat) : Prop where
  nodup : (0 :: L).Nodup
  fresh : ∀ x ∈ 0 :: L, x < s.fresh
  h0 : s.ht 0 = 32
  hh : ∀ x ∈ L, s.ht x ≤ s.height
  hmax : s.height ≤ 32
  size : s.size = L.length
  lvl : ∀ r, Lvl s (0 :: L) r

theorem good_init : Good (init : St T) [] := by
  refine ⟨by simp, by simp [init], rfl, by simp, by simp [init], rfl, fun r pre u post h _ => ?_⟩
  cases pre with
  | nil => injection h with _ h2; rw [← h2]; rfl
  | cons a pre => injection h with _ h2; simp at h2

theorem rdNext_eq {s : St T} {u r : Nat} (h : r ≤ s.ht u) : rdNext s u r = some (fld s u r).1 := by simp [rdNext, h, fld]

theorem rdLen_eq {s : St T} {u r : Nat} (h : r ≤ s.ht u) : rdLen s u r = some (fld s u r).2 := by simp [rdLen, h, fld]

theorem walk_ok {s : St T} {a1 a2 : List Nat} {r : Nat} (hl : Lvl s (a1 ++ a2) r) : ∀ (f : Nat) (pre mid : List Nat) (u : Nat), a1 = pre ++ u :: mid → r ≤ s.ht u → mid.length < f →
    ∃ pre' u' mid', walk s r f u ((mid.length : Int) + 1) = some (u', (mid'.length : Int) + 1) ∧ a1 = pre' ++ u' :: mid' ∧ r ≤ s.ht u' ∧ (∀ x ∈ mid', s.ht x < r) ∧
      ∀ k, k ≤ s.ht u → k ≤ r → k ≤ s.ht u' := by
  intro f
  induction f with
  | zero => intro pre mid u _ _ h; omega
  | succ f ih =>
    intro pre mid u e hu hf
    have hfl := hl pre u (mid ++ a2) (by rw [e]; simp) hu
    rw [walk, rdNext_eq hu, Option.bind_some, rdLen_eq hu, hfl]
    rcases first_high s.ht r mid with h | ⟨m, y, m2, e2, h1, h2⟩
    · refine ⟨pre, u, mid, ?_, e, hu, h, fun k h1 _ => h1⟩
      rw [nx_skip h]
      rcases nx_cases s.ht r a2 with ⟨h3, _⟩ | ⟨m, y, post, _, _, _, h3⟩
      · rw [h3]; rfl
      · rw [h3]
        simp only [Option.isSome_some, if_true, Option.bind_some]
        rw [if_neg (by omega)]
    · subst e2
      rw [List.append_assoc, List.cons_append, nx_hit h1 h2]
      simp only [Option.bind_some]
      rw [List.length_append, List.length_cons] at hf ⊢
      rw [if_pos (by omega)]
      obtain ⟨pre', u', mid', e3, e4, e5, e6, e7⟩ := ih (pre ++ u :: m) m2 y (by rw [e]; simp) h2 (by omega)
      refine ⟨pre', u', mid', ?_, e4, e5, e6, fun k h3 h4 => Nat.le_trans h4 e5⟩
      rw [← e3]; congr 1; omega

/-- One level after an insertion of `w` behind `a1`. -/
theorem lvl_insert {s t : St T} {a1 a2 pre mid : List Nat} {u w r : Nat} (hl : Lvl s (a1 ++ a2) r) (hn : (a1 ++ w :: a2).Nodup) (e : a1 = pre ++ u :: mid) (hu : r ≤ s.ht u)
    (hm : ∀ x ∈ mid, s.ht x < r) (hht : t.ht = s.ht) (hf : ∀ a, a ≠ u → a ≠ w → fld t a r = fld s a r) (hw : r ≤ s.ht w → fld t w r = nx s.ht r a2)
    (hfu : fld t u r = nx s.ht r (mid ++ w :: a2)) : Lvl t (a1 ++ w :: a2) r := by
  intro p x q h hx
  rw [hht] at hx ⊢
  rcases split_left h.symm with ⟨m, e1, e2⟩ | ⟨c, e1, e2⟩
  · have hna : a1.Nodup := (List.nodup_append.1 hn).1
    have hxw : x ≠ w := fun c => by
      have := (List.nodup_append.1 hn).2.2 x (by rw [e1]; simp) w (by simp)
      exact this c
    subst e2
    by_cases c : x = u
    · subst c
      rw [e1] at e hna
      obtain ⟨_, e3⟩ := split_unique hna e
      rw [hfu, e3]
    · rw [hf x c hxw, hl p x (m ++ a2) (by rw [e1]; simp) hx]
      rw [e1] at e
      rcases split_left e with ⟨m2, e3, e4⟩ | ⟨c2, e3, e4⟩
      · subst e4
        rw [List.append_assoc, List.cons_append, List.append_assoc, List.cons_append, nx_cut hu]
      · exfalso
        cases c2 with
        | nil => rw [List.nil_append] at e4; injection e4 with h1 _; exact c h1.symm
        | cons y c2 =>
          injection e4 with h1 h2
          have := hm x (by rw [h2]; simp)
          omega
  · cases c with
    | nil =>
      rw [List.nil_append] at e2
      injection e2 with h1 h2
      subst h1; subst h2
      exact hw hx
    | cons y c =>
      injection e2 with h1 h2
      have hxm : x ∈ a2 := by rw [h2]; simp
      have hxu : x ≠ u := fun c3 => by
        have := (List.nodup_append.1 hn).2.2 u (by rw [e]; simp) x (by simp [hxm])
        exact this c3.symm
      have hxw : x ≠ w := fun c3 => by
        have := (List.nodup_cons.1 (List.nodup_append.1 hn).2.1).1
        exact this (c3 ▸ hxm)
      rw [hf x hxu hxw]
      exact hl (a1 ++ c) x q (by rw [h2]; simp) hx

/-- One level after the removal of `w` behind `a1`. -/
theorem lvl_erase {s t : St T} {a1 a2 pre mid : List Nat} {u w r : Nat} (hl : Lvl s (a1 ++ w :: a2) r) (hn : (a1 ++ w :: a2).Nodup) (e : a1 = pre ++ u :: mid) (hu : r ≤ s.ht u)
    (hm : ∀ x ∈ mid, s.ht x < r) (hht : t.ht = s.ht) (hf : ∀ a, a ≠ u → fld t a r = fld s a r) (hfu : fld t u r = nx s.ht r (mid ++ a2)) : Lvl t (a1 ++ a2) r := by
  intro p x q h hx
  rw [hht] at hx ⊢
  rcases split_left h.symm with ⟨m, e1, e2⟩ | ⟨c, e1, e2⟩
  · have hna : a1.Nodup := (List.nodup_append.1 hn).1
    subst e2
    by_cases c : x = u
    · subst c
      rw [e1] at e hna
      obtain ⟨_, e3⟩ := split_unique hna e
      rw [hfu, e3]
    · rw [hf x c, hl p x (m ++ w :: a2) (by rw [e1]; simp) hx]
      rw [e1] at e
      rcases split_left e with ⟨m2, e3, e4⟩ | ⟨c2, e3, e4⟩
      · subst e4
        rw [List.append_assoc, List.cons_append, List.append_assoc, List.cons_append, nx_cut hu]
      · exfalso
        cases c2 with
        | nil => rw [List.nil_append] at e4; injection e4 with h1 _; exact c h1.symm
        | cons y c2 =>
          injection e4 with h1 h2
          have := hm x (by rw [h2]; simp)
          omega
  · have hxm : x ∈ a2 := by rw [e2]; simp
    have hxu : x ≠ u := fun c3 => by
      have := (List.nodup_append.1 hn).2.2 u (by rw [e]; simp) x (by simp [hxm])
      exact this c3.symm
    rw [hf x hxu]
    exact hl (a1 ++ w :: c) x q (by rw [e2]; simp) hx

theorem lvl_frame {s t : St T} {A : List Nat} {r : Nat} (hl : Lvl s A r) (hht : t.ht = s.ht) (hf : ∀ a, fld t a r = fld s a r) : Lvl t A r := by
  intro p x q h hx
  rw [hht] at hx ⊢
  rw [hf, hl p x q h hx]

/-- The parts that the links do not touch. -/
structure Same (s t : St T) : Prop where
  ht : t.ht = s.ht
  val : t.val = s.val
  fresh : t.fresh = s.fresh
  height : t.height = s.height
  size : t.size = s.size

theorem Same.refl (s : St T) : Same s s := ⟨rfl, rfl, rfl, rfl, rfl⟩

theorem Same.trans {s t v : St T} (h : Same s t) (h2 : Same t v) : Same s v :=
  ⟨h2.ht.trans h.ht, h2.val.trans h.val, h2.fresh.trans h.fresh, h2.height.trans h.height, h2.size.trans h.size⟩

theorem wrLink_ok {s : St T} {u r : Nat} (h : r ≤ s.ht u) (x : Option Nat) (l : Int) :
    ∃ t, wrLink s u r x l = some t ∧ Same s t ∧ fld t u r = (x, l) ∧ ∀ a b, (a ≠ u ∨ b ≠ r) → fld t a b = fld s a b := by
  unfold wrLink
  rw [if_pos h]
  refine ⟨_, rfl, ⟨rfl, rfl, rfl, rfl, rfl⟩, by simp [fld], fun a b hab => ?_⟩
  have : ¬ (a = u ∧ b = r) := by rintro ⟨rfl, rfl⟩; simp at hab
  simp [fld, this]

/-! ### Insertion -/

theorem insStep_ok {s : St T} {a1 a2 pre mid : List Nat} {u w r : Nat} (hl : Lvl s (a1 ++ a2) r) (hn : (a1 ++ w :: a2).Nodup) (e : a1 = pre ++ u :: mid) (hu : r ≤ s.ht u)
    (hm : ∀ x ∈ mid, s.ht x < r) :
    ∃ t, insStep s w (s.ht w) r u ((mid.length : Int) + 1) = some t ∧ Same s t ∧ Lvl t (a1 ++ w :: a2) r ∧ ∀ a b, b ≠ r → fld t a b = fld s a b := by
  have hfl := hl pre u (mid ++ a2) (by rw [e]; simp) hu
  have huw : u ≠ w := (List.nodup_append.1 hn).2.2 u (by rw [e]; simp) w (by simp)
  rw [nx_skip hm] at hfl
  unfold insStep
  rw [rdNext_eq hu, rdLen_eq hu, Option.bind_some, Option.bind_some, hfl]
  by_cases c : r ≤ s.ht w
  · rw [if_pos c]
    generalize hA : (if (nx s.ht r a2).1.isSome then ((nx s.ht r a2).1, (nx s.ht r a2).2 + (mid.length : Int)) else (none, 0)) = A
    obtain ⟨t1, e1, s1, f1, f1'⟩ := wrLink_ok c A.1 (if A.1.isSome then A.2 - ((mid.length : Int) + 1 - 1) else 0)
    rw [e1, Option.bind_some]
    obtain ⟨t2, e2, s2, f2, f2'⟩ := wrLink_ok (s := t1) (u := u) (r := r) (by rw [s1.ht]; exact hu) (some w) ((mid.length : Int) + 1)
    refine ⟨t2, e2, s1.trans s2, lvl_insert hl hn e hu hm (s1.trans s2).ht ?_ ?_ ?_, ?_⟩
    · intro a h1 h2
      rw [f2' a r (Or.inl h1), f1' a r (Or.inl h2)]
    · intro _
      rw [f2' w r (Or.inl (Ne.symm huw)), f1, ← hA]
      rcases nx_cases s.ht r a2 with ⟨h3, _⟩ | ⟨m, y, post, _, _, _, h3⟩
      · rw [h3]; rfl
      · rw [h3]; simp
    · rw [f2, nx_hit hm c]
    · intro a b hb
      rw [f2' a b (Or.inr hb), f1' a b (Or.inr hb)]
  · rw [if_neg c]
    have hkey : nx s.ht r (mid ++ w :: a2) = if (nx s.ht r a2).1.isSome then ((nx s.ht r a2).1, (nx s.ht r a2).2 + mid.length + 1) else (none, 0) := by
      rw [show mid ++ w :: a2 = (mid ++ [w]) ++ a2 by simp, nx_skip (by
        intro x hx
        rcases List.mem_append.1 hx with hx | hx
        · exact hm x hx
        · rw [List.mem_singleton.1 hx]; omega)]
      simp [Int.add_assoc]
    rcases nx_cases s.ht r a2 with ⟨h3, _⟩ | ⟨m, y, post, _, _, _, h3⟩
    · rw [h3] at hfl hkey ⊢
      refine ⟨s, rfl, Same.refl s, lvl_insert hl hn e hu hm rfl (fun _ _ _ => rfl) (fun h => absurd h c) ?_, fun _ _ _ => rfl⟩
      rw [hfl, hkey]; rfl
    · rw [h3] at hfl hkey ⊢
      simp only [Option.isSome_some, if_true] at hfl hkey ⊢
      obtain ⟨t1, e1, s1, f1, f1'⟩ := wrLink_ok hu (some y) ((m.length : Int) + 1 + mid.length + 1)
      refine ⟨t1, e1, s1, lvl_insert hl hn e hu hm s1.ht (fun a h1 _ => f1' a r (Or.inl h1)) (fun h => absurd h c) ?_, fun a b hb => f1' a b (Or.inr hb)⟩
      rw [f1, hkey]

theorem insLoop_ok {a1 a2 : List Nat} {w hw : Nat} (hn : (a1 ++ w :: a2).Nodup) : ∀ (k : Nat) (s : St T) (pre mid : List Nat) (u : Nat), s.ht w = hw →
    a1 = pre ++ u :: mid → (∀ r, r < k → r ≤ s.ht u) → mid.length ≤ s.size → a1.length ≤ s.size + 1 → (∀ r, r < k → Lvl s (a1 ++ a2) r) → (∀ r, k ≤ r → Lvl s (a1 ++ w :: a2) r) →
    ∃ t, insLoop w hw k s u ((mid.length : Int) + 1) = some t ∧ Same s t ∧ ∀ r, Lvl t (a1 ++ w :: a2) r := by
  intro k
  induction k with
  | zero => intro s pre mid u hw e hu _ _ _ h2; exact ⟨s, rfl, Same.refl s, fun r => h2 r (Nat.zero_le r)⟩
  | succ r ih =>
    intro s pre mid u hhw e hu hms hal h1 h2
    obtain ⟨pre', u', mid', e1, e2, hu', hm', hk⟩ := walk_ok (h1 r (Nat.lt_succ_self r)) (s.size + 1) pre mid u e (hu r (Nat.lt_succ_self r)) (by omega)
    obtain ⟨t, e3, s3, l3, f3⟩ := insStep_ok (h1 r (Nat.lt_succ_self r)) hn e2 hu' hm'
    rw [insLoop, e1, Option.bind_some]
    subst hhw
    rw [e3, Option.bind_some]
    obtain ⟨v, e4, s4, l4⟩ := ih t pre' mid' u' (by rw [s3.ht]) e2 (fun q hq => by rw [s3.ht]; omega) (by
        rw [s3.size]
        have : a1.length = pre'.length + (mid'.length + 1) := by rw [e2]; simp
        omega) (by rw [s3.size]; exact hal)
      (fun q hq => lvl_frame (h1 q (by omega)) s3.ht (fun a => f3 a q (by omega)))
      (fun q hq => by
        by_cases c : q = r
        · rw [c]; exact l3
        · exact lvl_frame (h2 q (by omega)) s3.ht (fun a => f3 a q c))
    exact ⟨v, e4, s3.trans s4, l4⟩

/-! ### Removal -/

theorem eraStep_ok {s : St T} {a1 a2 pre mid : List Nat} {u w r : Nat} (hl : Lvl s (a1 ++ w :: a2) r) (hn : (a1 ++ w :: a2).Nodup) (e : a1 = pre ++ u :: mid) (hu : r ≤ s.ht u)
    (hm : ∀ x ∈ mid, s.ht x < r) :
    ∃ t, eraStep s r u ((mid.length : Int) + 1) = some t ∧ Same s t ∧ Lvl t (a1 ++ a2) r ∧ ∀ a b, b ≠ r → fld t a b = fld s a b := by
  have hfl := hl pre u (mid ++ w :: a2) (by rw [e]; simp) hu
  unfold eraStep
  rw [rdNext_eq hu, rdLen_eq hu, Option.bind_some, hfl]
  have hkey := nx_skip hm a2
  by_cases c : r ≤ s.ht w
  · have hfw := hl a1 w a2 rfl c
    rw [nx_hit hm c] at hfl ⊢
    simp only [Option.bind_some, if_true]
    rw [rdLen_eq c, rdNext_eq c, hfw]
    simp only [Option.bind_some]
    obtain ⟨t1, e1, s1, f1, f1'⟩ := wrLink_ok hu (nx s.ht r a2).1 (if (nx s.ht r a2).2 ≠ 0 then (mid.length : Int) + 1 + (nx s.ht r a2).2 - 1 else 0)
    refine ⟨t1, e1, s1, lvl_erase hl hn e hu hm s1.ht (fun a h1 => f1' a r (Or.inl h1)) ?_, fun a b hb => f1' a b (Or.inr hb)⟩
    rw [f1, hkey]
    rcases nx_cases s.ht r a2 with ⟨h3, _⟩ | ⟨m, y, post, _, _, _, h3⟩
    · rw [h3]; rfl
    · rw [h3]
      simp only [Option.isSome_some, if_true]
      rw [if_pos (by omega)]
      congr 1; omega
  · rw [show mid ++ w :: a2 = (mid ++ [w]) ++ a2 by simp, nx_skip (by
        intro x hx
        rcases List.mem_append.1 hx with hx | hx
        · exact hm x hx
        · rw [List.mem_singleton.1 hx]; omega)] at hfl ⊢
    rcases nx_cases s.ht r a2 with ⟨h3, _⟩ | ⟨m, y, post, _, _, _, h3⟩
    · rw [h3] at hfl hkey ⊢
      refine ⟨s, rfl, Same.refl s, lvl_erase hl hn e hu hm rfl (fun _ _ => rfl) ?_, fun _ _ _ => rfl⟩
      rw [hfl, hkey]; rfl
    · rw [h3] at hfl hkey ⊢
      simp only [Option.isSome_some, if_true, Option.bind_some] at hfl hkey ⊢
      rw [if_neg (by simp; omega)]
      obtain ⟨t1, e1, s1, f1, f1'⟩ := wrLink_ok hu (some y) ((m.length : Int) + 1 + ((mid ++ [w]).length : Int) - 1)
      refine ⟨t1, e1, s1, lvl_erase hl hn e hu hm s1.ht (fun a h1 => f1' a r (Or.inl h1)) ?_, fun a b hb => f1' a b (Or.inr hb)⟩
      rw [f1, hkey]
      congr 1; simp; omega

theorem eraLoop_ok {a1 a2 : List Nat} {w : Nat} (hn : (a1 ++ w :: a2).Nodup) : ∀ (k : Nat) (s : St T) (pre mid : List Nat) (u : Nat),
    a1 = pre ++ u :: mid → (∀ r, r < k → r ≤ s.ht u) → mid.length ≤ s.size → a1.length ≤ s.size + 1 → (∀ r, r < k → Lvl s (a1 ++ w :: a2) r) → (∀ r, k ≤ r → Lvl s (a1 ++ a2) r) →
    ∃ t pre' u' mid', eraLoop k s u ((mid.length : Int) + 1) = some (t, u') ∧ Same s t ∧ (∀ r, Lvl t (a1 ++ a2) r) ∧ a1 = pre' ++ u' :: mid' ∧ (0 < k → mid' = []) := by
  intro k
  induction k with
  | zero => intro s pre mid u e hu _ _ _ h2; exact ⟨s, pre, u, mid, rfl, Same.refl s, fun r => h2 r (Nat.zero_le r), e, fun h => absurd h (by omega)⟩
  | succ r ih =>
    intro s pre mid u e hu hms hal h1 h2
    obtain ⟨pre', u', mid', e1, e2, hu', hm', hk⟩ := walk_ok (h1 r (Nat.lt_succ_self r)) (s.size + 1) pre mid u e (hu r (Nat.lt_succ_self r)) (by omega)
    obtain ⟨t, e3, s3, l3, f3⟩ := eraStep_ok (h1 r (Nat.lt_succ_self r)) hn e2 hu' hm'
    rw [eraLoop, e1, Option.bind_some]
    rw [e3, Option.bind_some]
    obtain ⟨v, p5, u5, m5, e4, s4, l4, e5, e6⟩ := ih t pre' mid' u' e2 (fun q hq => by rw [s3.ht]; omega) (by
        rw [s3.size]
        have : a1.length = pre'.length + (mid'.length + 1) := by rw [e2]; simp
        omega) (by rw [s3.size]; exact hal)
      (fun q hq => lvl_frame (h1 q (by omega)) s3.ht (fun a => f3 a q (by omega)))
      (fun q hq => by
        by_cases c : q = r
        · rw [c]; exact l3
        · exact lvl_frame (h2 q (by omega)) s3.ht (fun a => f3 a q c))
    refine ⟨v, p5, u5, m5, e4, s3.trans s4, l4, e5, fun _ => ?_⟩
    rcases Nat.eq_zero_or_pos r with rfl | hr
    · -- the last level: no node in between
      have hm0 : mid' = [] := by
        cases mid' with
        | nil => rfl
        | cons x xs => exact absurd (hm' x (by simp)) (by omega)
      rw [eraLoop] at e4
      injection e4 with e4
      injection e4 with _ e4
      subst e4
      rw [e5] at e2
      have hna : a1.Nodup := (List.nodup_append.1 hn).1
      rw [e5] at hna
      rw [(split_unique hna e2).2, hm0]
    · exact e6 hr

/-! ### Access -/

theorem getLoop_ok {s : St T} {a1 a2 : List Nat} {w : Nat} (hl : ∀ r, Lvl s (a1 ++ w :: a2) r) (hs : a1.length ≤ s.size + 1) : ∀ (k : Nat) (pre mid : List Nat) (u : Nat),
    0 < k → a1 = pre ++ u :: mid → (∀ r, r < k → r ≤ s.ht u) → getLoop s k u ((mid.length : Int) + 1) = some w := by
  intro k
  induction k with
  | zero => intro _ _ _ h; omega
  | succ r ih =>
    intro pre mid u _ e hu
    have hlen : a1.length = pre.length + (mid.length + 1) := by rw [e]; simp
    obtain ⟨pre', u', mid', e1, e2, hu', hm', hk⟩ := walk_ok (hl r) (s.size + 1) pre mid u e (hu r (Nat.lt_succ_self r)) (by omega)
    have hfl := hl r pre' u' (mid' ++ w :: a2) (by rw [e2]; simp) hu'
    rw [getLoop, e1, Option.bind_some, rdNext_eq hu', Option.bind_some, rdLen_eq hu', hfl]
    by_cases c : r ≤ s.ht w
    · rw [nx_hit hm' c]
      simp
    · have hrec := ih pre' mid' u' (by omega) e2 (fun q hq => by omega)
      rw [show mid' ++ w :: a2 = (mid' ++ [w]) ++ a2 by simp, nx_skip (by
        intro x hx
        rcases List.mem_append.1 hx with hx | hx
        · exact hm' x hx
        · rw [List.mem_singleton.1 hx]; omega)]
      rcases nx_cases s.ht r a2 with ⟨h3, _⟩ | ⟨m, y, post, _, _, _, h3⟩
      · rw [h3]; simpa using hrec
      · rw [h3]
        simp only [Option.isSome_some, if_true, Option.bind_some]
        rw [if_neg (by simp; omega)]
        exact hrec

/-! ### Iteration -/

theorem nx_zero (ht : Nat → Nat) (l : List Nat) : (nx ht 0 l).1 = l.head? := by
  cases l with
  | nil => rfl
  | cons a l => simp [nx]

theorem next_zero {s : St T} {A : List Nat} (hl : Lvl s A 0) {pre post : List Nat} {u : Nat} (e : A = pre ++ u :: post) : rdNext s u 0 = some post.head? := by
  rw [rdNext_eq (Nat.zero_le _), hl pre u post e (Nat.zero_le _), nx_zero]

theorem seen_ok {s : St T} {A : List Nat} (hl : Lvl s A 0) : ∀ (post pre : List Nat) (xs : List T) (f : Nat), A = pre ++ post → post.map s.val = xs.map some → post.length ≤ f →
    seen s f post.head? = some xs := by
  intro post
  induction post with
  | nil =>
    intro pre xs f _ h _
    cases xs with
    | nil => cases f <;> rfl
    | cons x xs => simp at h
  | cons u post ih =>
    intro pre xs f e h hf
    cases xs with
    | nil => simp at h
    | cons x xs =>
      rw [List.map_cons, List.map_cons] at h
      injection h with h1 h2
      cases f with
      | zero => simp at hf
      | succ f =>
        rw [List.head?_cons, seen, h1, Option.bind_some, next_zero hl e, Option.bind_some,
          ih (pre ++ [u]) xs f (by rw [e]; simp) h2 (by simpa using hf)]
        rfl

end Verif.Skip
