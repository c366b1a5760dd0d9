import Verif.Treap.Props
/-!
Priorities in the treap of `Verif.Treap.Model`: heap order.
-/
namespace Verif.TreapShape

open Verif.Treap

variable {K V : Type} [LinearOrder K]

/-- The root (if any) has at least the priority `q`. -/
def rootGe (q : Nat) : Tree K V → Prop
  | .nil => True
  | .node _ p _ _ _ => q ≤ p

/-- No node has a smaller priority than its parent. -/
def Heap : Tree K V → Prop
  | .nil => True
  | .node l p _ _ r => Heap l ∧ Heap r ∧ rootGe p l ∧ rootGe p r

/-- The priority of the parent; the sentinel has 0. -/
def lo : Ctx K V → Nat
  | [] => 0
  | .fl p _ _ _ :: _ => p
  | .fr _ p _ _ :: _ => p

/-- Heap order around a position. -/
def CtxHeap : Ctx K V → Prop
  | [] => True
  | .fl p _ _ r :: c => Heap r ∧ rootGe p r ∧ lo c ≤ p ∧ CtxHeap c
  | .fr l p _ _ :: c => Heap l ∧ rootGe p l ∧ lo c ≤ p ∧ CtxHeap c

theorem rootGe_mono {p q : Nat} {t : Tree K V} (h : rootGe p t) (hq : q ≤ p) : rootGe q t := by
  cases t with
  | nil => trivial
  | node l p' k v r => exact Nat.le_trans hq h

theorem rootGe_zero (t : Tree K V) : rootGe 0 t := by
  cases t with
  | nil => trivial
  | node l p k v r => exact Nat.zero_le _

theorem heap_zip : ∀ (c : Ctx K V) (t : Tree K V), Heap (zip t c) ↔ Heap t ∧ rootGe (lo c) t ∧ CtxHeap c := by
  intro c
  induction c with
  | nil => intro t; exact ⟨fun h => ⟨h, rootGe_zero t, trivial⟩, fun h => h.1⟩
  | cons f c ih =>
    intro t
    cases f with
    | fl p k v r =>
      unfold zip
      rw [ih]
      exact ⟨fun ⟨⟨h1, h2, h3, h4⟩, h5, h6⟩ => ⟨h1, h3, h2, h4, h5, h6⟩, fun ⟨h1, h3, h2, h4, h5, h6⟩ => ⟨⟨h1, h2, h3, h4⟩, h5, h6⟩⟩
    | fr l p k v =>
      unfold zip
      rw [ih]
      exact ⟨fun ⟨⟨h1, h2, h3, h4⟩, h5, h6⟩ => ⟨h2, h4, h1, h3, h5, h6⟩, fun ⟨h2, h4, h1, h3, h5, h6⟩ => ⟨⟨h1, h2, h3, h4⟩, h5, h6⟩⟩

theorem heap_descend (x : K) : ∀ (t : Tree K V) (c c' : Ctx K V), Heap t → rootGe (lo c) t → CtxHeap c → descend x t c = .inr c' → CtxHeap c' := by
  intro t
  induction t with
  | nil => intro c c' _ _ hc h; cases h; exact hc
  | node l p k v r ihl ihr =>
    intro c c' ht hr hc h
    obtain ⟨h1, h2, h3, h4⟩ := ht
    unfold descend at h
    split_ifs at h
    · exact ihl (.fl p k v r :: c) c' h1 h3 ⟨h2, h4, hr, hc⟩ h
    · exact ihr (.fr l p k v :: c) c' h2 h4 ⟨h1, h3, hr, hc⟩ h

theorem heap_bubble : ∀ (c : Ctx K V) (l : Tree K V) (p : Nat) (k : K) (v : V) (r : Tree K V), CtxHeap c → Heap l → Heap r → rootGe p l → rootGe p r → rootGe (lo c) l → rootGe (lo c) r →
    Heap (bubble l p k v r c) := by
  intro c
  induction c with
  | nil => intro l p k v r _ h1 h2 h3 h4 _ _; exact ⟨h1, h2, h3, h4⟩
  | cons f c ih =>
    intro l p k v r hc h1 h2 h3 h4 h5 h6
    cases f with
    | fl pp pk pv pr =>
      obtain ⟨c1, c2, c3, c4⟩ := hc
      unfold bubble
      split_ifs with h
      · exact ih l p k v _ c4 h1 ⟨h2, c1, h6, c2⟩ h3 (Nat.le_of_lt h) (rootGe_mono h5 c3) c3
      · rw [heap_zip]
        exact ⟨⟨h1, h2, h3, h4⟩, Nat.not_lt.1 h, c1, c2, c3, c4⟩
    | fr pl pp pk pv =>
      obtain ⟨c1, c2, c3, c4⟩ := hc
      unfold bubble
      split_ifs with h
      · exact ih _ p k v r c4 ⟨c1, h1, c2, h5⟩ h2 (Nat.le_of_lt h) h4 c3 (rootGe_mono h6 c3)
      · rw [heap_zip]
        exact ⟨⟨h1, h2, h3, h4⟩, Nat.not_lt.1 h, c1, c2, c3, c4⟩

theorem heap_trickle : ∀ (n : Nat) (l r : Tree K V) (c c' : Ctx K V), CtxHeap c → Heap l → Heap r → rootGe (lo c) l → rootGe (lo c) r → trickle n l r c = some c' → CtxHeap c' := by
  intro n
  induction n with
  | zero =>
    intro l r c c' hc _ _ _ _ h
    cases l <;> cases r <;> simp only [trickle, Option.some.injEq, reduceCtorEq] at h
    exact h ▸ hc
  | succ n ih =>
    intro l r c c' hc hl hr g1 g2 h
    cases l with
    | nil =>
      cases r with
      | nil => cases h; exact hc
      | node rl p k v rr =>
        unfold trickle at h
        obtain ⟨a1, a2, a3, a4⟩ := hr
        exact ih .nil rl (.fl p k v rr :: c) c' ⟨a2, a4, g2, hc⟩ hl a1 trivial a3 h
    | node ll p k v lr =>
      obtain ⟨b1, b2, b3, b4⟩ := hl
      cases r with
      | nil =>
        unfold trickle at h
        exact ih lr .nil (.fr ll p k v :: c) c' ⟨b1, b3, g1, hc⟩ b2 hr b4 trivial h
      | node rl p' k' v' rr =>
        unfold trickle at h
        split_ifs at h with hp
        · exact ih lr _ (.fr ll p k v :: c) c' ⟨b1, b3, g1, hc⟩ b2 hr b4 (Nat.le_of_lt hp) h
        · obtain ⟨a1, a2, a3, a4⟩ := hr
          exact ih (.node ll p k v lr) rl (.fl p' k' v' rr :: c) c' ⟨a2, a4, g2, hc⟩ ⟨b1, b2, b3, b4⟩ a1 (Nat.not_lt.1 hp) a3 h

theorem heap_force : ∀ (c : Ctx K V) (l r : Tree K V), CtxHeap c → Heap l → Heap r → rootGe (lo c) l → rootGe (lo c) r → Heap (bubbleForce l r c).1 ∧ Heap (bubbleForce l r c).2 := by
  intro c
  induction c with
  | nil => intro l r _ h1 h2 _ _; exact ⟨h1, h2⟩
  | cons f c ih =>
    intro l r hc h1 h2 h5 h6
    cases f with
    | fl pp pk pv pr =>
      obtain ⟨c1, c2, c3, c4⟩ := hc
      exact ih l _ c4 h1 ⟨h2, c1, h6, c2⟩ (rootGe_mono h5 c3) c3
    | fr pl pp pk pv =>
      obtain ⟨c1, c2, c3, c4⟩ := hc
      exact ih _ r c4 ⟨c1, h1, c2, h5⟩ h2 c3 (rootGe_mono h6 c3)

/-! ### Operations -/

theorem heap_locate {t : Tree K V} {x : K} {u : Loc K V} (ht : Heap t) (h : locate x t [] = some u) :
    Heap u.l ∧ Heap u.r ∧ rootGe u.p u.l ∧ rootGe u.p u.r ∧ lo u.ctx ≤ u.p ∧ CtxHeap u.ctx := by
  obtain ⟨-, h2, -⟩ := locate_some t [] x u h
  have : Heap (zip (.node u.l u.p u.k u.v u.r) u.ctx) := by rw [h2]; exact ht
  obtain ⟨⟨a1, a2, a3, a4⟩, a5, a6⟩ := (heap_zip _ _).1 this
  exact ⟨a1, a2, a3, a4, a5, a6⟩

theorem heap_insertAt (T : Treap K V) (t : Tree K V) (c : Ctx K V) (p : Nat) (x : K) (v : V) (hT : Heap T.root) (ht : Heap t) (hr : rootGe (lo c) t) (hc : CtxHeap c) : Heap (insertAt T t c p x v).1.root := by
  unfold insertAt
  split
  · exact hT
  · rename_i c' h
    exact heap_bubble c' .nil p x v .nil (heap_descend x t c c' ht hr hc h) trivial trivial trivial trivial trivial trivial

theorem heap_insert (T : Treap K V) (p : Nat) (x : K) (v : V) (hT : Heap T.root) : Heap (insert T p x v).1.root := heap_insertAt T T.root [] p x v hT hT (rootGe_zero _) trivial

theorem heap_hint (T : Treap K V) (h : Iter K) (p : Nat) (x : K) (v : V) (q : Treap K V × Iter K) (hT : Heap T.root) (hq : insertHint T h p x v = some q) : Heap q.1.root := by
  unfold insertHint at hq
  cases h with
  | none => cases hq; exact heap_insert T p x v hT
  | some h =>
    obtain ⟨u, hu, rfl⟩ := Option.map_eq_some_iff.1 hq
    obtain ⟨a1, a2, a3, a4, a5, a6⟩ := heap_locate hT hu
    have hat := heap_insertAt T (.node u.l u.p u.k u.v u.r) u.ctx p x v hT ⟨a1, a2, a3, a4⟩ a5 a6
    have hin := heap_insert T p x v hT
    generalize u.ctx = c at hat ⊢
    unfold hintFrame
    split
    · have : Heap (insertAt T (.node u.l u.p u.k u.v u.r) u.ctx p x v).1.root := heap_insertAt T (.node u.l u.p u.k u.v u.r) u.ctx p x v hT ⟨a1, a2, a3, a4⟩ a5 a6
      exact this
    · have : Heap (insertAt T (.node u.l u.p u.k u.v u.r) u.ctx p x v).1.root := heap_insertAt T (.node u.l u.p u.k u.v u.r) u.ctx p x v hT ⟨a1, a2, a3, a4⟩ a5 a6
      split_ifs
      · exact hT
      · exact hin
      · exact this
    · have : Heap (insertAt T (.node u.l u.p u.k u.v u.r) u.ctx p x v).1.root := heap_insertAt T (.node u.l u.p u.k u.v u.r) u.ctx p x v hT ⟨a1, a2, a3, a4⟩ a5 a6
      split_ifs
      · exact hT
      · exact hin
      · exact this

theorem heap_eraseIt (T : Treap K V) (it : Iter K) (q : Treap K V × Iter K) (hT : Heap T.root) (hq : eraseIt T it = some q) : Heap q.1.root := by
  cases it with
  | none => cases hq; exact hT
  | some x =>
    unfold eraseIt at hq
    obtain ⟨u, hu, hq⟩ := Option.bind_eq_some_iff.1 hq
    obtain ⟨c, hc, rfl⟩ := Option.map_eq_some_iff.1 hq
    obtain ⟨a1, a2, a3, a4, a5, a6⟩ := heap_locate hT hu
    exact (heap_zip _ _).2 ⟨trivial, trivial, heap_trickle _ _ _ _ _ a6 a1 a2 (rootGe_mono a3 a5) (rootGe_mono a4 a5) hc⟩

theorem heap_eraseKey (T : Treap K V) (x : K) (q : Treap K V × Bool) (hT : Heap T.root) (hq : eraseKey T x = some q) : Heap q.1.root := by
  unfold eraseKey at hq
  split at hq
  · cases hq; exact hT
  · obtain ⟨w, hw, rfl⟩ := Option.map_eq_some_iff.1 hq
    exact heap_eraseIt T _ w hT hw

theorem heap_split (T : Treap K V) (it : Iter K) (q : Treap K V × Treap K V) (hT : Heap T.root) (hq : split T it = some q) : Heap q.1.root ∧ Heap q.2.root := by
  cases it with
  | none => cases hq; exact ⟨trivial, hT⟩
  | some x =>
    unfold split at hq
    obtain ⟨u, hu, rfl⟩ := Option.map_eq_some_iff.1 hq
    obtain ⟨a1, a2, a3, a4, a5, a6⟩ := heap_locate hT hu
    have := heap_force (.fl u.p u.k u.v u.r :: u.ctx) u.l .nil ⟨a2, a4, a5, a6⟩ a1 trivial a3 trivial
    exact ⟨this.2, this.1⟩

theorem heap_absorb (T S : Treap K V) (q : Treap K V × Treap K V × Iter K) (hT : Heap T.root) (hS : Heap S.root) (hq : absorb T S = some q) : Heap q.1.root ∧ Heap q.2.1.root := by
  obtain ⟨tr, ts⟩ := T
  obtain ⟨sr, ss⟩ := S
  unfold absorb at hq
  split_ifs at hq
  cases sr with
  | nil => cases hq; exact ⟨hT, hS⟩
  | node sl sp sk sv sr =>
    cases tr with
    | nil => cases hq; exact ⟨hS, trivial⟩
    | node tl tp tk tv tr =>
      obtain ⟨c, hc, rfl⟩ := Option.map_eq_some_iff.1 hq
      exact ⟨(heap_zip _ _).2 ⟨trivial, trivial, heap_trickle _ _ _ [] _ trivial hS hT (rootGe_zero _) (rootGe_zero _) hc⟩, trivial⟩

theorem heap_eraseRange (T : Treap K V) (b e : Iter K) (q : Treap K V × Iter K) (hT : Heap T.root) (hq : eraseRange T b e = some q) : Heap q.1.root := by
  unfold eraseRange at hq
  obtain ⟨a, ha, hq⟩ := Option.bind_eq_some_iff.1 hq
  obtain ⟨d, hd, hq⟩ := Option.bind_eq_some_iff.1 hq
  obtain ⟨w, hw, rfl⟩ := Option.map_eq_some_iff.1 hq
  obtain ⟨a1, a2⟩ := heap_split T b a hT ha
  obtain ⟨d1, d2⟩ := heap_split a.1 e d a1 hd
  exact (heap_absorb d.1 a.2 w d1 a2 hw).1

theorem heap_on1 {Ts : List (Treap K V)} {i : Nat} {f : Treap K V → Option (Treap K V × Out K V)} {q : List (Treap K V) × Out K V} (hT : ∀ T ∈ Ts, Heap T.root)
    (hf : ∀ T w, Heap T.root → f T = some w → Heap w.1.root) (h : on1 Ts i f = some q) : ∀ T ∈ q.1, Heap T.root := by
  unfold on1 at h
  obtain ⟨T, h1, h⟩ := Option.bind_eq_some_iff.1 h
  obtain ⟨w, hw, rfl⟩ := Option.map_eq_some_iff.1 h
  intro X hX
  rcases List.mem_or_eq_of_mem_set hX with hX | rfl
  · exact hT X hX
  · exact hf T w (hT T (List.mem_of_getElem? h1)) hw

theorem heap_step (Ts : List (Treap K V)) (a : Op K V) (q : List (Treap K V) × Out K V) (hT : ∀ T ∈ Ts, Heap T.root) (h : step Ts a = some q) : ∀ T ∈ q.1, Heap T.root := by
  have hmap : ∀ {B : Type} {o : Option B} {g : B → Treap K V × Out K V} {w : Treap K V × Out K V}, o.map g = some w → ∃ b, o = some b ∧ g b = w := fun h => Option.map_eq_some_iff.1 h
  cases a with
  | create =>
    cases h
    intro X hX
    rcases List.mem_append.1 hX with hX | hX
    · exact hT X hX
    · rw [List.mem_singleton.1 hX]; trivial
  | insert i p k v => exact heap_on1 hT (fun T w hT h => by cases h; exact heap_insert T p k v hT) h
  | insertHint i hh p k v => exact heap_on1 hT (fun T w hT h => by obtain ⟨b, hb, rfl⟩ := hmap h; exact heap_hint T hh p k v b hT hb) h
  | eraseKey i k => exact heap_on1 hT (fun T w hT h => by obtain ⟨b, hb, rfl⟩ := hmap h; exact heap_eraseKey T k b hT hb) h
  | eraseIt i it => exact heap_on1 hT (fun T w hT h => by obtain ⟨b, hb, rfl⟩ := hmap h; exact heap_eraseIt T it b hT hb) h
  | eraseRange i b e => exact heap_on1 hT (fun T w hT h => by obtain ⟨c, hb, rfl⟩ := hmap h; exact heap_eraseRange T b e c hT hb) h
  | eraseRangeIt i b e => exact heap_on1 hT (fun T w hT h => by obtain ⟨c, hb, rfl⟩ := hmap h; exact heap_eraseRange T b e c hT hb) h
  | find i k => exact heap_on1 hT (fun T w hT h => by cases h; exact hT) h
  | lower i k => exact heap_on1 hT (fun T w hT h => by cases h; exact hT) h
  | upper i k => exact heap_on1 hT (fun T w hT h => by cases h; exact hT) h
  | pred i k => exact heap_on1 hT (fun T w hT h => by cases h; exact hT) h
  | begin_ i => exact heap_on1 hT (fun T w hT h => by cases h; exact hT) h
  | next i it => exact heap_on1 hT (fun T w hT h => by obtain ⟨b, hb, rfl⟩ := hmap h; exact hT) h
  | prev i it => exact heap_on1 hT (fun T w hT h => by obtain ⟨b, hb, rfl⟩ := hmap h; exact hT) h
  | deref i it => exact heap_on1 hT (fun T w hT h => by obtain ⟨b, hb, rfl⟩ := hmap h; exact hT) h
  | assign i it v =>
    refine heap_on1 hT (fun T w hT h => ?_) h
    obtain ⟨b, hb, rfl⟩ := hmap h
    unfold assign at hb
    obtain ⟨x, -, hb⟩ := Option.bind_eq_some_iff.1 hb
    obtain ⟨u, hu, rfl⟩ := Option.map_eq_some_iff.1 hb
    obtain ⟨a1, a2, a3, a4, a5, a6⟩ := heap_locate hT hu
    exact (heap_zip _ _).2 ⟨⟨a1, a2, a3, a4⟩, a5, a6⟩
  | split i it =>
    unfold step at h
    obtain ⟨T, h1, h⟩ := Option.bind_eq_some_iff.1 h
    obtain ⟨w, hw, rfl⟩ := Option.map_eq_some_iff.1 h
    obtain ⟨w1, w2⟩ := heap_split T it w (hT T (List.mem_of_getElem? h1)) hw
    intro X hX
    rcases List.mem_append.1 hX with hX | hX
    · rcases List.mem_or_eq_of_mem_set hX with hX | rfl
      · exact hT X hX
      · exact w1
    · rw [List.mem_singleton.1 hX]; exact w2
  | absorb i j =>
    unfold step at h
    dsimp only at h
    split_ifs at h
    obtain ⟨T, h1, h⟩ := Option.bind_eq_some_iff.1 h
    obtain ⟨S, h2, h⟩ := Option.bind_eq_some_iff.1 h
    obtain ⟨w, hw, rfl⟩ := Option.map_eq_some_iff.1 h
    obtain ⟨w1, w2⟩ := heap_absorb T S w (hT T (List.mem_of_getElem? h1)) (hT S (List.mem_of_getElem? h2)) hw
    intro X hX
    rcases List.mem_or_eq_of_mem_set hX with hX | rfl
    · rcases List.mem_or_eq_of_mem_set hX with hX | rfl
      · exact hT X hX
      · exact w1
    · exact w2
  | clear i => exact heap_on1 hT (fun T w hT h => by cases h; exact trivial) h
  | copy i =>
    unfold step at h
    obtain ⟨T, h1, rfl⟩ := Option.map_eq_some_iff.1 h
    intro X hX
    rcases List.mem_append.1 hX with hX | hX
    · exact hT X hX
    · rw [List.mem_singleton.1 hX, clone_eq]; exact hT T (List.mem_of_getElem? h1)
  | isEmpty i => exact heap_on1 hT (fun T w hT h => by cases h; exact hT) h

theorem heap_run : ∀ (ops : List (Op K V)) (Ts : List (Treap K V)) (q : List (Treap K V) × List (Out K V)), (∀ T ∈ Ts, Heap T.root) → run Ts ops = some q → ∀ T ∈ q.1, Heap T.root := by
  intro ops
  induction ops with
  | nil => intro Ts q hT h; cases h; exact hT
  | cons a ops ih =>
    intro Ts q hT h
    unfold run at h
    rw [runWith] at h
    obtain ⟨w, h1, h⟩ := Option.bind_eq_some_iff.1 h
    obtain ⟨w', h2, rfl⟩ := Option.map_eq_some_iff.1 h
    exact ih w.1 w' (heap_step Ts a w hT h1) h2

end Verif.TreapShape
