import Verif.TreapShape.Heap
/-!
The ledger of priorities: the same history on treaps that store the priority in place of the value does the same to keys and priorities.
-/
namespace Verif.TreapShape

open Verif.Treap

variable {K V : Type} [LinearOrder K]

/-- Keys, priorities and shape of a tree: the values are replaced by the priorities. -/
def skel : Tree K V → Tree K Nat
  | .nil => .nil
  | .node l p k _ r => .node (skel l) p k p (skel r)

/-- The call with the drawn priority as value; writes through iterators and the result of a range erase are forgotten. -/
def ledger : Op K V → Op K Nat
  | .create => .create
  | .insert i p k _ => .insert i p k p
  | .insertHint i h p k _ => .insertHint i h p k p
  | .eraseKey i k => .eraseKey i k
  | .eraseIt i it => .eraseIt i it
  | .eraseRange i b e => .eraseRange i b e
  | .eraseRangeIt i b e => .eraseRange i b e
  | .find i k => .find i k
  | .lower i k => .lower i k
  | .upper i k => .upper i k
  | .pred i k => .pred i k
  | .begin_ i => .begin_ i
  | .next i it => .next i it
  | .prev i it => .prev i it
  | .deref i it => .deref i it
  | .assign i _ _ => .isEmpty i
  | .split i it => .split i it
  | .absorb i j => .absorb i j
  | .clear i => .clear i
  | .copy i => .copy i
  | .isEmpty i => .isEmpty i

def skelF : Frame K V → Frame K Nat
  | .fl p k _ r => .fl p k p (skel r)
  | .fr l p k _ => .fr (skel l) p k p

def skelL (u : Loc K V) : Loc K Nat := ⟨skel u.l, u.p, u.k, u.p, skel u.r, u.ctx.map skelF⟩

def skelT (T : Treap K V) : Treap K Nat := ⟨skel T.root, T.size⟩

theorem skel_zip : ∀ (c : Ctx K V) (t : Tree K V), skel (zip t c) = zip (skel t) (c.map skelF) := by
  intro c
  induction c with
  | nil => intro t; rfl
  | cons f c ih => intro t; cases f <;> exact ih _

theorem skel_locate (x : K) : ∀ (t : Tree K V) (c : Ctx K V), locate x (skel t) (c.map skelF) = (locate x t c).map skelL := by
  intro t
  induction t with
  | nil => intro c; rfl
  | node l p k v r ihl ihr =>
    intro c
    unfold skel locate
    split_ifs with h
    · rfl
    · have h1 := ihl (.fl p k v r :: c)
      have h2 := ihr (.fr l p k v :: c)
      simp only [List.map_cons, skelF] at h1 h2
      rw [h1, h2]
      cases locate x l (.fl p k v r :: c) <;> rfl

theorem skel_descend (x : K) : ∀ (t : Tree K V) (c : Ctx K V), descend x (skel t) (c.map skelF) = (descend x t c).map id (List.map skelF) := by
  intro t
  induction t with
  | nil => intro c; rfl
  | node l p k v r ihl ihr =>
    intro c
    unfold skel descend
    split_ifs with h h'
    · rfl
    · exact ihl (.fl p k v r :: c)
    · exact ihr (.fr l p k v :: c)

theorem skel_bubble : ∀ (c : Ctx K V) (l : Tree K V) (p : Nat) (k : K) (v : V) (r : Tree K V), skel (bubble l p k v r c) = bubble (skel l) p k p (skel r) (c.map skelF) := by
  intro c
  induction c with
  | nil => intro l p k v r; rfl
  | cons f c ih =>
    intro l p k v r
    cases f with
    | fl pp pk pv pr =>
      simp only [List.map_cons, skelF]
      unfold bubble
      split_ifs with h
      · exact ih _ _ _ _ _
      · exact skel_zip (.fl pp pk pv pr :: c) _
    | fr pl pp pk pv =>
      simp only [List.map_cons, skelF]
      unfold bubble
      split_ifs with h
      · exact ih _ _ _ _ _
      · exact skel_zip (.fr pl pp pk pv :: c) _

theorem skel_size : ∀ t : Tree K V, size (skel t) = size t := by
  intro t
  induction t with
  | nil => rfl
  | node l p k v r ihl ihr => unfold skel size; rw [ihl, ihr]

theorem skel_trickle : ∀ (n : Nat) (l r : Tree K V) (c : Ctx K V), trickle n (skel l) (skel r) (c.map skelF) = (trickle n l r c).map (List.map skelF) := by
  intro n
  induction n with
  | zero => intro l r c; cases l <;> cases r <;> rfl
  | succ n ih =>
    intro l r c
    cases l with
    | nil =>
      cases r with
      | nil => rfl
      | node rl p k v rr => exact ih .nil rl (.fl p k v rr :: c)
    | node ll p k v lr =>
      cases r with
      | nil => exact ih lr .nil (.fr ll p k v :: c)
      | node rl p' k' v' rr =>
        unfold skel trickle
        split_ifs with h
        · exact ih lr (.node rl p' k' v' rr) (.fr ll p k v :: c)
        · exact ih (.node ll p k v lr) rl (.fl p' k' v' rr :: c)

theorem skel_force : ∀ (c : Ctx K V) (l r : Tree K V), bubbleForce (skel l) (skel r) (c.map skelF) = (skel (bubbleForce l r c).1, skel (bubbleForce l r c).2) := by
  intro c
  induction c with
  | nil => intro l r; rfl
  | cons f c ih =>
    intro l r
    cases f with
    | fl pp pk pv pr => exact ih l (.node r pp pk pv pr)
    | fr pl pp pk pv => exact ih (.node pl pp pk pv l) r

theorem skel_leftmost : ∀ (t : Tree K V) (k : K), leftmost (skel t) k = leftmost t k := by
  intro t
  induction t with
  | nil => intro k; rfl
  | node l p k v r ihl ihr => intro _; exact ihl k

theorem skel_rightmost : ∀ (t : Tree K V) (k : K), rightmost (skel t) k = rightmost t k := by
  intro t
  induction t with
  | nil => intro k; rfl
  | node l p k v r ihl ihr => intro _; exact ihr k

theorem skel_find (x : K) : ∀ t : Tree K V, findT x (skel t) = findT x t := by
  intro t
  induction t with
  | nil => rfl
  | node l p k v r ihl ihr => unfold skel findT; rw [ihl, ihr]

theorem skel_insertAt (T : Treap K V) (t : Tree K V) (c : Ctx K V) (p : Nat) (x : K) (v : V) : (insertAt (skelT T) (skel t) (c.map skelF) p x p).1 = skelT (insertAt T t c p x v).1 := by
  unfold insertAt
  rw [skel_descend]
  cases descend x t c with
  | inl k => rfl
  | inr c' =>
    have := skel_bubble c' .nil p x v .nil
    unfold skelT
    dsimp only [Sum.map]
    rw [this]; rfl

theorem skel_insert (T : Treap K V) (p : Nat) (x : K) (v : V) : (insert (skelT T) p x p).1 = skelT (insert T p x v).1 := skel_insertAt T T.root [] p x v

theorem skel_hintFrame (T : Treap K V) (u : Loc K V) (t : Tree K V) (p : Nat) (x : K) (v : V) (c : Ctx K V) :
    (hintFrame (skelT T) (skelL u) (skel t) p x p (c.map skelF)).1 = skelT (hintFrame T u t p x v c).1 := by
  have h1 := skel_insertAt T t u.ctx p x v
  have h2 := skel_insert T p x v
  cases c with
  | nil => exact h1
  | cons f c =>
    cases f with
    | fl pp pk pv pr =>
      simp only [List.map_cons, skelF]
      unfold hintFrame
      dsimp only
      split_ifs
      · rfl
      · exact h2
      · exact h1
    | fr pl pp pk pv =>
      simp only [List.map_cons, skelF]
      unfold hintFrame
      dsimp only
      split_ifs
      · rfl
      · exact h2
      · exact h1

theorem skel_hint (T : Treap K V) (h : Iter K) (p : Nat) (x : K) (v : V) (q : Treap K V × Iter K) (hq : insertHint T h p x v = some q) : ∃ q', insertHint (skelT T) h p x p = some q' ∧ q'.1 = skelT q.1 := by
  cases h with
  | none => cases hq; exact ⟨_, rfl, skel_insert T p x v⟩
  | some h =>
    unfold insertHint at hq ⊢
    obtain ⟨u, hu, rfl⟩ := Option.map_eq_some_iff.1 hq
    refine ⟨_, ?_, skel_hintFrame T u (.node u.l u.p u.k u.v u.r) p x v u.ctx⟩
    have := skel_locate h T.root []
    rw [hu] at this
    dsimp only [List.map] at this
    dsimp only [skelT]
    rw [this]
    rfl

theorem skel_locate_some {T : Treap K V} {x : K} {u : Loc K V} (h : locate x T.root [] = some u) : locate x (skelT T).root [] = some (skelL u) := by
  have := skel_locate x T.root []
  rw [h] at this
  exact this

theorem skel_eraseIt (T : Treap K V) (it : Iter K) (q : Treap K V × Iter K) (hq : eraseIt T it = some q) : ∃ q', eraseIt (skelT T) it = some q' ∧ q'.1 = skelT q.1 := by
  cases it with
  | none => cases hq; exact ⟨_, rfl, rfl⟩
  | some x =>
    unfold eraseIt at hq ⊢
    obtain ⟨u, hu, hq⟩ := Option.bind_eq_some_iff.1 hq
    obtain ⟨c, hc, rfl⟩ := Option.map_eq_some_iff.1 hq
    dsimp only
    rw [skel_locate_some hu]
    have := skel_trickle (size u.l + size u.r) u.l u.r u.ctx
    rw [hc] at this
    dsimp only [Option.bind_some, skelL]
    rw [skel_size, skel_size, this]
    refine ⟨_, rfl, ?_⟩
    unfold skelT
    dsimp only
    rw [skel_zip]
    rfl

theorem skel_eraseKey (T : Treap K V) (x : K) (q : Treap K V × Bool) (hq : eraseKey T x = some q) : ∃ q', eraseKey (skelT T) x = some q' ∧ q'.1 = skelT q.1 := by
  unfold eraseKey at hq ⊢
  have hf : findT x (skelT T).root = findT x T.root := skel_find x T.root
  rw [hf]
  cases hx : findT x T.root with
  | none => rw [hx] at hq; cases hq; exact ⟨_, rfl, rfl⟩
  | some y =>
    rw [hx] at hq
    obtain ⟨w, hw, rfl⟩ := Option.map_eq_some_iff.1 hq
    obtain ⟨w', h1, h2⟩ := skel_eraseIt T _ w hw
    exact ⟨_, by dsimp only; rw [h1]; rfl, h2⟩

theorem skel_split (T : Treap K V) (it : Iter K) (q : Treap K V × Treap K V) (hq : split T it = some q) : split (skelT T) it = some (skelT q.1, skelT q.2) := by
  cases it with
  | none => cases hq; rfl
  | some x =>
    unfold split at hq ⊢
    obtain ⟨u, hu, rfl⟩ := Option.map_eq_some_iff.1 hq
    dsimp only
    rw [skel_locate_some hu]
    have := skel_force (.fl u.p u.k u.v u.r :: u.ctx) u.l .nil
    simp only [List.map_cons, skelF, skel] at this
    simp only [Option.map_some, skelL, skelT, this]

theorem skel_absorbOk (T S : Treap K V) : absorbOk (skelT T) (skelT S) = absorbOk T S := by
  obtain ⟨t, tz⟩ := T
  obtain ⟨s, sz⟩ := S
  cases s with
  | nil => rfl
  | node sl sp sk sv sr =>
    cases t with
    | nil => rfl
    | node tl tp tk tv tr =>
      simp only [absorbOk, skelT, skel, skel_leftmost, skel_rightmost]

theorem skel_absorb (T S : Treap K V) (q : Treap K V × Treap K V × Iter K) (hq : absorb T S = some q) : ∃ q', absorb (skelT T) (skelT S) = some q' ∧ q'.1 = skelT q.1 ∧ q'.2.1 = skelT q.2.1 := by
  unfold absorb at hq ⊢
  rw [skel_absorbOk]
  split_ifs at hq ⊢ with hok
  obtain ⟨t, tz⟩ := T
  obtain ⟨s, sz⟩ := S
  cases s with
  | nil => cases hq; exact ⟨_, rfl, rfl, rfl⟩
  | node sl sp sk sv sr =>
    cases t with
    | nil => cases hq; exact ⟨_, rfl, rfl, rfl⟩
    | node tl tp tk tv tr =>
      obtain ⟨c, hc, rfl⟩ := Option.map_eq_some_iff.1 hq
      have := skel_trickle (size (Tree.node sl sp sk sv sr) + size (Tree.node tl tp tk tv tr)) (.node sl sp sk sv sr) (.node tl tp tk tv tr) []
      rw [← skel_size (.node sl sp sk sv sr), ← skel_size (.node tl tp tk tv tr)] at this hc
      rw [hc] at this
      refine ⟨(⟨zip .nil (c.map skelF), tz + sz⟩, ⟨.nil, 0⟩, begin_ (skel (.node tl tp tk tv tr))), ?_, ?_, rfl⟩
      · exact congrArg (Option.map _) this
      · unfold skelT
        dsimp only
        rw [skel_zip]
        rfl

theorem skel_eraseRange (T : Treap K V) (b e : Iter K) (q : Treap K V × Iter K) (hq : eraseRange T b e = some q) : ∃ q', eraseRange (skelT T) b e = some q' ∧ q'.1 = skelT q.1 := by
  unfold eraseRange at hq ⊢
  obtain ⟨a, ha, hq⟩ := Option.bind_eq_some_iff.1 hq
  obtain ⟨d, hd, hq⟩ := Option.bind_eq_some_iff.1 hq
  obtain ⟨w, hw, rfl⟩ := Option.map_eq_some_iff.1 hq
  obtain ⟨w', h1, h2, -⟩ := skel_absorb d.1 a.2 w hw
  rw [skel_split T b a ha, Option.bind_some, skel_split a.1 e d hd, Option.bind_some, h1]
  exact ⟨_, rfl, h2⟩

theorem skel_on1 {Ts : List (Treap K V)} {i : Nat} {f : Treap K V → Option (Treap K V × Out K V)} {g : Treap K Nat → Option (Treap K Nat × Out K Nat)} {q : List (Treap K V) × Out K V}
    (hf : ∀ T w, f T = some w → ∃ w', g (skelT T) = some w' ∧ w'.1 = skelT w.1) (h : on1 Ts i f = some q) : ∃ o, on1 (Ts.map skelT) i g = some (q.1.map skelT, o) := by
  unfold on1 at *
  obtain ⟨T, h1, h⟩ := Option.bind_eq_some_iff.1 h
  obtain ⟨w, hw, rfl⟩ := Option.map_eq_some_iff.1 h
  obtain ⟨w', h2, h3⟩ := hf T w hw
  refine ⟨w'.2, ?_⟩
  rw [List.getElem?_map, h1, Option.map_some, Option.bind_some, h2, Option.map_some, h3, List.map_set]

theorem skel_step (Ts : List (Treap K V)) (a : Op K V) (q : List (Treap K V) × Out K V) (h : step Ts a = some q) : ∃ o, step (Ts.map skelT) (ledger a) = some (q.1.map skelT, o) := by
  have hmap : ∀ {B C : Type} {o : Option B} {g : B → C} {w : C}, o.map g = some w → ∃ b, o = some b ∧ g b = w := fun h => Option.map_eq_some_iff.1 h
  cases a with
  | create => cases h; exact ⟨_, by unfold ledger step; simp [skelT, empty, skel]; rfl⟩
  | insert i p k v => exact skel_on1 (fun T w h => by cases h; exact ⟨_, rfl, skel_insert T p k v⟩) h
  | insertHint i hh p k v =>
    exact skel_on1 (fun T w h => by obtain ⟨b, hb, rfl⟩ := hmap h; obtain ⟨b', h1, h2⟩ := skel_hint T hh p k v b hb; exact ⟨_, by rw [h1]; rfl, h2⟩) h
  | eraseKey i k => exact skel_on1 (fun T w h => by obtain ⟨b, hb, rfl⟩ := hmap h; obtain ⟨b', h1, h2⟩ := skel_eraseKey T k b hb; exact ⟨_, by rw [h1]; rfl, h2⟩) h
  | eraseIt i it => exact skel_on1 (fun T w h => by obtain ⟨b, hb, rfl⟩ := hmap h; obtain ⟨b', h1, h2⟩ := skel_eraseIt T it b hb; exact ⟨_, by rw [h1]; rfl, h2⟩) h
  | eraseRange i b e => exact skel_on1 (fun T w h => by obtain ⟨c, hb, rfl⟩ := hmap h; obtain ⟨b', h1, h2⟩ := skel_eraseRange T b e c hb; exact ⟨_, by rw [h1]; rfl, h2⟩) h
  | eraseRangeIt i b e => exact skel_on1 (fun T w h => by obtain ⟨c, hb, rfl⟩ := hmap h; obtain ⟨b', h1, h2⟩ := skel_eraseRange T b e c hb; exact ⟨_, by rw [h1]; rfl, h2⟩) h
  | find i k => exact skel_on1 (fun T w h => by cases h; exact ⟨_, rfl, rfl⟩) h
  | lower i k => exact skel_on1 (fun T w h => by cases h; exact ⟨_, rfl, rfl⟩) h
  | upper i k => exact skel_on1 (fun T w h => by cases h; exact ⟨_, rfl, rfl⟩) h
  | pred i k => exact skel_on1 (fun T w h => by cases h; exact ⟨_, rfl, rfl⟩) h
  | begin_ i => exact skel_on1 (fun T w h => by cases h; exact ⟨_, rfl, rfl⟩) h
  | next i it =>
    refine skel_on1 (fun T w h => ?_) h
    obtain ⟨b, hb, rfl⟩ := hmap h
    cases it with
    | none => cases hb
    | some x =>
      obtain ⟨u, hu, -⟩ := hmap hb
      exact ⟨_, by unfold next; dsimp only; rw [skel_locate_some hu]; rfl, rfl⟩
  | prev i it =>
    refine skel_on1 (fun T w h => ?_) h
    obtain ⟨b, hb, rfl⟩ := hmap h
    cases it with
    | none =>
      obtain ⟨t, tz⟩ := T
      cases t with
      | nil => cases hb
      | node l p k v r => exact ⟨_, rfl, rfl⟩
    | some x =>
      obtain ⟨u, hu, hb⟩ := Option.bind_eq_some_iff.1 hb
      unfold prev
      dsimp only
      rw [skel_locate_some hu]
      obtain ⟨ul, up, uk, uv, ur, uc⟩ := u
      cases ul with
      | node l p k v r => exact ⟨_, rfl, rfl⟩
      | nil =>
        have hp : ∀ c : Ctx K V, prevUp (c.map skelF) = prevUp c := by
          intro c
          induction c with
          | nil => rfl
          | cons f c ih => cases f <;> first | exact ih | rfl
        obtain ⟨y, hy, -⟩ := hmap hb
        have hy' := (hp uc).trans hy
        exact ⟨_, by dsimp only [Option.bind_some, skelL, skel]; rw [hy']; rfl, rfl⟩
  | deref i it =>
    refine skel_on1 (fun T w h => ?_) h
    obtain ⟨b, hb, rfl⟩ := hmap h
    cases it with
    | none => cases hb
    | some x =>
      obtain ⟨u, hu, -⟩ := hmap hb
      exact ⟨_, by unfold deref; dsimp only; rw [skel_locate_some hu]; rfl, rfl⟩
  | assign i it v =>
    refine skel_on1 (fun T w h => ?_) h
    obtain ⟨b, hb, rfl⟩ := hmap h
    refine ⟨_, rfl, ?_⟩
    unfold assign at hb
    obtain ⟨x, -, hb⟩ := Option.bind_eq_some_iff.1 hb
    obtain ⟨u, hu, rfl⟩ := hmap hb
    obtain ⟨-, h2, -⟩ := locate_some T.root [] x u hu
    unfold skelT
    dsimp only
    rw [skel_zip, ← show zip _ _ = T.root from h2, skel_zip]
    rfl
  | split i it =>
    unfold step at h
    obtain ⟨T, h1, h⟩ := Option.bind_eq_some_iff.1 h
    obtain ⟨w, hw, rfl⟩ := hmap h
    refine ⟨.unit, ?_⟩
    unfold ledger step
    dsimp only
    rw [List.getElem?_map, h1, Option.map_some, Option.bind_some, skel_split T it w hw, Option.map_some, List.map_append, List.map_set]
    rfl
  | absorb i j =>
    unfold step at h
    dsimp only at h
    split_ifs at h with hij
    obtain ⟨T, h1, h⟩ := Option.bind_eq_some_iff.1 h
    obtain ⟨S, h2, h⟩ := Option.bind_eq_some_iff.1 h
    obtain ⟨w, hw, rfl⟩ := hmap h
    obtain ⟨w', h3, h4, h5⟩ := skel_absorb T S w hw
    refine ⟨.it w'.2.2, ?_⟩
    unfold ledger step
    dsimp only
    rw [if_neg hij, List.getElem?_map, h1, Option.map_some, Option.bind_some, List.getElem?_map, h2, Option.map_some, Option.bind_some, h3, Option.map_some, List.map_set, List.map_set, h4, h5]
  | clear i => exact skel_on1 (fun T w h => by cases h; exact ⟨_, rfl, rfl⟩) h
  | copy i =>
    unfold step at h
    obtain ⟨T, h1, rfl⟩ := hmap h
    refine ⟨.unit, ?_⟩
    unfold ledger step
    dsimp only
    rw [List.getElem?_map, h1, Option.map_some, Option.map_some, clone_eq, clone_eq, List.map_append]
    rfl
  | isEmpty i => exact skel_on1 (fun T w h => by cases h; exact ⟨_, rfl, rfl⟩) h

theorem skel_run : ∀ (ops : List (Op K V)) (Ts : List (Treap K V)) (q : List (Treap K V) × List (Out K V)), run Ts ops = some q → ∃ os, run (Ts.map skelT) (ops.map ledger) = some (q.1.map skelT, os) := by
  intro ops
  induction ops with
  | nil => intro Ts q h; cases h; exact ⟨[], rfl⟩
  | cons a ops ih =>
    intro Ts q h
    unfold run at h
    rw [runWith] at h
    obtain ⟨w, h1, h⟩ := Option.bind_eq_some_iff.1 h
    obtain ⟨w', h2, rfl⟩ := Option.map_eq_some_iff.1 h
    obtain ⟨o, h3⟩ := skel_step Ts a w h1
    obtain ⟨os, h4⟩ := ih w.1 w' h2
    refine ⟨o :: os, ?_⟩
    unfold run at h4 ⊢
    rw [List.map_cons, runWith, h3, Option.bind_some, h4]
    rfl

theorem ledger_ok (a : Op K V) : (ledger a).okIt = true := by cases a <;> rfl

end Verif.TreapShape
