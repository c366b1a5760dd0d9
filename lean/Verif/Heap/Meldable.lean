/-!
# C37: MeldableHeap is a priority queue for every random outcome

Model of `/repo/include/mtl/meldable_heap.hpp`.  Nodes are uniquely owned, so the pointer structure is a binary tree (`parent` is written but never
read and is left out).  `rand()` is an arbitrary sequence of coins `c`; the position in it is part of the state.  `none` is undefined behaviour.
A heap whose nodes were melded into another one still shares them in the C++ program; here it is consumed (`none` in the pool) and must not be used again.
-/
namespace Verif.Heap

variable {T : Type}

/-- meldable_heap.hpp:10-13. -/
inductive Tree (T : Type)
  | nil
  | node (x : T) (l r : Tree T)

namespace Tree
def elems : Tree T → List T
  | nil => []
  | node x l r => x :: (l.elems ++ r.elems)
end Tree

open Tree

/-- meldable_heap.hpp:19-32 (`_meld`): the melded tree and the next position in the coin sequence; `lt` is `Cond`. -/
def meldF (lt : T → T → Bool) (c : Nat → Bool) : Nat → Nat → Tree T → Tree T → Option (Tree T × Nat)
  | 0, _, _, _ => none
  | f+1, p, l, r =>
    match l with
    | nil => some (r, p)
    | node x a b =>
      match r with
      | nil => some (node x a b, p)
      | node y d e =>
        if lt x y then meldF lt c f p (node y d e) (node x a b)
        else if c p then (meldF lt c f (p+1) a (node y d e)).map (fun q => (node x q.1 b, q.2))
        else (meldF lt c f (p+1) b (node y d e)).map (fun q => (node x a q.1, q.2))

/-- A call of `_meld`, with a recursion bound that is shown to suffice. -/
def meldT (lt : T → T → Bool) (c : Nat → Bool) (p : Nat) (l r : Tree T) : Option (Tree T × Nat) :=
  meldF lt c (2 * (l.elems.length + r.elems.length) + 2) p l r

/-- meldable_heap.hpp:16-17. -/
structure MH (T : Type) where
  r : Tree T
  sz : Nat

/-- The calls; a heap is named by the number of its creation. -/
inductive Op (T : Type)
  | new
  | push (h : Nat) (x : T)
  | top (h : Nat)
  | pop (h : Nat)
  | meld (h g : Nat)
  | size (h : Nat)
  | empty (h : Nat)
  | clear (h : Nat)

inductive Out (T : Type)
  | unit
  | val (x : T)
  | num (n : Nat)
  | bool (b : Bool)

/-- meldable_heap.hpp:54-60 (`push`). -/
def MH.push (lt : T → T → Bool) (c : Nat → Bool) (p : Nat) (h : MH T) (x : T) : Option (MH T × Nat) :=
  (meldT lt c p h.r (node x nil nil)).map (fun q => (⟨q.1, h.sz + 1⟩, q.2))

/-- meldable_heap.hpp:62 (`top`). -/
def MH.top (h : MH T) : Option T :=
  match h.r with
  | nil => none
  | node x _ _ => some x

/-- meldable_heap.hpp:63-70 (`pop`). -/
def MH.pop (lt : T → T → Bool) (c : Nat → Bool) (p : Nat) (h : MH T) : Option (T × MH T × Nat) :=
  match h.r with
  | nil => none
  | node x a b => (meldT lt c p a b).map (fun q => (x, ⟨q.1, h.sz - 1⟩, q.2))

/-- meldable_heap.hpp:43-47 (`meld`), for two different heaps. -/
def MH.meld (lt : T → T → Bool) (c : Nat → Bool) (p : Nat) (h g : MH T) : Option (MH T × Nat) :=
  (meldT lt c p h.r g.r).map (fun q => (⟨q.1, h.sz + g.sz⟩, q.2))

/-- All heaps of the program (`none`: melded into another one) and the position in the coin sequence. -/
structure St (T : Type) where
  hs : List (Option (MH T))
  p : Nat

def getH (s : St T) (h : Nat) : Option (MH T) := (s.hs[h]?).bind id

def step (lt : T → T → Bool) (c : Nat → Bool) (s : St T) : Op T → Option (St T × Out T)
  | .new => some (⟨s.hs ++ [some ⟨nil, 0⟩], s.p⟩, .unit)
  | .push h x => (getH s h).bind (fun m => (m.push lt c s.p x).map (fun q => (⟨s.hs.set h (some q.1), q.2⟩, .unit)))
  | .top h => (getH s h).bind (fun m => m.top.map (fun x => (s, .val x)))
  | .pop h => (getH s h).bind (fun m => (m.pop lt c s.p).map (fun q => (⟨s.hs.set h (some q.2.1), q.2.2⟩, .val q.1)))
  | .meld h g => if h = g then none else
      (getH s h).bind (fun m => (getH s g).bind (fun k => (m.meld lt c s.p k).map (fun q => (⟨(s.hs.set h (some q.1)).set g none, q.2⟩, .unit))))
  | .size h => (getH s h).map (fun m => (s, .num m.sz))
  | .empty h => (getH s h).map (fun m => (s, .bool (m.sz == 0)))
  | .clear h => (getH s h).map (fun _ => (⟨s.hs.set h (some ⟨nil, 0⟩), s.p⟩, .unit))

def run (lt : T → T → Bool) (c : Nat → Bool) : St T → List (Op T) → Option (St T × List (Out T))
  | s, [] => some (s, [])
  | s, op :: ops => (step lt c s op).bind (fun q => (run lt c q.1 ops).map (fun r => (r.1, q.2 :: r.2)))

/-! ### Specification -/

/-- `Cond` is a strict weak order. -/
structure StrictWeak (lt : T → T → Bool) : Prop where
  asymm : ∀ x y, lt x y = true → lt y x = false
  negtrans : ∀ x y z, lt x y = false → lt y z = false → lt x z = false

/-- `x` is extremal in `l`. -/
def Extremal (lt : T → T → Bool) (x : T) (l : List T) : Prop := x ∈ l ∧ ∀ y ∈ l, lt x y = false

/-- The pool as multisets (lists up to permutation); `none` for a consumed heap. -/
abbrev Pool (T : Type) := List (Option (List T))

/-- The precondition of a call: the heaps are live, `top`/`pop` need a nonempty one, `meld` two different ones. -/
def Enabled (P : Pool T) : Op T → Prop
  | .new => True
  | .push h _ => ∃ l, P[h]? = some (some l)
  | .top h => ∃ l, P[h]? = some (some l) ∧ l ≠ []
  | .pop h => ∃ l, P[h]? = some (some l) ∧ l ≠ []
  | .meld h g => h ≠ g ∧ (∃ l, P[h]? = some (some l)) ∧ ∃ l, P[g]? = some (some l)
  | .size h => ∃ l, P[h]? = some (some l)
  | .empty h => ∃ l, P[h]? = some (some l)
  | .clear h => ∃ l, P[h]? = some (some l)

/-- What a call may answer and how it changes the multisets. -/
def Spec (lt : T → T → Bool) (P : Pool T) : Op T → Out T → Pool T → Prop
  | .new, o, P' => o = .unit ∧ P' = P ++ [some []]
  | .push h x, o, P' => ∃ l, P[h]? = some (some l) ∧ o = .unit ∧ P' = P.set h (some (x :: l))
  | .top h, o, P' => ∃ l x, P[h]? = some (some l) ∧ Extremal lt x l ∧ o = .val x ∧ P' = P
  | .pop h, o, P' => ∃ l x l', P[h]? = some (some l) ∧ Extremal lt x l ∧ l.Perm (x :: l') ∧ o = .val x ∧ P' = P.set h (some l')
  | .meld h g, o, P' => ∃ l k, P[h]? = some (some l) ∧ P[g]? = some (some k) ∧ o = .unit ∧ P' = (P.set h (some (l ++ k))).set g none
  | .size h, o, P' => ∃ l, P[h]? = some (some l) ∧ o = .num l.length ∧ P' = P
  | .empty h, o, P' => ∃ l, P[h]? = some (some l) ∧ o = .bool l.isEmpty ∧ P' = P
  | .clear h, o, P' => ∃ l, P[h]? = some (some l) ∧ o = .unit ∧ P' = P.set h (some [])

/-- A sequence of calls with its answers, according to the specification. -/
def Exec (lt : T → T → Bool) : Pool T → List (Op T) → List (Out T) → Pool T → Prop
  | P, [], os, Q => os = [] ∧ Q = P
  | P, op :: ops, os, Q => ∃ o os' P', os = o :: os' ∧ Spec lt P op o P' ∧ Exec lt P' ops os' Q

/-! ### Melding -/

def HeapOk (lt : T → T → Bool) : Tree T → Prop
  | nil => True
  | node x l r => (∀ y ∈ l.elems ++ r.elems, lt x y = false) ∧ HeapOk lt l ∧ HeapOk lt r

theorem root_extremal {lt : T → T → Bool} (hlt : StrictWeak lt) {x : T} {a b : Tree T} (h : HeapOk lt (node x a b)) :
    Extremal lt x (node x a b).elems := by
  refine ⟨List.mem_cons_self, fun y hy => ?_⟩
  rw [Tree.elems, List.mem_cons] at hy
  rcases hy with rfl | hy
  · cases e : lt y y with
    | false => rfl
    | true => rw [hlt.asymm y y e] at e; exact absurd e (by decide)
  · exact h.1 y hy

theorem meldF_ok {lt : T → T → Bool} (hlt : StrictWeak lt) (c : Nat → Bool) : ∀ (f p : Nat) (l r : Tree T),
    HeapOk lt l → HeapOk lt r →
    (2 * (l.elems.length + r.elems.length) + 2 ≤ f ∨ (2 * (l.elems.length + r.elems.length) + 1 ≤ f ∧ ∀ x a b y d e, l = node x a b → r = node y d e → lt x y = false)) →
    ∃ t q, meldF lt c f p l r = some (t, q) ∧ HeapOk lt t ∧ t.elems.Perm (l.elems ++ r.elems) := by
  intro f
  induction f with
  | zero => intro p l r _ _ h; omega
  | succ f ih =>
    intro p l r hl hr hf
    cases l with
    | nil => exact ⟨r, p, rfl, hr, List.Perm.refl _⟩
    | node x a b =>
      cases r with
      | nil => exact ⟨node x a b, p, rfl, hl, by simp [Tree.elems]⟩
      | node y d e =>
        rw [meldF]
        cases hxy : lt x y with
        | true =>
          rw [if_pos rfl]
          obtain ⟨t, q, h1, h2, h3⟩ := ih p (node y d e) (node x a b) hr hl (by
            rcases hf with hf | ⟨hf, hn⟩
            · refine Or.inr ⟨by omega, ?_⟩
              intro x' a' b' y' d' e' e1 e2
              cases e1; cases e2
              exact hlt.asymm _ _ hxy
            · rw [hn _ _ _ _ _ _ rfl rfl] at hxy
              exact absurd hxy (by decide))
          exact ⟨t, q, h1, h2, h3.trans List.perm_append_comm⟩
        | false =>
          rw [if_neg (by decide)]
          have hroot : ∀ z ∈ (node y d e).elems, lt x z = false := fun z hz =>
            hlt.negtrans x y z hxy ((root_extremal hlt hr).2 z hz)
          have hlen : (node x a b).elems.length = a.elems.length + b.elems.length + 1 := by simp [Tree.elems]
          rw [hlen] at hf
          cases c p with
          | true =>
            rw [if_pos rfl]
            obtain ⟨t, q, h1, h2, h3⟩ := ih (p+1) a (node y d e) hl.2.1 hr (Or.inl (by omega))
            refine ⟨node x t b, q, by rw [h1]; rfl, ⟨?_, h2, hl.2.2⟩, ?_⟩
            · intro z hz
              rw [List.mem_append] at hz
              rcases hz with hz | hz
              · rw [h3.mem_iff, List.mem_append] at hz
                rcases hz with hz | hz
                · exact hl.1 z (List.mem_append_left _ hz)
                · exact hroot z hz
              · exact hl.1 z (List.mem_append_right _ hz)
            · rw [Tree.elems, Tree.elems, List.cons_append]
              refine List.Perm.cons _ ?_
              refine (List.Perm.append_right _ h3).trans ?_
              rw [List.append_assoc, List.append_assoc]
              exact List.Perm.append_left _ List.perm_append_comm
          | false =>
            rw [if_neg (by decide)]
            obtain ⟨t, q, h1, h2, h3⟩ := ih (p+1) b (node y d e) hl.2.2 hr (Or.inl (by omega))
            refine ⟨node x a t, q, by rw [h1]; rfl, ⟨?_, hl.2.1, h2⟩, ?_⟩
            · intro z hz
              rw [List.mem_append] at hz
              rcases hz with hz | hz
              · exact hl.1 z (List.mem_append_left _ hz)
              · rw [h3.mem_iff, List.mem_append] at hz
                rcases hz with hz | hz
                · exact hl.1 z (List.mem_append_right _ hz)
                · exact hroot z hz
            · rw [Tree.elems, Tree.elems, List.cons_append, List.append_assoc]
              exact List.Perm.cons _ (List.Perm.append_left _ h3)

theorem meldT_ok {lt : T → T → Bool} (hlt : StrictWeak lt) (c : Nat → Bool) (p : Nat) {l r : Tree T} (hl : HeapOk lt l) (hr : HeapOk lt r) :
    ∃ t q, meldT lt c p l r = some (t, q) ∧ HeapOk lt t ∧ t.elems.Perm (l.elems ++ r.elems) :=
  meldF_ok hlt c _ p l r hl hr (Or.inl (Nat.le_refl _))

/-! ### Simulation -/

def RelH (lt : T → T → Bool) (m : MH T) (l : List T) : Prop := HeapOk lt m.r ∧ m.r.elems.Perm l ∧ m.sz = l.length

def RelO (lt : T → T → Bool) : Option (MH T) → Option (List T) → Prop
  | none, none => True
  | some m, some l => RelH lt m l
  | _, _ => False

def Rel (lt : T → T → Bool) (s : St T) (P : Pool T) : Prop := s.hs.length = P.length ∧ ∀ (h : Nat) (a : Option (MH T)) (b : Option (List T)),
  s.hs[h]? = some a → P[h]? = some b → RelO lt a b

theorem Rel.get {lt : T → T → Bool} {s : St T} {P : Pool T} (hR : Rel lt s P) {h : Nat} {l : List T} (hl : P[h]? = some (some l)) :
    ∃ m, getH s h = some m ∧ RelH lt m l := by
  have hlt : h < s.hs.length := by
    rw [hR.1]
    exact (List.getElem?_eq_some_iff.mp hl).1
  have h1 : s.hs[h]? = some s.hs[h] := List.getElem?_eq_getElem hlt
  have h2 := hR.2 h _ _ h1 hl
  cases e : s.hs[h] with
  | none => rw [e] at h2; exact h2.elim
  | some m =>
    rw [e] at h1 h2
    exact ⟨m, by rw [getH, h1]; rfl, h2⟩

theorem Rel.set {lt : T → T → Bool} {s : St T} {P : Pool T} (hR : Rel lt s P) (h : Nat) {a : Option (MH T)} {b : Option (List T)} (hab : RelO lt a b) (p : Nat) :
    Rel lt ⟨s.hs.set h a, p⟩ (P.set h b) := by
  refine ⟨by simp [hR.1], fun k x y hx hy => ?_⟩
  dsimp only at hx
  rw [List.getElem?_set] at hx hy
  by_cases e : h = k
  · rw [if_pos e] at hx hy
    split at hx
    · split at hy
      · cases hx; cases hy; exact hab
      · exact absurd hy (by simp)
    · exact absurd hx (by simp)
  · rw [if_neg e] at hx hy
    exact hR.2 k x y hx hy

theorem step_ok {lt : T → T → Bool} (hlt : StrictWeak lt) (c : Nat → Bool) {s : St T} {P : Pool T} (hR : Rel lt s P) (op : Op T) (hE : Enabled P op) :
    ∃ s' o P', step lt c s op = some (s', o) ∧ Spec lt P op o P' ∧ Rel lt s' P' := by
  cases op with
  | new =>
    refine ⟨_, _, _, rfl, ⟨rfl, rfl⟩, by simp [hR.1], fun h a b ha hb => ?_⟩
    dsimp only at ha
    by_cases hlt' : h < P.length
    · rw [List.getElem?_append_left (by rw [hR.1]; exact hlt')] at ha
      rw [List.getElem?_append_left hlt'] at hb
      exact hR.2 h a b ha hb
    · rw [List.getElem?_append_right (by rw [hR.1]; omega), hR.1] at ha
      rw [List.getElem?_append_right (by omega)] at hb
      cases hk : h - P.length with
      | zero =>
        rw [hk] at ha hb
        cases ha; cases hb
        exact ⟨trivial, List.Perm.refl _, rfl⟩
      | succ k => rw [hk] at ha; simp at ha
  | push h x =>
    obtain ⟨l, hl⟩ := hE
    obtain ⟨m, hm, h1, h2, h3⟩ := hR.get hl
    obtain ⟨t, q, e1, e2, e3⟩ := meldT_ok hlt c s.p h1 (r := node x nil nil) ⟨by simp [Tree.elems], trivial, trivial⟩
    refine ⟨_, _, _, by rw [step, hm, Option.bind_some, MH.push, e1]; rfl, ⟨l, hl, rfl, rfl⟩, hR.set h (a := some ⟨t, m.sz + 1⟩) (b := some (x :: l)) ⟨e2, ?_, ?_⟩ q⟩
    · refine e3.trans ?_
      refine List.perm_append_comm.trans ?_
      exact List.Perm.cons x h2
    · show m.sz + 1 = (x :: l).length
      rw [h3, List.length_cons]
  | top h =>
    obtain ⟨l, hl, hne⟩ := hE
    obtain ⟨m, hm, h1, h2, h3⟩ := hR.get hl
    cases hr : m.r with
    | nil => rw [hr] at h2; exact absurd (List.Perm.eq_nil h2.symm) hne
    | node x a b =>
      refine ⟨s, .val x, P, by rw [step, hm, Option.bind_some, MH.top, hr]; rfl, ⟨l, x, hl, ?_, rfl, rfl⟩, hR⟩
      rw [hr] at h1 h2
      have := root_extremal hlt h1
      exact ⟨h2.mem_iff.mp this.1, fun y hy => this.2 y (h2.mem_iff.mpr hy)⟩
  | pop h =>
    obtain ⟨l, hl, hne⟩ := hE
    obtain ⟨m, hm, h1, h2, h3⟩ := hR.get hl
    cases hr : m.r with
    | nil => rw [hr] at h2; exact absurd (List.Perm.eq_nil h2.symm) hne
    | node x a b =>
      rw [hr] at h1 h2
      obtain ⟨t, q, e1, e2, e3⟩ := meldT_ok hlt c s.p h1.2.1 h1.2.2
      have hext := root_extremal hlt h1
      refine ⟨_, _, _, by rw [step, hm, Option.bind_some, MH.pop, hr]; dsimp only; rw [e1]; rfl,
        ⟨l, x, a.elems ++ b.elems, hl, ⟨h2.mem_iff.mp hext.1, fun y hy => hext.2 y (h2.mem_iff.mpr hy)⟩, h2.symm, rfl, rfl⟩, hR.set h (a := some ⟨t, m.sz - 1⟩) (b := some (a.elems ++ b.elems)) ⟨e2, e3, ?_⟩ q⟩
      have := h2.length_eq
      rw [Tree.elems, List.length_cons] at this
      show m.sz - 1 = _
      omega
  | meld h g =>
    obtain ⟨hne, ⟨l, hl⟩, ⟨k, hk⟩⟩ := hE
    obtain ⟨m, hm, h1, h2, h3⟩ := hR.get hl
    obtain ⟨m', hm', h1', h2', h3'⟩ := hR.get hk
    obtain ⟨t, q, e1, e2, e3⟩ := meldT_ok hlt c s.p h1 h1'
    refine ⟨_, _, _, by rw [step, if_neg hne, hm, Option.bind_some, hm', Option.bind_some, MH.meld, e1]; rfl, ⟨l, k, hl, hk, rfl, rfl⟩,
      (hR.set h (a := some ⟨t, m.sz + m'.sz⟩) (b := some (l ++ k)) ⟨e2, e3.trans (h2.append h2'), by simp [h3, h3']⟩ q).set g (a := none) (b := none) trivial q⟩
  | size h =>
    obtain ⟨l, hl⟩ := hE
    obtain ⟨m, hm, h1, h2, h3⟩ := hR.get hl
    exact ⟨s, _, P, by rw [step, hm]; rfl, ⟨l, hl, by rw [h3], rfl⟩, hR⟩
  | empty h =>
    obtain ⟨l, hl⟩ := hE
    obtain ⟨m, hm, h1, h2, h3⟩ := hR.get hl
    refine ⟨s, _, P, by rw [step, hm]; rfl, ⟨l, hl, ?_, rfl⟩, hR⟩
    rw [h3]
    cases l <;> rfl
  | clear h =>
    obtain ⟨l, hl⟩ := hE
    obtain ⟨m, hm, h1, h2, h3⟩ := hR.get hl
    exact ⟨_, _, _, by rw [step, hm]; rfl, ⟨l, hl, rfl, rfl⟩, hR.set h (a := some ⟨nil, 0⟩) (b := some []) ⟨trivial, List.Perm.refl _, rfl⟩ s.p⟩

theorem run_ok {lt : T → T → Bool} (hlt : StrictWeak lt) (c : Nat → Bool) : ∀ (ops : List (Op T)) (s : St T) (P : Pool T), Rel lt s P →
    ∃ (k : Nat) (s' : St T) (os : List (Out T)) (Q : Pool T), run lt c s (ops.take k) = some (s', os) ∧ Exec lt P (ops.take k) os Q ∧
      (ops.length ≤ k ∨ ∃ op, ops[k]? = some op ∧ ¬ Enabled Q op) := by
  intro ops
  induction ops with
  | nil => intro s P _; exact ⟨0, s, [], P, rfl, ⟨rfl, rfl⟩, Or.inl (Nat.le_refl _)⟩
  | cons op ops ih =>
    intro s P hR
    by_cases hE : Enabled P op
    · obtain ⟨s1, o, P1, e1, e2, e3⟩ := step_ok hlt c hR op hE
      obtain ⟨k, s', os, Q, h1, h2, h3⟩ := ih s1 P1 e3
      refine ⟨k+1, s', o :: os, Q, ?_, ⟨o, os, P1, rfl, e2, h2⟩, ?_⟩
      · rw [List.take_succ_cons, run, e1, Option.bind_some, h1]; rfl
      · rcases h3 with h3 | ⟨op', h3, h4⟩
        · exact Or.inl (by rw [List.length_cons]; omega)
        · exact Or.inr ⟨op', by rw [List.getElem?_cons_succ]; exact h3, h4⟩
    · exact ⟨0, s, [], P, rfl, ⟨rfl, rfl⟩, Or.inr ⟨op, rfl, hE⟩⟩

/-- C37: every program on meldable heaps, for every coin sequence, runs as the specification on multisets says up to the first call (if any) whose
precondition does not hold: the answers of `top` and `pop` are extremal elements, `pop` removes what it returns, `meld` unites, `size`/`empty` count. -/
theorem C37_history {lt : T → T → Bool} (hlt : StrictWeak lt) (c : Nat → Bool) (ops : List (Op T)) :
    ∃ (k : Nat) (s : St T) (os : List (Out T)) (Q : Pool T), run lt c ⟨[], 0⟩ (ops.take k) = some (s, os) ∧ Exec lt [] (ops.take k) os Q ∧
      (ops.length ≤ k ∨ ∃ op, ops[k]? = some op ∧ ¬ Enabled Q op) :=
  run_ok hlt c ops ⟨[], 0⟩ [] ⟨rfl, fun h a b ha _ => by simp at ha⟩

theorem lt_weak : StrictWeak (fun x y : Nat => decide (x < y)) :=
  ⟨fun x y h => by simp at h ⊢; omega, fun x y z h1 h2 => by simp at h1 h2 ⊢; omega⟩

example : (run (fun x y : Nat => decide (x < y)) (fun n => n % 2 == 0) ⟨[], 0⟩
    [.new, .new, .push 0 3, .push 1 5, .push 0 4, .meld 0 1, .pop 0, .pop 0, .size 0, .top 0]).map (fun q => q.2.map (fun o => match o with
      | .val x => x
      | .num n => n
      | _ => 0)) = some [0,0,0,0,0,0,5,4,1,3] := by decide +kernel

example : ∃ (k : Nat) (s : St Nat) (os : List (Out Nat)) (Q : Pool Nat), run (fun x y : Nat => decide (x < y)) (fun n => n % 3 == 0) ⟨[], 0⟩
      (([.new, .push 0 3, .push 0 4, .pop 0] : List (Op Nat)).take k) = some (s, os) ∧ Exec (fun x y : Nat => decide (x < y)) [] (([.new, .push 0 3, .push 0 4, .pop 0] : List (Op Nat)).take k) os Q ∧
      (4 ≤ k ∨ ∃ op, ([.new, .push 0 3, .push 0 4, .pop 0] : List (Op Nat))[k]? = some op ∧ ¬ Enabled Q op) := C37_history lt_weak _ _

end Verif.Heap
