import Verif.IntSetY.Upd
/-!
C125: the Y-fast trie of integer_set.hpp as a sorted set.

The specification is a strictly sorted list with the list functions of `Verif.Treap.Ops` (`sInsert`, `sErase`, `above`, ...), and iterators are keys (`none` is `end()`).  A program is a list of
calls; iterators it got are kept in a list of registers and used by index.  A call that changes the set of keys leaves only the iterator it returns.
With `wanted = true` the specification is the one a user expects.  With `wanted = false` it leaves out the calls in which the code fails; for that it also keeps the list of the keys that were
selected as pivots.
-/
namespace Verif.IntSetY
open Verif
open Verif.Treap (Sorted hasKey below above from_ first last sInsert sErase inorder belowIt)
open Verif.Trie (IsMin IsMax Has pre)
open Verif.Yft (kmax It Buckets ItOk find_mem)

variable {V : Type} {W : Nat}

/-- Calls; `pr` and `coin` are the random draws, `i` is a register. -/
inductive Op (V : Type) where
  | insert (pr : Nat) (coin : Bool) (x : Nat) (v : V)                -- also `emplace`
  | many (l : List (Nat × Bool × Nat × V))                           -- `insert` of a range or an initializer list, and the constructors with them
  | hint (i : Nat) (pr : Nat) (coin : Bool) (x : Nat) (v : V)        -- `emplace_hint`
  | erase (x : Nat)
  | eraseAt (i : Nat)
  | drop (x : Nat)                                                   -- `erase(x);`, the result is not used
  | dropAt (i : Nat)                                                 -- `erase(it);`, the result is not used
  | find (x : Nat)                                                   -- also `count`, `contains`
  | lower (x : Nat)
  | upper (x : Nat)                                                  -- also `successor`
  | pred (x : Nat)                                                   -- `predecessor`
  | begin_
  | end_
  | next (i : Nat)
  | prev (i : Nat)
  | deref (i : Nat)
  | size                                                             -- also `empty`
  | list
  | clear

inductive Out (V : Type) where
  | unit
  | n (n : Nat)
  | kv (k : Nat) (v : V)
  | pos (k : Option Nat)
  | l (l : List (Nat × V))
deriving DecidableEq

/-! ### the run of the model -/

/-- `*it` of any iterator: `sit_` is followed. -/
def derefRet (s : Y V) (r : Ret) : Option (Nat × V) := r.h.bind (fun p => deref s ⟨p, r.t⟩)

/-- What a program can see of an iterator: whether it is `end()` (line 561 compares `sit_`), and otherwise the key it points to. -/
def obs (s : Y V) (r : Ret) : Option (Option Nat) :=
  (end_ s).bind (fun e => if r.h = some e.x ∧ r.t = e.t then some none else (derefRet s r).map (fun h => some h.1))

/-- An iterator whose two parts belong together; other ones are not used for `++`, `--` or as an argument (`none`). -/
def Ret.it (r : Ret) : Option It := if r.x = r.h then r.x.map (fun p => ⟨p, r.t⟩) else none

/-- Keep the iterator `r` in a new register. -/
def keep (s : Y V) (rs : List Ret) (r : Ret) : Option ((Y V × List Ret) × Out V) := (obs s r).map (fun k => ((s, rs ++ [r]), .pos k))

def keepIt (s : Y V) (rs : List Ret) (it : Option It) : Option ((Y V × List Ret) × Out V) := it.bind (fun it => keep s rs (ofIt it))

/-- Lines 503-513, 393-397. -/
def insertAll (W : Nat) : List (Nat × Bool × Nat × V) → Y V → Option (Y V)
  | [], s => some s
  | (pr, coin, x, v) :: l, s => (insert W s pr coin x v).bind (fun r => insertAll W l r.1)

/-- One call. -/
def step (W : Nat) (st : Y V × List Ret) : Op V → Option ((Y V × List Ret) × Out V)
  | .insert pr coin x v => (insert W st.1 pr coin x v).bind (fun r => keepIt r.1 [] (some r.2))
  | .many l => (insertAll W l st.1).map (fun s => ((s, []), .unit))
  | .hint i pr coin x v => (st.2[i]?.bind Ret.it).bind (fun h => (emplaceHint W st.1 h pr coin x v).bind (fun r => keepIt r.1 [] (some r.2)))
  | .erase x => (erase W st.1 x).bind (fun r => keep r.1 [] r.2)
  | .eraseAt i => (st.2[i]?.bind Ret.it).bind (fun it => (eraseIt W st.1 it).bind (fun r => keep r.1 [] r.2))
  | .drop x => (erase W st.1 x).map (fun r => ((r.1, []), .unit))
  | .dropAt i => (st.2[i]?.bind Ret.it).bind (fun it => (eraseIt W st.1 it).map (fun r => ((r.1, []), .unit)))
  | .find x => keepIt st.1 st.2 (find W st.1 x)
  | .lower x => keepIt st.1 st.2 (lowerBound W st.1 x)
  | .upper x => keepIt st.1 st.2 (upperBound W st.1 x)
  | .pred x => keepIt st.1 st.2 (predecessor W st.1 x)
  | .begin_ => keepIt st.1 st.2 (begin_ st.1)
  | .end_ => keepIt st.1 st.2 (end_ st.1)
  | .next i => keepIt st.1 st.2 ((st.2[i]?.bind Ret.it).bind (next st.1))
  | .prev i => keepIt st.1 st.2 ((st.2[i]?.bind Ret.it).bind (prev st.1))
  | .deref i => st.2[i]?.bind (fun r => (derefRet st.1 r).map (fun h => (st, .kv h.1 h.2)))
  | .size => some (st, .n st.1.size)
  | .list => (elements st.1).map (fun l => (st, .l l))
  | .clear => (create W).map (fun s => ((s, []), .unit))

def runFrom (W : Nat) : Y V × List Ret → List (Op V) → Option ((Y V × List Ret) × List (Out V))
  | st, [] => some (st, [])
  | st, o :: ops => (step W st o).bind (fun r => (runFrom W r.1 ops).map (fun q => (q.1, r.2 :: q.2)))

/-- A program: the construction of an empty object, and calls. -/
def run (W : Nat) (ops : List (Op V)) : Option ((Y V × List Ret) × List (Out V)) := (create W).bind (fun s => runFrom W (s, []) ops)

/-! ### the specification -/

/-- The elements, the keys that were selected as pivots, the iterators. -/
structure Spec (V : Type) where
  L : List (Nat × V)
  P : List Nat
  regs : List (Option Nat)

/-- A new pivot `x` is possible: the keys have less than 64 bits, or some pivot (the largest key always is one) has the same top bit. -/
def Fits (W : Nat) (P : List Nat) (x : Nat) : Prop := W < 64 ∨ ∃ z ∈ (2 ^ W - 1) :: P, z / 2 ^ (W - 1) = x / 2 ^ (W - 1)

instance (W : Nat) (P : List Nat) (x : Nat) : Decidable (Fits W P x) := by unfold Fits; infer_instance

/-- Whether the insertion of `x` is allowed. -/
def MayInsert (W : Nat) (wanted : Bool) (L : List (Nat × V)) (P : List Nat) (coin : Bool) (x : Nat) : Prop :=
  x < 2 ^ W ∧ (wanted = true ∨ hasKey L x = true ∨ coin = false ∨ Fits W P x)

instance (W : Nat) (wanted : Bool) (L : List (Nat × V)) (P : List Nat) (coin : Bool) (x : Nat) : Decidable (MayInsert W wanted L P coin x) := by unfold MayInsert; infer_instance

/-- The pivots after an insertion. -/
def addPivot (L : List (Nat × V)) (P : List Nat) (coin : Bool) (x : Nat) : List Nat := if coin && !hasKey L x then x :: P else P

def smany (W : Nat) (wanted : Bool) : List (Nat × Bool × Nat × V) → List (Nat × V) × List Nat → Option (List (Nat × V) × List Nat)
  | [], st => some st
  | (_, coin, x, v) :: l, st => if MayInsert W wanted st.1 st.2 coin x then smany W wanted l (sInsert st.1 x v, addPivot st.1 st.2 coin x) else none

/-- Erasing the present key `x`; `out` is the result if it is used. -/
def serase (st : Spec V) (x : Nat) (regs : List (Option Nat)) : Spec V := ⟨sErase st.L x, st.P.filter (fun z => decide (z ≠ x)), regs⟩

/-- One call; `none` when it is not allowed: a key out of range, an iterator that is gone, `++end()`, `--begin()`, `*end()`.  When not `wanted`: moreover a new pivot that is not possible,
the result of the erasure of a pivot other than the largest key, `erase(x)` of an absent key above all keys. -/
def sstep (W : Nat) (wanted : Bool) (st : Spec V) : Op V → Option (Spec V × Out V)
  | .insert _ coin x v => if MayInsert W wanted st.L st.P coin x then some (⟨sInsert st.L x v, addPivot st.L st.P coin x, [some x]⟩, .pos (some x)) else none
  | .many l => (smany W wanted l (st.L, st.P)).map (fun q => (⟨q.1, q.2, []⟩, .unit))
  | .hint i _ coin x v => st.regs[i]?.bind (fun _ =>
      if MayInsert W wanted st.L st.P coin x then some (⟨sInsert st.L x v, addPivot st.L st.P coin x, [some x]⟩, .pos (some x)) else none)
  | .erase x => if x < 2 ^ W then
      if hasKey st.L x then if wanted = true ∨ x ∉ st.P ∨ x = 2 ^ W - 1 then some (serase st x [first (above st.L x)], .pos (first (above st.L x))) else none
      else if wanted = true ∨ first (above st.L x) ≠ none then some (⟨st.L, st.P, [first (above st.L x)]⟩, .pos (first (above st.L x))) else none
    else none
  | .eraseAt i => st.regs[i]?.bind (fun a => match a with
    | some k => if wanted = true ∨ k ∉ st.P ∨ k = 2 ^ W - 1 then some (serase st k [first (above st.L k)], .pos (first (above st.L k))) else none
    | none => some (⟨st.L, st.P, [none]⟩, .pos none))
  | .drop x => if x < 2 ^ W then
      if hasKey st.L x then some (serase st x [], .unit)
      else if wanted = true ∨ first (above st.L x) ≠ none then some (⟨st.L, st.P, []⟩, .unit) else none
    else none
  | .dropAt i => st.regs[i]?.bind (fun a => match a with
    | some k => some (serase st k [], .unit)
    | none => some (⟨st.L, st.P, []⟩, .unit))
  | .find x => if x < 2 ^ W then some (⟨st.L, st.P, st.regs ++ [if hasKey st.L x then some x else none]⟩, .pos (if hasKey st.L x then some x else none)) else none
  | .lower x => if x < 2 ^ W then some (⟨st.L, st.P, st.regs ++ [first (from_ st.L x)]⟩, .pos (first (from_ st.L x))) else none
  | .upper x => if x < 2 ^ W then some (⟨st.L, st.P, st.regs ++ [first (above st.L x)]⟩, .pos (first (above st.L x))) else none
  | .pred x => if x < 2 ^ W then some (⟨st.L, st.P, st.regs ++ [last (below st.L x)]⟩, .pos (last (below st.L x))) else none
  | .begin_ => some (⟨st.L, st.P, st.regs ++ [first st.L]⟩, .pos (first st.L))
  | .end_ => some (⟨st.L, st.P, st.regs ++ [none]⟩, .pos none)
  | .next i => st.regs[i]?.bind (fun a => a.map (fun k => (⟨st.L, st.P, st.regs ++ [first (above st.L k)]⟩, .pos (first (above st.L k)))))
  | .prev i => st.regs[i]?.bind (fun a => (last (belowIt st.L a)).map (fun k => (⟨st.L, st.P, st.regs ++ [some k]⟩, .pos (some k))))
  | .deref i => st.regs[i]?.bind (fun a => a.bind (fun k => (st.L.find? (fun q => decide (q.1 = k))).map (fun q => (st, .kv q.1 q.2))))
  | .size => some (st, .n st.L.length)
  | .list => some (st, .l st.L)
  | .clear => some (⟨[], [], []⟩, .unit)

def srunFrom (W : Nat) (wanted : Bool) : Spec V → List (Op V) → Option (Spec V × List (Out V))
  | st, [] => some (st, [])
  | st, o :: ops => (sstep W wanted st o).bind (fun r => (srunFrom W wanted r.1 ops).map (fun q => (q.1, r.2 :: q.2)))

def srun (W : Nat) (wanted : Bool) (ops : List (Op V)) : Option (Spec V × List (Out V)) := srunFrom W wanted ⟨[], [], []⟩ ops

/-! ### the part that holds -/

def RetOk (W : Nat) (m : Nat → Option (Treap.Treap Nat V)) (a : Option Nat) (r : Ret) : Prop := ∃ it, r = ofIt it ∧ ItOk W m a it

def Pivots (W : Nat) (K : Finset Nat) (P : List Nat) : Prop := ∀ z, z ∈ K ↔ z = kmax W ∨ z ∈ P

/-- State and specification belong together. -/
def Rel (W : Nat) (st : Y V × List Ret) (sp : Spec V) : Prop := ∃ K m, Inv W st.1 K m sp.L ∧ Pivots W K sp.P ∧ List.Forall₂ (RetOk W m) sp.regs st.2

section
variable {s : Y V} {K : Finset Nat} {m : Nat → Option (Treap.Treap Nat V)} {L : List (Nat × V)} {P : List Nat} {x : Nat}

theorem derefRet_ok (I : Inv W s K m L) {k : Nat} {r : Ret} (h : RetOk W m (some k) r) : ∃ v, (k, v) ∈ L ∧ derefRet s r = some (k, v) := by
  obtain ⟨it, rfl, h⟩ := h
  exact deref_ok I h

theorem obs_ok (I : Inv W s K m L) {a : Option Nat} {r : Ret} (h : RetOk W m a r) : obs s r = some a := by
  unfold obs
  rw [end_eq I, Option.bind_some]
  cases a with
  | none =>
    obtain ⟨it, rfl, h⟩ := h
    rw [show it = ⟨kmax W, none⟩ from h]
    exact if_pos ⟨rfl, rfl⟩
  | some k =>
    obtain ⟨v, _, e⟩ := derefRet_ok I h
    obtain ⟨it, rfl, h⟩ := h
    have : ¬ ((ofIt it).h = some (⟨kmax W, none⟩ : It).x ∧ (ofIt it).t = (⟨kmax W, none⟩ : It).t) := by
      rintro ⟨_, h2⟩
      have h1 := h.1
      rw [show it.t = none from h2] at h1
      cases h1
    rw [if_neg this, e]; rfl

theorem it_ok {a : Option Nat} {r : Ret} (h : RetOk W m a r) : ∃ it, r.it = some it ∧ ItOk W m a it := by
  obtain ⟨it, rfl, h⟩ := h
  exact ⟨it, if_pos rfl, h⟩

theorem keep_ok (I : Inv W s K m L) (hP : Pivots W K P) {rs : List Ret} {sr : List (Option Nat)} (hr : List.Forall₂ (RetOk W m) sr rs) {a : Option Nat} {r : Ret} (h : RetOk W m a r) :
    ∃ st', keep s rs r = some (st', .pos a) ∧ Rel W st' ⟨L, P, sr ++ [a]⟩ :=
  ⟨(s, rs ++ [r]), by unfold keep; rw [obs_ok I h]; rfl, K, m, I, hP, List.rel_append hr (List.Forall₂.cons h List.Forall₂.nil)⟩

theorem keepIt_ok (I : Inv W s K m L) (hP : Pivots W K P) {rs : List Ret} {sr : List (Option Nat)} (hr : List.Forall₂ (RetOk W m) sr rs) {a : Option Nat} {it : Option It}
    (h : ∃ i, it = some i ∧ ItOk W m a i) : ∃ st', keepIt s rs it = some (st', .pos a) ∧ Rel W st' ⟨L, P, sr ++ [a]⟩ := by
  obtain ⟨i, rfl, h⟩ := h
  exact keep_ok I hP hr ⟨i, rfl, h⟩

theorem reg_ok {R : Option Nat → Ret → Prop} : ∀ {sr : List (Option Nat)} {rs : List Ret} {i : Nat} {a : Option Nat}, List.Forall₂ R sr rs → sr[i]? = some a → ∃ it, rs[i]? = some it ∧ R a it
  | _, _, i, a, .nil, h => by simp at h
  | _, _, 0, a, .cons h0 _, h => by simp at h; subst h; exact ⟨_, rfl, h0⟩
  | _, _, i+1, a, .cons _ hs, h => by
    simp only [List.getElem?_cons_succ] at h ⊢
    exact reg_ok hs h

theorem fits_ok (hP : Pivots W K P) {coin : Bool} (h : MayInsert W false L P coin x) : hasKey L x = false → coin = true → W < 64 ∨ Has W K 1 (pre W x 1) := by
  intro h1 h2
  rcases h.2 with h | h | h | h | ⟨z, hz, e⟩
  · cases h
  · rw [h1] at h; cases h
  · rw [h2] at h; cases h
  · exact Or.inl h
  · exact Or.inr ⟨z, (hP z).2 (List.mem_cons.1 hz), e⟩

theorem piv_add (hP : Pivots W K P) (coin : Bool) : Pivots W (piv' L coin x K) (addPivot L P coin x) := by
  unfold piv' addPivot
  split_ifs with c
  · intro z
    rw [Finset.mem_insert, hP, List.mem_cons]
    tauto
  · exact hP

theorem piv_erase (hP : Pivots W K P) : Pivots W (pivErase W x K) (P.filter (fun z => decide (z ≠ x))) := by
  intro z
  have := hP z
  unfold pivErase
  rw [List.mem_filter, decide_eq_true_eq]
  split_ifs with c
  · subst c; rw [this]; tauto
  · rw [Finset.mem_erase, this]
    constructor
    · rintro ⟨h1, h2 | h2⟩
      · exact Or.inl h2
      · exact Or.inr ⟨h2, h1⟩
    · rintro (h1 | ⟨h1, h2⟩)
      · exact ⟨by rw [h1]; exact fun h => c h.symm, Or.inl h1⟩
      · exact ⟨h2, Or.inr h1⟩

theorem notPivot (hP : Pivots W K P) (h : x ∉ P ∨ x = 2 ^ W - 1) : x ∉ K ∨ x = kmax W := by
  rcases h with h | h
  · by_cases c : x = kmax W
    · exact Or.inr c
    · exact Or.inl (fun hx => by rcases (hP x).1 hx with d | d; exacts [c d, h d])
  · exact Or.inr h

theorem insertAll_ok (hW : 0 < W) : ∀ (l : List (Nat × Bool × Nat × V)) (s : Y V) (K : Finset Nat) (m : Nat → Option (Treap.Treap Nat V)) (L : List (Nat × V)) (P : List Nat) {L' : List (Nat × V)} {P' : List Nat},
    Inv W s K m L → Pivots W K P → smany W false l (L, P) = some (L', P') → ∃ s' K' m', insertAll W l s = some s' ∧ Inv W s' K' m' L' ∧ Pivots W K' P'
  | [], s, K, m, L, P, _, _, I, hP, e => by cases e; exact ⟨s, K, m, rfl, I, hP⟩
  | (pr, coin, x, v) :: l, s, K, m, L, P, _, _, I, hP, e => by
    rw [smany] at e
    split_ifs at e with hx
    obtain ⟨s', it, m', e1, I', -⟩ := insert_ok I hW hx.1 pr v (fits_ok hP hx)
    obtain ⟨s2, K2, m2, e2, I2, hP2⟩ := insertAll_ok hW l s' _ m' _ _ I' (piv_add hP coin) e
    exact ⟨s2, K2, m2, by rw [insertAll, e1, Option.bind_some]; exact e2, I2, hP2⟩

/-- The first element from an absent key on is the first one above it. -/
theorem from_above (hs : Sorted L) (hk : hasKey L x = false) : first (from_ L x) = first (above L x) := by
  refine Trie.IsMin.unique (P := fun z => hasKey L z = true ∧ x < z) (Trie.IsMin.congr (Yft.first_filter (P := fun z => x ≤ z) hs) fun z => ?_) (Yft.first_filter hs)
  constructor
  · rintro ⟨h1, h2⟩
    refine ⟨h1, Nat.lt_of_le_of_ne h2 ?_⟩
    rintro rfl
    rw [h1] at hk; cases hk
  · rintro ⟨h1, h2⟩; exact ⟨h1, le_of_lt h2⟩

end

theorem step_ok (hW : 0 < W) {st : Y V × List Ret} {sp sp' : Spec V} (h : Rel W st sp) (o : Op V) {out : Out V}
    (e : sstep W false sp o = some (sp', out)) : ∃ st', step W st o = some (st', out) ∧ Rel W st' sp' := by
  obtain ⟨s, rs⟩ := st
  obtain ⟨L, P, sr⟩ := sp
  obtain ⟨K, m, I, hP, hr⟩ := h
  dsimp only at I hP hr
  cases o with
  | insert pr coin x v =>
    simp only [sstep] at e
    split_ifs at e with hx
    cases e
    obtain ⟨s', it, m', e1, I', h1⟩ := insert_ok I hW hx.1 pr v (fits_ok hP hx)
    simp only [step]
    rw [e1, Option.bind_some]
    exact keepIt_ok I' (piv_add hP coin) List.Forall₂.nil ⟨it, rfl, h1⟩
  | many l =>
    simp only [sstep] at e
    obtain ⟨⟨L', P'⟩, h1, e⟩ := Option.map_eq_some_iff.1 e
    cases e
    obtain ⟨s', K', m', e1, I', hP'⟩ := insertAll_ok hW l s K m L P I hP h1
    exact ⟨(s', []), by simp only [step]; rw [e1]; rfl, K', m', I', hP', List.Forall₂.nil⟩
  | hint i pr coin x v =>
    simp only [sstep] at e
    obtain ⟨a, ha, e⟩ := Option.bind_eq_some_iff.1 e
    split_ifs at e with hx
    cases e
    obtain ⟨r, hr', hok⟩ := reg_ok hr ha
    obtain ⟨it, hit, hok⟩ := it_ok hok
    obtain ⟨s', it', m', e1, I', h1⟩ := emplaceHint_ok I hW hx.1 pr v (fits_ok hP hx) hok
    simp only [step]
    rw [hr', Option.bind_some, hit, Option.bind_some, e1, Option.bind_some]
    exact keepIt_ok I' (piv_add hP coin) List.Forall₂.nil ⟨it', rfl, h1⟩
  | erase x =>
    simp only [sstep, Bool.false_eq_true, false_or] at e
    split_ifs at e with hx hk hp hp
    · cases e
      obtain ⟨s', r, m', e1, I', h1⟩ := erase_ok I hW hx hk
      simp only [step]
      rw [e1, Option.bind_some]
      exact keep_ok I' (piv_erase hP) List.Forall₂.nil (h1 (notPivot hP hp))
    · cases e
      have hk : hasKey L x = false := by simpa using hk
      obtain ⟨k, hk'⟩ := Option.ne_none_iff_exists'.1 hp
      obtain ⟨it, e1, h1⟩ := erase_absent I hW hx hk ((from_above I.B.ls hk).trans hk')
      simp only [step]
      rw [e1, Option.bind_some, hk']
      exact keep_ok I hP List.Forall₂.nil ⟨it, rfl, h1⟩
  | eraseAt i =>
    simp only [sstep, Bool.false_eq_true, false_or] at e
    obtain ⟨a, ha, e⟩ := Option.bind_eq_some_iff.1 e
    obtain ⟨r, hr', hok⟩ := reg_ok hr ha
    obtain ⟨it, hit, hok⟩ := it_ok hok
    simp only [step]
    rw [hr', Option.bind_some, hit, Option.bind_some]
    cases a with
    | none =>
      cases e
      have e1 : eraseIt W s it = some (s, ofIt it) := by
        unfold eraseIt
        rw [end_eq I, Option.bind_some]
        exact if_pos hok
      rw [e1, Option.bind_some]
      exact keep_ok I hP List.Forall₂.nil ⟨it, rfl, hok⟩
    | some k =>
      dsimp only at e
      split_ifs at e with hp
      cases e
      obtain ⟨s', r', m', e1, I', h1⟩ := eraseIt_ok I hW hok
      rw [e1, Option.bind_some]
      exact keep_ok I' (piv_erase hP) List.Forall₂.nil (h1 (notPivot hP hp))
  | drop x =>
    simp only [sstep, Bool.false_eq_true, false_or] at e
    split_ifs at e with hx hk hp
    · cases e
      obtain ⟨s', r, m', e1, I', -⟩ := erase_ok I hW hx hk
      exact ⟨(s', []), by simp only [step]; rw [e1]; rfl, _, m', I', piv_erase hP, List.Forall₂.nil⟩
    · cases e
      have hk : hasKey L x = false := by simpa using hk
      obtain ⟨k, hk'⟩ := Option.ne_none_iff_exists'.1 hp
      obtain ⟨it, e1, h1⟩ := erase_absent I hW hx hk ((from_above I.B.ls hk).trans hk')
      exact ⟨(s, []), by simp only [step]; rw [e1]; rfl, K, m, I, hP, List.Forall₂.nil⟩
  | dropAt i =>
    simp only [sstep] at e
    obtain ⟨a, ha, e⟩ := Option.bind_eq_some_iff.1 e
    obtain ⟨r, hr', hok⟩ := reg_ok hr ha
    obtain ⟨it, hit, hok⟩ := it_ok hok
    simp only [step]
    rw [hr', Option.bind_some, hit, Option.bind_some]
    cases a with
    | none =>
      cases e
      have e1 : eraseIt W s it = some (s, ofIt it) := by
        unfold eraseIt
        rw [end_eq I, Option.bind_some]
        exact if_pos hok
      exact ⟨(s, []), by rw [e1]; rfl, K, m, I, hP, List.Forall₂.nil⟩
    | some k =>
      cases e
      obtain ⟨s', r', m', e1, I', -⟩ := eraseIt_ok I hW hok
      exact ⟨(s', []), by rw [e1]; rfl, _, m', I', piv_erase hP, List.Forall₂.nil⟩
  | find x =>
    simp only [sstep] at e
    split_ifs at e with hx hk
    · cases e; exact keepIt_ok I hP hr (by have := find_ok I hW hx; rwa [if_pos hk] at this)
    · cases e; exact keepIt_ok I hP hr (by have := find_ok I hW hx; rwa [if_neg hk] at this)
  | lower x =>
    simp only [sstep] at e
    split_ifs at e with hx
    cases e
    exact keepIt_ok I hP hr (lowerBound_ok I hW hx)
  | upper x =>
    simp only [sstep] at e
    split_ifs at e with hx
    cases e
    exact keepIt_ok I hP hr (upperBound_ok I hW hx)
  | pred x =>
    simp only [sstep] at e
    split_ifs at e with hx
    cases e
    exact keepIt_ok I hP hr (predecessor_ok I hW hx)
  | begin_ =>
    cases e
    exact keepIt_ok I hP hr (begin_ok I)
  | end_ =>
    cases e
    exact keepIt_ok I hP hr ⟨_, end_eq I, rfl⟩
  | next i =>
    simp only [sstep] at e
    obtain ⟨a, ha, e⟩ := Option.bind_eq_some_iff.1 e
    obtain ⟨k, rfl, e⟩ := Option.map_eq_some_iff.1 e
    cases e
    obtain ⟨r, hr', hok⟩ := reg_ok hr ha
    obtain ⟨it, hit, hok⟩ := it_ok hok
    refine keepIt_ok I hP hr ?_
    dsimp only
    rw [hr', Option.bind_some, hit, Option.bind_some]
    exact next_ok I hok
  | prev i =>
    simp only [sstep] at e
    obtain ⟨a, ha, e⟩ := Option.bind_eq_some_iff.1 e
    obtain ⟨k, hk, e⟩ := Option.map_eq_some_iff.1 e
    cases e
    obtain ⟨r, hr', hok⟩ := reg_ok hr ha
    obtain ⟨it, hit, hok⟩ := it_ok hok
    refine keepIt_ok I hP hr ?_
    dsimp only
    rw [hr', Option.bind_some, hit, Option.bind_some]
    exact prev_ok I hok hk
  | deref i =>
    simp only [sstep] at e
    obtain ⟨a, ha, e⟩ := Option.bind_eq_some_iff.1 e
    obtain ⟨k, rfl, e⟩ := Option.bind_eq_some_iff.1 e
    obtain ⟨q, hq, e⟩ := Option.map_eq_some_iff.1 e
    cases e
    obtain ⟨r, hr', hok⟩ := reg_ok hr ha
    obtain ⟨w, hw, e2⟩ := derefRet_ok I hok
    rw [find_mem I.B.ls hw] at hq
    cases hq
    exact ⟨(s, rs), by simp only [step]; rw [hr', Option.bind_some, e2]; rfl, K, m, I, hP, hr⟩
  | size =>
    cases e
    exact ⟨(s, rs), by simp only [step]; rw [I.size], K, m, I, hP, hr⟩
  | list =>
    cases e
    exact ⟨(s, rs), by simp only [step]; rw [elements_ok I]; rfl, K, m, I, hP, hr⟩
  | clear =>
    cases e
    obtain ⟨s', m', e1, I'⟩ := create_ok (V := V) hW
    exact ⟨(s', []), by simp only [step]; rw [e1]; rfl, _, m', I', by intro z; simp, List.Forall₂.nil⟩

theorem runFrom_ok (hW : 0 < W) : ∀ (ops : List (Op V)) {st : Y V × List Ret} {sp sp' : Spec V} {os : List (Out V)}, Rel W st sp →
    srunFrom W false sp ops = some (sp', os) → ∃ st', runFrom W st ops = some (st', os) ∧ Rel W st' sp'
  | [], st, sp, sp', os, h, e => by cases e; exact ⟨st, rfl, h⟩
  | o :: ops, st, sp, sp', os, h, e => by
    rw [srunFrom] at e
    obtain ⟨⟨sp1, out⟩, e1, e⟩ := Option.bind_eq_some_iff.1 e
    obtain ⟨⟨sp2, os'⟩, e2, e⟩ := Option.map_eq_some_iff.1 e
    cases e
    obtain ⟨st1, g1, h1⟩ := step_ok hW h o e1
    obtain ⟨st2, g2, h2⟩ := runFrom_ok hW ops h1 e2
    exact ⟨st2, by rw [runFrom, g1, Option.bind_some, g2]; rfl, h2⟩

/-! ## C125 -/

/-- The full property: every program the specification allows is defined and gives the specified answers. -/
def History (V : Type) : Prop := ∀ (W : Nat), 0 < W → ∀ (ops : List (Op V)) (sp : Spec V) (os : List (Out V)), srun W true ops = some (sp, os) → ∃ st, run W ops = some (st, os)

/-- Missing from `History`: results of erasures of pivots, `erase(x)` of an absent key above all keys, and with 64-bit keys a new pivot with the top bit 0 while there is none. -/
theorem C125_history_partial (hW : 0 < W) (ops : List (Op V)) {sp : Spec V} {os : List (Out V)} (h : srun W false ops = some (sp, os)) : ∃ st, run W ops = some (st, os) := by
  obtain ⟨s, m, e, I⟩ := create_ok (V := V) hW
  obtain ⟨st, e2, -⟩ := runFrom_ok hW ops (st := (s, [])) (sp := ⟨[], [], []⟩) ⟨_, m, I, by intro z; simp, List.Forall₂.nil⟩ h
  exact ⟨st, by unfold run; rw [e, Option.bind_some, e2]⟩

/-- A program with pivots 5 and 7, hints right and wrong, erasures of a plain key, of a pivot and of an absent key, and steps of iterators. -/
def sample : List (Op Unit) := [.many [(4, true, 5, ()), (9, false, 2, ())], .insert 7 true 7 (), .insert 3 false 5 (), .lower 3, .hint 1 8 false 4 (), .hint 0 6 false 1 (), .begin_, .next 1, .next 2,
  .eraseAt 3, .drop 5, .erase 3, .pred 3, .prev 0, .upper 2, .deref 3, .size, .list]

example : (srun 3 false sample).map Prod.snd = some [.unit, .pos (some 7), .pos (some 5), .pos (some 5), .pos (some 4), .pos (some 1), .pos (some 1), .pos (some 2), .pos (some 4), .pos (some 5), .unit,
    .pos (some 7), .pos (some 2), .pos (some 2), .pos (some 7), .kv 7 (), .n 3, .l [(1, ()), (2, ()), (7, ())]] ∧
    (run 3 sample).map Prod.snd = (srun 3 false sample).map Prod.snd := by decide +kernel

/-! ### what fails -/

/-- Erasing the pivot 3 should give an iterator to 5.  It gives one to the sentinel of a treap that is gone: it is not `end()`, and it has no key. -/
theorem C125_erase_result_fails : (srun 3 true ([.insert 4 true 3 (), .insert 9 false 5 (), .erase 3] : List (Op Unit))).map Prod.snd = some [.pos (some 3), .pos (some 5), .pos (some 5)] ∧
    run 3 ([.insert 4 true 3 (), .insert 9 false 5 (), .erase 3] : List (Op Unit)) = none := by
  refine ⟨by decide +kernel, ?_⟩
  rw [← Option.map_eq_none_iff (f := Prod.snd)]
  decide +kernel

/-- Erasing the pivot 3 behind 2 should give `end()`.  It gives an iterator to 2: a loop `it = s.erase(it)` goes backwards. -/
theorem C125_erase_result_back : (srun 3 true ([.insert 4 false 2 (), .insert 9 true 3 (), .erase 3] : List (Op Unit))).map Prod.snd = some [.pos (some 2), .pos (some 3), .pos none] ∧
    (run 3 ([.insert 4 false 2 (), .insert 9 true 3 (), .erase 3] : List (Op Unit))).map Prod.snd = some [.pos (some 2), .pos (some 3), .pos (some 2)] := by decide +kernel

/-- The property does not hold. -/
theorem C125_history_fails : ¬ History Unit := by
  intro h
  obtain ⟨h1, h2⟩ := C125_erase_result_back
  obtain ⟨⟨sp, os⟩, e, rfl⟩ := Option.map_eq_some_iff.1 h1
  obtain ⟨st, e2⟩ := h 3 (by omega) _ sp _ e
  rw [e2] at h2
  cases h2

/-- `erase(x)` above all keys reads the key of `end()`, which is never set; without the read nothing would have to happen. -/
theorem C125_erase_absent_fails : (srun 3 true ([.insert 4 false 2 (), .drop 5, .size] : List (Op Unit))).map Prod.snd = some [.pos (some 2), .unit, .n 1] ∧
    (run 3 ([.insert 4 false 2 (), .drop 5] : List (Op Unit))).map Prod.snd = none := by decide +kernel

/-- With 64-bit keys, the default, the first pivot below `2 ^ 63` shifts by 64 (line 217 in the X-fast trie), whatever its priority. -/
theorem C125_first_pivot_fails : (srun 64 true ([.insert 4 true 2 (), .size] : List (Op Unit))).map Prod.snd = some [.pos (some 2), .n 1] ∧
    (run 64 ([.insert 4 true 2 ()] : List (Op Unit))).map Prod.snd = none := by decide +kernel

end Verif.IntSetY
