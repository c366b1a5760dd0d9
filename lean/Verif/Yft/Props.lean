import Verif.Yft.Range
/-!
C109, C110: the Y-fast trie as a sorted map.

The specification is a strictly sorted list of pairs with the list functions of `Verif.Treap.Ops` (`sInsert`, `sErase`, `sAssign`, `above`, ...), and iterators are keys (`none` is `end()`).
A program is a list of calls; iterators it got are kept in a list of registers and used by index.  A call that changes the set of keys leaves only the iterator it returns.
-/
namespace Verif.Yft
open Verif
open Verif.Treap (Sorted hasKey above from_ first last sInsert sErase sAssign belowIt)

variable {V : Type} {W : Nat}

/-- Calls; `pr` and `coin` are the random draws, `i` is a register. -/
inductive Op (V : Type) where
  | insert (pr : Nat) (coin : Bool) (x : Nat) (v : V)
  | hint (i : Nat) (pr : Nat) (coin : Bool) (x : Nat) (v : V)
  | get (pr : Nat) (coin : Bool) (x : Nat) (d : V)
  | put (pr : Nat) (coin : Bool) (x : Nat) (d v : V)
  | erase (x : Nat)
  | eraseAt (i : Nat)
  | find (x : Nat)
  | lower (x : Nat)
  | upper (x : Nat)
  | begin_
  | end_
  | next (i : Nat)
  | prev (i : Nat)
  | deref (i : Nat)
  | assign (i : Nat) (v : V)
  | size
  | list
  | clear

inductive Out (V : Type) where
  | unit
  | b (b : Bool)
  | n (n : Nat)
  | val (v : V)
  | kv (k : Nat) (v : V)
  | pos (k : Option Nat)
  | ins (k : Option Nat) (b : Bool)
  | l (l : List (Nat × V))
deriving DecidableEq

/-- What a program can see of an iterator: whether it is `end()`, and otherwise the key it points to. -/
def obs (s : Y V) (it : It) : Option (Option Nat) := (end_ s).bind (fun e => if it = e then some none else (deref s it).map (fun h => some h.1))

/-- Keep the iterator `it` in a new register. -/
def keep (s : Y V) (rs : List It) (it : Option It) : Option ((Y V × List It) × Out V) := it.bind (fun it => (obs s it).map (fun k => ((s, rs ++ [it]), .pos k)))

/-- One call. -/
def step (W : Nat) (st : Y V × List It) : Op V → Option ((Y V × List It) × Out V)
  | .insert pr coin x v => (insert W st.1 pr coin x v).bind (fun r => (obs r.1 r.2.1).map (fun k => ((r.1, [r.2.1]), .ins k r.2.2)))
  | .hint i pr coin x v => st.2[i]?.bind (fun h => (emplaceHint W st.1 h pr coin x v).bind (fun r => keep r.1 [] (some r.2)))
  | .get pr coin x d => (ref W st.1 pr coin x d).bind (fun r => (deref r.1 r.2).map (fun h => ((r.1, []), .val h.2)))
  | .put pr coin x d v => (ref W st.1 pr coin x d).bind (fun r => (assign r.1 r.2 v).map (fun s => ((s, []), .unit)))
  | .erase x => (erase W st.1 x).map (fun r => ((r.1, []), .b r.2))
  | .eraseAt i => st.2[i]?.bind (fun it => (eraseIt W st.1 it).bind (fun r => keep r.1 [] (some r.2)))
  | .find x => keep st.1 st.2 (find W st.1 x)
  | .lower x => keep st.1 st.2 (lowerBound W st.1 x)
  | .upper x => keep st.1 st.2 (upperBound W st.1 x)
  | .begin_ => keep st.1 st.2 (begin_ st.1)
  | .end_ => keep st.1 st.2 (end_ st.1)
  | .next i => keep st.1 st.2 (st.2[i]?.bind (next st.1))
  | .prev i => keep st.1 st.2 (st.2[i]?.bind (prev st.1))
  | .deref i => st.2[i]?.bind (fun it => (deref st.1 it).map (fun h => (st, .kv h.1 h.2)))
  | .assign i v => st.2[i]?.bind (fun it => (assign st.1 it v).map (fun s => ((s, st.2), .unit)))
  | .size => some (st, .n st.1.size)
  | .list => (elements st.1).map (fun l => (st, .l l))
  | .clear => (clear W st.1).map (fun s => ((s, []), .unit))

def runFrom (W : Nat) : Y V × List It → List (Op V) → Option ((Y V × List It) × List (Out V))
  | st, [] => some (st, [])
  | st, o :: ops => (step W st o).bind (fun r => (runFrom W r.1 ops).map (fun q => (q.1, r.2 :: q.2)))

/-- How the object is made. -/
inductive Start (V : Type) where
  | empty
  | range (pr : Nat → Nat) (coins : List Bool) (l : List (Nat × V))

def Start.build (W : Nat) : Start V → Option (Y V)
  | .empty => create W
  | .range pr coins l => ofRange W pr coins l

/-- A program: a construction and calls. -/
def run (W : Nat) (st : Start V) (ops : List (Op V)) : Option ((Y V × List It) × List (Out V)) := (st.build W).bind (fun s => runFrom W (s, []) ops)

/-! ### the specification -/

/-- One call on a sorted list; `none` when the call is not allowed: a key out of range, a hint other than `lower_bound(x)`, an iterator that is gone, `++end()`, `--begin()`, `*end()`. -/
def sstep (W : Nat) (st : List (Nat × V) × List (Option Nat)) : Op V → Option ((List (Nat × V) × List (Option Nat)) × Out V)
  | .insert _ _ x v => if x < 2 ^ W then some ((sInsert st.1 x v, [some x]), .ins (some x) (!hasKey st.1 x)) else none
  | .hint i _ _ x v => st.2[i]?.bind (fun h => if x < 2 ^ W ∧ h = first (from_ st.1 x) then some ((sInsert st.1 x v, [some x]), .pos (some x)) else none)
  | .get _ _ x d => if x < 2 ^ W then ((sInsert st.1 x d).find? (fun q => decide (q.1 = x))).map (fun q => ((sInsert st.1 x d, []), .val q.2)) else none
  | .put _ _ x d v => if x < 2 ^ W then some ((sAssign (sInsert st.1 x d) x v, []), .unit) else none
  | .erase x => if x < 2 ^ W then some ((sErase st.1 x, []), .b (hasKey st.1 x)) else none
  | .eraseAt i => st.2[i]?.bind (fun a => match a with
    | some k => some ((sErase st.1 k, [first (above st.1 k)]), .pos (first (above st.1 k)))
    | none => some ((st.1, [none]), .pos none))
  | .find x => if x < 2 ^ W then some ((st.1, st.2 ++ [if hasKey st.1 x then some x else none]), .pos (if hasKey st.1 x then some x else none)) else none
  | .lower x => if x < 2 ^ W then some ((st.1, st.2 ++ [first (from_ st.1 x)]), .pos (first (from_ st.1 x))) else none
  | .upper x => if x < 2 ^ W then some ((st.1, st.2 ++ [first (above st.1 x)]), .pos (first (above st.1 x))) else none
  | .begin_ => some ((st.1, st.2 ++ [first st.1]), .pos (first st.1))
  | .end_ => some ((st.1, st.2 ++ [none]), .pos none)
  | .next i => st.2[i]?.bind (fun a => a.map (fun k => ((st.1, st.2 ++ [first (above st.1 k)]), .pos (first (above st.1 k)))))
  | .prev i => st.2[i]?.bind (fun a => (last (belowIt st.1 a)).map (fun k => ((st.1, st.2 ++ [some k]), .pos (some k))))
  | .deref i => st.2[i]?.bind (fun a => a.bind (fun k => (st.1.find? (fun q => decide (q.1 = k))).map (fun q => (st, .kv q.1 q.2))))
  | .assign i v => st.2[i]?.bind (fun a => a.map (fun k => ((sAssign st.1 k v, st.2), .unit)))
  | .size => some (st, .n st.1.length)
  | .list => some (st, .l st.1)
  | .clear => some (([], []), .unit)

def srunFrom (W : Nat) : List (Nat × V) × List (Option Nat) → List (Op V) → Option ((List (Nat × V) × List (Option Nat)) × List (Out V))
  | st, [] => some (st, [])
  | st, o :: ops => (sstep W st o).bind (fun r => (srunFrom W r.1 ops).map (fun q => (q.1, r.2 :: q.2)))

def Start.list (W : Nat) : Start V → Option (List (Nat × V))
  | .empty => some []
  | .range _ _ l => if ∀ a ∈ l, a.1 < 2 ^ W then some (l.foldl (fun L a => sInsert L a.1 a.2) []) else none

def srun (W : Nat) (st : Start V) (ops : List (Op V)) : Option ((List (Nat × V) × List (Option Nat)) × List (Out V)) := (st.list W).bind (fun L => srunFrom W (L, []) ops)

/-! ### the part that holds -/

/-- The new node of the largest key `2 ^ W - 1` is not selected as a pivot. -/
def Op.safe (W : Nat) : Op V → Bool
  | .insert _ coin x _ => x ≠ 2 ^ W - 1 || !coin
  | .hint _ _ coin x _ => x ≠ 2 ^ W - 1 || !coin
  | .get _ coin x _ => x ≠ 2 ^ W - 1 || !coin
  | .put _ coin x _ _ => x ≠ 2 ^ W - 1 || !coin
  | _ => true

/-- A sorted range has no key twice; in a range that is not sorted the largest key is not selected as a pivot. -/
def Start.safe (W : Nat) : Start V → Bool
  | .empty => true
  | .range pr coins l =>
    if l.Pairwise (fun a b => a.1 ≤ b.1) then l.Pairwise (fun a b => a.1 < b.1) else (draw pr coins l).all (fun a => a.2.2.1 ≠ 2 ^ W - 1 || !a.2.1)

/-- State and specification belong together. -/
def Rel (W : Nat) (st : Y V × List It) (sp : List (Nat × V) × List (Option Nat)) : Prop := ∃ K m, Inv W st.1 K m sp.1 ∧ List.Forall₂ (ItOk W m) sp.2 st.2

theorem obs_ok {s : Y V} {K : Finset Nat} {m : Nat → Option (Treap.Treap Nat V)} {L : List (Nat × V)} (I : Inv W s K m L) {a : Option Nat} {it : It} (h : ItOk W m a it) : obs s it = some a := by
  unfold obs
  rw [end_eq I, Option.bind_some]
  cases a with
  | none => exact if_pos h
  | some k =>
    obtain ⟨v, _, e⟩ := deref_ok I h
    rw [if_neg h.ne_end, e]; rfl

theorem keep_ok {s : Y V} {rs : List It} {K : Finset Nat} {m : Nat → Option (Treap.Treap Nat V)} {L : List (Nat × V)} {sr : List (Option Nat)} (I : Inv W s K m L) (hr : List.Forall₂ (ItOk W m) sr rs)
    {a : Option Nat} {it : Option It} (h : ∃ i, it = some i ∧ ItOk W m a i) : ∃ st', keep s rs it = some (st', .pos a) ∧ Rel W st' (L, sr ++ [a]) := by
  obtain ⟨i, rfl, h⟩ := h
  exact ⟨(s, rs ++ [i]), by unfold keep; rw [Option.bind_some, obs_ok I h]; rfl, K, m, I, List.rel_append hr (List.Forall₂.cons h List.Forall₂.nil)⟩

theorem reg_ok {R : Option Nat → It → Prop} : ∀ {sr : List (Option Nat)} {rs : List It} {i : Nat} {a : Option Nat}, List.Forall₂ R sr rs → sr[i]? = some a → ∃ it, rs[i]? = some it ∧ R a it
  | _, _, i, a, .nil, h => by simp at h
  | _, _, 0, a, .cons h0 _, h => by simp at h; subst h; exact ⟨_, rfl, h0⟩
  | _, _, i+1, a, .cons _ hs, h => by
    simp only [List.getElem?_cons_succ] at h ⊢
    exact reg_ok hs h

theorem safe_coin {x : Nat} {coin : Bool} (h : (x ≠ 2 ^ W - 1 || !coin) = true) : x = kmax W → coin = false := by
  intro e
  unfold kmax at e
  rw [← e] at h
  simpa using h

theorem step_ok (hW : 0 < W) {st : Y V × List It} {sp sp' : List (Nat × V) × List (Option Nat)} (h : Rel W st sp) (o : Op V) (hs : o.safe W = true) {out : Out V}
    (e : sstep W sp o = some (sp', out)) : ∃ st', step W st o = some (st', out) ∧ Rel W st' sp' := by
  obtain ⟨s, rs⟩ := st
  obtain ⟨L, sr⟩ := sp
  obtain ⟨K, m, I, hr⟩ := h
  cases o with
  | insert pr coin x v =>
    simp only [sstep] at e
    split_ifs at e with hx
    cases e
    obtain ⟨s', it, K', m', e1, I', h1⟩ := insert_ok I hW hx pr v (fun _ => safe_coin hs)
    refine ⟨(s', [it]), ?_, K', m', I', List.Forall₂.cons h1 List.Forall₂.nil⟩
    simp only [step]
    rw [e1, Option.bind_some]
    dsimp only
    rw [obs_ok I' h1]; rfl
  | hint i pr coin x v =>
    simp only [sstep] at e
    obtain ⟨a, ha, e⟩ := Option.bind_eq_some_iff.1 e
    split_ifs at e with hx
    cases e
    obtain ⟨it, hit, hok⟩ := reg_ok hr ha
    obtain ⟨s', it', K', m', e1, I', h1⟩ := emplaceHint_ok I hW hx.1 pr v (fun _ => safe_coin hs) (hx.2 ▸ hok)
    simp only [step]
    rw [hit, Option.bind_some, e1, Option.bind_some]
    exact keep_ok I' List.Forall₂.nil ⟨it', rfl, h1⟩
  | get pr coin x d =>
    simp only [sstep] at e
    split_ifs at e with hx
    obtain ⟨q, hq, e⟩ := Option.map_eq_some_iff.1 e
    cases e
    obtain ⟨s', it, K', m', e1, I', h1⟩ := ref_ok I hW hx pr d (fun _ => safe_coin hs)
    obtain ⟨w, hw, e2⟩ := deref_ok I' h1
    rw [find_mem I'.B.ls hw] at hq
    cases hq
    exact ⟨(s', []), by simp only [step]; rw [e1, Option.bind_some, e2]; rfl, K', m', I', List.Forall₂.nil⟩
  | put pr coin x d v =>
    simp only [sstep] at e
    split_ifs at e with hx
    cases e
    obtain ⟨s', it, K', m', e1, I', h1⟩ := ref_ok I hW hx pr d (fun _ => safe_coin hs)
    obtain ⟨s2, m2, e2, I2, -⟩ := assign_ok I' h1 v
    exact ⟨(s2, []), by simp only [step]; rw [e1, Option.bind_some, e2]; rfl, K', m2, I2, List.Forall₂.nil⟩
  | erase x =>
    simp only [sstep] at e
    split_ifs at e with hx
    cases e
    obtain ⟨s', K', m', e1, I'⟩ := erase_ok I hW hx
    exact ⟨(s', []), by simp only [step]; rw [e1]; rfl, K', m', I', List.Forall₂.nil⟩
  | eraseAt i =>
    simp only [sstep] at e
    obtain ⟨a, ha, e⟩ := Option.bind_eq_some_iff.1 e
    obtain ⟨it, hit, hok⟩ := reg_ok hr ha
    simp only [step]
    rw [hit, Option.bind_some]
    cases a with
    | none =>
      cases e
      have e1 : eraseIt W s it = some (s, it) := by
        unfold eraseIt
        rw [end_eq I, Option.bind_some]
        exact if_pos hok
      rw [e1, Option.bind_some]
      exact keep_ok I List.Forall₂.nil ⟨it, rfl, hok⟩
    | some k =>
      cases e
      obtain ⟨s', it', K', m', e1, I', h1⟩ := eraseIt_ok I hW hok
      rw [e1, Option.bind_some]
      exact keep_ok I' List.Forall₂.nil ⟨it', rfl, h1⟩
  | find x =>
    simp only [sstep] at e
    split_ifs at e with hx
    · cases e; exact keep_ok I hr (by have := find_ok I hW hx; simpa [*] using this)
    · cases e; exact keep_ok I hr (by have := find_ok I hW hx; simpa [*] using this)
  | lower x =>
    simp only [sstep] at e
    split_ifs at e with hx
    cases e
    exact keep_ok I hr (lowerBound_ok I hW hx)
  | upper x =>
    simp only [sstep] at e
    split_ifs at e with hx
    cases e
    exact keep_ok I hr (upperBound_ok I hW hx)
  | begin_ =>
    cases e
    exact keep_ok I hr (begin_ok I)
  | end_ =>
    cases e
    exact keep_ok I hr ⟨_, end_eq I, rfl⟩
  | next i =>
    simp only [sstep] at e
    obtain ⟨a, ha, e⟩ := Option.bind_eq_some_iff.1 e
    obtain ⟨k, rfl, e⟩ := Option.map_eq_some_iff.1 e
    cases e
    obtain ⟨it, hit, hok⟩ := reg_ok hr ha
    refine keep_ok I hr ?_
    dsimp only
    rw [hit, Option.bind_some]
    exact next_ok I hok
  | prev i =>
    simp only [sstep] at e
    obtain ⟨a, ha, e⟩ := Option.bind_eq_some_iff.1 e
    obtain ⟨k, hk, e⟩ := Option.map_eq_some_iff.1 e
    cases e
    obtain ⟨it, hit, hok⟩ := reg_ok hr ha
    refine keep_ok I hr ?_
    dsimp only
    rw [hit, Option.bind_some]
    exact prev_ok I hok hk
  | deref i =>
    simp only [sstep] at e
    obtain ⟨a, ha, e⟩ := Option.bind_eq_some_iff.1 e
    obtain ⟨k, rfl, e⟩ := Option.bind_eq_some_iff.1 e
    obtain ⟨q, hq, e⟩ := Option.map_eq_some_iff.1 e
    cases e
    obtain ⟨it, hit, hok⟩ := reg_ok hr ha
    obtain ⟨w, hw, e2⟩ := deref_ok I hok
    rw [find_mem I.B.ls hw] at hq
    cases hq
    exact ⟨(s, rs), by simp only [step]; rw [hit, Option.bind_some, e2]; rfl, K, m, I, hr⟩
  | assign i v =>
    simp only [sstep] at e
    obtain ⟨a, ha, e⟩ := Option.bind_eq_some_iff.1 e
    obtain ⟨k, rfl, e⟩ := Option.map_eq_some_iff.1 e
    cases e
    obtain ⟨it, hit, hok⟩ := reg_ok hr ha
    obtain ⟨s2, m2, e2, I2, hm⟩ := assign_ok I hok v
    exact ⟨(s2, rs), by simp only [step]; rw [hit, Option.bind_some, e2]; rfl, K, m2, I2, hr.imp (fun a i => hm a i)⟩
  | size =>
    cases e
    exact ⟨(s, rs), by simp only [step]; rw [I.size], K, m, I, hr⟩
  | list =>
    cases e
    exact ⟨(s, rs), by simp only [step]; rw [elements_ok I]; rfl, K, m, I, hr⟩
  | clear =>
    cases e
    obtain ⟨s', K', m', e1, I'⟩ := clear_ok I hW
    exact ⟨(s', []), by simp only [step]; rw [e1]; rfl, K', m', I', List.Forall₂.nil⟩

theorem runFrom_ok (hW : 0 < W) : ∀ (ops : List (Op V)) {st : Y V × List It} {sp sp' : List (Nat × V) × List (Option Nat)} {os : List (Out V)}, Rel W st sp → (∀ o ∈ ops, o.safe W = true) →
    srunFrom W sp ops = some (sp', os) → ∃ st', runFrom W st ops = some (st', os) ∧ Rel W st' sp'
  | [], st, sp, sp', os, h, _, e => by cases e; exact ⟨st, rfl, h⟩
  | o :: ops, st, sp, sp', os, h, hs, e => by
    rw [srunFrom] at e
    obtain ⟨⟨sp1, out⟩, e1, e⟩ := Option.bind_eq_some_iff.1 e
    obtain ⟨⟨sp2, os'⟩, e2, e⟩ := Option.map_eq_some_iff.1 e
    cases e
    obtain ⟨st1, g1, h1⟩ := step_ok hW h o (hs o List.mem_cons_self) e1
    obtain ⟨st2, g2, h2⟩ := runFrom_ok hW ops h1 (fun o ho => hs o (List.mem_cons_of_mem _ ho)) e2
    exact ⟨st2, by rw [runFrom, g1, Option.bind_some, g2]; rfl, h2⟩

theorem foldl_sorted : ∀ (l L : List (Nat × V)), Sorted (L ++ l) → l.foldl (fun L a => sInsert L a.1 a.2) L = L ++ l
  | [], L, _ => by simp
  | (k, v) :: l, L, h => by
    have : sInsert L k v = L ++ [(k, v)] := sInsert_end (fun a ha => (List.pairwise_append.1 h).2.2 a ha _ List.mem_cons_self)
    rw [List.foldl_cons, this, foldl_sorted l _ (by simpa using h)]
    simp

theorem draw_fold (pr : Nat → Nat) : ∀ (coins : List Bool) (l L : List (Nat × V)), (draw pr coins l).foldl (fun L a => sInsert L a.2.2.1 a.2.2.2) L = l.foldl (fun L a => sInsert L a.1 a.2) L
  | _, [], L => by simp [draw]
  | coins, (k, v) :: l, L => by rw [draw, List.foldl_cons, List.foldl_cons, draw_fold pr coins.tail l]

theorem draw_mem (pr : Nat → Nat) : ∀ (coins : List Bool) (l : List (Nat × V)), ∀ a ∈ draw pr coins l, a.2.2 ∈ l
  | _, [], a, h => by simp [draw] at h
  | coins, (k, v) :: l, a, h => by
    rw [draw] at h
    rcases List.mem_cons.1 h with rfl | h
    · exact List.mem_cons_self
    · exact List.mem_cons_of_mem _ (draw_mem pr coins.tail l a h)

theorem start_ok (hW : 0 < W) (st : Start V) (hs : st.safe W = true) {L : List (Nat × V)} (e : st.list W = some L) : ∃ s, st.build W = some s ∧ Rel W (s, []) (L, []) := by
  cases st with
  | empty =>
    cases e
    obtain ⟨s, K, m, e, I, -⟩ := create_ok (V := V) hW
    exact ⟨s, e, K, m, I, List.Forall₂.nil⟩
  | range pr coins l =>
    simp only [Start.list] at e
    split_ifs at e with hk
    cases e
    simp only [Start.build, ofRange]
    simp only [Start.safe] at hs
    by_cases c : l.Pairwise (fun a b => a.1 ≤ b.1)
    · rw [if_pos c] at hs ⊢
      have hl : Sorted l := by
        have := of_decide_eq_true hs
        exact this
      obtain ⟨s, K, m, e, I⟩ := ofSorted_ok hW pr coins l hl hk
      refine ⟨s, e, K, m, ?_, List.Forall₂.nil⟩
      rw [foldl_sorted l [] hl]
      exact I
    · rw [if_neg c] at hs ⊢
      obtain ⟨s, K, m, e, I, -⟩ := create_ok (V := V) hW
      rw [List.all_eq_true] at hs
      obtain ⟨s', K', m', e', I'⟩ := insertAll_ok hW (draw pr coins l) s K m [] I (fun a ha => ⟨hk _ (draw_mem pr coins l a ha), safe_coin (hs a ha)⟩)
      rw [draw_fold] at I'
      exact ⟨s', by unfold ofUnsorted; rw [e, Option.bind_some, e'], K', m', I', List.Forall₂.nil⟩

/-- C109 in part.  For every construction and every history of calls that a sorted map allows, with any random draws: no call is undefined, every call returns what the sorted map returns, iteration gives the elements in
increasing order and `size()` is their number.  (Missing, and false, see below: insertion of the key `2 ^ W - 1` when its node is selected as a pivot; construction from a sorted range with a key twice.) -/
theorem C109_yfast_partial (hW : 0 < W) (st : Start V) (hst : st.safe W = true) (ops : List (Op V)) (hops : ∀ o ∈ ops, o.safe W = true) (L : List (Nat × V)) (rs : List (Option Nat)) (os : List (Out V))
    (h : srun W st ops = some ((L, rs), os)) : ∃ s its, run W st ops = some ((s, its), os) ∧ elements s = some L ∧ L.Pairwise (fun a b => a.1 < b.1) ∧ s.size = L.length := by
  obtain ⟨L0, e0, e1⟩ := Option.bind_eq_some_iff.1 h
  obtain ⟨s, g0, h0⟩ := start_ok hW st hst e0
  obtain ⟨⟨s', its⟩, g1, K, m, I, -⟩ := runFrom_ok hW ops h0 hops e1
  exact ⟨s', its, by unfold run; rw [g0, Option.bind_some, g1], elements_ok I, I.B.ls, I.size⟩

/-- Splits and merges of buckets, hints, both directions of iteration. -/
example : srun 4 (.empty : Start Nat) [.insert 5 true 6 60, .insert 3 false 9 90, .insert 8 true 3 30, .insert 1 false 6 61, .lower 4, .prev 1, .next 1, .lower 8, .deref 4, .hint 4 2 true 8 80, .put 4 false 15 0 150, .get 9 true 2 20,
      .end_, .prev 0, .prev 1, .assign 2 99, .begin_, .eraseAt 3, .erase 6, .size, .list] =
    some (([(3, 30), (8, 80), (9, 99), (15, 150)], []),
      [.ins (some 6) true, .ins (some 9) true, .ins (some 3) true, .ins (some 6) false, .pos (some 6), .pos (some 3), .pos (some 9), .pos (some 9), .kv 9 90, .pos (some 8), .unit, .val 20,
       .pos none, .pos (some 15), .pos (some 9), .unit, .pos (some 2), .pos (some 3), .b true, .n 4, .l [(3, 30), (8, 80), (9, 99), (15, 150)]]) := by decide
/-- The range constructor with several buckets. -/
example : Start.safe 4 (.range (fun k => k * 7 % 5) [true, false, true] [(1, 10), (2, 20), (5, 50), (7, 70), (15, 1)]) = true ∧
    srun 4 (.range (fun k => k * 7 % 5) [true, false, true] [(1, 10), (2, 20), (5, 50), (7, 70), (15, 1)]) [.upper 2, .next 0, .list] =
      some (([(1, 10), (2, 20), (5, 50), (7, 70), (15, 1)], [some 5, some 7]), [.pos (some 5), .pos (some 7), .l [(1, 10), (2, 20), (5, 50), (7, 70), (15, 1)]]) := by decide

/-- The claim fails for the largest key: when its new node is selected as a pivot, the treap split off is dropped, with everything in the last bucket (here the keys 1, 2 and 3; `W = 2`). -/
theorem C109_largest_key_loses_elements :
    (run 2 (.empty : Start Nat) [.insert 0 false 1 10, .insert 1 false 2 20, .insert 2 true 3 30, .list, .size]).map Prod.snd ≠
      (srun 2 (.empty : Start Nat) [.insert 0 false 1 10, .insert 1 false 2 20, .insert 2 true 3 30, .list, .size]).map Prod.snd := by decide

/-- The claim fails for a sorted range with a key twice: `size()` counts it twice. -/
theorem C109_range_counts_duplicates :
    (run 2 (.range (fun k => k) [] [(1, 10), (1, 11)] : Start Nat) [.size, .list]).map Prod.snd = some [.n 2, .l [(1, 10)]] ∧
      (srun 2 (.range (fun k => k) [] [(1, 10), (1, 11)] : Start Nat) [.size, .list]).map Prod.snd = some [.n 1, .l [(1, 10)]] := by decide

/-- A hint that is not `lower_bound(x)`, `end()` here, is not just slower: an existing key is counted again, and a new key can get into the wrong bucket, where it is not found. -/
theorem C109_wrong_hint :
    (run 3 (.empty : Start Nat) [.insert 0 false 1 10, .end_, .hint 1 0 false 1 11, .size, .list]).map Prod.snd = some [.ins (some 1) true, .pos none, .pos (some 1), .n 2, .l [(1, 10)]] ∧
      (run 3 (.empty : Start Nat) [.insert 0 false 4 40, .insert 0 true 2 20, .end_, .hint 1 0 false 1 10, .find 1, .list]).map Prod.snd =
        some [.ins (some 4) true, .ins (some 2) true, .pos none, .pos (some 1), .pos none, .l [(2, 20), (1, 10), (4, 40)]] := by decide

/-- C110 in part.  A copy of an object reached by any history has the same elements and behaves like the original under any further history.  (Missing, and false, see below: copy assignment and moves.) -/
theorem C110_copy_partial (hW : 0 < W) (st : Start V) (hst : st.safe W = true) (ops ops' : List (Op V)) (hops : ∀ o ∈ ops, o.safe W = true) (hops' : ∀ o ∈ ops', o.safe W = true)
    (L L' : List (Nat × V)) (rs rs' : List (Option Nat)) (os os' : List (Out V)) (h : srun W st ops = some ((L, rs), os)) (h' : srunFrom W (L, []) ops' = some ((L', rs'), os')) :
    ∃ s its c c' its', run W st ops = some ((s, its), os) ∧ copyOf W s = some c ∧ runFrom W (c, []) ops' = some ((c', its'), os') ∧ elements c' = some L' ∧ elements s = some L := by
  obtain ⟨L0, e0, e1⟩ := Option.bind_eq_some_iff.1 h
  obtain ⟨s, g0, h0⟩ := start_ok hW st hst e0
  obtain ⟨⟨s', its⟩, g1, K, m, I, -⟩ := runFrom_ok hW ops h0 hops e1
  obtain ⟨c, K', m', g2, I2⟩ := copyOf_ok I hW
  obtain ⟨⟨c', its'⟩, g3, K3, m3, I3, -⟩ := runFrom_ok hW ops' (st := (c, [])) (sp := (L, [])) ⟨K', m', I2, List.Forall₂.nil⟩ hops' h'
  exact ⟨s', its, c, c', its', by unfold run; rw [g0, Option.bind_some, g1], g2, g3, elements_ok I3, elements_ok I⟩

example : srun 3 (.empty : Start Nat) [.insert 0 true 4 40, .insert 0 false 2 20] = some (([(2, 20), (4, 40)], [some 2]), [.ins (some 4) true, .ins (some 2) true]) := by decide
example : srunFrom 3 ([(2, 20), (4, 40)], []) [.erase 4, .insert 1 true 7 70, .list] = some (([(2, 20), (7, 70)], [some 7]), [.b true, .ins (some 7) true, .l [(2, 20), (7, 70)]]) := by decide

/-- Copy assignment of any objects is undefined: the `operator=` of the X-fast trie it calls flows off its end. -/
theorem C110_copy_assignment_undefined (hW : 0 < W) (st : Start V) (hst : st.safe W = true) (ops : List (Op V)) (hops : ∀ o ∈ ops, o.safe W = true) (L : List (Nat × V)) (rs : List (Option Nat)) (os : List (Out V))
    (h : srun W st ops = some ((L, rs), os)) (r : Y V) : ∃ s its, run W st ops = some ((s, its), os) ∧ copyAssign W s r = none := by
  obtain ⟨L0, e0, e1⟩ := Option.bind_eq_some_iff.1 h
  obtain ⟨s, g0, h0⟩ := start_ok hW st hst e0
  obtain ⟨⟨s', its⟩, g1, K, m, I, -⟩ := runFrom_ok hW ops h0 hops e1
  refine ⟨s', its, by unfold run; rw [g0, Option.bind_some, g1], ?_⟩
  unfold copyAssign Trie.copyAssign
  rw [Trie.deinit_ok I.tri]
  rfl

/-- A moved map loses its search structure: `find` of a key it has gives `end()`, and `find` on a moved empty map is undefined (a failed assertion). -/
theorem C110_move_breaks :
    (run 2 (.empty : Start Nat) [.insert 0 false 3 30, .insert 0 true 2 20]).bind (fun r => (find 2 r.1.1 2).bind (fun it => obs r.1.1 it)) = some (some 2) ∧
      (run 2 (.empty : Start Nat) [.insert 0 false 3 30, .insert 0 true 2 20]).bind (fun r => (moveOf r.1.1).bind (fun q => (find 2 q.1 2).bind (fun it => obs q.1 it))) = some none ∧
      (run 2 (.empty : Start Nat) []).bind (fun r => (moveOf r.1.1).bind (fun q => (find 2 q.1 2).bind (fun it => obs q.1 it))) = none ∧
      (run 2 (.empty : Start Nat) []).bind (fun r => (moveOf r.1.1).map (fun _ => ())) = some () := by decide

/-- The moved-from map cannot even be destroyed: its X-fast trie has no nodes left. -/
theorem C110_moved_from_destroy (s t : Y V) (x : Option (Trie.St (Treap.Treap Nat V))) (h : moveOf s = some (t, x)) : Trie.destroy x = none := by
  unfold moveOf at h
  obtain ⟨a, ha, h⟩ := Option.bind_eq_some_iff.1 h
  obtain ⟨y, hy, h⟩ := Option.map_eq_some_iff.1 h
  cases h
  unfold Trie.moveOf at ha
  rw [if_pos rfl] at ha
  obtain ⟨u, -, hu⟩ := Option.map_eq_some_iff.1 ha
  cases hu
  rfl

example : ∃ t x, (create 2 : Option (Y Nat)).bind moveOf = some (t, x) := by
  obtain ⟨s, K, m, e, I, -⟩ := create_ok (V := Nat) (W := 2) (by decide)
  rw [e]
  exact ⟨_, _, rfl⟩

end Verif.Yft
