/-!
C15: `PersistentQueue<T>`, `/repo/include/mtl/persistent_queue.hpp`.

The shared mutable memory is explicit: `nodes` (whose `next` field is filled in later, lines 80 and 91) and `streams`
(whose `scan`/`rotate` fields advance, lines 41-53), both shared by all versions.  Addresses are positions; `make_shared`
appends.  Nodes are never freed in the model; `C15_proc_alive` states separately that the raw pointer `proc_` is always
null or reachable from the owning pointer `f_` of the same object, so it cannot dangle.
`none` = null dereference, dangling pointer or failed `assert`.
-/
namespace Verif.Persistent.Queue

variable {T : Type}

/-- persistent_queue.hpp:28-34. -/
structure Node (T : Type) where
  next : Option Nat
  v : T

/-- persistent_queue.hpp:35-54. -/
structure Stream where
  scan : Option Nat
  rotate : Option Nat

/-- persistent_queue.hpp:56-60. -/
structure Queue where
  f : Option Nat
  proc : Option Nat
  stream : Option Nat
  size : Nat
  r : Option Nat

/-- Shared memory. -/
structure Mem (T : Type) where
  nodes : List (Node T)
  streams : List Stream

/-- persistent_queue.hpp:47-50.  The budget is the number of nodes (the chain has no more). -/
def rotLoop : Nat → List (Node T) → Option Nat → Option Nat → Option (List (Node T) × Option Nat)
  | _, ns, ret, none => some (ns, ret)
  | 0, _, _, some _ => none
  | fuel+1, ns, ret, some p => (ns[p]?).bind (fun nd => rotLoop fuel (ns ++ [⟨ret, nd.v⟩]) (some ns.length) nd.next)

/-- persistent_queue.hpp:41-53. -/
def streamNext (m : Mem T) (s : Nat) : Option (Mem T × Option Nat) :=
  (m.streams[s]?).bind (fun st => match st.scan with
    | some p => (m.nodes[p]?).bind (fun nd =>
        some (⟨m.nodes ++ [⟨none, nd.v⟩], m.streams.set s { st with scan := nd.next }⟩, some m.nodes.length))
    | none => (rotLoop m.nodes.length m.nodes none st.rotate).bind (fun r =>
        some (⟨r.1, m.streams.set s { st with rotate := none }⟩, r.2)))

/-- persistent_queue.hpp:62-67 with line 77/88: allocate the stream, take its first node. -/
def fresh (m : Mem T) (scan rotate : Option Nat) (size : Nat) : Option (Mem T × Queue) :=
  (streamNext ⟨m.nodes, m.streams ++ [⟨scan, rotate⟩]⟩ m.streams.length).bind (fun r =>
    some (r.1, ⟨r.2, r.2, some m.streams.length, size, none⟩))

/-- persistent_queue.hpp:79-81 and 90-92: returns the memory and `proc_->next`. -/
def force (m : Mem T) (p : Nat) (stream : Option Nat) : Option (Mem T × Option Nat) :=
  (m.nodes[p]?).bind (fun nd => match nd.next with
    | some q => some (m, some q)
    | none => stream.bind (fun s => (streamNext m s).bind (fun r => (r.1.nodes[p]?).bind (fun nd =>
        some (⟨r.1.nodes.set p { nd with next := r.2 }, r.1.streams⟩, r.2)))))

/-- persistent_queue.hpp:73-84. -/
def push (m : Mem T) (q : Queue) (x : T) : Option (Mem T × Queue) :=
  match q.proc with
  | none => fresh ⟨m.nodes ++ [⟨q.r, x⟩], m.streams⟩ q.f (some m.nodes.length) (q.size + 1)
  | some p => (force m p q.stream).bind (fun r =>
      some (⟨r.1.nodes ++ [⟨q.r, x⟩], r.1.streams⟩, ⟨q.f, r.2, q.stream, q.size + 1, some r.1.nodes.length⟩))

/-- `f_->next`. -/
def nextOf (m : Mem T) (u : Option Nat) : Option (Option Nat) := u.bind (fun p => (m.nodes[p]?).map (·.next))

/-- persistent_queue.hpp:85-94. -/
def pop (m : Mem T) (q : Queue) : Option (Mem T × Queue) :=
  if q.size = 0 then none else
  match q.proc with
  | none => (nextOf m q.f).bind (fun f' => fresh m f' q.r (q.size - 1))
  | some p => (force m p q.stream).bind (fun r => (nextOf r.1 q.f).bind (fun f' =>
      some (r.1, ⟨f', r.2, q.stream, q.size - 1, q.r⟩)))

/-- persistent_queue.hpp:97-98. -/
def empty : Queue := ⟨none, none, none, 0, none⟩

/-- persistent_queue.hpp:101-104. -/
def front (m : Mem T) (q : Queue) : Option T := q.f.bind (fun p => (m.nodes[p]?).map (·.v))

/-! ### Ghost state: the final content of every node -/

def sq (seq : Nat → List T) : Option Nat → List T
  | none => []
  | some p => seq p

/-- What a stream has still to produce. -/
def rem (seq : Nat → List T) (st : Stream) : List T := sq seq st.scan ++ (sq seq st.rotate).reverse

/-- `w` is reached from `u` along evaluated links; a null link is passed only at the true end. -/
inductive Reach (ns : List (Node T)) (seq : Nat → List T) : Option Nat → Option Nat → Prop
  | refl (u) : Reach ns seq u u
  | step {p nd w} : ns[p]? = some nd → (nd.next = none → seq p = [nd.v]) → Reach ns seq nd.next w → Reach ns seq (some p) w

/-- `own p = some s`: node made by stream `s`; `own p = none`: node of a rear list.  `en s`: the node waiting for `s`. -/
structure Inv (m : Mem T) (seq : Nat → List T) (own : Nat → Option Nat) (en : Nat → Nat) : Prop where
  node : ∀ (p : Nat) (nd : Node T), m.nodes[p]? = some nd → ∃ rest, seq p = nd.v :: rest ∧
    (∀ q, nd.next = some q → q < m.nodes.length ∧ seq q = rest ∧ own q = own p) ∧
    (nd.next = none → own p = none → rest = []) ∧
    (∀ s, nd.next = none → own p = some s → ∃ st, m.streams[s]? = some st ∧ rest = rem seq st ∧ (rest ≠ [] → en s = p))
  rear : ∀ p : Nat, p < m.nodes.length → own p = none → (seq p).length ≤ p + 1
  stream : ∀ (s : Nat) (st : Stream), m.streams[s]? = some st → Reach m.nodes seq st.scan none ∧ Reach m.nodes seq st.rotate none ∧
    ∀ p, st.rotate = some p → own p = none

/-- One memory/ghost pair extends another. -/
structure Ext (m m' : Mem T) (seq seq' : Nat → List T) (own own' : Nat → Option Nat) : Prop where
  len : m.nodes.length ≤ m'.nodes.length
  slen : m.streams.length ≤ m'.streams.length
  node : ∀ (p : Nat) (nd : Node T), m.nodes[p]? = some nd → seq' p = seq p ∧ own' p = own p ∧ ∃ nd', m'.nodes[p]? = some nd' ∧
    nd'.v = nd.v ∧ (nd.next ≠ none ∨ seq p = [nd.v] → nd'.next = nd.next)

theorem Ext.refl (m : Mem T) (seq : Nat → List T) (own : Nat → Option Nat) : Ext m m seq seq own own :=
  ⟨Nat.le_refl _, Nat.le_refl _, fun _ nd h => ⟨rfl, rfl, nd, h, rfl, fun _ => rfl⟩⟩

theorem Ext.trans {m m' m'' : Mem T} {seq seq' seq'' : Nat → List T} {own own' own'' : Nat → Option Nat}
    (h : Ext m m' seq seq' own own') (h' : Ext m' m'' seq' seq'' own' own'') : Ext m m'' seq seq'' own own'' := by
  refine ⟨Nat.le_trans h.len h'.len, Nat.le_trans h.slen h'.slen, fun p nd e => ?_⟩
  obtain ⟨a1, a2, nd', a3, a4, a5⟩ := h.node p nd e
  obtain ⟨b1, b2, nd'', b3, b4, b5⟩ := h'.node p nd' a3
  refine ⟨b1.trans a1, b2.trans a2, nd'', b3, b4.trans a4, fun hc => ?_⟩
  rw [← a5 hc]
  apply b5
  rcases hc with hc | hc
  · left; rw [a5 (Or.inl hc)]; exact hc
  · right; rw [a1, a4]; exact hc

theorem Reach.ext {m m' : Mem T} {seq seq' : Nat → List T} {own own' : Nat → Option Nat} (h : Ext m m' seq seq' own own')
    {u w : Option Nat} (hr : Reach m.nodes seq u w) : Reach m'.nodes seq' u w := by
  induction hr with
  | refl u => exact Reach.refl u
  | @step p nd w e hn _ ih =>
    obtain ⟨a1, _, nd', a3, a4, a5⟩ := h.node p nd e
    have hnext : nd'.next = nd.next := by
      apply a5
      by_cases hc : nd.next = none
      · exact Or.inr (hn hc)
      · exact Or.inl hc
    refine Reach.step a3 ?_ (by rw [hnext]; exact ih)
    intro hc
    rw [a1, a4]
    exact hn (hnext ▸ hc)

theorem Reach.trans {ns : List (Node T)} {seq : Nat → List T} {u v w : Option Nat} (h : Reach ns seq u v) (h' : Reach ns seq v w) :
    Reach ns seq u w := by
  induction h with
  | refl u => exact h'
  | step e hn _ ih => exact Reach.step e hn (ih h')

def Valid (m : Mem T) (u : Option Nat) : Prop := ∀ p, u = some p → p < m.nodes.length

theorem Reach.valid {m : Mem T} {seq : Nat → List T} {u : Option Nat} (h : Reach m.nodes seq u none) : Valid m u := by
  intro p hp
  subst hp
  cases h with
  | step e _ _ => exact (List.getElem?_eq_some_iff.1 e).1

theorem sq_ext {m m' : Mem T} {seq seq' : Nat → List T} {own own' : Nat → Option Nat} (h : Ext m m' seq seq' own own')
    {u : Option Nat} (hu : Valid m u) : sq seq' u = sq seq u := by
  cases u with
  | none => rfl
  | some p => exact (h.node p _ (List.getElem?_eq_getElem (hu p rfl))).1

/-- Head of a fully evaluated chain. -/
theorem Inv.head {m : Mem T} {seq : Nat → List T} {own : Nat → Option Nat} {en : Nat → Nat} (h : Inv m seq own en) {p : Nat}
    {w : Option Nat} (hr : Reach m.nodes seq (some p) w) (hne : w ≠ some p) :
    ∃ nd, m.nodes[p]? = some nd ∧ seq p = nd.v :: sq seq nd.next ∧ Reach m.nodes seq nd.next w := by
  cases hr with
  | refl => exact absurd rfl hne
  | step e hn hr' =>
    rename_i nd
    refine ⟨nd, e, ?_, hr'⟩
    obtain ⟨rest, h1, h2, _⟩ := h.node p nd e
    cases hx : nd.next with
    | none => rw [hn hx]; rfl
    | some q => rw [h1, ← (h2 q hx).2.1]; rfl

/-- The nodes made by the rotate loop. -/
def chain (n : Nat) (ret : Option Nat) (ys : List T) : List (Node T) :=
  match ys with
  | [] => []
  | y :: ys => ⟨ret, y⟩ :: chain (n+1) (some n) ys

theorem chain_length : ∀ (ys : List T) (n : Nat) (ret : Option Nat), (chain n ret ys).length = ys.length
  | [], _, _ => rfl
  | _ :: ys, n, _ => by simp [chain, chain_length ys]

theorem chain_get : ∀ (ys : List T) (n : Nat) (ret : Option Nat) (j : Nat) (nd : Node T), (chain n ret ys)[j]? = some nd →
    ys[j]? = some nd.v ∧ nd.next = if j = 0 then ret else some (n + j - 1)
  | [], _, _, j, nd, h => by simp [chain] at h
  | y :: ys, n, ret, 0, nd, h => by simp [chain] at h; subst h; simp
  | y :: ys, n, ret, j+1, nd, h => by
    simp only [chain, List.getElem?_cons_succ] at h
    obtain ⟨h1, h2⟩ := chain_get ys (n+1) (some n) j nd h
    refine ⟨by simpa using h1, ?_⟩
    rw [h2]
    by_cases hj : j = 0
    · subst hj; simp
    · simp [hj]

theorem rotLoop_spec {m : Mem T} {seq : Nat → List T} {own : Nat → Option Nat} {en : Nat → Nat} (h : Inv m seq own en) :
    ∀ (fuel : Nat) (ns : List (Node T)) (ret rot : Option Nat), (∀ (p : Nat) (nd : Node T), m.nodes[p]? = some nd → ns[p]? = some nd) →
      Reach m.nodes seq rot none → (sq seq rot).length ≤ fuel →
      rotLoop fuel ns ret rot = some (ns ++ chain ns.length ret (sq seq rot),
        if (sq seq rot) = [] then ret else some (ns.length + (sq seq rot).length - 1))
  | fuel, ns, ret, none, _, _, _ => by cases fuel <;> simp [rotLoop, sq, chain]
  | fuel, ns, ret, some p, hpre, hr, hf => by
    obtain ⟨nd, e, hs, hr'⟩ := h.head hr (by simp)
    have hsq : sq seq (some p) = nd.v :: sq seq nd.next := hs
    rw [hsq] at hf ⊢
    cases fuel with
    | zero => simp at hf
    | succ fuel =>
      have ih := rotLoop_spec h fuel (ns ++ [⟨ret, nd.v⟩]) (some ns.length) nd.next (by
        intro q x hx
        have := hpre q x hx
        rw [List.getElem?_append_left (List.getElem?_eq_some_iff.1 this).1]; exact this) hr' (by simpa using hf)
      simp only [rotLoop, hpre p nd e, Option.bind_some, ih]
      simp only [List.append_assoc, List.length_append, List.length_singleton, chain, List.singleton_append, List.length_cons]
      congr 2
      by_cases hc : sq seq nd.next = []
      · simp [hc]
      · simp [hc]

theorem rotLen {m : Mem T} {seq : Nat → List T} {own : Nat → Option Nat} {en : Nat → Nat} (h : Inv m seq own en) {s : Nat} {st : Stream}
    (hs : m.streams[s]? = some st) : (sq seq st.rotate).length ≤ m.nodes.length := by
  obtain ⟨_, h2, h3⟩ := h.stream s st hs
  cases hr : st.rotate with
  | none => simp [sq]
  | some p =>
    have hp := h2.valid p hr
    have := h.rear p hp (h3 p hr)
    simp only [sq]; omega

/-- Allocating a rear node. -/
theorem alloc_rear {m : Mem T} {seq : Nat → List T} {own : Nat → Option Nat} {en : Nat → Nat} (h : Inv m seq own en) (r : Option Nat) (x : T)
    (hr : Reach m.nodes seq r none) (hro : ∀ p, r = some p → own p = none) :
    ∃ seq' own', Inv ⟨m.nodes ++ [⟨r, x⟩], m.streams⟩ seq' own' en ∧ Ext m ⟨m.nodes ++ [⟨r, x⟩], m.streams⟩ seq seq' own own' ∧
      seq' m.nodes.length = x :: sq seq r ∧ own' m.nodes.length = none ∧
      Reach (m.nodes ++ [⟨r, x⟩]) seq' (some m.nodes.length) none := by
  let seq' : Nat → List T := fun p => if p = m.nodes.length then x :: sq seq r else seq p
  let own' : Nat → Option Nat := fun p => if p = m.nodes.length then none else own p
  have hlt : ∀ {p : Nat} {nd : Node T}, m.nodes[p]? = some nd → p < m.nodes.length := fun e => (List.getElem?_eq_some_iff.1 e).1
  have hseq : ∀ p, p < m.nodes.length → seq' p = seq p := fun p hp => if_neg (by omega)
  have hown : ∀ p, p < m.nodes.length → own' p = own p := fun p hp => if_neg (by omega)
  have hext : Ext m ⟨m.nodes ++ [⟨r, x⟩], m.streams⟩ seq seq' own own' := by
    refine ⟨by simp, Nat.le_refl _, fun p nd e => ⟨hseq p (hlt e), hown p (hlt e), nd, ?_, rfl, fun _ => rfl⟩⟩
    simp only
    rw [List.getElem?_append_left (hlt e)]; exact e
  have hself : seq' m.nodes.length = x :: sq seq r := if_pos rfl
  have hsq : sq seq' r = sq seq r := sq_ext hext hr.valid
  have hnew : (m.nodes ++ [(⟨r, x⟩ : Node T)])[m.nodes.length]? = some ⟨r, x⟩ := by simp
  refine ⟨seq', own', ⟨?_, ?_, ?_⟩, hext, hself, if_pos rfl, ?_⟩
  · intro p nd e
    simp only at e
    by_cases hp : p < m.nodes.length
    · rw [List.getElem?_append_left hp] at e
      obtain ⟨rest, h1, h2, h3, h4⟩ := h.node p nd e
      rw [hseq p hp, hown p hp]
      refine ⟨rest, h1, fun q hq => ?_, h3, fun s hn ho => ?_⟩
      · obtain ⟨a, b, c⟩ := h2 q hq
        rw [hseq q a, hown q a]
        exact ⟨by simp; omega, b, c⟩
      · obtain ⟨st, a, b, c⟩ := h4 s hn ho
        refine ⟨st, a, ?_, c⟩
        rw [b]
        unfold rem
        rw [sq_ext hext (h.stream s st a).1.valid, sq_ext hext (h.stream s st a).2.1.valid]
    · have hpe : p = m.nodes.length := by
        have := (List.getElem?_eq_some_iff.1 e).1
        simp at this; omega
      subst hpe
      rw [hnew] at e
      simp only [Option.some.injEq] at e
      subst e
      refine ⟨sq seq r, hself, fun q hq => ?_, fun hn _ => ?_, fun s hn ho => ?_⟩
      · simp only at hq
        have hq' := hr.valid q hq
        refine ⟨by simp; omega, ?_, ?_⟩
        · rw [hseq q hq', hq]; rfl
        · rw [hown q hq', hro q hq, show own' m.nodes.length = none from if_pos rfl]
      · simp only at hn; rw [hn]; rfl
      · rw [show own' m.nodes.length = none from if_pos rfl] at ho; simp at ho
  · intro p hp ho
    simp only [List.length_append, List.length_singleton] at hp
    by_cases hp' : p < m.nodes.length
    · rw [hseq p hp']; rw [hown p hp'] at ho; exact h.rear p hp' ho
    · have hpe : p = m.nodes.length := by omega
      subst hpe
      rw [hself]
      cases hrr : r with
      | none => simp [sq]
      | some q =>
        have := hr.valid q hrr
        have h2 := h.rear q this (hro q hrr)
        simp only [sq, List.length_cons]; omega
  · intro s st hs
    obtain ⟨a, b, c⟩ := h.stream s st hs
    refine ⟨a.ext hext, b.ext hext, fun p hp => ?_⟩
    rw [hown p (b.valid p hp)]; exact c p hp
  · refine Reach.step hnew ?_ ?_
    · intro hn
      simp only at hn
      rw [hself, hn]; rfl
    · exact hr.ext hext

/-- Everything `stream->next()` does, on a memory where the waiting node `p` (if any) is then linked by the caller. -/
theorem next_spec {m : Mem T} {seq : Nat → List T} {own : Nat → Option Nat} {en : Nat → Nat} (h : Inv m seq own en) {s : Nat} {st : Stream}
    (hs : m.streams[s]? = some st) (w : Option Nat)
    (hw : ∀ (p : Nat) (nd : Node T), m.nodes[p]? = some nd → nd.next = none → own p = some s → rem seq st ≠ [] → w = some p)
    (hwv : ∀ p, w = some p → ∃ nd, m.nodes[p]? = some nd ∧ nd.next = none ∧ own p = some s) :
    ∃ m1 ret seq' own' en', streamNext m s = some (m1, ret) ∧ sq seq' ret = rem seq st ∧
      (∀ q, ret = some q → own' q = some s ∧ q < m1.nodes.length ∧ m.nodes.length ≤ q) ∧
      (∀ (p : Nat) (nd : Node T), m.nodes[p]? = some nd → m1.nodes[p]? = some nd) ∧
      (∀ ns, (∀ p : Nat, w ≠ some p → ns[p]? = m1.nodes[p]?) →
        (∀ p, w = some p → ∃ nd, m.nodes[p]? = some nd ∧ ns[p]? = some { nd with next := ret }) → ns.length = m1.nodes.length →
        Inv ⟨ns, m1.streams⟩ seq' own' en' ∧ Ext m ⟨ns, m1.streams⟩ seq seq' own own') := by
  obtain ⟨hscan, hrot, hro⟩ := h.stream s st hs
  have hlt : ∀ {p : Nat} {nd : Node T}, m.nodes[p]? = some nd → p < m.nodes.length := fun e => (List.getElem?_eq_some_iff.1 e).1
  have hsl : s < m.streams.length := (List.getElem?_eq_some_iff.1 hs).1
  cases hsc : st.scan with
  | some a =>
    rw [hsc] at hscan
    obtain ⟨na, ea, hsa, hra⟩ := h.head hscan (by simp)
    have hrem : rem seq st = na.v :: rem seq { st with scan := na.next } := by
      unfold rem; rw [hsc]; simp only [sq, hsa]; rfl
    let n := m.nodes.length
    let seq' : Nat → List T := fun p => if p = n then rem seq st else seq p
    let own' : Nat → Option Nat := fun p => if p = n then some s else own p
    let en' : Nat → Nat := fun t => if t = s then n else en t
    have hseq : ∀ p, p < n → seq' p = seq p := fun p hp => if_neg (by omega)
    have hown : ∀ p, p < n → own' p = own p := fun p hp => if_neg (by omega)
    refine ⟨⟨m.nodes ++ [⟨none, na.v⟩], m.streams.set s { st with scan := na.next }⟩, some n, seq', own', en', ?_, ?_, ?_, ?_, ?_⟩
    · simp [streamNext, hs, hsc, ea, n]
    · show seq' n = _
      exact if_pos rfl
    · intro q hq
      simp only [Option.some.injEq] at hq
      subst hq
      exact ⟨if_pos rfl, by simp [n], Nat.le_refl _⟩
    · intro p nd e
      simp only
      rw [List.getElem?_append_left (hlt e)]; exact e
    · intro ns hns hnw hlen
      simp only [List.length_append, List.length_singleton] at hlen hns
      have hext : Ext m ⟨ns, m.streams.set s { st with scan := na.next }⟩ seq seq' own own' := by
        refine ⟨by simp only; omega, by simp, fun p nd e => ⟨hseq p (hlt e), hown p (hlt e), ?_⟩⟩
        by_cases hwp : w = some p
        · obtain ⟨nd', e', en2⟩ := hnw p hwp
          rw [e] at e'
          simp only [Option.some.injEq] at e'
          subst e'
          refine ⟨_, en2, rfl, fun hc => ?_⟩
          obtain ⟨nd2, e2, hn2, ho2⟩ := hwv p hwp
          rw [e] at e2
          simp only [Option.some.injEq] at e2
          subst e2
          obtain ⟨rest, h1, _, _, h4⟩ := h.node p nd e
          obtain ⟨st', hst', hrest, _⟩ := h4 s hn2 ho2
          rw [hs] at hst'
          simp only [Option.some.injEq] at hst'
          subst hst'
          rcases hc with hc | hc
          · exact absurd hn2 hc
          · rw [h1, hrest, hrem] at hc; simp at hc
        · refine ⟨nd, ?_, rfl, fun _ => rfl⟩
          simp only
          rw [hns p hwp, List.getElem?_append_left (hlt e)]; exact e
      have hremext : ∀ (t : Nat) (st' : Stream), m.streams[t]? = some st' → rem seq' st' = rem seq st' := by
        intro t st' e
        unfold rem
        rw [sq_ext hext (h.stream t st' e).1.valid, sq_ext hext (h.stream t st' e).2.1.valid]
      have hrem' : rem seq' { st with scan := na.next } = rem seq { st with scan := na.next } := by
        unfold rem
        simp only
        rw [sq_ext hext hra.valid, sq_ext hext hrot.valid]
      have hwn : w ≠ some n := by
        intro hc
        obtain ⟨nd, e, _⟩ := hwv n hc
        exact absurd (hlt e) (by simp [n])
      refine ⟨⟨?_, ?_, ?_⟩, hext⟩
      · intro p nd e
        simp only at e
        have hpl : p < n + 1 := by
          have := (List.getElem?_eq_some_iff.1 e).1
          omega
        by_cases hwp : w = some p
        · obtain ⟨nd0, e0, en2⟩ := hnw p hwp
          rw [en2] at e
          simp only [Option.some.injEq] at e
          subst e
          obtain ⟨nd2, e2, hn2, ho2⟩ := hwv p hwp
          rw [e0] at e2
          simp only [Option.some.injEq] at e2
          subst e2
          obtain ⟨rest, h1, _, _, h4⟩ := h.node p nd0 e0
          obtain ⟨st', hst', hrest, _⟩ := h4 s hn2 ho2
          rw [hs] at hst'
          simp only [Option.some.injEq] at hst'
          subst hst'
          refine ⟨rest, by rw [hseq p (hlt e0)]; exact h1, fun q hq => ?_, fun hn => by simp at hn, fun t hn => by simp at hn⟩
          simp only [Option.some.injEq] at hq
          subst hq
          refine ⟨by simp only; omega, by rw [hrest]; exact if_pos rfl, ?_⟩
          rw [hown p (hlt e0), ho2]; exact if_pos rfl
        · rw [hns p hwp] at e
          by_cases hp : p < n
          · rw [List.getElem?_append_left hp] at e
            obtain ⟨rest, h1, h2, h3, h4⟩ := h.node p nd e
            rw [hseq p hp, hown p hp]
            refine ⟨rest, h1, fun q hq => ?_, h3, fun t hn ho => ?_⟩
            · obtain ⟨x, y, z⟩ := h2 q hq
              rw [hseq q x, hown q x]
              exact ⟨by simp only; omega, y, z⟩
            · obtain ⟨st', x, y, z⟩ := h4 t hn ho
              by_cases hts : t = s
              · subst hts
                rw [hs] at x
                simp only [Option.some.injEq] at x
                subst x
                exact absurd (hw p nd e hn ho (by rw [hrem]; simp)) hwp
              · refine ⟨st', ?_, by rw [y, hremext t st' x], fun hr => ?_⟩
                · simp only
                  rw [List.getElem?_set_ne (Ne.symm hts)]; exact x
                · show (if t = s then n else en t) = p
                  rw [if_neg hts]; exact z hr
          · have hpe : p = n := by omega
            subst hpe
            have hnew : (m.nodes ++ [(⟨none, na.v⟩ : Node T)])[n]? = some ⟨none, na.v⟩ := by simp [n]
            rw [hnew] at e
            simp only [Option.some.injEq] at e
            subst e
            refine ⟨rem seq { st with scan := na.next }, ?_, fun q hq => by simp at hq, fun _ ho => ?_, fun t _ ho => ?_⟩
            · show (if n = n then rem seq st else seq n) = _
              rw [if_pos rfl]; exact hrem
            · rw [show own' n = some s from if_pos rfl] at ho; simp at ho
            · rw [show own' n = some s from if_pos rfl] at ho
              simp only [Option.some.injEq] at ho
              subst ho
              exact ⟨_, List.getElem?_set_self hsl, hrem'.symm, fun _ => if_pos rfl⟩
      · intro p hp ho
        simp only at hp
        by_cases hp' : p < n
        · rw [hseq p hp']; rw [hown p hp'] at ho; exact h.rear p hp' ho
        · have hpe : p = n := by omega
          subst hpe
          rw [show own' n = some s from if_pos rfl] at ho; simp at ho
      · intro t st' e
        simp only at e
        by_cases hts : t = s
        · subst hts
          rw [List.getElem?_set_self hsl] at e
          simp only [Option.some.injEq] at e
          subst e
          refine ⟨hra.ext hext, hrot.ext hext, fun p hp => ?_⟩
          rw [hown p (hrot.valid p hp)]; exact hro p hp
        · rw [List.getElem?_set_ne (Ne.symm hts)] at e
          obtain ⟨x, y, z⟩ := h.stream t st' e
          refine ⟨x.ext hext, y.ext hext, fun p hp => ?_⟩
          rw [hown p (y.valid p hp)]; exact z p hp
  | none =>
    have hrem : rem seq st = (sq seq st.rotate).reverse := by unfold rem; rw [hsc]; rfl
    have hloop := rotLoop_spec h m.nodes.length m.nodes none st.rotate (fun _ _ e => e) hrot (rotLen h hs)
    generalize hys : sq seq st.rotate = ys at *
    let n := m.nodes.length
    let seq' : Nat → List T := fun p => if p < n then seq p else (ys.take (p - n + 1)).reverse
    let own' : Nat → Option Nat := fun p => if p < n then own p else some s
    have hseq : ∀ p, p < n → seq' p = seq p := fun p hp => if_pos hp
    have hown : ∀ p, p < n → own' p = own p := fun p hp => if_pos hp
    have hseq2 : ∀ p, n ≤ p → seq' p = (ys.take (p - n + 1)).reverse := fun p hp => if_neg (by omega)
    have hown2 : ∀ p, n ≤ p → own' p = some s := fun p hp => if_neg (by omega)
    refine ⟨⟨m.nodes ++ chain n none ys, m.streams.set s { st with rotate := none }⟩,
      if ys = [] then none else some (n + ys.length - 1), seq', own', en, ?_, ?_, ?_, ?_, ?_⟩
    · simp only [streamNext, hs, Option.bind_some, hsc, hloop]; rfl
    · rw [hrem]
      by_cases hy : ys = []
      · simp [hy, sq]
      · rw [if_neg hy]
        have : 0 < ys.length := List.length_pos_iff.2 hy
        show seq' (n + ys.length - 1) = _
        rw [hseq2 _ (by omega), show n + ys.length - 1 - n + 1 = ys.length by omega, List.take_length]
    · intro q hq
      by_cases hy : ys = []
      · simp [hy] at hq
      · rw [if_neg hy] at hq
        simp only [Option.some.injEq] at hq
        have : 0 < ys.length := List.length_pos_iff.2 hy
        exact ⟨hown2 q (by omega), by simp [chain_length]; omega, by omega⟩
    · intro p nd e
      simp only
      rw [List.getElem?_append_left (hlt e)]; exact e
    · intro ns hns hnw hlen
      simp only [List.length_append, chain_length] at hlen hns
      have hext : Ext m ⟨ns, m.streams.set s { st with rotate := none }⟩ seq seq' own own' := by
        refine ⟨by simp only; omega, by simp, fun p nd e => ⟨hseq p (hlt e), hown p (hlt e), ?_⟩⟩
        by_cases hwp : w = some p
        · obtain ⟨nd', e', en2⟩ := hnw p hwp
          rw [e] at e'
          simp only [Option.some.injEq] at e'
          subst e'
          refine ⟨_, en2, rfl, fun hc => ?_⟩
          obtain ⟨nd2, e2, hn2, ho2⟩ := hwv p hwp
          rw [e] at e2
          simp only [Option.some.injEq] at e2
          subst e2
          obtain ⟨rest, h1, _, _, h4⟩ := h.node p nd e
          obtain ⟨st', hst', hrest, _⟩ := h4 s hn2 ho2
          rw [hs] at hst'
          simp only [Option.some.injEq] at hst'
          subst hst'
          rcases hc with hc | hc
          · exact absurd hn2 hc
          · rw [h1, hrest, hrem] at hc
            have : ys = [] := by simpa using hc
            simp only [this, if_true]; exact hn2.symm
        · refine ⟨nd, ?_, rfl, fun _ => rfl⟩
          simp only
          rw [hns p hwp, List.getElem?_append_left (hlt e)]; exact e
      have hremext : ∀ (t : Nat) (st' : Stream), m.streams[t]? = some st' → rem seq' st' = rem seq st' := by
        intro t st' e
        unfold rem
        rw [sq_ext hext (h.stream t st' e).1.valid, sq_ext hext (h.stream t st' e).2.1.valid]
      have hrem' : rem seq' { st with rotate := none } = [] := by
        unfold rem; simp [hsc, sq]
      refine ⟨⟨?_, ?_, ?_⟩, hext⟩
      · intro p nd e
        simp only at e
        have hpl : p < n + ys.length := by
          have := (List.getElem?_eq_some_iff.1 e).1
          omega
        by_cases hwp : w = some p
        · obtain ⟨nd0, e0, en2⟩ := hnw p hwp
          rw [en2] at e
          simp only [Option.some.injEq] at e
          subst e
          obtain ⟨nd2, e2, hn2, ho2⟩ := hwv p hwp
          rw [e0] at e2
          simp only [Option.some.injEq] at e2
          subst e2
          obtain ⟨rest, h1, _, _, h4⟩ := h.node p nd0 e0
          obtain ⟨st', hst', hrest, _⟩ := h4 s hn2 ho2
          rw [hs] at hst'
          simp only [Option.some.injEq] at hst'
          subst hst'
          rw [hrem] at hrest
          by_cases hy : ys = []
          · refine ⟨rest, by rw [hseq p (hlt e0)]; exact h1, fun q hq => ?_, fun _ _ => ?_, fun t _ ho => ?_⟩
            · simp [hy] at hq
            · rw [hrest, hy]; rfl
            · rw [hown p (hlt e0), ho2] at ho
              simp only [Option.some.injEq] at ho
              subst ho
              refine ⟨_, List.getElem?_set_self hsl, ?_, fun hr => ?_⟩
              · rw [hrem', hrest, hy]; rfl
              · rw [hrest, hy] at hr; simp at hr
          · have : 0 < ys.length := List.length_pos_iff.2 hy
            refine ⟨rest, by rw [hseq p (hlt e0)]; exact h1, fun q hq => ?_, fun hn => by simp [hy] at hn, fun t hn => by simp [hy] at hn⟩
            simp only [if_neg hy, Option.some.injEq] at hq
            subst hq
            refine ⟨by simp only; omega, ?_, ?_⟩
            · rw [hseq2 _ (by omega), show n + ys.length - 1 - n + 1 = ys.length by omega, List.take_length, hrest]
            · rw [hown p (hlt e0), ho2]; exact hown2 _ (by omega)
        · rw [hns p hwp] at e
          by_cases hp : p < n
          · rw [List.getElem?_append_left hp] at e
            obtain ⟨rest, h1, h2, h3, h4⟩ := h.node p nd e
            rw [hseq p hp, hown p hp]
            refine ⟨rest, h1, fun q hq => ?_, h3, fun t hn ho => ?_⟩
            · obtain ⟨x, y, z⟩ := h2 q hq
              rw [hseq q x, hown q x]
              exact ⟨by simp only; omega, y, z⟩
            · obtain ⟨st', x, y, z⟩ := h4 t hn ho
              by_cases hts : t = s
              · subst hts
                rw [hs] at x
                simp only [Option.some.injEq] at x
                subst x
                by_cases hy : rem seq st = []
                · refine ⟨_, List.getElem?_set_self hsl, by rw [y, hy, hrem'], fun hr => absurd (y.trans hy) hr⟩
                · exact absurd (hw p nd e hn ho hy) hwp
              · refine ⟨st', ?_, by rw [y, hremext t st' x], z⟩
                simp only
                rw [List.getElem?_set_ne (Ne.symm hts)]; exact x
          · rw [List.getElem?_append_right (by omega)] at e
            obtain ⟨c1, c2⟩ := chain_get _ _ _ _ _ e
            obtain ⟨hjl, hje⟩ := List.getElem?_eq_some_iff.1 c1
            refine ⟨(ys.take (p - n)).reverse, ?_, fun q hq => ?_, fun _ ho => ?_, fun t hn ho => ?_⟩
            · rw [hseq2 p (by omega), List.take_succ_eq_append_getElem hjl, List.reverse_append, hje]; rfl
            · rw [c2] at hq
              by_cases hj : p - m.nodes.length = 0
              · simp [hj] at hq
              · rw [if_neg hj] at hq
                simp only [Option.some.injEq] at hq
                subst hq
                have hj' : p - n ≠ 0 := hj
                refine ⟨by simp only; omega, ?_, ?_⟩
                · rw [hseq2 _ (by omega)]
                  show (List.take (n + (p - n) - 1 - n + 1) ys).reverse = _
                  rw [show n + (p - n) - 1 - n + 1 = p - n by omega]
                · rw [hown2 _ (by omega), hown2 _ (by omega)]
            · rw [hown2 p (by omega)] at ho; simp at ho
            · rw [hown2 p (by omega)] at ho
              simp only [Option.some.injEq] at ho
              subst ho
              rw [c2] at hn
              have hj : p - m.nodes.length = 0 := by
                by_cases hj : p - m.nodes.length = 0
                · exact hj
                · simp [hj] at hn
              have hj' : p - n = 0 := hj
              refine ⟨_, List.getElem?_set_self hsl, ?_, fun hr => ?_⟩
              · rw [hrem', hj']; rfl
              · rw [hj'] at hr; simp at hr
      · intro p hp ho
        simp only at hp
        by_cases hp' : p < n
        · rw [hseq p hp']; rw [hown p hp'] at ho; exact h.rear p hp' ho
        · rw [hown2 p (by omega)] at ho; simp at ho
      · intro t st' e
        simp only at e
        by_cases hts : t = s
        · subst hts
          rw [List.getElem?_set_self hsl] at e
          simp only [Option.some.injEq] at e
          subst e
          refine ⟨?_, Reach.refl _, fun p hp => by simp at hp⟩
          simp only [hsc]; exact Reach.refl _
        · rw [List.getElem?_set_ne (Ne.symm hts)] at e
          obtain ⟨x, y, z⟩ := h.stream t st' e
          refine ⟨x.ext hext, y.ext hext, fun p hp => ?_⟩
          rw [hown p (y.valid p hp)]; exact z p hp

/-- Lines 79-81/90-92: after forcing, `p` has its real successor. -/
theorem force_spec {m : Mem T} {seq : Nat → List T} {own : Nat → Option Nat} {en : Nat → Nat} (h : Inv m seq own en) {p s : Nat}
    (hp : p < m.nodes.length) (ho : own p = some s) :
    ∃ m' u seq' own' en' nd, force m p (some s) = some (m', u) ∧ Inv m' seq' own' en' ∧ Ext m m' seq seq' own own' ∧
      m'.nodes[p]? = some nd ∧ nd.next = u ∧ (u = none → seq' p = [nd.v]) := by
  have e : m.nodes[p]? = some m.nodes[p] := List.getElem?_eq_getElem hp
  generalize m.nodes[p] = nd at e
  obtain ⟨rest, h1, h2, h3, h4⟩ := h.node p nd e
  cases hn : nd.next with
  | some q =>
    exact ⟨m, some q, seq, own, en, nd, by simp [force, e, hn], h, Ext.refl _ _ _, e, hn, fun hc => by simp at hc⟩
  | none =>
    obtain ⟨st, hs, hrest, hen⟩ := h4 s hn ho
    obtain ⟨m1, ret, seq', own', en', a1, a2, a3, a4, a5⟩ := next_spec h hs (some p) (by
      intro p' nd' e' hn' ho' hne
      obtain ⟨rest', _, _, _, h4'⟩ := h.node p' nd' e'
      obtain ⟨st', hs', hrest', hen'⟩ := h4' s hn' ho'
      rw [hs] at hs'
      simp only [Option.some.injEq] at hs'
      subst hs'
      rw [← hen' (by rw [hrest']; exact hne), hen (by rw [hrest]; exact hne)]) (by
      intro p' hp'
      simp only [Option.some.injEq] at hp'
      subst hp'
      exact ⟨nd, e, hn, ho⟩)
    have e1 : m1.nodes[p]? = some nd := a4 p nd e
    have hl1 : p < m1.nodes.length := (List.getElem?_eq_some_iff.1 e1).1
    obtain ⟨hinv, hext⟩ := a5 (m1.nodes.set p { nd with next := ret }) (by
      intro p' hp'
      have : p ≠ p' := fun hc => hp' (by rw [hc])
      rw [List.getElem?_set_ne this]) (by
      intro p' hp'
      simp only [Option.some.injEq] at hp'
      subst hp'
      exact ⟨nd, e, List.getElem?_set_self hl1⟩) (by simp)
    refine ⟨_, ret, seq', own', en', { nd with next := ret }, ?_, hinv, hext, List.getElem?_set_self hl1, rfl, ?_⟩
    · simp [force, e, hn, a1, e1]
    · intro hc
      rw [(hext.node p nd e).1, h1, hrest, ← a2, hc]
      rfl

/-- What one version denotes. -/
structure Den (m : Mem T) (seq : Nat → List T) (own : Nat → Option Nat) (q : Queue) (xs : List T) : Prop where
  cont : xs = sq seq q.f ++ (sq seq q.r).reverse
  size : q.size = xs.length
  rear : Reach m.nodes seq q.r none
  rearOwn : ∀ p, q.r = some p → own p = none
  sched : Reach m.nodes seq q.f q.proc
  len : (sq seq q.proc).length + (sq seq q.r).length = (sq seq q.f).length
  fv : Valid m q.f
  proc : ∀ p, q.proc = some p → p < m.nodes.length ∧ ∃ s, own p = some s ∧ q.stream = some s ∧ s < m.streams.length

theorem Reach.valid' {m : Mem T} {seq : Nat → List T} {own : Nat → Option Nat} {en : Nat → Nat} (h : Inv m seq own en) {u w : Option Nat}
    (hr : Reach m.nodes seq u w) (hu : Valid m u) : Valid m w := by
  induction hr with
  | refl => exact hu
  | @step p nd w e hn _ ih =>
    apply ih
    intro q hq
    obtain ⟨rest, _, h2, _⟩ := h.node p nd e
    exact (h2 q hq).1

theorem Den.ext {m m' : Mem T} {seq seq' : Nat → List T} {own own' : Nat → Option Nat} {q : Queue} {xs : List T}
    (hd : Den m seq own q xs) (he : Ext m m' seq seq' own own') : Den m' seq' own' q xs := by
  have hpv : Valid m q.proc := fun p hp => (hd.proc p hp).1
  have hr := hd.rear.valid
  refine ⟨?_, hd.size, hd.rear.ext he, ?_, hd.sched.ext he, ?_, ?_, ?_⟩
  · rw [sq_ext he hd.fv, sq_ext he hr]; exact hd.cont
  · intro p hp
    rw [(he.node p _ (List.getElem?_eq_getElem (hr p hp))).2.1]; exact hd.rearOwn p hp
  · rw [sq_ext he hd.fv, sq_ext he hr, sq_ext he hpv]; exact hd.len
  · intro p hp; exact Nat.lt_of_lt_of_le (hd.fv p hp) he.len
  · intro p hp
    obtain ⟨a, s, b, c, d⟩ := hd.proc p hp
    exact ⟨Nat.lt_of_lt_of_le a he.len, s, by rw [(he.node p _ (List.getElem?_eq_getElem a)).2.1]; exact b, c,
      Nat.lt_of_lt_of_le d he.slen⟩

/-- Lines 62-67. -/
theorem fresh_spec {m : Mem T} {seq : Nat → List T} {own : Nat → Option Nat} {en : Nat → Nat} (h : Inv m seq own en)
    (f r : Option Nat) (n : Nat)
    (hf : Reach m.nodes seq f none) (hr : Reach m.nodes seq r none) (hro : ∀ p, r = some p → own p = none)
    (hn : n = (sq seq f ++ (sq seq r).reverse).length) :
    ∃ m' q seq' own' en', fresh m f r n = some (m', q) ∧ Inv m' seq' own' en' ∧ Ext m m' seq seq' own own' ∧
      Den m' seq' own' q (sq seq f ++ (sq seq r).reverse) := by
  have hold : ∀ {t : Nat} {st : Stream}, m.streams[t]? = some st → (m.streams ++ [⟨f, r⟩])[t]? = some st := by
    intro t st e
    rw [List.getElem?_append_left (List.getElem?_eq_some_iff.1 e).1]; exact e
  have h0 : Inv ⟨m.nodes, m.streams ++ [⟨f, r⟩]⟩ seq own en := by
    refine ⟨fun p nd e => ?_, h.rear, fun t st e => ?_⟩
    · obtain ⟨rest, h1, h2, h3, h4⟩ := h.node p nd e
      refine ⟨rest, h1, h2, h3, fun t hn ho => ?_⟩
      obtain ⟨st, a, b⟩ := h4 t hn ho
      exact ⟨st, hold a, b⟩
    · by_cases ht : t < m.streams.length
      · simp only at e
        rw [List.getElem?_append_left ht] at e
        exact h.stream t st e
      · have := (List.getElem?_eq_some_iff.1 e).1
        simp at this
        have : t = m.streams.length := by omega
        subst this
        simp at e
        subst e
        exact ⟨hf, hr, hro⟩
  have hs : (m.streams ++ [(⟨f, r⟩ : Stream)])[m.streams.length]? = some ⟨f, r⟩ := by simp
  obtain ⟨m1, ret, seq', own', en', a1, a2, a3, a4, a5⟩ := next_spec h0 (s := m.streams.length) hs none (by
    intro p nd e hn ho _
    obtain ⟨rest, _, _, _, h4⟩ := h.node p nd e
    obtain ⟨st, a, _⟩ := h4 _ hn ho
    exact absurd (List.getElem?_eq_some_iff.1 a).1 (by simp)) (fun p hp => by simp at hp)
  obtain ⟨hinv, hext⟩ := a5 m1.nodes (fun _ _ => rfl) (fun p hp => by simp at hp) rfl
  have he : Ext m m1 seq seq' own own' := ⟨hext.len, by have := hext.slen; simp at this; omega, hext.node⟩
  refine ⟨m1, ⟨ret, ret, some m.streams.length, n, none⟩, seq', own', en', by simp [fresh, a1], hinv, he, ?_⟩
  have hrem : rem seq ⟨f, r⟩ = sq seq f ++ (sq seq r).reverse := rfl
  rw [hrem] at a2
  refine ⟨?_, hn, Reach.refl _, fun p hp => by simp at hp, Reach.refl _, rfl, fun q hq => (a3 q hq).2.1, fun q hq => ?_⟩
  · show _ = sq seq' ret ++ (sq seq' none).reverse
    rw [a2]; simp [show sq seq' none = [] from rfl]
  · obtain ⟨b1, b2, _⟩ := a3 q hq
    exact ⟨b2, _, b1, rfl, by have := hext.slen; simp at this; omega⟩

/-- Lines 73-84. -/
theorem push_spec {m : Mem T} {seq : Nat → List T} {own : Nat → Option Nat} {en : Nat → Nat} (h : Inv m seq own en) {q : Queue} {xs : List T}
    (hd : Den m seq own q xs) (x : T) :
    ∃ m' q' seq' own' en', push m q x = some (m', q') ∧ Inv m' seq' own' en' ∧ Ext m m' seq seq' own own' ∧ Den m' seq' own' q' (xs ++ [x]) := by
  cases hp : q.proc with
  | none =>
    obtain ⟨seq1, own1, i1, e1, s1, o1, r1⟩ := alloc_rear h q.r x hd.rear hd.rearOwn
    have hf : Reach m.nodes seq q.f none := by have := hd.sched; rwa [hp] at this
    have hsf : sq seq1 q.f = sq seq q.f := sq_ext e1 hd.fv
    have hc : sq seq1 q.f ++ (sq seq1 (some m.nodes.length)).reverse = xs ++ [x] := by
      rw [hsf]; simp only [sq, s1, List.reverse_cons, hd.cont, List.append_assoc]
    obtain ⟨m', q', seq', own', en', a1, a2, a3, a4⟩ := fresh_spec i1 q.f (some m.nodes.length) (q.size + 1) (hf.ext e1) r1
      (fun p hp => by simp only [Option.some.injEq] at hp; subst hp; exact o1) (by rw [hc, hd.size]; simp)
    rw [hc] at a4
    exact ⟨m', q', seq', own', en', by simp only [push, hp]; exact a1, a2, e1.trans a3, a4⟩
  | some p =>
    obtain ⟨hpl, s, ho, hst, hsl⟩ := hd.proc p hp
    obtain ⟨m1, u, seq1, own1, en1, nd, b1, b2, b3, b4, b5, b6⟩ := force_spec h hpl ho
    have hd1 := hd.ext b3
    obtain ⟨seq2, own2, i2, e2, s2, o2, r2⟩ := alloc_rear b2 q.r x hd1.rear hd1.rearOwn
    have hd2 := hd1.ext e2
    obtain ⟨rest, n1, n2, _⟩ := b2.node p nd b4
    have hpu : seq1 p = nd.v :: sq seq1 u := by
      cases u with
      | none => exact b6 rfl
      | some w => rw [n1, ← (n2 w b5).2.1]; rfl
    have huv : Valid m1 u := by
      intro w hw; subst hw; exact (n2 w b5).1
    have hru : Reach m1.nodes seq1 (some p) u := by
      refine Reach.step b4 (fun hn => ?_) (b5 ▸ Reach.refl _)
      rw [b5] at hn; exact b6 hn
    refine ⟨⟨m1.nodes ++ [⟨q.r, x⟩], m1.streams⟩, ⟨q.f, u, q.stream, q.size + 1, some m1.nodes.length⟩, seq2, own2, en1,
      by simp only [push, hp, hst, b1, Option.bind_some], i2, b3.trans e2, ?_⟩
    refine ⟨?_, by simp [hd.size], r2, fun p hp => by simp only [Option.some.injEq] at hp; subst hp; exact o2, ?_, ?_, hd2.fv, ?_⟩
    · show xs ++ [x] = sq seq2 q.f ++ (seq2 m1.nodes.length).reverse
      rw [s2, sq_ext e2 hd1.fv]
      simp only [List.reverse_cons]
      rw [← List.append_assoc, ← hd1.cont]
    · have := hd1.sched
      rw [hp] at this
      exact (this.trans hru).ext e2
    · show (sq seq2 u).length + (seq2 m1.nodes.length).length = (sq seq2 q.f).length
      have hl := hd1.len
      rw [hp] at hl
      simp only [sq] at hl
      rw [hpu] at hl
      rw [s2, sq_ext e2 hd1.fv, sq_ext e2 huv]
      simp only [List.length_cons] at hl ⊢
      simp only [sq] at hl ⊢
      omega
    · intro w hw
      simp only at hw
      subst hw
      have hwl := (n2 w b5).1
      refine ⟨by simp; omega, s, ?_, hst, Nat.lt_of_lt_of_le hsl (Nat.le_trans b3.slen e2.slen)⟩
      rw [(e2.node w _ (List.getElem?_eq_getElem hwl)).2.1, (n2 w b5).2.2, (b3.node p _ (List.getElem?_eq_getElem hpl)).2.1]
      exact ho

/-- Lines 85-94. -/
theorem pop_spec {m : Mem T} {seq : Nat → List T} {own : Nat → Option Nat} {en : Nat → Nat} (h : Inv m seq own en) {q : Queue} {x : T} {xs : List T}
    (hd : Den m seq own q (x :: xs)) :
    ∃ m' q' seq' own' en', pop m q = some (m', q') ∧ Inv m' seq' own' en' ∧ Ext m m' seq seq' own own' ∧ Den m' seq' own' q' xs := by
  have hsz : q.size ≠ 0 := by rw [hd.size]; simp
  have hfne : q.f ≠ none := by
    intro hc
    have h1 := hd.len
    have h2 := hd.cont
    rw [hc] at h1 h2
    simp only [sq, List.length_nil, Nat.add_eq_zero_iff] at h1 h2
    have : sq seq q.r = [] := List.length_eq_zero_iff.1 h1.2
    rw [show (match q.r with | none => [] | some p => seq p) = sq seq q.r by cases q.r <;> rfl, this] at h2
    simp at h2
  cases hf : q.f with
  | none => exact absurd hf hfne
  | some a =>
  cases hp : q.proc with
  | none =>
    have hr := hd.sched
    rw [hp, hf] at hr
    obtain ⟨na, ea, sa, ra⟩ := h.head hr (by simp)
    have hc : sq seq na.next ++ (sq seq q.r).reverse = xs := by
      have := hd.cont
      rw [hf] at this
      rw [show sq seq (some a) = seq a from rfl, sa, List.cons_append] at this
      exact (List.cons.inj this).2.symm
    obtain ⟨m', q', seq', own', en', a1, a2, a3, a4⟩ := fresh_spec h na.next q.r (q.size - 1) ra hd.rear hd.rearOwn (by rw [hc, hd.size]; simp)
    rw [hc] at a4
    exact ⟨m', q', seq', own', en', by simp [pop, hsz, hp, nextOf, hf, ea, a1], a2, a3, a4⟩
  | some p =>
    obtain ⟨hpl, s, ho, hst, hsl⟩ := hd.proc p hp
    obtain ⟨m1, u, seq1, own1, en1, nd, b1, b2, b3, b4, b5, b6⟩ := force_spec h hpl ho
    have hd1 := hd.ext b3
    obtain ⟨rest, n1, n2, _⟩ := b2.node p nd b4
    have hpu : seq1 p = nd.v :: sq seq1 u := by
      cases u with
      | none => exact b6 rfl
      | some w => rw [n1, ← (n2 w b5).2.1]; rfl
    have hru : Reach m1.nodes seq1 (some p) u := by
      refine Reach.step b4 (fun hn => ?_) (b5 ▸ Reach.refl _)
      rw [b5] at hn; exact b6 hn
    have hra : ∃ na, m1.nodes[a]? = some na ∧ seq1 a = na.v :: sq seq1 na.next ∧ Reach m1.nodes seq1 na.next u ∧ Valid m1 na.next := by
      have hv : ∀ na : Node T, m1.nodes[a]? = some na → Valid m1 na.next := by
        intro na e w hw
        obtain ⟨_, _, k2, _⟩ := b2.node a na e
        exact (k2 w hw).1
      by_cases hpa : p = a
      · subst hpa
        exact ⟨nd, b4, by rw [b5]; exact hpu, by rw [b5]; exact Reach.refl _, hv nd b4⟩
      · have hr := hd1.sched
        rw [hp, hf] at hr
        obtain ⟨na, ea, sa, ra⟩ := b2.head hr (by simpa using hpa)
        exact ⟨na, ea, sa, ra.trans hru, hv na ea⟩
    obtain ⟨na, ea, sa, ra, va⟩ := hra
    refine ⟨m1, ⟨na.next, u, q.stream, q.size - 1, q.r⟩, seq1, own1, en1, by simp [pop, hsz, hp, hst, b1, nextOf, hf, ea], b2, b3, ?_⟩
    refine ⟨?_, by simp [hd.size], hd1.rear, hd1.rearOwn, ra, ?_, va, ?_⟩
    · have := hd1.cont
      rw [hf] at this
      rw [show sq seq1 (some a) = seq1 a from rfl, sa, List.cons_append] at this
      exact (List.cons.inj this).2
    · have hl := hd1.len
      rw [hp, hf] at hl
      rw [show sq seq1 (some a) = seq1 a from rfl, show sq seq1 (some p) = seq1 p from rfl, sa, hpu] at hl
      simp only [List.length_cons] at hl ⊢
      omega
    · intro w hw
      simp only at hw
      subst hw
      refine ⟨(n2 w b5).1, s, ?_, hst, Nat.lt_of_lt_of_le hsl b3.slen⟩
      rw [(n2 w b5).2.2, (b3.node p _ (List.getElem?_eq_getElem hpl)).2.1]
      exact ho

/-! ### Histories -/

inductive Op (T : Type)
  | push (k : Nat) (x : T)
  | pop (k : Nat)

structure World (T : Type) where
  mem : Mem T
  vers : List Queue

/-- Run an operation on version `k`; the result becomes a new version. -/
def step (w : World T) : Op T → Option (World T)
  | .push k x => (w.vers[k]?).bind (fun q => (push w.mem q x).map (fun r => ⟨r.1, w.vers ++ [r.2]⟩))
  | .pop k => (w.vers[k]?).bind (fun q => (pop w.mem q).map (fun r => ⟨r.1, w.vers ++ [r.2]⟩))

def init : World T := ⟨⟨[], []⟩, [empty]⟩

def run : World T → List (Op T) → Option (World T)
  | w, [] => some w
  | w, o :: os => (step w o).bind (fun w' => run w' os)

/-- The specification: every version is a list; `pop` of an empty or unknown version is not allowed. -/
def specStep (vs : List (List T)) : Op T → Option (List (List T))
  | .push k x => (vs[k]?).map (fun xs => vs ++ [xs ++ [x]])
  | .pop k => match vs[k]? with
    | some (_ :: xs) => some (vs ++ [xs])
    | _ => none

def spec : List (List T) → List (Op T) → Option (List (List T))
  | vs, [] => some vs
  | vs, o :: os => (specStep vs o).bind (fun vs' => spec vs' os)

/-- Every version denotes its list. -/
def Good (w : World T) (vs : List (List T)) : Prop :=
  ∃ seq own en, Inv w.mem seq own en ∧ w.vers.length = vs.length ∧
    ∀ (k : Nat) (q : Queue) (xs : List T), w.vers[k]? = some q → vs[k]? = some xs → Den w.mem seq own q xs

theorem Good.append {w : World T} {vs : List (List T)} {seq seq' : Nat → List T} {own own' : Nat → Option Nat} {en' : Nat → Nat}
    {m' : Mem T} {q' : Queue} {xs' : List T} (hl : w.vers.length = vs.length)
    (hd : ∀ (k : Nat) (q : Queue) (xs : List T), w.vers[k]? = some q → vs[k]? = some xs → Den w.mem seq own q xs)
    (hi : Inv m' seq' own' en') (he : Ext w.mem m' seq seq' own own') (hd' : Den m' seq' own' q' xs') :
    Good ⟨m', w.vers ++ [q']⟩ (vs ++ [xs']) := by
  refine ⟨seq', own', en', hi, by simp [hl], fun k q xs e1 e2 => ?_⟩
  simp only at e1
  by_cases hk : k < vs.length
  · rw [List.getElem?_append_left (by omega)] at e1
    rw [List.getElem?_append_left hk] at e2
    exact (hd k q xs e1 e2).ext he
  · have := (List.getElem?_eq_some_iff.1 e2).1
    simp at this
    have hk' : k = vs.length := by omega
    subst hk'
    rw [← hl] at e1
    simp at e1 e2
    subst e1 e2
    exact hd'

theorem step_good {w : World T} {vs vs' : List (List T)} (hg : Good w vs) (o : Op T) (hs : specStep vs o = some vs') :
    ∃ w', step w o = some w' ∧ Good w' vs' := by
  obtain ⟨seq, own, en, hi, hl, hd⟩ := hg
  cases o with
  | push k x =>
    simp only [specStep, Option.map_eq_some_iff] at hs
    obtain ⟨xs, e, rfl⟩ := hs
    have hk : k < w.vers.length := by rw [hl]; exact (List.getElem?_eq_some_iff.1 e).1
    have hq := List.getElem?_eq_getElem hk
    obtain ⟨m', q', seq', own', en', a1, a2, a3, a4⟩ := push_spec hi (hd k _ xs hq e) x
    exact ⟨_, by simp only [step, hq, Option.bind_some, a1, Option.map_some], Good.append hl hd a2 a3 a4⟩
  | pop k =>
    simp only [specStep] at hs
    cases e : vs[k]? with
    | none => simp [e] at hs
    | some ys =>
      cases ys with
      | nil => simp [e] at hs
      | cons x xs =>
        simp only [e, Option.some.injEq] at hs
        subst hs
        have hk : k < w.vers.length := by rw [hl]; exact (List.getElem?_eq_some_iff.1 e).1
        have hq := List.getElem?_eq_getElem hk
        obtain ⟨m', q', seq', own', en', a1, a2, a3, a4⟩ := pop_spec hi (hd k _ _ hq e)
        exact ⟨_, by simp only [step, hq, Option.bind_some, a1, Option.map_some], Good.append hl hd a2 a3 a4⟩

theorem run_good : ∀ (os : List (Op T)) (w : World T) (vs vs' : List (List T)), Good w vs → spec vs os = some vs' →
    ∃ w', run w os = some w' ∧ Good w' vs'
  | [], w, vs, vs', hg, hs => by simp only [spec, Option.some.injEq] at hs; subst hs; exact ⟨w, rfl, hg⟩
  | o :: os, w, vs, vs', hg, hs => by
    simp only [spec, Option.bind_eq_some_iff] at hs
    obtain ⟨v1, e1, e2⟩ := hs
    obtain ⟨w1, a1, a2⟩ := step_good hg o e1
    obtain ⟨w', b1, b2⟩ := run_good os w1 v1 vs' a2 e2
    exact ⟨w', by simp [run, a1, b1], b2⟩

theorem init_good : Good (init : World T) [[]] := by
  refine ⟨fun _ => [], fun _ => none, fun _ => 0, ⟨fun p nd e => by simp [init] at e, fun p hp => by simp [init] at hp,
    fun s st e => by simp [init] at e⟩, rfl, fun k q xs e1 e2 => ?_⟩
  cases k with
  | succ k => simp [init] at e1
  | zero =>
    simp [init] at e1 e2
    subst e1 e2
    exact ⟨rfl, rfl, Reach.refl _, fun p hp => by simp [empty] at hp, Reach.refl _, rfl, fun p hp => by simp [empty] at hp,
      fun p hp => by simp [empty] at hp⟩

theorem Den.front {m : Mem T} {seq : Nat → List T} {own : Nat → Option Nat} {en : Nat → Nat} (h : Inv m seq own en) {q : Queue} {xs : List T}
    (hd : Den m seq own q xs) : front m q = xs.head? := by
  have hl := hd.len
  have hc := hd.cont
  cases hf : q.f with
  | none =>
    rw [hf] at hl hc
    have h0 : (sq seq q.r).length = 0 := by simp only [show sq seq (none : Option Nat) = [] from rfl, List.length_nil] at hl; omega
    rw [List.length_eq_zero_iff.1 h0] at hc
    rw [hc]
    simp [Queue.front, hf, sq]
  | some a =>
    have ha := hd.fv a hf
    have e := List.getElem?_eq_getElem ha
    obtain ⟨rest, n1, _⟩ := h.node a _ e
    rw [hf, show sq seq (some a) = seq a from rfl, n1] at hc
    rw [hc]
    simp [Queue.front, hf, e]

/-! ### The property -/

/-- **C15.** Run any branching history of `push`/`pop` allowed by the specification (each operation picks any earlier
version, `pop` only a non-empty one).  No operation dereferences null or fails an assertion, and afterwards *every*
version, old or new, has the size and the front element of its own FIFO list - although the versions share and mutate
nodes and streams. -/
theorem C15_versions (os : List (Op T)) (vs : List (List T)) (hs : spec [[]] os = some vs) :
    ∃ w, run init os = some w ∧ w.vers.length = vs.length ∧
      ∀ (k : Nat) (q : Queue) (xs : List T), w.vers[k]? = some q → vs[k]? = some xs → q.size = xs.length ∧ front w.mem q = xs.head? := by
  obtain ⟨w, h1, seq, own, en, hi, hl, hd⟩ := run_good os init [[]] vs init_good hs
  exact ⟨w, h1, hl, fun k q xs e1 e2 => ⟨(hd k q xs e1 e2).size, (hd k q xs e1 e2).front hi⟩⟩

/-- Drain version `q`: repeatedly read the front and pop. -/
def drain : Nat → Mem T → Queue → Option (List T)
  | 0, _, _ => some []
  | n+1, m, q => (front m q).bind (fun x => (pop m q).bind (fun r => (drain n r.1 r.2).map (x :: ·)))

/-- **C15.** After any allowed history, popping *any* version until it is empty yields exactly its list, in order. -/
theorem C15_drain (os : List (Op T)) (vs : List (List T)) (hs : spec [[]] os = some vs) :
    ∃ w, run init os = some w ∧ ∀ (k : Nat) (q : Queue) (xs : List T), w.vers[k]? = some q → vs[k]? = some xs →
      drain q.size w.mem q = some xs := by
  obtain ⟨w, h1, seq, own, en, hi, hl, hd⟩ := run_good os init [[]] vs init_good hs
  refine ⟨w, h1, fun k q xs e1 e2 => ?_⟩
  have key : ∀ (xs : List T) (m : Mem T) (q : Queue) (seq : Nat → List T) (own : Nat → Option Nat) (en : Nat → Nat), Inv m seq own en →
      Den m seq own q xs → drain xs.length m q = some xs := by
    intro xs
    induction xs with
    | nil => intros; rfl
    | cons x xs ih =>
      intro m q seq own en hi hd
      obtain ⟨m', q', seq', own', en', a1, a2, _, a4⟩ := pop_spec hi hd
      simp [drain, hd.front hi, a1, ih m' q' seq' own' en' a2 a4]
  have hd1 := hd k q xs e1 e2
  rw [hd1.size]
  exact key xs w.mem q seq own en hi hd1

/-- Following `next` fields. -/
inductive Path (ns : List (Node T)) : Option Nat → Nat → Prop
  | here (p : Nat) : Path ns (some p) p
  | next {a : Nat} {nd : Node T} {p : Nat} : ns[a]? = some nd → Path ns nd.next p → Path ns (some a) p

/-- **C15 (no dangling pointer).** In every version of every allowed history the raw pointer `proc_` is null or is
reachable from the owning pointer `f_` of the same object, hence kept alive by it. -/
theorem C15_proc_alive (os : List (Op T)) (vs : List (List T)) (hs : spec [[]] os = some vs) :
    ∃ w, run init os = some w ∧ ∀ (q : Queue) (p : Nat), q ∈ w.vers → q.proc = some p → Path w.mem.nodes q.f p := by
  obtain ⟨w, h1, seq, own, en, hi, hl, hd⟩ := run_good os init [[]] vs init_good hs
  refine ⟨w, h1, fun q p hq hp => ?_⟩
  obtain ⟨k, hk, e⟩ := List.getElem_of_mem hq
  have e1 : w.vers[k]? = some q := by rw [List.getElem?_eq_getElem hk, e]
  have hk' : k < vs.length := hl ▸ hk
  have hr := (hd k q _ e1 (List.getElem?_eq_getElem hk')).sched
  rw [hp] at hr
  generalize q.f = f at hr
  generalize hw : some p = w' at hr
  induction hr with
  | refl => subst hw; exact Path.here p
  | step e _ _ ih => exact Path.next e (ih hw)

/-- A branching history: `q1 = [1]`, `q2 = [1,2]`, `q3 = [1,2,3]`, `q4 = pop q2 = [2]`, `q5 = push q2 9 = [1,2,9]`,
`q6 = pop q3`. -/
def sample : List (Op Nat) := [.push 0 1, .push 1 2, .push 2 3, .pop 2, .push 2 9, .pop 3]

example : spec [[]] sample = some [[], [1], [1,2], [1,2,3], [2], [1,2,9], [2,3]] := by decide
example : ((run init sample).bind (fun w => w.vers[5]?.bind (fun q => drain q.size w.mem q))) = some [1,2,9] := by decide

end Verif.Persistent.Queue
