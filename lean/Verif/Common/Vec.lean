/-!
Partial vector access and counted loops, shared by the models.

`none` is undefined behaviour (or a failed `assert`).  Nothing here is specific to one header.
-/
namespace Verif

variable {α σ : Type}

/-- `v[i] = x` on a `std::vector`; out of range is `none`. -/
def wr (v : List α) (i : Nat) (x : α) : Option (List α) :=
  if i < v.length then some (v.set i x) else none

/-- `t[i][j]` on a vector of vectors. -/
def rd2 (t : List (List α)) (i j : Nat) : Option α := (t[i]?).bind (fun row => row[j]?)

/-- `t[i][j] = x` on a vector of vectors. -/
def wr2 (t : List (List α)) (i j : Nat) (x : α) : Option (List (List α)) :=
  (t[i]?).bind (fun row => (wr row j x).bind (fun row' => wr t i row'))

/-- `for (i = a; n rounds; i++) body`. -/
def forUp (body : Nat → σ → Option σ) : Nat → Nat → σ → Option σ
  | _, 0, s => some s
  | a, n+1, s => (body a s).bind (forUp body (a+1) n)

/-- `for (i = a; i < b; i++) body`. -/
def forRange (a b : Nat) (body : Nat → σ → Option σ) (s : σ) : Option σ := forUp body a (b - a) s

/-- `for (i = a+n-1; i >= a; i--) body`. -/
def forDown (body : Nat → σ → Option σ) : Nat → Nat → σ → Option σ
  | _, 0, s => some s
  | a, n+1, s => (body (a+n) s).bind (forDown body a n)

/-- `for (i = b-1; i >= a; i--) body`. -/
def forRangeDown (a b : Nat) (body : Nat → σ → Option σ) (s : σ) : Option σ := forDown body a (b - a) s

theorem forUp_inv (P : Nat → σ → Prop) {body : Nat → σ → Option σ} : ∀ (n a : Nat) (s : σ), P a s →
    (∀ i s, a ≤ i → i < a + n → P i s → ∃ s', body i s = some s' ∧ P (i+1) s') →
    ∃ s', forUp body a n s = some s' ∧ P (a+n) s' := by
  intro n
  induction n with
  | zero => intro a s h _; exact ⟨s, rfl, h⟩
  | succ n ih =>
    intro a s h hstep
    obtain ⟨s1, e1, h1⟩ := hstep a s (by omega) (by omega) h
    obtain ⟨s2, e2, h2⟩ := ih (a+1) s1 h1 (fun i s hi hlt => hstep i s (by omega) (by omega))
    refine ⟨s2, by simp [forUp, e1, e2], ?_⟩
    rwa [show a + (n+1) = a + 1 + n by omega]

theorem forRange_inv (P : Nat → σ → Prop) {body : Nat → σ → Option σ} {a b : Nat} {s : σ} (hab : a ≤ b) (h0 : P a s)
    (hstep : ∀ i s, a ≤ i → i < b → P i s → ∃ s', body i s = some s' ∧ P (i+1) s') :
    ∃ s', forRange a b body s = some s' ∧ P b s' := by
  obtain ⟨s', e, h⟩ := forUp_inv P (b - a) a s h0 (fun i s h1 h2 => hstep i s h1 (by omega))
  rw [show a + (b - a) = b by omega] at h
  exact ⟨s', e, h⟩

/-- Partial correctness: an invariant kept by every round that returns. -/
theorem forUp_part (P : Nat → σ → Prop) {body : Nat → σ → Option σ} : ∀ (n a : Nat) (s s' : σ), P a s →
    (∀ i s s', a ≤ i → i < a + n → P i s → body i s = some s' → P (i+1) s') →
    forUp body a n s = some s' → P (a+n) s' := by
  intro n
  induction n with
  | zero => intro a s s' h _ e; cases e; exact h
  | succ n ih =>
    intro a s s' h hstep e
    rw [forUp, Option.bind_eq_some_iff] at e
    obtain ⟨s1, e1, e2⟩ := e
    rw [show a + (n+1) = a + 1 + n by omega]
    exact ih (a+1) s1 s' (hstep a s s1 (by omega) (by omega) h e1) (fun i s s' hi hlt => hstep i s s' (by omega) (by omega)) e2

theorem forRange_part (P : Nat → σ → Prop) {body : Nat → σ → Option σ} {a b : Nat} {s s' : σ} (hab : a ≤ b) (h0 : P a s)
    (hstep : ∀ i s s', a ≤ i → i < b → P i s → body i s = some s' → P (i+1) s') (e : forRange a b body s = some s') : P b s' := by
  have := forUp_part P (b - a) a s s' h0 (fun i s s' h1 h2 => hstep i s s' h1 (by omega)) e
  rwa [show a + (b - a) = b by omega] at this

theorem forUp_add {body : Nat → σ → Option σ} : ∀ (n m a : Nat) (s : σ),
    forUp body a (n+m) s = (forUp body a n s).bind (forUp body (a+n) m) := by
  intro n
  induction n with
  | zero => intro m a s; simp [forUp]
  | succ n ih =>
    intro m a s
    rw [show n + 1 + m = (n + m) + 1 by omega, forUp, forUp, Option.bind_assoc]
    refine congrArg _ (funext fun s' => ?_)
    rw [ih, show a + 1 + n = a + (n+1) by omega]

/-- A counted loop split in two. -/
theorem forRange_split {body : Nat → σ → Option σ} {a b c : Nat} (hab : a ≤ b) (hbc : b ≤ c) (s : σ) :
    forRange a c body s = (forRange a b body s).bind (forRange b c body) := by
  unfold forRange
  rw [show c - a = (b - a) + (c - b) by omega, forUp_add, show a + (b - a) = b by omega]

theorem forRange_one {body : Nat → σ → Option σ} (a : Nat) (s : σ) : forRange a (a+1) body s = body a s := by
  unfold forRange
  rw [show a + 1 - a = 0 + 1 by omega, forUp]
  cases body a s <;> rfl

theorem forRange_nil {body : Nat → σ → Option σ} {a b : Nat} (h : b ≤ a) (s : σ) : forRange a b body s = some s := by
  unfold forRange
  rw [show b - a = 0 by omega]; rfl

/-- The last round of a counted loop. -/
theorem forRange_last {body : Nat → σ → Option σ} {a b : Nat} (hab : a ≤ b) (s : σ) :
    forRange a (b+1) body s = (forRange a b body s).bind (body b) := by
  rw [forRange_split hab (Nat.le_succ b)]
  refine congrArg _ (funext fun s' => forRange_one b s')

/-- The first round of a counted loop. -/
theorem forRange_first {body : Nat → σ → Option σ} {a b : Nat} (hab : a < b) (s : σ) :
    forRange a b body s = (body a s).bind (forRange (a+1) b body) := by
  rw [forRange_split (Nat.le_succ a) hab, forRange_one]

theorem forDown_inv (P : Nat → σ → Prop) {body : Nat → σ → Option σ} : ∀ (n a : Nat) (s : σ), P (a+n) s →
    (∀ i s, a ≤ i → i < a + n → P (i+1) s → ∃ s', body i s = some s' ∧ P i s') →
    ∃ s', forDown body a n s = some s' ∧ P a s' := by
  intro n
  induction n with
  | zero => intro a s h _; exact ⟨s, rfl, h⟩
  | succ n ih =>
    intro a s h hstep
    obtain ⟨s1, e1, h1⟩ := hstep (a+n) s (by omega) (by omega) h
    obtain ⟨s2, e2, h2⟩ := ih a s1 h1 (fun i s hi hlt => hstep i s (by omega) (by omega))
    exact ⟨s2, by simp [forDown, e1, e2], h2⟩

theorem forRangeDown_inv (P : Nat → σ → Prop) {body : Nat → σ → Option σ} {a b : Nat} {s : σ} (hab : a ≤ b) (h0 : P b s)
    (hstep : ∀ i s, a ≤ i → i < b → P (i+1) s → ∃ s', body i s = some s' ∧ P i s') :
    ∃ s', forRangeDown a b body s = some s' ∧ P a s' := by
  exact forDown_inv P (b - a) a s (by rw [show a + (b - a) = b by omega]; exact h0)
    (fun i s h1 h2 => hstep i s h1 (by omega))

/-- Pointwise replacement. -/
def upd (g : Nat → α) (i : Nat) (x : α) : Nat → α := fun j => if j = i then x else g j

theorem upd_same (g : Nat → α) (i : Nat) (x : α) : upd g i x i = x := by simp [upd]
theorem upd_ne (g : Nat → α) {i j : Nat} (x : α) (h : j ≠ i) : upd g i x j = g j := by simp [upd, h]

/-- `v` has length `n` and its entries are given by `g`. -/
structure Rep (v : List α) (n : Nat) (g : Nat → α) : Prop where
  len : v.length = n
  val : ∀ i, i < n → v[i]? = some (g i)

theorem Rep.wr {v : List α} {n : Nat} {g : Nat → α} (h : Rep v n g) {i : Nat} (hi : i < n) (x : α) :
    ∃ v', Verif.wr v i x = some v' ∧ Rep v' n (upd g i x) := by
  refine ⟨v.set i x, ?_, by simp [h.len], ?_⟩
  · unfold Verif.wr; rw [if_pos (by rw [h.len]; exact hi)]
  · intro j hj
    by_cases hji : j = i
    · subst hji
      rw [List.getElem?_set_self (by rw [h.len]; exact hi), upd_same]
    · rw [List.getElem?_set_ne (Ne.symm hji), upd_ne _ _ hji]
      exact h.val j hj

theorem Rep.congr {v : List α} {n : Nat} {g g' : Nat → α} (h : Rep v n g) (hg : ∀ i, i < n → g i = g' i) : Rep v n g' :=
  ⟨h.len, fun i hi => by rw [h.val i hi, hg i hi]⟩

theorem Rep.ext {v v' : List α} {n : Nat} {g : Nat → α} (h : Rep v n g) (h' : Rep v' n g) : v = v' := by
  apply List.ext_getElem?
  intro i
  by_cases hi : i < n
  · rw [h.val i hi, h'.val i hi]
  · rw [List.getElem?_eq_none (by rw [h.len]; omega), List.getElem?_eq_none (by rw [h'.len]; omega)]

theorem Rep.replicate (n : Nat) (x : α) : Rep (List.replicate n x) n (fun _ => x) :=
  ⟨by simp, fun i hi => by simp [List.getElem?_replicate, hi]⟩

theorem Rep.ofList (v : List α) (d : α) : Rep v v.length (fun i => v.getD i d) :=
  ⟨rfl, fun i hi => by simp [List.getD_eq_getElem?_getD, List.getElem?_eq_getElem hi]⟩

theorem Rep.map_range (n : Nat) (g : Nat → α) : Rep ((List.range n).map g) n g :=
  ⟨by simp, fun i hi => by simp [hi]⟩

/-- Two-dimensional version. -/
structure Rep2 (t : List (List α)) (m n : Nat) (g : Nat → Nat → α) : Prop where
  len : t.length = m
  row : ∀ i, i < m → ∃ r, t[i]? = some r ∧ Rep r n (g i)

/-- Pointwise replacement in two dimensions. -/
def upd2 (g : Nat → Nat → α) (i j : Nat) (x : α) : Nat → Nat → α := fun a b => if a = i ∧ b = j then x else g a b

theorem upd2_same (g : Nat → Nat → α) (i j : Nat) (x : α) : upd2 g i j x i j = x := by simp [upd2]
theorem upd2_ne (g : Nat → Nat → α) {i j a b : Nat} (x : α) (h : ¬ (a = i ∧ b = j)) : upd2 g i j x a b = g a b := by
  simp only [upd2, if_neg h]

theorem Rep2.rd {t : List (List α)} {m n : Nat} {g : Nat → Nat → α} (h : Rep2 t m n g) {i j : Nat} (hi : i < m) (hj : j < n) :
    rd2 t i j = some (g i j) := by
  obtain ⟨r, e, hr⟩ := h.row i hi
  simp [rd2, e, hr.val j hj]

theorem Rep2.wr {t : List (List α)} {m n : Nat} {g : Nat → Nat → α} (h : Rep2 t m n g) {i j : Nat} (hi : i < m) (hj : j < n)
    (x : α) : ∃ t', wr2 t i j x = some t' ∧ Rep2 t' m n (upd2 g i j x) := by
  obtain ⟨r, e, hr⟩ := h.row i hi
  obtain ⟨r', e', hr'⟩ := hr.wr hj x
  refine ⟨t.set i r', ?_, by simp [h.len], ?_⟩
  · simp only [wr2, e, Option.bind_some, e']
    unfold Verif.wr
    rw [if_pos (by rw [h.len]; exact hi)]
  · intro a ha
    by_cases hai : a = i
    · subst hai
      refine ⟨r', List.getElem?_set_self (by rw [h.len]; exact hi), hr'.congr ?_⟩
      intro b _
      simp [upd, upd2]
    · obtain ⟨ra, ea, hra⟩ := h.row a ha
      refine ⟨ra, ?_, hra.congr ?_⟩
      · rw [List.getElem?_set_ne (Ne.symm hai)]; exact ea
      · intro b _
        simp [upd2, hai]

theorem Rep2.congr {t : List (List α)} {m n : Nat} {g g' : Nat → Nat → α} (h : Rep2 t m n g)
    (hg : ∀ i j, i < m → j < n → g i j = g' i j) : Rep2 t m n g' :=
  ⟨h.len, fun i hi => by
    obtain ⟨r, e, hr⟩ := h.row i hi
    exact ⟨r, e, hr.congr (fun j hj => hg i j hi hj)⟩⟩

theorem Rep2.replicate (m n : Nat) (x : α) : Rep2 (List.replicate m (List.replicate n x)) m n (fun _ _ => x) :=
  ⟨by simp, fun i hi => ⟨_, by simp [hi], Rep.replicate n x⟩⟩

end Verif
