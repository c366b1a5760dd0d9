import Verif.Mo.Model
import Mathlib.Tactic.Linarith
import Mathlib.Tactic.Ring
/-!
# C48, C60: Mo's algorithm presents every query with exactly its window
-/
namespace Verif.Mo

/-! ### Specification -/

/-- The integers of `[a, b)` in order. -/
def win (a b : Int) : List Int := (List.range (b - a).toNat).map (fun (k : Nat) => a + (k : Int))

/-- What the callbacks see: `w` is the current window, `st` the stack of snapshots.  Pops remove end elements, and a query is reported exactly when
the window is its interval. -/
def Legit (segs : List Seg) : List Ev → List Int → List (List Int) → Prop
  | [], _, _ => True
  | .pushl i :: es, w, st => Legit segs es (i :: w) st
  | .pushr i :: es, w, st => Legit segs es (w ++ [i]) st
  | .popl i :: es, w, st => ∃ w', w = i :: w' ∧ Legit segs es w' st
  | .popr i :: es, w, st => ∃ w', w = w' ++ [i] ∧ Legit segs es w' st
  | .rem t :: es, w, st => (∃ s, segs[t]? = some s ∧ w = win s.1 s.2) ∧ Legit segs es w st
  | .init :: es, _, st => Legit segs es [] st
  | .snapshot :: es, w, st => Legit segs es w (w :: st)
  | .rollback :: es, _, st => ∃ w' st', st = w' :: st' ∧ Legit segs es w' st'

/-- The reported ids in order. -/
def rems : List Ev → List Nat
  | [] => []
  | .rem t :: es => t :: rems es
  | _ :: es => rems es

/-! ### Windows -/

theorem win_nil {a b : Int} (h : b ≤ a) : win a b = [] := by
  unfold win
  rw [show (b - a).toNat = 0 by omega]; rfl

theorem win_cons {a b : Int} (h : a < b) : win a b = a :: win (a+1) b := by
  unfold win
  obtain ⟨k, hk⟩ : ∃ k, (b - a).toNat = k + 1 := ⟨(b - a).toNat - 1, by omega⟩
  rw [hk, show (b - (a+1)).toNat = k by omega, List.range_succ_eq_map, List.map_cons, List.map_map]
  congr 1
  · simp
  · apply List.map_congr_left
    intro x _
    simp
    omega

theorem win_snoc {a b : Int} (h : a ≤ b) : win a (b+1) = win a b ++ [b] := by
  unfold win
  rw [show (b + 1 - a).toNat = (b - a).toNat + 1 by omega, List.range_succ, List.map_append]
  congr 1
  simp
  omega

theorem rems_append (a b : List Ev) : rems (a ++ b) = rems a ++ rems b := by
  induction a with
  | nil => rfl
  | cons e a ih => cases e <;> simp [rems, ih]

/-! ### The four loops -/

theorem pushl_ok (segs : List Seg) {l r : Int} : ∀ (f : Nat) (c : Int), (c - l).toNat ≤ f → c ≤ r →
    ∃ es, down Ev.pushl l f c = some (es, min l c) ∧ rems es = [] ∧
      ∀ rest st, Legit segs rest (win (min l c) r) st → Legit segs (es ++ rest) (win c r) st := by
  intro f
  induction f with
  | zero =>
    intro c hf _
    have hlc : ¬ l < c := by omega
    refine ⟨[], by rw [down, if_neg hlc, show min l c = c by omega], rfl, fun rest st h => ?_⟩
    rwa [show min l c = c by omega] at h
  | succ f ih =>
    intro c hf hcr
    rw [down]
    by_cases hlc : l < c
    · obtain ⟨es, e, h1, h2⟩ := ih (c-1) (by omega) (by omega)
      rw [show min l (c-1) = min l c by omega] at e h2
      refine ⟨Ev.pushl (c-1) :: es, by rw [if_pos hlc, e]; rfl, h1, fun rest st h => ?_⟩
      show Legit segs (es ++ rest) ((c-1) :: win c r) st
      have : (c - 1) :: win c r = win (c-1) r := by rw [win_cons (show c - 1 < r by omega), show c - 1 + 1 = c by omega]
      rw [this]
      exact h2 rest st h
    · refine ⟨[], by rw [if_neg hlc, show min l c = c by omega], rfl, fun rest st h => ?_⟩
      rwa [show min l c = c by omega] at h

theorem pushr_ok (segs : List Seg) {l r : Int} : ∀ (f : Nat) (c : Int), (r - c).toNat ≤ f → l ≤ c →
    ∃ es, upw Ev.pushr r f c = some (es, max r c) ∧ rems es = [] ∧
      ∀ rest st, Legit segs rest (win l (max r c)) st → Legit segs (es ++ rest) (win l c) st := by
  intro f
  induction f with
  | zero =>
    intro c hf _
    have hlc : ¬ c < r := by omega
    refine ⟨[], by rw [upw, if_neg hlc, show max r c = c by omega], rfl, fun rest st h => ?_⟩
    rwa [show max r c = c by omega] at h
  | succ f ih =>
    intro c hf hlc
    rw [upw]
    by_cases hcr : c < r
    · obtain ⟨es, e, h1, h2⟩ := ih (c+1) (by omega) (by omega)
      rw [show max r (c+1) = max r c by omega] at e h2
      refine ⟨Ev.pushr c :: es, by rw [if_pos hcr, e]; rfl, h1, fun rest st h => ?_⟩
      show Legit segs (es ++ rest) (win l c ++ [c]) st
      rw [← win_snoc hlc]
      exact h2 rest st h
    · refine ⟨[], by rw [if_neg hcr, show max r c = c by omega], rfl, fun rest st h => ?_⟩
      rwa [show max r c = c by omega] at h

theorem popl_ok (segs : List Seg) {l r : Int} (hlr : l ≤ r) : ∀ (f : Nat) (c : Int), (l - c).toNat ≤ f →
    ∃ es, upw Ev.popl l f c = some (es, max l c) ∧ rems es = [] ∧
      ∀ rest st, Legit segs rest (win (max l c) r) st → Legit segs (es ++ rest) (win c r) st := by
  intro f
  induction f with
  | zero =>
    intro c hf
    have hlc : ¬ c < l := by omega
    refine ⟨[], by rw [upw, if_neg hlc, show max l c = c by omega], rfl, fun rest st h => ?_⟩
    rwa [show max l c = c by omega] at h
  | succ f ih =>
    intro c hf
    rw [upw]
    by_cases hcl : c < l
    · obtain ⟨es, e, h1, h2⟩ := ih (c+1) (by omega)
      rw [show max l (c+1) = max l c by omega] at e h2
      refine ⟨Ev.popl c :: es, by rw [if_pos hcl, e]; rfl, h1, fun rest st h => ?_⟩
      exact ⟨win (c+1) r, win_cons (by omega), h2 rest st h⟩
    · refine ⟨[], by rw [if_neg hcl, show max l c = c by omega], rfl, fun rest st h => ?_⟩
      rwa [show max l c = c by omega] at h

theorem popr_ok (segs : List Seg) {l r : Int} (hlr : l ≤ r) : ∀ (f : Nat) (c : Int), (c - r).toNat ≤ f →
    ∃ es, down Ev.popr r f c = some (es, min r c) ∧ rems es = [] ∧
      ∀ rest st, Legit segs rest (win l (min r c)) st → Legit segs (es ++ rest) (win l c) st := by
  intro f
  induction f with
  | zero =>
    intro c hf
    have hlc : ¬ r < c := by omega
    refine ⟨[], by rw [down, if_neg hlc, show min r c = c by omega], rfl, fun rest st h => ?_⟩
    rwa [show min r c = c by omega] at h
  | succ f ih =>
    intro c hf
    rw [down]
    by_cases hrc : r < c
    · obtain ⟨es, e, h1, h2⟩ := ih (c-1) (by omega)
      rw [show min r (c-1) = min r c by omega] at e h2
      refine ⟨Ev.popr (c-1) :: es, by rw [if_pos hrc, e]; rfl, h1, fun rest st h => ?_⟩
      refine ⟨win l (c-1), ?_, h2 rest st h⟩
      have := win_snoc (show l ≤ c - 1 by omega)
      rwa [show c - 1 + 1 = c by omega] at this
    · refine ⟨[], by rw [if_neg hrc, show min r c = c by omega], rfl, fun rest st h => ?_⟩
      rwa [show min r c = c by omega] at h

theorem round_ok {segs : List Seg} {t : Nat} {s : Seg} (hs : segs[t]? = some s) (hlr : s.1 ≤ s.2) {cl cr : Int} (hc : cl ≤ cr) :
    ∃ es, round t s.1 s.2 cl cr = some (es, s.1, s.2) ∧ rems es = [t] ∧
      ∀ rest st, Legit segs rest (win s.1 s.2) st → Legit segs (es ++ rest) (win cl cr) st := by
  obtain ⟨l, r⟩ := s
  dsimp only at *
  obtain ⟨e1, h1, r1, w1⟩ := pushl_ok segs (l := l) (r := cr) (cl - l).toNat cl (Nat.le_refl _) hc
  obtain ⟨e2, h2, r2, w2⟩ := pushr_ok segs (l := min l cl) (r := r) (r - cr).toNat cr (Nat.le_refl _) (by omega)
  obtain ⟨e3, h3, r3, w3⟩ := popl_ok segs (l := l) (r := max r cr) (by omega) (l - min l cl).toNat (min l cl) (Nat.le_refl _)
  obtain ⟨e4, h4, r4, w4⟩ := popr_ok segs (l := l) (r := r) hlr (max r cr - r).toNat (max r cr) (Nat.le_refl _)
  rw [show max l (min l cl) = l by omega] at h3 w3
  rw [show min r (max r cr) = r by omega] at h4 w4
  refine ⟨e1 ++ e2 ++ e3 ++ e4 ++ [Ev.rem t], ?_, ?_, ?_⟩
  · rw [round, h1, Option.bind_some, h2, Option.bind_some]
    dsimp only
    rw [h3, Option.bind_some, h4, Option.map_some]
  · rw [rems_append, rems_append, rems_append, rems_append, r1, r2, r3, r4]; rfl
  · intro rest st h
    rw [List.append_assoc, List.append_assoc, List.append_assoc, List.append_assoc]
    exact w1 _ _ (w2 _ _ (w3 _ _ (w4 _ _ ⟨⟨(l, r), hs, rfl⟩, h⟩)))

theorem solveLoop_ok {segs : List Seg} (hseg : ∀ s ∈ segs, s.1 ≤ s.2) : ∀ (I : List Nat), (∀ t ∈ I, t < segs.length) → ∀ (cl cr : Int), cl ≤ cr →
    ∃ es, solveLoop segs I cl cr = some es ∧ rems es = I ∧ Legit segs es (win cl cr) [] := by
  intro I
  induction I with
  | nil => intro _ cl cr _; exact ⟨[], rfl, rfl, trivial⟩
  | cons t I ih =>
    intro hI cl cr hc
    have ht : t < segs.length := hI t (by simp)
    have hs : segs[t]? = some segs[t] := List.getElem?_eq_getElem ht
    have hlr := hseg segs[t] (List.getElem_mem ht)
    obtain ⟨e1, h1, r1, w1⟩ := round_ok hs hlr hc
    obtain ⟨e2, h2, r2, w2⟩ := ih (fun u hu => hI u (by simp [hu])) _ _ hlr
    refine ⟨e1 ++ e2, ?_, ?_, w1 _ _ w2⟩
    · rw [solveLoop, hs, Option.bind_some, h1, Option.bind_some]
      dsimp only
      rw [h2]; rfl
    · rw [rems_append, r1, r2]; rfl

/-! ### The comparisons -/

theorem cdiv_some {a b : Int} (hb : 0 < b) : cdiv a b = some (a.tdiv b) := by rw [cdiv, if_neg (by omega)]

theorem tdiv_mono {x y b : Int} (hb : 0 < b) (h : x ≤ y) : x.tdiv b ≤ y.tdiv b := Int.tdiv_le_tdiv hb h

theorem block_mono (odd : Bool) {b : Int} (hb : 0 < b) : ∃ f : Int → Int, (∀ x, block odd b x = some (f x)) ∧ ∀ x y, x ≤ y → f x ≤ f y := by
  cases odd with
  | false => exact ⟨fun x => x.tdiv b, fun x => by rw [block, if_neg (by decide), blockEven, cdiv_some hb], fun x y h => tdiv_mono hb h⟩
  | true =>
    refine ⟨fun x => if x < b - b.tdiv 2 then 0 else (x - (b - b.tdiv 2)).tdiv b + 1, fun x => ?_, fun x y h => ?_⟩
    · rw [block, if_pos rfl, blockOdd, cdiv_some hb]
      dsimp only
      by_cases hx : x < b - b.tdiv 2
      · rw [if_pos hx, if_pos hx]
      · rw [if_neg hx, if_neg hx]; rfl
    · dsimp only
      by_cases hx : x < b - b.tdiv 2
      · rw [if_pos hx]
        by_cases hy : y < b - b.tdiv 2
        · rw [if_pos hy]
        · rw [if_neg hy]
          have := Int.tdiv_nonneg (a := y - (b - b.tdiv 2)) (b := b) (by omega) (by omega)
          omega
      · rw [if_neg hx, if_neg (by omega)]
        have := tdiv_mono hb (show x - (b - b.tdiv 2) ≤ y - (b - b.tdiv 2) by omega)
        omega

/-- A strict weak order, as `std::sort` requires. -/
def StrictWeak (c : Seg → Seg → Bool) : Prop :=
  (∀ s, c s s = false) ∧ (∀ s t u, c s t = true → c t u = true → c s u = true) ∧
    ∀ s t u, c s t = false → c t s = false → c t u = false → c u t = false → c s u = false ∧ c u s = false

theorem lex_weak {f : Int → Int} (hf : ∀ x y, x ≤ y → f x ≤ f y) (k : Int → Int → Int) {c : Seg → Seg → Bool}
    (hc : ∀ s t : Seg, c s t = true ↔ (if f s.1 ≠ f t.1 then s.1 < t.1 else k (f s.1) s.2 < k (f s.1) t.2)) : StrictWeak c := by
  have h : ∀ s t : Seg, c s t = true ↔ (f s.1 < f t.1 ∨ (f s.1 = f t.1 ∧ k (f s.1) s.2 < k (f t.1) t.2)) := by
    intro s t
    rw [hc]
    by_cases e : f s.1 = f t.1
    · rw [if_neg (by simp [e]), e]; omega
    · rw [if_pos e]
      have h1 := hf s.1 t.1
      have h2 := hf t.1 s.1
      omega
  have h' : ∀ s t : Seg, c s t = false ↔ ¬ (f s.1 < f t.1 ∨ (f s.1 = f t.1 ∧ k (f s.1) s.2 < k (f t.1) t.2)) := by
    intro s t
    rw [← h]; simp
  refine ⟨fun s => (h' s s).mpr (by omega), fun s t u => ?_, fun s t u => ?_⟩
  · rw [h, h, h]; omega
  · rw [h', h', h', h', h', h']; omega

/-- The comparisons of `solve` and of `solve_rollback` are strict weak orders for a positive block size. -/
theorem C48_comparisons (odd : Bool) {b : Int} (hb : 0 < b) :
    (∃ c, (∀ s t, comp odd b s t = some (c s t)) ∧ StrictWeak c) ∧ (∃ c, (∀ s t, compRb odd b s t = some (c s t)) ∧ StrictWeak c) := by
  obtain ⟨f, hf, hm⟩ := block_mono odd hb
  constructor
  · refine ⟨fun s t => if f s.1 ≠ f t.1 then decide (s.1 < t.1) else if (f s.1).tmod 2 = 0 then decide (s.2 < t.2) else decide (t.2 < s.2), ?_, ?_⟩
    · intro s t
      rw [comp, hf, hf]; rfl
    · apply lex_weak hm (fun q r => if q.tmod 2 = 0 then r else -r)
      intro s t
      by_cases e : f s.1 ≠ f t.1
      · simp [e]
      · by_cases e2 : (f s.1).tmod 2 = 0
        · simp only [e, e2, if_false, if_true, decide_eq_true_eq]
        · simp only [e, e2, if_false, decide_eq_true_eq]; omega
  · refine ⟨fun s t => if f s.1 ≠ f t.1 then decide (s.1 < t.1) else decide (s.2 < t.2), ?_, ?_⟩
    · intro s t
      rw [compRb, hf, hf]; rfl
    · apply lex_weak hm (fun _ r => r)
      intro s t
      by_cases e : f s.1 ≠ f t.1
      · simp [e]
      · simp only [e, if_false, decide_eq_true_eq]

theorem compDefined_pos {b : Int} (hb : 0 < b) (segs : List Seg) : compDefined b segs = true := by
  rw [compDefined, List.all_eq_true]
  intro s _
  rw [List.all_eq_true]
  intro t _
  obtain ⟨⟨c, hc, _⟩, _⟩ := C48_comparisons false hb
  obtain ⟨⟨c', hc', _⟩, _⟩ := C48_comparisons true hb
  rw [hc, hc']; rfl

/-! ### C48 -/

/-- C48: whatever order `I` of the queries the sort produces, every query is reported exactly once and in the order `I`, with exactly its interval in
the window, and pops only remove end elements.
Missing: if all right ends are 0 and there are two or more queries the comparison divides by zero (`C48_zero`). -/
theorem C48_solve_partial (segs : List Seg) (hseg : ∀ s ∈ segs, s.1 ≤ s.2) (b : Int) (hb : BlockSize (maxR segs) b) (I : List Nat)
    (hI : I.Perm (List.range segs.length)) (hn : 0 < maxR segs ∨ segs.length < 2) :
    ∃ es, solve segs b I = some es ∧ rems es = I ∧ Legit segs es [] [] := by
  rw [solve]
  by_cases h0 : segs.length = 0
  · rw [if_pos h0]
    rw [h0] at hI
    have : I = [] := List.Perm.eq_nil hI
    exact ⟨[], rfl, this ▸ rfl, trivial⟩
  · rw [if_neg h0, if_neg]
    · have := solveLoop_ok hseg I (fun t ht => List.mem_range.mp (hI.mem_iff.mp ht)) 0 0 (Int.le_refl 0)
      rwa [win_nil (Int.le_refl 0)] at this
    · rintro ⟨h2, h3⟩
      have hbp : 0 < b := by unfold BlockSize at hb; omega
      rw [compDefined_pos hbp] at h3
      exact Bool.noConfusion h3

example : ∃ es, solve [(1,3), (0,2), (2,2)] 2 [1,0,2] = some es ∧ rems es = [1,0,2] ∧ Legit [(1,3), (0,2), (2,2)] es [] [] :=
  C48_solve_partial _ (by decide) 2 (Or.inr ⟨by decide, by decide⟩) _ (by decide) (Or.inl (by decide))

/-- The violation of C48: two empty segments at position 0 divide by zero, whatever the order. -/
theorem C48_zero : ∀ (I : List Nat) (b : Int), BlockSize (maxR [(0,0), (0,0)]) b → solve [(0,0), (0,0)] b I = none := by
  intro I b hb
  have hb0 : b = 0 := by
    have h : maxR [((0:Int),(0:Int)), (0,0)] = 0 := by decide
    unfold BlockSize at hb
    omega
  subst hb0
  rw [solve, if_neg (by decide), if_pos (by decide)]

/-! ### C60: `solve_rollback` -/

theorem block_spec (odd : Bool) {b x : Int} (hb : 0 < b) (hx : 0 ≤ x) :
    ∃ k, block odd b x = some k ∧ 0 ≤ k ∧ x ≤ bend odd b k ∧ bend odd b k ≤ x + b := by
  cases odd with
  | false =>
    refine ⟨x / b, by rw [block, if_neg (by decide), blockEven, cdiv_some hb, Int.tdiv_eq_ediv_of_nonneg hx], Int.ediv_nonneg hx (by omega), ?_, ?_⟩
    · rw [bend, if_neg (by decide)]
      have h1 := Int.mul_ediv_add_emod x b
      have h2 := Int.emod_lt_of_pos x hb
      nlinarith
    · rw [bend, if_neg (by decide)]
      have h1 := Int.mul_ediv_add_emod x b
      have h2 := Int.emod_nonneg x (show b ≠ 0 by omega)
      nlinarith
  | true =>
    have ht : 0 ≤ b.tdiv 2 := Int.tdiv_nonneg (by omega) (by omega)
    generalize hbf : b - b.tdiv 2 = bf at *
    have hbf1 : bf ≤ b := by omega
    by_cases hxb : x < bf
    · refine ⟨0, ?_, Int.le_refl 0, ?_, ?_⟩
      · rw [block, if_pos rfl, blockOdd, hbf, if_pos hxb]
      · rw [bend, if_pos rfl, hbf]; omega
      · rw [bend, if_pos rfl, hbf]; omega
    · have hq := Int.ediv_nonneg (a := x - bf) (b := b) (by omega) (by omega)
      have h1 := Int.mul_ediv_add_emod (x - bf) b
      have h2 := Int.emod_lt_of_pos (x - bf) hb
      have h3 := Int.emod_nonneg (x - bf) (show b ≠ 0 by omega)
      refine ⟨(x - bf) / b + 1, ?_, by omega, ?_, ?_⟩
      · rw [block, if_pos rfl, blockOdd, hbf, if_neg hxb, cdiv_some hb, Int.tdiv_eq_ediv_of_nonneg (by omega)]; rfl
      · rw [bend, if_pos rfl, hbf]; nlinarith
      · rw [bend, if_pos rfl, hbf]; nlinarith

theorem direct_ok {segs : List Seg} {t : Nat} {s : Seg} (hs : segs[t]? = some s) (hlr : s.1 ≤ s.2) :
    ∃ es, direct t s.1 s.2 = some es ∧ rems es = [t] ∧ ∀ rest w st, Legit segs rest (win s.1 s.2) st → Legit segs (es ++ rest) w st := by
  obtain ⟨e, h, r, w⟩ := pushr_ok segs (l := s.1) (r := s.2) (s.2 - s.1).toNat s.1 (Nat.le_refl _) (Int.le_refl _)
  rw [show max s.2 s.1 = s.2 by omega] at h w
  rw [win_nil (Int.le_refl _)] at w
  refine ⟨Ev.init :: e ++ [Ev.rem t], by rw [direct, h]; rfl, ?_, ?_⟩
  · show rems (e ++ [Ev.rem t]) = [t]
    rw [rems_append, r]; rfl
  · intro rest w' st hl
    show Legit segs (e ++ [Ev.rem t] ++ rest) [] st
    rw [List.append_assoc]
    exact w _ _ ⟨⟨s, hs, rfl⟩, hl⟩

/-- The ids of the queries of length at least `b`. -/
def longIds (segs : List Seg) (b : Int) : List Nat :=
  (List.range segs.length).filter (fun t => match segs[t]? with
    | some s => decide (b ≤ s.2 - s.1)
    | none => false)

theorem shorts_ok {segs : List Seg} (hseg : ∀ s ∈ segs, s.1 ≤ s.2) (b : Int) : ∀ (ss : List Seg) (t : Nat), ss = segs.drop t → t + ss.length = segs.length →
    ∃ es, shorts b ss t = some (es, (List.range' t ss.length).filter (fun u => match segs[u]? with
        | some s => decide (b ≤ s.2 - s.1)
        | none => false)) ∧
      rems es = (List.range' t ss.length).filter (fun u => !(match segs[u]? with
        | some s => decide (b ≤ s.2 - s.1)
        | none => false)) ∧
      ∀ w rest st, (∀ w', Legit segs rest w' st) → Legit segs (es ++ rest) w st := by
  intro ss
  induction ss with
  | nil => intro t _ _; exact ⟨[], rfl, rfl, fun w rest st h => h w⟩
  | cons s ss ih =>
    intro t hd hl
    have hs : segs[t]? = some s := by
      have := congrArg (fun l => l[0]?) hd
      simpa using this.symm
    have hd' : ss = segs.drop (t+1) := by
      have := congrArg List.tail hd
      simpa [List.tail_drop] using this
    have hmem : s ∈ segs := List.mem_of_getElem? hs
    obtain ⟨e, h, r, w⟩ := ih (t+1) hd' (by simp at hl; omega)
    rw [shorts, List.length_cons, List.range'_succ]
    by_cases hb : s.2 - s.1 < b
    · obtain ⟨e0, h0, r0, w0⟩ := direct_ok hs (hseg s hmem)
      refine ⟨e0 ++ e, ?_, ?_, ?_⟩
      · rw [if_pos hb, h0, Option.bind_some, h, Option.map_some, List.filter_cons_of_neg (by rw [hs]; simp; omega)]
      · rw [rems_append, r0, r, List.filter_cons_of_pos (by rw [hs]; simp; omega)]; rfl
      · intro w' rest st hr
        rw [List.append_assoc]
        exact w0 _ _ _ (w _ _ _ hr)
    · refine ⟨e, ?_, ?_, w⟩
      · rw [if_neg hb, h, Option.map_some, List.filter_cons_of_pos (by rw [hs]; simp; omega)]
      · rw [r, List.filter_cons_of_neg (by rw [hs]; simp; omega)]

theorem longOne_ok {segs : List Seg} {b : Int} {t : Nat} {s : Seg} (hs : segs[t]? = some s) {be cr : Int} (hcr : be ≤ cr) (hr : cr ≤ s.2)
    (hl : s.1 ≤ be) (hlb : be ≤ s.1 + b) :
    ∃ es, longOne b t s.1 s.2 be cr = some (es, s.2) ∧ rems es = [t] ∧
      ∀ rest st, Legit segs rest (win be s.2) st → Legit segs (es ++ rest) (win be cr) st := by
  obtain ⟨e1, h1, r1, w1⟩ := pushr_ok segs (l := be) (r := s.2) (s.2 - cr).toNat cr (Nat.le_refl _) hcr
  rw [show max s.2 cr = s.2 by omega] at h1 w1
  obtain ⟨e2, h2, r2, w2⟩ := pushl_ok segs (l := s.1) (r := s.2) (be - s.1).toNat be (Nat.le_refl _) (by omega)
  rw [show min s.1 be = s.1 by omega] at h2 w2
  refine ⟨e1 ++ [Ev.snapshot] ++ e2 ++ [Ev.rem t, Ev.rollback], ?_, ?_, ?_⟩
  · rw [longOne, if_pos hr, h1, Option.bind_some, if_pos ⟨hl, by omega⟩, h2]; rfl
  · rw [rems_append, rems_append, rems_append, r1, r2]; rfl
  · intro rest st h
    rw [List.append_assoc, List.append_assoc, List.append_assoc]
    apply w1
    show Legit segs (e2 ++ ([Ev.rem t, Ev.rollback] ++ rest)) (win be s.2) (win be s.2 :: st)
    exact w2 _ _ ⟨⟨s, hs, rfl⟩, win be s.2, st, rfl, h⟩

theorem longs_ok {segs : List Seg} (odd : Bool) {b : Int} (hb : 0 < b) : ∀ (J : List Nat) (cb cr : Int) (w : List Int),
    (∀ t ∈ J, ∃ s, segs[t]? = some s ∧ 0 ≤ s.1 ∧ b ≤ s.2 - s.1) →
    J.Pairwise (fun i j => ∀ s u, segs[i]? = some s → segs[j]? = some u → compRb odd b u s ≠ some true) →
    (0 ≤ cb → w = win (bend odd b cb) cr ∧ bend odd b cb ≤ cr ∧ ∀ t ∈ J, ∀ s, segs[t]? = some s → block odd b s.1 = some cb → cr ≤ s.2) →
    ∃ es, longs odd b segs J cb cr = some es ∧ rems es = J ∧ Legit segs es w [] := by
  intro J
  induction J with
  | nil => intro cb cr w _ _ _; exact ⟨[], rfl, rfl, trivial⟩
  | cons t J ih =>
    intro cb cr w hJ hsort hcb
    obtain ⟨s, hs, hs0, hsb⟩ := hJ t (by simp)
    obtain ⟨k, hk, hk0, hk1, hk2⟩ := block_spec odd hb hs0
    rw [List.pairwise_cons] at hsort
    -- the window after entering the block
    have hent : bend odd b k ≤ (enterBlock k cb (bend odd b k) cr).2 ∧ (enterBlock k cb (bend odd b k) cr).2 ≤ s.2 ∧ rems (enterBlock k cb (bend odd b k) cr).1 = [] ∧
        ∀ rest, Legit segs rest (win (bend odd b k) (enterBlock k cb (bend odd b k) cr).2) [] → Legit segs ((enterBlock k cb (bend odd b k) cr).1 ++ rest) w [] := by
      rw [enterBlock]
      by_cases e : k = cb
      · subst e
        obtain ⟨h1, h2, h3⟩ := hcb hk0
        rw [if_neg (by simp)]
        exact ⟨h2, h3 t (by simp) s hs hk, rfl, fun rest h => by rw [h1]; exact h⟩
      · rw [if_pos e]
        refine ⟨Int.le_refl _, by omega, rfl, fun rest h => ?_⟩
        rw [win_nil (Int.le_refl _)] at h
        exact h
    obtain ⟨g1, g2, g3, g4⟩ := hent
    obtain ⟨e1, h1, r1, w1⟩ := longOne_ok (b := b) hs g1 g2 hk1 hk2
    obtain ⟨e2, h2, r2, w2⟩ := ih k s.2 (win (bend odd b k) s.2) (fun u hu => hJ u (by simp [hu])) hsort.2 (fun _ => ⟨rfl, by omega, fun u hu s' hs' hb' => by
      have h := hsort.1 u hu s s' hs hs'
      rw [compRb, hb', hk] at h
      simp at h
      exact h⟩)
    refine ⟨(enterBlock k cb (bend odd b k) cr).1 ++ e1 ++ e2, ?_, ?_, ?_⟩
    · rw [longs, hs, Option.bind_some, hk, Option.bind_some, h1, Option.bind_some, h2, Option.map_some]
    · rw [rems_append, rems_append, g3, r1, r2]; rfl
    · rw [List.append_assoc]
      exact g4 _ (w1 _ _ w2)

/-- C60: for non-negative segments, whatever sorted order of the long queries the sort produces and whichever of the two block grids is chosen,
`solve_rollback` reports every query exactly once, with exactly its interval pushed in order since the last `init` and not rolled back; every rollback has its snapshot.
Missing: if all right ends are 0 a division by zero happens (`C60_zero`). -/
theorem C60_rollback_partial (segs : List Seg) (hseg : ∀ s ∈ segs, 0 ≤ s.1 ∧ s.1 ≤ s.2) (b : Int) (hb : BlockSize (maxR segs) b) (odd : Bool) (J : List Nat)
    (hJ : J.Perm (longIds segs b)) (hn : 0 < maxR segs ∨ segs = [])
    (hsort : J.Pairwise (fun i j => ∀ s u, segs[i]? = some s → segs[j]? = some u → compRb odd b u s ≠ some true)) (w : List Int) :
    ∃ es, solveRollback segs b odd J = some es ∧ (rems es).Perm (List.range segs.length) ∧ Legit segs es w [] := by
  rw [solveRollback]
  by_cases h0 : segs.length = 0
  · rw [if_pos h0, h0]
    exact ⟨[], rfl, List.Perm.refl _, trivial⟩
  · rw [if_neg h0]
    have hbp : 0 < b := by
      rcases hn with hn | hn
      · unfold BlockSize at hb; omega
      · rw [hn] at h0; exact absurd rfl h0
    obtain ⟨e1, h1, r1, w1⟩ := shorts_ok (fun s hs => (hseg s hs).2) b segs 0 rfl (by simp)
    rw [← List.range_eq_range'] at h1 r1
    have hlong : ∀ t ∈ longIds segs b, ∃ s, segs[t]? = some s ∧ 0 ≤ s.1 ∧ b ≤ s.2 - s.1 := by
      intro t ht
      rw [longIds, List.mem_filter, List.mem_range] at ht
      have hs : segs[t]? = some segs[t] := List.getElem?_eq_getElem ht.1
      rw [hs] at ht
      exact ⟨_, hs, (hseg _ (List.getElem_mem ht.1)).1, by simpa using ht.2⟩
    have hbd : blocksDefined b segs (longIds segs b) = true := by
      rw [blocksDefined, List.all_eq_true]
      intro t ht
      obtain ⟨s, hs, h0, _⟩ := hlong t ht
      obtain ⟨k, hk, _⟩ := block_spec false hbp h0
      obtain ⟨k', hk', _⟩ := block_spec true hbp h0
      rw [hs]
      dsimp only
      rw [hk, hk']; rfl
    have hL : ∀ w' : List Int, ∃ es, longs odd b segs J (-1) 0 = some es ∧ rems es = J ∧ Legit segs es w' [] := fun w' =>
      longs_ok odd hbp J (-1) 0 w' (fun t ht => hlong t (hJ.mem_iff.mp ht)) hsort (fun h => absurd h (by decide))
    obtain ⟨e2, h2, r2, _⟩ := hL w
    refine ⟨e1 ++ e2, ?_, ?_, ?_⟩
    · rw [h1, Option.bind_some]
      dsimp only
      rw [show (List.filter (fun u => match segs[u]? with
        | some s => decide (b ≤ s.2 - s.1)
        | none => false) (List.range segs.length)) = longIds segs b from rfl, if_pos hbd, h2]
      rfl
    · rw [rems_append, r1, r2]
      refine (List.Perm.append_left _ hJ).trans ?_
      rw [longIds]
      refine List.perm_append_comm.trans ?_
      exact List.filter_append_perm _ _
    · apply w1
      intro w'
      obtain ⟨e2', h2', _, h3⟩ := hL w'
      rw [h2] at h2'
      cases h2'
      exact h3

example : ∃ es, solveRollback [(0,1), (0,4), (1,3)] 2 false [2,1] = some es ∧ (rems es).Perm (List.range 3) ∧ Legit [(0,1), (0,4), (1,3)] es [] [] :=
  C60_rollback_partial [(0,1), (0,4), (1,3)] (by decide) 2 (Or.inr ⟨by decide, by decide⟩) false [2,1] (by decide) (Or.inl (by decide)) (by
    refine List.Pairwise.cons ?_ (List.pairwise_singleton _ _)
    intro j hj s u hs hu
    rw [List.mem_singleton] at hj
    subst hj
    cases hs
    cases hu
    decide) []

/-- The violation of C60: if every right end is 0 (all segments empty at position 0) the run divides by zero. -/
theorem C60_zero (segs : List Seg) (hne : segs ≠ []) (h : ∀ s ∈ segs, s = (0, 0)) (b : Int) (hb : BlockSize (maxR segs) b) (odd : Bool) (J : List Nat) :
    solveRollback segs b odd J = none := by
  have hm : maxR segs = 0 := by
    unfold maxR
    have : ∀ (l : List Seg), (∀ s ∈ l, s = (0, 0)) → l.foldl (fun (n : Int) (s : Seg) => max n s.2) 0 = 0 := by
      intro l
      induction l with
      | nil => intro _; rfl
      | cons s l ih =>
        intro hl
        rw [List.foldl_cons, hl s (by simp)]
        exact ih (fun s hs => hl s (by simp [hs]))
    exact this segs h
  have hb0 : b = 0 := by unfold BlockSize at hb; omega
  subst hb0
  obtain ⟨s, ss, rfl⟩ : ∃ s ss, segs = s :: ss := by
    cases segs with
    | nil => exact absurd rfl hne
    | cons s ss => exact ⟨s, ss, rfl⟩
  rw [solveRollback, if_neg (by simp)]
  obtain ⟨e1, h1, r1, w1⟩ := shorts_ok (segs := s :: ss) (fun s hs => by rw [h s hs]) 0 (s :: ss) 0 rfl (by simp)
  rw [h1, Option.bind_some]
  dsimp only
  rw [if_neg]
  rw [List.length_cons, List.range'_succ, List.filter_cons_of_pos (by simp [h s (by simp)])]
  rw [blocksDefined, List.all_cons]
  simp [h s (by simp), block, blockEven, cdiv]

end Verif.Mo
