import Verif.Mo.Props
import Mathlib.Data.Nat.Sqrt
import Mathlib.Tactic.Ring
import Mathlib.Tactic.Linarith
/-!
The number of calls of the window callbacks in `MoSolver::solve` and `solve_rollback`: definitions and proofs for C131.
-/
namespace Verif.Mo

/-- A call that moves an end of the window. -/
def Ev.move : Ev → Bool
  | .pushl _ | .pushr _ | .popl _ | .popr _ => true
  | _ => false

/-- How many times the window was moved by one position. -/
def moves (es : List Ev) : Nat := es.countP Ev.move

/-- `I` is a result of `std::sort` with `EvenComp` or `OddComp`: no later query compares less than an earlier one. -/
def Sorted (odd : Bool) (b : Int) (segs : List Seg) (I : List Nat) : Prop :=
  I.Pairwise (fun i j => (segs[i]?).bind (fun s => (segs[j]?).bind (fun t => comp odd b t s)) = some false)

theorem moves_append (a c : List Ev) : moves (a ++ c) = moves a + moves c := List.countP_append

theorem down_moves {ev : Int → Ev} (hev : ∀ i, (ev i).move = true) (l : Int) : ∀ (f : Nat) (c : Int), (c - l).toNat ≤ f →
    ∃ p, down ev l f c = some p ∧ moves p.1 = (c - l).toNat ∧ p.2 = min c l := by
  intro f
  induction f with
  | zero =>
    intro c h
    refine ⟨([], c), ?_, ?_, ?_⟩
    · unfold down; rw [if_neg (by omega)]
    · simp [moves]; omega
    · dsimp only; omega
  | succ f ih =>
    intro c h
    by_cases hc : l < c
    · obtain ⟨p, h1, h2, h3⟩ := ih (c - 1) (by omega)
      refine ⟨(ev (c-1) :: p.1, p.2), ?_, ?_, ?_⟩
      · unfold down; rw [if_pos hc, h1]; rfl
      · show moves ([ev (c-1)] ++ p.1) = _
        rw [moves_append, h2]
        have : moves [ev (c-1)] = 1 := by simp [moves, hev]
        omega
      · dsimp only; omega
    · refine ⟨([], c), ?_, ?_, ?_⟩
      · unfold down; rw [if_neg hc]
      · simp [moves]; omega
      · dsimp only; omega

theorem upw_moves {ev : Int → Ev} (hev : ∀ i, (ev i).move = true) (r : Int) : ∀ (f : Nat) (c : Int), (r - c).toNat ≤ f →
    ∃ p, upw ev r f c = some p ∧ moves p.1 = (r - c).toNat ∧ p.2 = max c r := by
  intro f
  induction f with
  | zero =>
    intro c h
    refine ⟨([], c), ?_, ?_, ?_⟩
    · unfold upw; rw [if_neg (by omega)]
    · simp [moves]; omega
    · dsimp only; omega
  | succ f ih =>
    intro c h
    by_cases hc : c < r
    · obtain ⟨p, h1, h2, h3⟩ := ih (c + 1) (by omega)
      refine ⟨(ev c :: p.1, p.2), ?_, ?_, ?_⟩
      · unfold upw; rw [if_pos hc, h1]; rfl
      · show moves ([ev c] ++ p.1) = _
        rw [moves_append, h2]
        have : moves [ev c] = 1 := by simp [moves, hev]
        omega
      · dsimp only; omega
    · refine ⟨([], c), ?_, ?_, ?_⟩
      · unfold upw; rw [if_neg hc]
      · simp [moves]; omega
      · dsimp only; omega

theorem round_moves (t : Nat) (l r cl cr : Int) : ∃ es, round t l r cl cr = some (es, l, r) ∧ (moves es : Int) = |l - cl| + |r - cr| := by
  obtain ⟨a, a1, a2, a3⟩ := down_moves (ev := Ev.pushl) (fun _ => rfl) l _ cl (le_refl _)
  obtain ⟨b, b1, b2, b3⟩ := upw_moves (ev := Ev.pushr) (fun _ => rfl) r _ cr (le_refl _)
  obtain ⟨c, c1, c2, c3⟩ := upw_moves (ev := Ev.popl) (fun _ => rfl) l _ a.2 (le_refl _)
  obtain ⟨d, d1, d2, d3⟩ := down_moves (ev := Ev.popr) (fun _ => rfl) r _ b.2 (le_refl _)
  refine ⟨a.1 ++ b.1 ++ c.1 ++ d.1 ++ [Ev.rem t], ?_, ?_⟩
  · unfold round
    rw [a1, Option.bind_some, b1, Option.bind_some, c1, Option.bind_some, d1, Option.map_some]
    rw [a3] at c3; rw [b3] at d3
    have e1 : c.2 = l := by omega
    have e2 : d.2 = r := by omega
    rw [e1, e2]
  · simp only [moves_append]
    have : moves [Ev.rem t] = 0 := rfl
    rw [this, a2, b2, c2, d2, a3, b3]
    have := abs_eq_max_neg (a := l - cl)
    have := abs_eq_max_neg (a := r - cr)
    push_cast
    omega

/-- What the analysis needs of the blocks: `f` gives the block of a left end, `E` the end of a block. -/
structure Blk (odd : Bool) (b : Int) (f : Int → Int) : Prop where
  eq : ∀ x, block odd b x = some (f x)
  mono : ∀ x y, x ≤ y → f x ≤ f y
  nn : ∀ x, 0 ≤ x → 0 ≤ f x
  lo : ∀ x, 0 ≤ x → x ≤ bend odd b (f x)
  hi : ∀ x, 0 ≤ x → bend odd b (f x) ≤ x + b

theorem blk_exists (odd : Bool) {b : Int} (hb : 0 < b) : ∃ f, Blk odd b f := by
  obtain ⟨f, h1, h2⟩ := block_mono odd hb
  refine ⟨f, h1, h2, ?_, ?_, ?_⟩ <;>
  · intro x hx
    obtain ⟨k, k1, k2, k3, k4⟩ := block_spec odd hb hx
    rw [h1] at k1
    have := Option.some.inj k1
    subst this
    assumption

/-- The right end moves in one direction inside a block. -/
def rpot (n k r : Int) : Int := if k.tmod 2 = 0 then n - r else r

theorem bend_step (odd : Bool) (b k : Int) : bend odd b k = bend odd b 0 + k * b := by
  unfold bend
  split_ifs <;> ring

theorem bend_zero (odd : Bool) {b : Int} (hb : 0 < b) : 0 ≤ bend odd b 0 := by
  unfold bend
  rw [Int.tdiv_eq_ediv_of_nonneg (by omega)]
  split_ifs <;> omega

/-- Query `t` may follow the window `(cl, cr)`. -/
def After (f : Int → Int) (cl cr : Int) (t : Seg) : Prop :=
  f cl ≤ f t.1 ∧ (f cl = f t.1 → if (f cl).tmod 2 = 0 then cr ≤ t.2 else t.2 ≤ cr)

theorem after_of_comp {odd : Bool} {b : Int} {f : Int → Int} (B : Blk odd b f) {s t : Seg} (h : comp odd b t s = some false) : After f s.1 s.2 t := by
  unfold comp at h
  rw [B.eq, B.eq, Option.bind_some, Option.map_some] at h
  have h := Option.some.inj h
  by_cases e : f t.1 = f s.1
  · rw [if_neg (by simpa using e)] at h
    refine ⟨le_of_eq e.symm, fun _ => ?_⟩
    rw [e] at h
    by_cases h2 : (f s.1).tmod 2 = 0
    · rw [if_pos h2] at h ⊢
      rw [decide_eq_false_iff_not] at h; omega
    · rw [if_neg h2] at h ⊢
      rw [decide_eq_false_iff_not] at h; omega
  · rw [if_pos e, decide_eq_false_iff_not] at h
    have := B.mono s.1 t.1 (by omega)
    exact ⟨this, fun h' => absurd h'.symm e⟩

theorem rpot_step {n ks kt cr r : Int} (h0 : 0 ≤ ks) (hk : ks ≤ kt) (hcr : 0 ≤ cr) (hcn : cr ≤ n) (hr : 0 ≤ r) (hrn : r ≤ n)
    (hs : ks = kt → if ks.tmod 2 = 0 then cr ≤ r else r ≤ cr) : |r - cr| + rpot n kt r ≤ rpot n ks cr + (kt - ks) * n := by
  have habs := abs_eq_max_neg (a := r - cr)
  unfold rpot
  rw [Int.tmod_eq_emod_of_nonneg h0] at hs ⊢
  rw [Int.tmod_eq_emod_of_nonneg (by omega)]
  rcases Int.lt_or_eq_of_le hk with h | h
  · by_cases h1 : kt = ks + 1
    · have e : (kt - ks) * n = n := by rw [h1]; ring
      rw [e]
      split_ifs with a c <;> omega
    · have e : 2 * n ≤ (kt - ks) * n := Int.mul_le_mul_of_nonneg_right (by omega) (by omega)
      split_ifs with a c <;> omega
  · have hs := hs h
    subst h
    have e : (ks - ks) * n = 0 := by ring
    rw [e]
    split_ifs at hs ⊢ with a <;> omega

theorem solveLoop_moves {segs : List Seg} {odd : Bool} {b n : Int} {f : Int → Int} (B : Blk odd b f) (hseg : ∀ s ∈ segs, 0 ≤ s.1 ∧ s.1 ≤ s.2 ∧ s.2 ≤ n) (hb : 0 < b) (hn : 0 ≤ n) :
    ∀ (I : List Nat), (∀ t ∈ I, t < segs.length) → Sorted odd b segs I → ∀ (cl cr : Int), 0 ≤ cl → cl ≤ n → 0 ≤ cr → cr ≤ n →
      (∀ i ∈ I, ∀ t, segs[i]? = some t → After f cl cr t) →
      ∃ es, solveLoop segs I cl cr = some es ∧
        (moves es : Int) ≤ I.length * b + (n + b - bend odd b (f cl)) + ((n / b + 1) - f cl) * n + rpot n (f cl) cr := by
  intro I
  induction I with
  | nil =>
    intro _ _ cl cr h1 h2 h3 h4 _
    refine ⟨[], rfl, ?_⟩
    have a := B.hi cl h1
    have hfb : f cl ≤ n / b + 1 := by
      have := bend_step odd b (f cl)
      have h0 := bend_zero odd hb
      have h5 : f cl * b ≤ n + b := by omega
      have h6 : (f cl - 1) * b ≤ n := by
        have : (f cl - 1) * b = f cl * b - b := by ring
        omega
      have := (Int.le_ediv_iff_mul_le hb).2 h6
      omega
    have hr : 0 ≤ rpot n (f cl) cr := by unfold rpot; split_ifs <;> omega
    have hm : 0 ≤ ((n / b + 1) - f cl) * n := Int.mul_nonneg (by omega) hn
    have e0 : moves [] = 0 := rfl
    rw [e0]
    simp only [List.length_nil]
    push_cast
    omega
  | cons i I ih =>
    intro hI hS cl cr h1 h2 h3 h4 hA
    have hi : i < segs.length := hI i List.mem_cons_self
    obtain ⟨s, hs⟩ : ∃ s, segs[i]? = some s := ⟨_, List.getElem?_eq_getElem hi⟩
    obtain ⟨s1, s2, s3⟩ := hseg s (List.mem_of_getElem? hs)
    obtain ⟨es1, r1, r2⟩ := round_moves i s.1 s.2 cl cr
    obtain ⟨es2, q1, q2⟩ := ih (fun t ht => hI t (List.mem_cons_of_mem _ ht)) (List.pairwise_cons.1 hS).2 s.1 s.2 s1 (by omega) (by omega) s3
      (fun j hj t ht => after_of_comp B (by have := (List.pairwise_cons.1 hS).1 j hj; rwa [hs, Option.bind_some, ht, Option.bind_some] at this))
    refine ⟨es1 ++ es2, ?_, ?_⟩
    · unfold solveLoop
      rw [hs, Option.bind_some, r1, Option.bind_some, q1]; rfl
    · obtain ⟨a1, a2⟩ := hA i List.mem_cons_self s hs
      have hp := rpot_step (B.nn cl h1) a1 h3 h4 (by omega) s3 a2
      rw [moves_append]
      push_cast
      rw [r2]
      have b1 := B.lo cl h1
      have b2 := B.hi cl h1
      have b3 := B.lo s.1 s1
      have b4 := B.hi s.1 s1
      have hle : bend odd b (f cl) ≤ bend odd b (f s.1) := by
        rw [bend_step odd b (f cl), bend_step odd b (f s.1)]
        have := Int.mul_le_mul_of_nonneg_right a1 (show 0 ≤ b by omega)
        omega
      have habs := abs_eq_max_neg (a := s.1 - cl)
      have hl : |s.1 - cl| ≤ b + (bend odd b (f s.1) - bend odd b (f cl)) := by omega
      have e1 : ((I.length : Int) + 1) * b = I.length * b + b := by ring
      have e2 : (n / b + 1 - f s.1) * n + (f s.1 - f cl) * n = (n / b + 1 - f cl) * n := by ring
      rw [List.length_cons]
      push_cast
      rw [e1]
      omega

theorem foldl_maxR (segs : List Seg) : ∀ m : Int, m ≤ segs.foldl (fun n s => max n s.2) m ∧ ∀ s ∈ segs, s.2 ≤ segs.foldl (fun n s => max n s.2) m := by
  induction segs with
  | nil => intro m; exact ⟨le_refl _, fun s h => by cases h⟩
  | cons a l ih =>
    intro m
    obtain ⟨h1, h2⟩ := ih (max m a.2)
    rw [List.foldl_cons]
    refine ⟨by omega, ?_⟩
    intro s hs
    rcases List.mem_cons.1 hs with rfl | hs
    · omega
    · exact h2 s hs

/-! ### `solve_rollback` -/

theorem direct_moves (t : Nat) {l r : Int} (h : l ≤ r) : ∃ es, direct t l r = some es ∧ (moves es : Int) = r - l := by
  obtain ⟨p, p1, p2, p3⟩ := upw_moves (ev := Ev.pushr) (fun _ => rfl) r _ l (le_refl _)
  refine ⟨Ev.init :: p.1 ++ [Ev.rem t], by unfold direct; rw [p1]; rfl, ?_⟩
  have : moves (Ev.init :: p.1 ++ [Ev.rem t]) = moves [Ev.init] + moves p.1 + moves [Ev.rem t] := by
    rw [← moves_append, ← moves_append]; rfl
  rw [this, p2]
  have e1 : moves [Ev.init] = 0 := rfl
  have e2 : moves [Ev.rem t] = 0 := rfl
  omega

theorem shorts_moves (b : Int) : ∀ (ss : List Seg) (t : Nat), (∀ s ∈ ss, s.1 ≤ s.2) → ∀ p, shorts b ss t = some p →
    (moves p.1 : Int) + p.2.length * b ≤ ss.length * b := by
  intro ss
  induction ss with
  | nil => intro t _ p h; cases h; simp [moves]
  | cons s ss ih =>
    intro t hs p h
    unfold shorts at h
    have e : ((ss.length : Int) + 1) * b = ss.length * b + b := by ring
    rw [List.length_cons]
    push_cast
    rw [e]
    obtain ⟨q, hq⟩ : ∃ q, shorts b ss (t+1) = some q := by
      split_ifs at h with hc
      · obtain ⟨es, d1, _⟩ := direct_moves t (hs s List.mem_cons_self)
        rw [d1, Option.bind_some] at h
        cases hq : shorts b ss (t+1) with
        | none => rw [hq] at h; cases h
        | some q => exact ⟨q, rfl⟩
      · cases hq : shorts b ss (t+1) with
        | none => rw [hq] at h; cases h
        | some q => exact ⟨q, rfl⟩
    have := ih (t+1) (fun x hx => hs x (List.mem_cons_of_mem _ hx)) q hq
    rw [hq] at h
    split_ifs at h with hc
    · obtain ⟨es, d1, d2⟩ := direct_moves t (hs s List.mem_cons_self)
      rw [d1] at h
      cases h
      dsimp only
      rw [moves_append]
      push_cast
      omega
    · cases h
      dsimp only
      rw [List.length_cons]
      have e' : ((q.2.length : Int) + 1) * b = q.2.length * b + b := by ring
      push_cast
      rw [e']
      omega

theorem longOne_moves {b : Int} (t : Nat) {l r be cr : Int} {p : List Ev × Int} (h : longOne b t l r be cr = some p) :
    (moves p.1 : Int) = (r - cr) + (be - l) ∧ p.2 = r ∧ cr ≤ r ∧ l ≤ be ∧ be - l ≤ b := by
  unfold longOne at h
  obtain ⟨u, u1, u2, u3⟩ := upw_moves (ev := Ev.pushr) (fun _ => rfl) r _ cr (le_refl _)
  rw [u1, Option.bind_some] at h
  split_ifs at h with h1 h2
  obtain ⟨v, v1, v2, v3⟩ := down_moves (ev := Ev.pushl) (fun _ => rfl) l _ be (le_refl _)
  rw [v1] at h
  cases h
  refine ⟨?_, by dsimp only; rw [u3]; omega, h1, h2.1, h2.2⟩
  dsimp only
  simp only [moves_append]
  have e1 : moves [Ev.snapshot] = 0 := rfl
  have e2 : moves [Ev.rem t, Ev.rollback] = 0 := rfl
  rw [u2, v2, e1, e2]
  push_cast
  omega

theorem enter_moves (bi cb be cr : Int) : moves (enterBlock bi cb be cr).1 = 0 := by
  unfold enterBlock
  split_ifs <;> rfl

theorem longs_moves {segs : List Seg} {odd : Bool} {b n : Int} {f : Int → Int} (B : Blk odd b f) (hseg : ∀ s ∈ segs, 0 ≤ s.1 ∧ s.1 ≤ s.2 ∧ s.2 ≤ n) (hb : 0 < b) (hn : 0 ≤ n) :
    ∀ (J : List Nat), J.Pairwise (fun i j => ∀ s u, segs[i]? = some s → segs[j]? = some u → compRb odd b u s ≠ some true) → ∀ (cb cr : Int),
      cb ≤ n / b + 1 → (0 ≤ cb → cr ≤ n) → (∀ t ∈ J, ∀ s, segs[t]? = some s → cb ≤ f s.1) → ∀ es, longs odd b segs J cb cr = some es →
      (moves es : Int) ≤ J.length * b + (n / b + 1 - cb) * n + (if 0 ≤ cb then n - cr else 0) := by
  intro J
  induction J with
  | nil =>
    intro _ cb cr h1 h2 _ es h
    cases h
    have hm : 0 ≤ ((n / b + 1) - cb) * n := Int.mul_nonneg (by omega) hn
    have e0 : moves [] = 0 := rfl
    rw [e0]
    simp only [List.length_nil]
    push_cast
    split_ifs with hc
    · have := h2 hc; omega
    · omega
  | cons t J ih =>
    intro hS cb cr h1 h2 h3 es h
    unfold longs at h
    cases hs : segs[t]? with
    | none => rw [hs] at h; cases h
    | some s =>
      obtain ⟨s1, s12, s2⟩ := hseg s (List.mem_of_getElem? hs)
      rw [hs, Option.bind_some, B.eq, Option.bind_some] at h
      cases hp : longOne b t s.1 s.2 (bend odd b (f s.1)) (enterBlock (f s.1) cb (bend odd b (f s.1)) cr).2 with
      | none => rw [hp] at h; cases h
      | some p =>
        rw [hp, Option.bind_some] at h
        cases hq : longs odd b segs J (f s.1) p.2 with
        | none => rw [hq] at h; cases h
        | some q =>
          rw [hq] at h
          cases h
          obtain ⟨p1, p2, p3, p4, p5⟩ := longOne_moves t hp
          have hk := h3 t List.mem_cons_self s hs
          have hk0 := B.nn s.1 s1
          have hfb : f s.1 ≤ n / b + 1 := by
            have a := B.hi s.1 s1
            rw [bend_step] at a
            have h0 := bend_zero odd hb
            have h6 : (f s.1 - 1) * b ≤ n := by
              have : (f s.1 - 1) * b = f s.1 * b - b := by ring
              omega
            have := (Int.le_ediv_iff_mul_le hb).2 h6
            omega
          have hi := ih (List.pairwise_cons.1 hS).2 (f s.1) p.2 hfb (fun _ => by rw [p2]; exact s2) (by
            intro j hj u hu
            have hc := (List.pairwise_cons.1 hS).1 j hj s u hs hu
            unfold compRb at hc
            rw [B.eq, B.eq, Option.bind_some, Option.map_some] at hc
            by_contra hcon
            have hlt : u.1 < s.1 := by
              by_contra h'
              exact hcon (B.mono s.1 u.1 (by omega))
            rw [if_pos (by omega), decide_eq_true hlt] at hc
            exact hc rfl) q hq
          rw [if_pos hk0, p2] at hi
          rw [moves_append, moves_append, enter_moves]
          have e1 : ((J.length : Int) + 1) * b = J.length * b + b := by ring
          have e2 : (n / b + 1 - f s.1) * n + (f s.1 - cb) * n = (n / b + 1 - cb) * n := by ring
          rw [List.length_cons]
          push_cast
          rw [e1, p1]
          by_cases hc : f s.1 = cb
          · have ec : (enterBlock (f s.1) cb (bend odd b (f s.1)) cr).2 = cr := by unfold enterBlock; rw [if_neg (by simpa using hc)]
            rw [ec] at p3 ⊢
            rw [← hc] at e2 ⊢
            rw [if_pos hk0]
            omega
          · have ec : (enterBlock (f s.1) cb (bend odd b (f s.1)) cr).2 = bend odd b (f s.1) := by unfold enterBlock; rw [if_pos hc]
            rw [ec] at p3 ⊢
            have e3 : n ≤ (f s.1 - cb) * n := by
              have : 1 * n ≤ (f s.1 - cb) * n := Int.mul_le_mul_of_nonneg_right (by omega) hn
              omega
            split_ifs with h0
            · have := h2 h0; omega
            · omega

/-- `b` is `⌈n / √q⌉`. -/
def IsCeil (n : Int) (q : Nat) (b : Int) : Prop := 0 < b ∧ n ^ 2 ≤ b ^ 2 * q ∧ (b - 1) ^ 2 * q < n ^ 2

theorem IsCeil.arith {n : Int} {q : Nat} {b : Int} (hn : 0 < n) (h : IsCeil n q b) :
    (b - 1) * q < n * (Nat.sqrt q + 1) ∧ b ≤ n ∧ n / b ≤ Nat.sqrt q := by
  obtain ⟨hb0, hb1, hb2⟩ := h
  have hq : 1 ≤ q := by
    by_contra c
    have : q = 0 := by omega
    rw [this] at hb1
    have : 0 < n ^ 2 := by positivity
    push_cast at hb1
    omega
  have r1 := Nat.sqrt_le' q
  have r2 := Nat.lt_succ_sqrt' q
  generalize Nat.sqrt q = r at *
  have r1' : (r : Int) ^ 2 ≤ q := by exact_mod_cast r1
  have r2' : (q : Int) < (r + 1) ^ 2 := by exact_mod_cast r2
  have hq' : (1 : Int) ≤ q := by exact_mod_cast hq
  -- the blocks are not too wide
  have w1 : (b - 1) * q < n * (r + 1) := by
    have : ((b - 1) * q) ^ 2 < (n * (r + 1)) ^ 2 := by
      have a1 : ((b - 1) * q) ^ 2 = ((b - 1) ^ 2 * q) * q := by ring
      have a2 : (n * ((r : Int) + 1)) ^ 2 = n ^ 2 * (r + 1) ^ 2 := by ring
      rw [a1, a2]
      have : ((b - 1) ^ 2 * q) * q ≤ n ^ 2 * q := Int.mul_le_mul_of_nonneg_right hb2.le (by omega)
      have : n ^ 2 * q < n ^ 2 * (r + 1) ^ 2 := Int.mul_lt_mul_of_pos_left r2' (by positivity)
      omega
    exact lt_of_pow_lt_pow_left₀ 2 (by positivity) this
  have w2 : b ≤ n := by
    have : b - 1 < n := by
      have : (b - 1) ^ 2 < n ^ 2 := by
        have : (b - 1) ^ 2 * 1 ≤ (b - 1) ^ 2 * q := Int.mul_le_mul_of_nonneg_left hq' (by positivity)
        omega
      exact lt_of_pow_lt_pow_left₀ 2 hn.le this
    omega
  -- nor too many
  have w3 : n / b ≤ r := by
    have h0 : 0 ≤ n / b := Int.ediv_nonneg hn.le hb0.le
    have h5 : n / b * b ≤ n := Int.ediv_mul_le n (by omega)
    have h6 : (n / b * b) ^ 2 ≤ n ^ 2 := pow_le_pow_left₀ (Int.mul_nonneg h0 hb0.le) h5 2
    have h7 : (n / b) ^ 2 * b ^ 2 ≤ q * b ^ 2 := by
      have : (n / b * b) ^ 2 = (n / b) ^ 2 * b ^ 2 := by ring
      have : b ^ 2 * (q : Int) = q * b ^ 2 := by ring
      omega
    have h8 : (n / b) ^ 2 ≤ q := Int.le_of_mul_le_mul_right h7 (by positivity)
    have h9 : (n / b) ^ 2 < ((r : Int) + 1) ^ 2 := by omega
    have := lt_of_pow_lt_pow_left₀ 2 (by positivity) h9
    omega
  exact ⟨w1, w2, w3⟩

end Verif.Mo
