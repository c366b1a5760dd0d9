import Verif.Meldable.Props
import Mathlib.Analysis.SpecialFunctions.Log.Base
/-!
How often `_meld` calls `rand()` and how deep it recurses, for C133.
-/
namespace Verif.Meldable
open Verif.FibHeap (SWO)

variable {T : Type} {lt : T → T → Bool}

/-- The expectation of `f` over `m` independent fair coins. -/
noncomputable def avg : Nat → (List Bool → ℝ) → ℝ
  | 0, f => f []
  | m+1, f => (avg m (fun b => f (true :: b)) + avg m (fun b => f (false :: b))) / 2

/-- `rand()` gives the coins in `b` from call number `c` on. -/
def coins (c : Nat) (b : List Bool) (i : Nat) : Bool := b.getD (i - c) false

theorem avg_mono {m : Nat} : ∀ {f g : List Bool → ℝ}, (∀ b, f b ≤ g b) → avg m f ≤ avg m g := by
  induction m with
  | zero => intro f g h; exact h []
  | succ m ih =>
    intro f g h
    have h1 := ih (fun b => h (true :: b))
    have h2 := ih (fun b => h (false :: b))
    unfold avg
    linarith

theorem avg_const (m : Nat) (c : ℝ) : avg m (fun _ => c) = c := by
  induction m with
  | zero => rfl
  | succ m ih => unfold avg; rw [ih]; ring

theorem avg_add (m : Nat) (c : ℝ) : ∀ f : List Bool → ℝ, avg m (fun b => c + f b) = c + avg m f := by
  induction m with
  | zero => intro f; rfl
  | succ m ih => intro f; unfold avg; rw [ih, ih]; ring

/-- Going on with a random child of a node: the expected depth is at most logarithmic. -/
theorem log_half {a b : ℝ} (ha : 1 ≤ a) (hb : 1 ≤ b) : 1 + (Real.logb 2 a + Real.logb 2 b) / 2 ≤ Real.logb 2 (a + b) := by
  have h1 : Real.logb 2 (4 * (a * b)) ≤ Real.logb 2 ((a + b) ^ 2) := Real.logb_le_logb_of_le (by norm_num) (by positivity) (by nlinarith [sq_nonneg (a - b)])
  rw [Real.logb_pow, Real.logb_mul (by norm_num) (by positivity), Real.logb_mul (by positivity) (by positivity)] at h1
  have h2 : Real.logb 2 4 = 2 := by
    rw [show (4 : ℝ) = 2 ^ 2 by norm_num, Real.logb_pow, Real.logb_self_eq_one (by norm_num)]
    norm_num
  rw [h2] at h1
  push_cast at h1
  linarith

/-- `log₂(n + 1)`. -/
noncomputable def lg (n : Nat) : ℝ := Real.logb 2 (n + 1)

theorem lg_nonneg (n : Nat) : 0 ≤ lg n := Real.logb_nonneg (by norm_num) (by have : (0 : ℝ) ≤ n := Nat.cast_nonneg n; linarith)

theorem lg_node (l r : Nat) : 1 + (lg l + lg r) / 2 ≤ lg (l + r + 1) := by
  have := log_half (a := (l : ℝ) + 1) (b := (r : ℝ) + 1) (by have : (0 : ℝ) ≤ l := Nat.cast_nonneg l; linarith) (by have : (0 : ℝ) ≤ r := Nat.cast_nonneg r; linarith)
  unfold lg
  push_cast
  rw [show (l : ℝ) + r + 1 + 1 = (l + 1) + (r + 1) by ring]
  exact this

theorem lg_mono {a b : Nat} (h : a ≤ b) : lg a ≤ lg b := by
  unfold lg
  have : (a : ℝ) ≤ b := Nat.cast_le.mpr h
  have h0 : (0 : ℝ) ≤ a := Nat.cast_nonneg a
  exact Real.logb_le_logb_of_le (by norm_num) (by linarith) (by linarith)

theorem lg_one : lg 1 = 1 := by
  unfold lg
  rw [show ((1 : Nat) : ℝ) + 1 = 2 by norm_num]
  exact Real.logb_self_eq_one (by norm_num)

/-- The calls of `rand()` in a run of `_meld` which began with `c` calls. -/
def used (c : Nat) (res : Option (List (Node T) × Nat × Option Nat)) : Nat :=
  match res with
  | none => 0
  | some r => r.2.1 - c

/-- `_meld` reads only the later coins. -/
theorem meldF_congr : ∀ (k : Nat) (ρ ρ' : Nat → Bool) (h : List (Node T)) (c : Nat) (p q : Option Nat), (∀ i, c ≤ i → ρ i = ρ' i) → meldF lt ρ k h c p q = meldF lt ρ' k h c p q := by
  intro k
  induction k with
  | zero => intro ρ ρ' h c p q _; rfl
  | succ k ih =>
    intro ρ ρ' h c p q hρ
    cases p with
    | none => rfl
    | some l =>
      cases q with
      | none => rfl
      | some r =>
        rw [meldF, meldF]
        have h1 := hρ c (le_refl _)
        have h2 : ∀ p q, meldF lt ρ k h (c+1) p q = meldF lt ρ' k h (c+1) p q := fun p q => ih ρ ρ' h (c+1) p q (fun i hi => hρ i (by omega))
        have h3 : ∀ p q, meldF lt ρ k h c p q = meldF lt ρ' k h c p q := fun p q => ih ρ ρ' h c p q hρ
        simp only [h1, h2, h3]

theorem coins_head (c : Nat) (x : Bool) (b : List Bool) : coins c (x :: b) c = x := by unfold coins; rw [Nat.sub_self]; rfl

theorem coins_tail (c : Nat) (x : Bool) (b : List Bool) (i : Nat) (hi : c + 1 ≤ i) : coins c (x :: b) i = coins (c + 1) b i := by
  unfold coins
  rw [show i - c = (i - (c + 1)) + 1 by omega, List.getD_cons_succ]

theorem used_bind (c : Nat) (res : Option (List (Node T) × Nat × Option Nat)) (f : List (Node T) × Nat × Option Nat → Option (List (Node T) × Nat × Option Nat))
    (hf : ∀ s r, f s = some r → r.2.1 = s.2.1) : used c (res.bind f) ≤ 1 + used (c + 1) res := by
  cases res with
  | none => exact Nat.zero_le _
  | some s =>
    rw [Option.bind_some]
    cases h : f s with
    | none => exact Nat.zero_le _
    | some r =>
      have := hf s r h
      show r.2.1 - c ≤ 1 + (s.2.1 - (c + 1))
      omega

/-- The expected number of calls of `rand()`. -/
theorem meldF_avg : ∀ (k : Nat) (h : List (Node T)) (c : Nat) (p q : Option Nat) (t1 t2 : BT T) (m : Nat), Own h p t1 → Own h q t2 → t1.sz + t2.sz ≤ m →
    avg m (fun b => (used c (meldF lt (coins c b) k h c p q) : ℝ)) ≤ lg t1.sz + lg t2.sz := by
  intro k
  induction k with
  | zero =>
    intro h c p q t1 t2 m _ _ _
    have : (fun b : List Bool => ((used c (meldF lt (coins c b) 0 h c p q) : Nat) : ℝ)) = fun _ => (0 : ℝ) := by funext b; simp [meldF, used]
    rw [this, avg_const]
    have := lg_nonneg t1.sz
    have := lg_nonneg t2.sz
    linarith
  | succ k ih =>
    intro h c p q t1 t2 m o1 o2 hm
    have n1 := lg_nonneg t1.sz
    have n2 := lg_nonneg t2.sz
    have zero : ∀ r : Option (List (Node T) × Nat × Option Nat), used c r = 0 → (∀ b, meldF lt (coins c b) (k+1) h c p q = r) →
        avg m (fun b => (used c (meldF lt (coins c b) (k+1) h c p q) : ℝ)) ≤ lg t1.sz + lg t2.sz := by
      intro r hr hb
      have : (fun b : List Bool => ((used c (meldF lt (coins c b) (k+1) h c p q) : Nat) : ℝ)) = fun _ => (0 : ℝ) := by funext b; rw [hb b, hr]; simp
      rw [this, avg_const]
      linarith
    cases p with
    | none => exact zero (some (h, c, q)) (Nat.sub_self c) (fun b => by rw [meldF])
    | some l =>
      cases q with
      | none => exact zero (some (h, c, some l)) (Nat.sub_self c) (fun b => by rw [meldF])
      | some r =>
        obtain ⟨x, tl, tr, a, b, rfl, e1, ol, or⟩ := own_some o1
        obtain ⟨x', tl', tr', a', b', rfl, e2, ol', or'⟩ := own_some o2
        cases hc : lt x x' with
        | true =>
          have := ih h c (some r) (some l) _ _ m o2 o1 (by omega)
          have e : ∀ β, meldF lt (coins c β) (k+1) h c (some l) (some r) = meldF lt (coins c β) k h c (some r) (some l) := fun β => by
            rw [meldF, e1, Option.bind_some, e2, Option.bind_some]
            dsimp only
            rw [hc, if_pos rfl]
          simp only [e]
          linarith
        | false =>
          cases m with
          | zero => exact absurd hm (by simp [BT.sz])
          | succ m =>
            have hs : (BT.node l x tl tr).sz = tl.sz + tr.sz + 1 := rfl
            rw [hs] at hm
            have hL := ih h (c+1) a (some r) tl _ m ol o2 (by omega)
            have hR := ih h (c+1) b (some r) tr _ m or o2 (by omega)
            have k1 : ∀ β, used c (meldF lt (coins c (true :: β)) (k+1) h c (some l) (some r)) ≤ 1 + used (c+1) (meldF lt (coins (c+1) β) k h (c+1) a (some r)) := by
              intro β
              rw [meldF, e1, Option.bind_some, e2, Option.bind_some]
              dsimp only
              rw [hc, if_neg (by simp), coins_head, if_pos rfl, meldF_congr k _ (coins (c+1) β) h (c+1) _ _ (fun i hi => coins_tail c true β i hi)]
              refine used_bind c _ _ (fun s r hr => ?_)
              obtain ⟨_, _, hr⟩ := Option.bind_eq_some_iff.mp hr
              obtain ⟨_, _, rfl⟩ := Option.map_eq_some_iff.mp hr
              rfl
            have k2 : ∀ β, used c (meldF lt (coins c (false :: β)) (k+1) h c (some l) (some r)) ≤ 1 + used (c+1) (meldF lt (coins (c+1) β) k h (c+1) b (some r)) := by
              intro β
              rw [meldF, e1, Option.bind_some, e2, Option.bind_some]
              dsimp only
              rw [hc, if_neg (by simp), coins_head, if_neg (by simp), meldF_congr k _ (coins (c+1) β) h (c+1) _ _ (fun i hi => coins_tail c false β i hi)]
              refine used_bind c _ _ (fun s r hr => ?_)
              obtain ⟨_, _, hr⟩ := Option.bind_eq_some_iff.mp hr
              obtain ⟨_, _, rfl⟩ := Option.map_eq_some_iff.mp hr
              rfl
            have a1 := avg_mono (m := m) (f := fun β => (used c (meldF lt (coins c (true :: β)) (k+1) h c (some l) (some r)) : ℝ))
              (g := fun β => 1 + (used (c+1) (meldF lt (coins (c+1) β) k h (c+1) a (some r)) : ℝ)) (fun β => by exact_mod_cast k1 β)
            have a2 := avg_mono (m := m) (f := fun β => (used c (meldF lt (coins c (false :: β)) (k+1) h c (some l) (some r)) : ℝ))
              (g := fun β => 1 + (used (c+1) (meldF lt (coins (c+1) β) k h (c+1) b (some r)) : ℝ)) (fun β => by exact_mod_cast k2 β)
            rw [avg_add] at a1 a2
            have hn := lg_node tl.sz tr.sz
            rw [hs]
            unfold avg
            linarith

/-! ### The depth of the recursion -/

theorem meldF_mono (ρ : Nat → Bool) : ∀ (k : Nat) (h : List (Node T)) (c : Nat) (p q : Option Nat) (res : List (Node T) × Nat × Option Nat), meldF lt ρ k h c p q = some res →
    ∀ j, k ≤ j → meldF lt ρ j h c p q = some res := by
  intro k
  induction k with
  | zero => intro h c p q res e; cases e
  | succ k ih =>
    intro h c p q res e j hj
    obtain ⟨j, rfl⟩ : ∃ i, j = i + 1 := ⟨j - 1, by omega⟩
    cases p with
    | none => rw [meldF] at e ⊢; exact e
    | some l =>
      cases q with
      | none => rw [meldF] at e ⊢; exact e
      | some r =>
        rw [meldF] at e ⊢
        obtain ⟨a, ea, e⟩ := Option.bind_eq_some_iff.mp e
        obtain ⟨b, eb, e⟩ := Option.bind_eq_some_iff.mp e
        rw [ea, Option.bind_some, eb, Option.bind_some]
        split_ifs at e ⊢ with h1 h2
        · exact ih _ _ _ _ _ e j (by omega)
        · obtain ⟨s, es, e⟩ := Option.bind_eq_some_iff.mp e
          rw [ih _ _ _ _ _ es j (by omega), Option.bind_some]
          exact e
        · obtain ⟨s, es, e⟩ := Option.bind_eq_some_iff.mp e
          rw [ih _ _ _ _ _ es j (by omega), Option.bind_some]
          exact e

/-- Between two calls of `rand()` the arguments are exchanged at most once. -/
theorem meldF_depth (hlt : SWO lt) (ρ : Nat → Bool) : ∀ (k : Nat) (h : List (Node T)) (c : Nat) (p q : Option Nat) (res : List (Node T) × Nat × Option Nat), meldF lt ρ k h c p q = some res →
    c ≤ res.2.1 ∧ meldF lt ρ (2 * (res.2.1 - c) + 2) h c p q = some res ∧
    ((∀ l r a b, p = some l → q = some r → h[l]? = some a → h[r]? = some b → lt a.x b.x = false) → meldF lt ρ (2 * (res.2.1 - c) + 1) h c p q = some res) := by
  intro k
  induction k with
  | zero => intro h c p q res e; cases e
  | succ k ih =>
    intro h c p q res e
    cases p with
    | none =>
      rw [meldF] at e
      cases e
      exact ⟨le_refl _, by rw [meldF], fun _ => by rw [meldF]⟩
    | some l =>
      cases q with
      | none =>
        rw [meldF] at e
        cases e
        exact ⟨le_refl _, by rw [meldF], fun _ => by rw [meldF]⟩
      | some r =>
        rw [meldF] at e
        obtain ⟨a, ea, e⟩ := Option.bind_eq_some_iff.mp e
        obtain ⟨b, eb, e⟩ := Option.bind_eq_some_iff.mp e
        by_cases h1 : lt a.x b.x = true
        · rw [if_pos h1] at e
          obtain ⟨i1, i2, i3⟩ := ih _ _ _ _ _ e
          refine ⟨i1, ?_, fun hno => ?_⟩
          · rw [meldF, ea, Option.bind_some, eb, Option.bind_some, if_pos h1]
            refine i3 (fun l' r' a' b' hl hr ha hb => ?_)
            cases hl
            cases hr
            rw [eb] at ha
            rw [ea] at hb
            cases ha
            cases hb
            exact hlt.asymm _ _ h1
          · rw [hno l r a b rfl rfl ea eb] at h1
            cases h1
        · have h1' : ¬ lt a.x b.x = true := h1
          rw [if_neg h1] at e
          have fin : c ≤ res.2.1 ∧ meldF lt ρ (2 * (res.2.1 - c) + 1) h c (some l) (some r) = some res := by
            by_cases h2 : ρ c = true
            · rw [if_pos h2] at e
              obtain ⟨s, es, e⟩ := Option.bind_eq_some_iff.mp e
              obtain ⟨i1, i2, _⟩ := ih _ _ _ _ _ es
              have hres : res.2.1 = s.2.1 := by
                obtain ⟨_, _, e⟩ := Option.bind_eq_some_iff.mp e
                obtain ⟨_, _, rfl⟩ := Option.map_eq_some_iff.mp e
                rfl
              refine ⟨by omega, ?_⟩
              rw [show 2 * (res.2.1 - c) + 1 = (2 * (s.2.1 - (c + 1)) + 2) + 1 by omega, meldF, ea, Option.bind_some, eb, Option.bind_some, if_neg h1', if_pos h2, i2, Option.bind_some]
              exact e
            · rw [if_neg h2] at e
              obtain ⟨s, es, e⟩ := Option.bind_eq_some_iff.mp e
              obtain ⟨i1, i2, _⟩ := ih _ _ _ _ _ es
              have hres : res.2.1 = s.2.1 := by
                obtain ⟨_, _, e⟩ := Option.bind_eq_some_iff.mp e
                obtain ⟨_, _, rfl⟩ := Option.map_eq_some_iff.mp e
                rfl
              refine ⟨by omega, ?_⟩
              rw [show 2 * (res.2.1 - c) + 1 = (2 * (s.2.1 - (c + 1)) + 2) + 1 by omega, meldF, ea, Option.bind_some, eb, Option.bind_some, if_neg h1', if_neg h2, i2, Option.bind_some]
              exact e
          exact ⟨fin.1, meldF_mono ρ _ _ _ _ _ _ fin.2 _ (by omega), fun _ => fin.2⟩

end Verif.Meldable
