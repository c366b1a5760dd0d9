import Verif.UnionFind.Props
import Mathlib.Data.Nat.Log
/-!
C128: `UnionFind::root` recurses at most `log2 n + 1` deep.
-/
namespace Verif.UnionFind

/-- The measure doubles the class at every step. -/
structure DepthInv (n : Nat) (par : Par) (f d : Nat → Nat) : Prop where
  inv : Inv n par f d
  zero : ∀ u, u < n → f u = u → d u = 0
  pow : ∀ u, u < n → 2 ^ d u ≤ cls n f (f u)

theorem lt_pow (k : Nat) : k < 2 ^ k := Nat.lt_two_pow_self

theorem link_depth {n f d par u v} (h : DepthInv n par f d) (hu : u < n) (hv : v < n) (hne : f u ≠ f v) (hle : cls n f (f v) ≤ cls n f (f u)) :
    ∃ par' d', link par u v = some par' ∧ DepthInv n par' (merge f (f u) (f v)) d' := by
  have hz : ∀ w, w < n → d (f w) = 0 := fun w hw => h.zero (f w) (h.inv.lt w hw) (h.inv.idem w hw)
  have hp : ∀ w, w < n → f w = f v → 2 ^ (d w + 1) ≤ cls n f (f u) + cls n f (f v) := by
    intro w hw hb
    have := h.pow w hw
    rw [hb] at this
    rw [Nat.pow_succ]
    omega
  obtain ⟨par', e, h'⟩ := link_specK 1 h.inv hu hv hne (by rw [hz u hu, hz v hv]; omega) (fun w hw hb => by
    have := hp w hw hb
    have := lt_pow (d w + 1)
    omega)
  refine ⟨par', _, e, h', ?_, ?_⟩
  · intro w hw hm
    have hwv : f w ≠ f v := by
      intro hb
      unfold merge at hm
      rw [if_pos hb] at hm
      rw [← hm, h.inv.idem u hu] at hb
      exact hne hb
    unfold mergeD
    rw [if_neg hwv]
    unfold merge at hm
    rw [if_neg hwv] at hm
    exact h.zero w hw hm
  · intro w hw
    by_cases hb : f w = f v
    · simp only [merge, mergeD, hb, if_true]
      show _ ≤ cls n (merge f (f u) (f v)) (f u)
      rw [cls_merge_self hne]
      exact hp w hw hb
    · simp only [merge, mergeD, hb, if_false]
      show _ ≤ cls n (merge f (f u) (f v)) (f w)
      have := h.pow w hw
      by_cases hu' : f w = f u
      · rw [hu', cls_merge_self hne]; rw [hu'] at this; omega
      · rw [cls_merge_other hu' hb]; exact this

theorem DepthInv.same {n par par' f d} (h : DepthInv n par f d) (h' : Inv n par' f d) : DepthInv n par' f d := ⟨h', h.zero, h.pow⟩

theorem step_depth {n f d par} (h : DepthInv n par f d) {op : Op} (hop : op.Valid n) : ∃ par' f' d', step par op = some par' ∧ DepthInv n par' f' d' := by
  cases op with
  | areUnion u v =>
    obtain ⟨p, e, h1⟩ := areUnion_spec h.inv hop.1 hop.2
    exact ⟨p, f, d, by simp [step, e], h.same h1⟩
  | sizeOf u =>
    obtain ⟨p, e, h1⟩ := sizeOf_spec h.inv hop
    exact ⟨p, f, d, by simp [step, e], h.same h1⟩
  | root u =>
    obtain ⟨p, e, h1⟩ := root_spec h.inv hop
    exact ⟨p, f, d, by simp [step, e], h.same h1⟩
  | unite u v =>
    obtain ⟨hu, hv⟩ := hop
    obtain ⟨p1, e1, h1⟩ := areUnion_spec h.inv hu hv
    unfold step unite
    simp only [e1, Option.bind_eq_bind, Option.bind_some]
    by_cases he : f u = f v
    · simp only [he, beq_self_eq_true, if_true]
      exact ⟨_, _, _, rfl, h.same h1⟩
    · have hb : (f u == f v) = false := by simp [he]
      simp only [hb]
      obtain ⟨p2, e2, h2⟩ := sizeOf_spec h1 hu
      obtain ⟨p3, e3, h3⟩ := sizeOf_spec h2 hv
      simp only [e2, e3, Option.bind_some, Bool.false_eq_true, if_false]
      split
      · obtain ⟨p4, d', e4, h4⟩ := link_depth (h.same h3) hv hu (Ne.symm he) (by omega)
        simp only [e4, Option.bind_some]
        exact ⟨_, _, _, rfl, h4⟩
      · obtain ⟨p4, d', e4, h4⟩ := link_depth (h.same h3) hu hv he (by omega)
        simp only [e4, Option.bind_some]
        exact ⟨_, _, _, rfl, h4⟩

theorem exec_depth {n} : ∀ (ops : List Op) (par : Par) (f d : Nat → Nat), DepthInv n par f d → (∀ op ∈ ops, op.Valid n) → ∃ par' f' d', exec par ops = some par' ∧ DepthInv n par' f' d' := by
  intro ops
  induction ops with
  | nil => intro par f d h _; exact ⟨par, f, d, rfl, h⟩
  | cons op ops ih =>
    intro par f d h hv
    obtain ⟨p1, f1, d1, e1, g1⟩ := step_depth h (hv op (by simp))
    obtain ⟨p2, f2, d2, e2, g2⟩ := ih p1 f1 d1 g1 (fun o ho => hv o (by simp [ho]))
    exact ⟨p2, f2, d2, by simp [exec, e1, e2], g2⟩

theorem init_depth (n : Nat) : ∃ f d, DepthInv n (init n) f d ∧ Rep n [] f := by
  obtain ⟨-, f, d, hi, hr⟩ := init_good n
  have hf : ∀ u, u < n → f u = u := by
    intro u hu
    by_contra hne
    obtain ⟨p, hp, -⟩ := hi.nonroot u hu hne
    simp [init, hu] at hp
  exact ⟨f, fun _ => 0, ⟨⟨hi.len, hi.lt, hi.idem, hi.rootv, fun u hu hne => absurd (hf u hu) hne, fun u hu => cls_pos hu⟩, fun _ _ _ => rfl, fun u hu => cls_pos hu⟩, hr⟩

theorem DepthInv.log {n par f d} (h : DepthInv n par f d) {u : Nat} (hu : u < n) : d u ≤ Nat.log 2 n := by
  have hpow := h.pow u hu
  have hcn := cls_le n f (f u)
  exact Nat.le_log_of_pow_le (by decide) (Nat.le_trans hpow hcn)

/-! ### The property -/

/-- The number of steps from an element to a negative entry of `par_`, along the parents. -/
inductive Steps (par : Par) : Nat → Nat → Prop where
  | root {u x} : par[u]? = some x → x < 0 → Steps par u 0
  | up {u k} (p : Nat) : par[u]? = some (p : Int) → Steps par p k → Steps par u (k + 1)

/-- C128: after every history of valid calls on `UnionFind(n)`, the chain of parents of every element `u` is short: it reaches a root after `k` steps with `2^k` at most the size of the set of `u`, so `k ≤ log2 n`; and `root(u)` returns within
`log2 n + 1` nested calls. -/
theorem C128_depth (n : Nat) (ops : List Op) (hv : ∀ op ∈ ops, op.Valid n) : ∃ par, exec (init n) ops = some par ∧ ∀ u, u < n →
    (∃ k s par', Steps par u k ∧ sizeOf par u = some (s, par') ∧ (2 ^ k : Int) ≤ s ∧ k ≤ Nat.log 2 n) ∧ (rootF (Nat.log 2 n + 1) par u).isSome := by
  obtain ⟨f, d, h0, -⟩ := init_depth n
  obtain ⟨par, f', d', e, h⟩ := exec_depth ops (init n) f d h0 hv
  refine ⟨par, e, fun u hu => ?_⟩
  have hsteps : ∀ (m w : Nat), d' w ≤ m → w < n → ∃ k, k ≤ d' w ∧ Steps par w k := by
    intro m
    induction m with
    | zero =>
      intro w hm hw
      by_cases hr : f' w = w
      · refine ⟨0, Nat.zero_le _, .root (h.inv.rootv w hw hr) ?_⟩
        have := cls_pos (n := n) (f := f') hw
        rw [hr] at this; omega
      · obtain ⟨p, _, _, _, hd, _⟩ := h.inv.nonroot w hw hr
        omega
    | succ m ih =>
      intro w hm hw
      by_cases hr : f' w = w
      · refine ⟨0, Nat.zero_le _, .root (h.inv.rootv w hw hr) ?_⟩
        have := cls_pos (n := n) (f := f') hw
        rw [hr] at this; omega
      · obtain ⟨p, hx, hp, _, hd, _⟩ := h.inv.nonroot w hw hr
        obtain ⟨k, hk, hs⟩ := ih p (by omega) hp
        exact ⟨k + 1, by omega, .up p hx hs⟩
  have hpow := h.pow u hu
  have hlog := h.log hu
  obtain ⟨k, hk, hs⟩ := hsteps (d' u) u (Nat.le_refl _) hu
  obtain ⟨p, e1, -⟩ := sizeOf_spec h.inv hu
  refine ⟨⟨k, _, p, hs, e1, ?_, by omega⟩, ?_⟩
  · have : 2 ^ k ≤ cls n f' (f' u) := Nat.le_trans (Nat.pow_le_pow_right (by decide) hk) hpow
    exact_mod_cast this
  · obtain ⟨p, e2, -⟩ := rootF_spec (Nat.log 2 n + 1) par u h.inv hu (by omega)
    rw [e2]; rfl

/-- The bound is reached: 8 elements, three steps. -/
example : (exec (init 8) [.unite 0 1, .unite 2 3, .unite 0 2, .unite 4 5, .unite 6 7, .unite 4 6, .unite 0 4]) = some [-8, 0, 0, 2, 0, 4, 4, 6] ∧ (rootF (Nat.log 2 8 + 1) [-8, 0, 0, 2, 0, 4, 4, 6] 7).isSome ∧
    (rootF (Nat.log 2 8) [-8, 0, 0, 2, 0, 4, 4, 6] 7) = none := by decide

end Verif.UnionFind
