import Verif.SplayList.Props
/-!
# C129: the loops of `SplayTreeList` run a logarithmic number of rounds per call, amortised

The budget of a call (`fuel` of `step`) bounds the rounds of each loop of that call: a loop that needs more makes the call fail (`none`).
A call has at most five loops: two descents with their splays in `between` or `erase`, and one more splay in `reverse` and `update`.
-/
namespace Verif.SplayList
open Verif Verif.LazySegTree Verif.Splay BT

variable {M A : Type} [Monoid M] {S : Acts M A}

/-- Calls, each with its own budget. -/
def runB (S : Acts M A) : Lst M A → List (Op M A × Nat) → Option (List (Option M))
  | _, [] => some []
  | s, (o, b) :: os => (step S b s o).bind (fun a => (runB S a.1 os).map (fun l => a.2 :: l))

theorem does_len {xs ys : List M} {o : Op M A} {r : Option M} (h : Does S xs o ys r) : ys.length ≤ xs.length + 1 := by
  cases h <;> simp <;> omega

theorem runB_ok (L : Laws S) (N : Nat) : ∀ {ops : List (Op M A)} {outs : List (Option M)} {n φ : Nat} {xs : List M} {s : Lst M A}, Runs S xs ops outs → xs.length + ops.length ≤ N → InvP S n s xs φ →
    ∃ ks : List Nat, ks.length = ops.length ∧ ks.sum ≤ 2 * φ + ops.length * (18 * Nat.log 2 N + 5) ∧
      ∀ bs : List Nat, List.Forall₂ (· ≤ ·) ks bs → runB S s (ops.zip bs) = some outs := by
  intro ops
  induction ops with
  | nil =>
    intro outs n φ xs s hr _ _
    cases hr
    exact ⟨[], rfl, by simp, fun bs _ => rfl⟩
  | cons o ops ih =>
    intro outs n φ xs s hr hN hI
    rw [List.length_cons] at hN
    cases hr with
    | cons hd hr =>
      obtain ⟨K, s', n', φ', e, _, hI', _, hK⟩ := step_pot L hd hI
      have hl := does_len hd
      obtain ⟨ks, h1, h2, h3⟩ := ih hr (by omega) hI'
      have hlog := log_le (a := xs.length + 1) (b := N) (by omega)
      refine ⟨K :: ks, by simp [h1], ?_, fun bs hb => ?_⟩
      · rw [List.sum_cons, List.length_cons, Nat.add_mul]
        omega
      · cases hb with
        | cons hKb hb =>
          rw [List.zip_cons_cons, runB, e _ hKb, Option.bind_some, h3 _ hb]
          rfl

/-- **C129.**  Build a `SplayTreeList` from `xs` (the recursion of `_dfs_init` is at most `log2 |xs| + 2` deep) and make any calls allowed by the specification.  There are budgets for the calls, in total at most
`4 |xs| + m (18 log2 (|xs| + m) + 5)` for `m` calls, with which (and with any larger ones) all calls succeed and return the values of the plain sequence. -/
theorem C129_amortized (L : Laws S) (xs : List M) {ops : List (Op M A)} {outs : List (Option M)} (hr : Runs S xs ops outs) :
    ∃ s, (∀ fuel, Nat.log 2 xs.length + 2 ≤ fuel → create S fuel xs = some s) ∧
      ∃ ks : List Nat, ks.length = ops.length ∧ ks.sum ≤ 4 * xs.length + ops.length * (18 * Nat.log 2 (xs.length + ops.length) + 5) ∧
        ∀ bs : List Nat, List.Forall₂ (· ≤ ·) ks bs → runB S s (ops.zip bs) = some outs := by
  have hr0 : Rep ([] : Heap M A) 0 (fun _ => ⟨none, none, none, ⟨false, 1, 1, 1, S.ida, 0⟩⟩) := ⟨rfl, fun i hi => absurd hi (by omega)⟩
  obtain ⟨h', n', g', T, e, _, hn, I, v, q, _, _, hp⟩ := dfs_ok L (Nat.log 2 xs.length + 1) (xs := xs) hr0 (Nat.lt_pow_succ_log_self (by decide) _)
  obtain ⟨ks, h1, h2, h3⟩ := runB_ok L (xs.length + ops.length) hr (le_refl _) (s := (h', BT.root T)) ⟨g', T, I, v, rfl, q, rfl⟩
  exact ⟨(h', BT.root T), fun fuel hf => e fuel hf, ks, h1, by omega, h3⟩

/-- The default constructor (line 27). -/
theorem C129_default (L : Laws S) {ops : List (Op M A)} {outs : List (Option M)} (hr : Runs S [] ops outs) :
    ∃ ks : List Nat, ks.length = ops.length ∧ ks.sum ≤ ops.length * (18 * Nat.log 2 ops.length + 5) ∧
      ∀ bs : List Nat, List.Forall₂ (· ≤ ·) ks bs → runB S ([], none) (ops.zip bs) = some outs := by
  obtain ⟨ks, h1, h2, h3⟩ := runB_ok L ops.length hr (by simp) (n := 0) (s := ([], none))
    ⟨fun _ => ⟨none, none, none, ⟨false, 1, 1, 1, S.ida, 0⟩⟩, nil, ⟨⟨rfl, fun i hi => absurd hi (by omega)⟩, trivial, List.nodup_nil, (fun i hi => by cases hi), (fun q hq => by cases hq)⟩, trivial, rfl, rfl, rfl⟩
  exact ⟨ks, h1, by rw [phi_nil] at h2; omega, h3⟩

/-! ### a concrete history -/

section Example

local instance : Monoid (List Nat) where
  mul := List.append
  one := []
  mul_assoc := List.append_assoc
  one_mul := List.nil_append
  mul_one := List.append_nil

private def S0 : Acts (List Nat) Nat := ⟨0, fun f g => f + g, fun f x => x.map (· + f)⟩

private theorem L0 : Laws S0 := by
  refine ⟨fun x => ?_, fun f g x => ?_, fun f x y => ?_⟩
  · simp [S0]
  · simp only [S0, List.map_map]
    exact List.map_congr_left fun a _ => by simp only [Function.comp]; omega
  · exact List.map_append

/-- Seven insertions at the front make a path; the first access to its end needs seven rounds and shortens the path, so that the access to the node before it, six deep in the path, needs only four. -/
private def ops0 : List (Op (List Nat) Nat) := [.insert 0 [7], .insert 0 [6], .insert 0 [5], .insert 0 [4], .insert 0 [3], .insert 0 [2], .insert 0 [1], .get 6, .get 5]

example : Runs S0 [] ops0 [none, none, none, none, none, none, none, some [7], some [6]] := by
  iterate 7 refine .cons (.insert (by decide)) ?_
  exact .cons (.get rfl) (.cons (.get rfl) .nil)

example : runB S0 ([], none) (ops0.zip [0, 0, 0, 0, 0, 0, 0, 7, 4]) = some [none, none, none, none, none, none, none, some [7], some [6]] := by decide +kernel
example : runB S0 ([], none) (ops0.zip [0, 0, 0, 0, 0, 0, 0, 6, 4]) = none := by decide +kernel
example : runB S0 ([], none) (ops0.zip [0, 0, 0, 0, 0, 0, 0, 7, 3]) = none := by decide +kernel
example : create S0 4 [[1], [2], [3], [4], [5], [6], [7]] ≠ none := by decide +kernel

example : Laws S0 := L0

end Example

end Verif.SplayList
