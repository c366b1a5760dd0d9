import Verif.MaxFlow.Matching
/-!
C62: `PSP` (max_flow.hpp:161-192), the project selection problem on top of `Dinic`.  `P` is taken to be `long long`; losses are not negative.
-/
namespace Verif.MaxFlow
open Finset

/-! ### Model -/

/-- A call before `solve()`. -/
inductive POp where
  | profit (a : Nat) (p : Int)
  | loss (a b l : Nat)

/-- max_flow.hpp:168-175 (`add_profit`): the change of `psum` and the edge; `s = n`, `g = n + 1`. -/
def addProfit (n : Nat) (st : G × Int) (a : Nat) (p : Int) : Option (G × Int) :=
  if 0 < p then (addEdge st.1 a (n+1) p.toNat).map (fun g => (g, st.2 + p))
  else if p < 0 then (addEdge st.1 n a (-p).toNat).map (fun g => (g, st.2))
  else some st

/-- :176-178 (`add_loss`) -/
def addLoss (st : G × Int) (a b l : Nat) : Option (G × Int) := (addEdge st.1 a b l).map (fun g => (g, st.2))

def pspBuild (n : Nat) : G × Int → List POp → Option (G × Int)
  | st, [] => some st
  | st, .profit a p :: ops => (addProfit n st a p).bind (fun st => pspBuild n st ops)
  | st, .loss a b l :: ops => (addLoss st a b l).bind (fun st => pspBuild n st ops)

/-- :185-189: the loop over `G.g[g]`. -/
def selLoop (g : G) : List FlowPath → List Bool → Option (List Bool)
  | [], sel => some sel
  | e :: l, sel => (getE g e.t e.rev).bind (fun x => (if 0 < x.cap then wr sel e.t false else some sel).bind (fun sel => selLoop g l sel))

/-- :183-191 (`selections`) -/
def selections (n : Nat) (g : G) : Option (List Bool) := (g[n+1]?).bind (fun row => selLoop g row (List.replicate n true))

/-- A client: construct (:167), describe the projects, call `solve()` (:179-182) and `selections()`. -/
def psp (fuel n : Nat) (ops : List POp) : Option (Int × List Bool) :=
  (pspBuild n (List.replicate (n+2) [], 0) ops).bind (fun st => (dFlow fuel st.1 n (n+1) (2^63 - 1)).bind (fun p =>
    (selections n p.1).map (fun sel => (st.2 - p.2, sel))))

/-! ### Specification -/

/-- The total when the projects in `S` are carried out: a profit (or cost) for every project carried out, and a loss `l` when `b` is carried out without `a`. -/
def value (S : Nat → Bool) : List POp → Int
  | [] => 0
  | .profit a p :: ops => (if S a then p else 0) + value S ops
  | .loss a b l :: ops => (if S b ∧ ¬ S a then -(l : Int) else 0) + value S ops

/-- Precondition: projects exist; a loss concerns two different projects. -/
def POk (n : Nat) : POp → Prop
  | .profit a _ => a < n
  | .loss a b _ => a < n ∧ b < n ∧ a ≠ b

/-- Sum of the absolute values of all profits and losses. -/
def weight : List POp → Nat
  | [] => 0
  | .profit _ p :: ops => p.natAbs + weight ops
  | .loss _ _ l :: ops => l + weight ops

/-! ### Proofs -/

/-- The edges of the network. -/
def pspEdges (n : Nat) : List POp → List Arc
  | [] => []
  | .profit a p :: ops => if 0 < p then ⟨a, n+1, p.toNat⟩ :: pspEdges n ops else if p < 0 then ⟨n, a, (-p).toNat⟩ :: pspEdges n ops else pspEdges n ops
  | .loss a b l :: ops => ⟨a, b, l⟩ :: pspEdges n ops

/-- `psum`. -/
def psum : List POp → Int
  | [] => 0
  | .profit _ p :: ops => (if 0 < p then p else 0) + psum ops
  | .loss _ _ _ :: ops => psum ops

/-- Adding a list of edges. -/
def buildG : G → List Arc → Option G
  | g, [] => some g
  | g, e :: es => (addEdge g e.a e.b e.c).bind (fun g => buildG g es)

theorem run_adds (alg : Alg) (fuel s t : Nat) (ops : List Op) : ∀ (es : List Arc) (g : G), run alg fuel s t g (adds es ++ ops) = (buildG g es).bind (fun g => run alg fuel s t g ops) := by
  intro es
  induction es with
  | nil => intro g; rfl
  | cons e es ih =>
    intro g
    show run alg fuel s t g (Op.add e.a e.b e.c :: (adds es ++ ops)) = _
    rw [run, buildG, Option.bind_assoc]
    congr 1
    funext g'
    exact ih g'

theorem pspBuild_eq (n : Nat) : ∀ (ops : List POp) (g : G) (ps : Int), pspBuild n (g, ps) ops = (buildG g (pspEdges n ops)).map (fun g => (g, ps + psum ops)) := by
  intro ops
  induction ops with
  | nil => intro g ps; simp [pspBuild, buildG, pspEdges, psum]
  | cons o ops ih =>
    intro g ps
    cases o with
    | profit a p =>
      unfold pspBuild addProfit pspEdges psum
      by_cases h1 : 0 < p
      · rw [if_pos h1, if_pos h1, if_pos h1]
        unfold buildG
        dsimp only
        cases addEdge g a (n+1) p.toNat with
        | none => rfl
        | some g' =>
          simp only [Option.map_some, Option.bind_some]
          rw [ih]
          congr 1
          funext x
          rw [add_assoc]
      · rw [if_neg h1, if_neg h1, if_neg h1]
        by_cases h2 : p < 0
        · rw [if_pos h2, if_pos h2]
          unfold buildG
          dsimp only
          cases addEdge g n a (-p).toNat with
          | none => rfl
          | some g' =>
            simp only [Option.map_some, Option.bind_some]
            rw [ih, zero_add]
        · rw [if_neg h2, if_neg h2, Option.bind_some, ih, zero_add]
    | loss a b l =>
      unfold pspBuild addLoss pspEdges psum buildG
      dsimp only
      cases addEdge g a b l with
      | none => rfl
      | some g' =>
        simp only [Option.map_some, Option.bind_some]
        rw [ih]

theorem pspEdges_valid {n : Nat} : ∀ ops : List POp, (∀ o ∈ ops, POk n o) → Valid (n+2) (pspEdges n ops) := by
  intro ops
  induction ops with
  | nil => intro _ e he; cases he
  | cons o ops ih =>
    intro h e he
    have ih := ih (fun o ho => h o (List.mem_cons_of_mem _ ho))
    have ho := h o List.mem_cons_self
    cases o with
    | profit a p =>
      have ho : a < n := ho
      unfold pspEdges at he
      split_ifs at he
      · rcases List.mem_cons.1 he with rfl | he
        · refine ⟨?_, ?_, ?_⟩ <;> dsimp only <;> omega
        · exact ih e he
      · rcases List.mem_cons.1 he with rfl | he
        · refine ⟨?_, ?_, ?_⟩ <;> dsimp only <;> omega
        · exact ih e he
      · exact ih e he
    | loss a b l =>
      obtain ⟨h1, h2, h3⟩ := ho
      unfold pspEdges at he
      rcases List.mem_cons.1 he with rfl | he
      · refine ⟨?_, ?_, h3⟩ <;> dsimp only <;> omega
      · exact ih e he

theorem pspEdges_total {n : Nat} (ops : List POp) : total (pspEdges n ops) = weight ops := by
  have := sum_arc (pspEdges n ops) (fun e => e.c)
  unfold total
  rw [this]
  clear this
  induction ops with
  | nil => rfl
  | cons o ops ih =>
    cases o with
    | profit a p =>
      unfold pspEdges weight
      split_ifs with h1 h2
      · rw [List.map_cons, List.sum_cons, ih]; dsimp only; omega
      · rw [List.map_cons, List.sum_cons, ih]; dsimp only; omega
      · rw [ih]; omega
    | loss a b l =>
      unfold pspEdges weight
      rw [List.map_cons, List.sum_cons, ih]

/-- Cuts are selections. -/
theorem psp_cut {n : Nat} (X : Nat → Bool) (hs : X n = true) (ht : X (n+1) = false) (ops : List POp) :
    psum ops - (cutCap (pspEdges n ops) (fun v => X v = true) : Int) = value (fun v => !X v) ops := by
  have hsum := sum_arc (pspEdges n ops) (fun e => if X e.a = true ∧ ¬ X e.b = true then e.c else 0)
  unfold cutCap
  rw [hsum]
  clear hsum
  induction ops with
  | nil => rfl
  | cons o ops ih =>
    cases o with
    | profit a p =>
      unfold pspEdges psum value
      split_ifs with h1 h2 h3 h4
      · rw [List.map_cons, List.sum_cons, ← ih]
        have : X a = false := by simpa using h2
        simp [this]
        ring
      · rw [List.map_cons, List.sum_cons, ← ih]
        have : X a = true := by simpa using h2
        simp [this, ht]
        omega
      · rw [List.map_cons, List.sum_cons, ← ih]
        have : X a = false := by simpa using h4
        simp [this, hs]
        omega
      · rw [List.map_cons, List.sum_cons, ← ih]
        have : X a = true := by simpa using h4
        simp [this]
      · rw [← ih]
        have : p = 0 := by omega
        simp [this]
      · rw [← ih]; ring
    | loss a b l =>
      unfold pspEdges psum value
      rw [List.map_cons, List.sum_cons, ← ih]
      by_cases h1 : X a = true <;> by_cases h2 : X b = true <;> simp [h1, h2]
      ring

theorem value_congr {n : Nat} {S T : Nat → Bool} (h : ∀ v < n, S v = T v) (ops : List POp) (ho : ∀ o ∈ ops, POk n o) : value S ops = value T ops := by
  induction ops with
  | nil => rfl
  | cons o ops ih =>
    have ih := ih (fun o h => ho o (List.mem_cons_of_mem _ h))
    have hh := ho o List.mem_cons_self
    cases o with
    | profit a p =>
      unfold value
      rw [ih, h a hh]
    | loss a b l =>
      unfold value
      rw [ih, h a hh.1, h b hh.2.1]

theorem pspEdges_sink {n : Nat} : ∀ ops : List POp, (∀ o ∈ ops, POk n o) → ∀ e ∈ pspEdges n ops, e.a ≠ n+1 ∧ (e.b = n+1 → e.a < n) := by
  intro ops
  induction ops with
  | nil => intro _ e he; cases he
  | cons o ops ih =>
    intro h e he
    have ih := ih (fun o ho => h o (List.mem_cons_of_mem _ ho))
    have ho := h o List.mem_cons_self
    cases o with
    | profit a p =>
      have ho : a < n := ho
      unfold pspEdges at he
      split_ifs at he
      · rcases List.mem_cons.1 he with rfl | he
        · refine ⟨?_, fun _ => ho⟩; dsimp only; omega
        · exact ih e he
      · rcases List.mem_cons.1 he with rfl | he
        · refine ⟨?_, ?_⟩ <;> dsimp only <;> omega
        · exact ih e he
      · exact ih e he
    | loss a b l =>
      obtain ⟨h1, h2, h3⟩ := ho
      unfold pspEdges at he
      rcases List.mem_cons.1 he with rfl | he
      · refine ⟨?_, ?_⟩ <;> dsimp only <;> omega
      · exact ih e he

theorem arc_mem {es : List Arc} {k : Nat} (h : k < es.length) : arc es k ∈ es := by
  unfold arc
  rw [List.getD_eq_getElem?_getD, List.getElem?_eq_getElem h]
  exact List.getElem_mem h

theorem selLoop_ok {n : Nat} {g : G} : ∀ (l : List FlowPath) (sel : List Bool), sel.length = n → (∀ e ∈ l, e.t < n ∧ ∃ x, getE g e.t e.rev = some x) →
    ∃ sel', selLoop g l sel = some sel' ∧ sel'.length = n := by
  intro l
  induction l with
  | nil => intro sel h _; exact ⟨sel, rfl, h⟩
  | cons e l ih =>
    intro sel h hl
    obtain ⟨h1, x, hx⟩ := hl e List.mem_cons_self
    unfold selLoop
    rw [hx, Option.bind_some]
    split_ifs
    · unfold wr
      rw [if_pos (by omega), Option.bind_some]
      exact ih _ (by rw [List.length_set]; exact h) (fun y hy => hl y (List.mem_cons_of_mem _ hy))
    · rw [Option.bind_some]
      exact ih _ h (fun y hy => hl y (List.mem_cons_of_mem _ hy))

/-- **C62** (partial): `solve()` returns the largest total over all sets of projects, and `selections()` then returns a vector of `n` flags.  Missing: the flags need not
describe a best set of projects (`C62_violated`). -/
theorem C62_partial {n fuel : Nat} (ops : List POp) (ho : ∀ o ∈ ops, POk n o) (hn : n + 2 < 2^31 - 1) (hI : weight ops ≤ 2^63 - 1) (hf : weight ops < fuel) :
    ∃ v sel, psp fuel n ops = some (v, sel) ∧ sel.length = n ∧ (∃ S, value S ops = v) ∧ ∀ S, value S ops ≤ v := by
  obtain ⟨g, r, φ, h1, ⟨pf, pr, R⟩, h3, h4, X, x1, x2, x3⟩ := C36_dinic (n := n + 2) (s := n) (t := n + 1) (fuel := fuel) (pspEdges n ops) (by omega) (by omega) (by omega)
    hn (pspEdges_valid ops ho) (by rw [pspEdges_total]; exact hI) (by rw [pspEdges_total]; exact hf)
  rw [run_adds] at h1
  obtain ⟨g0, hb, h1⟩ := Option.bind_eq_some_iff.1 h1
  unfold run at h1
  obtain ⟨p, hp, h1⟩ := Option.bind_eq_some_iff.1 h1
  have hp2 : p = (g, r) := by
    unfold run at h1
    simp at h1
    exact Prod.ext h1.1 h1.2
  subst hp2
  have hrow : ∃ row, g[n+1]? = some row := ⟨_, List.getElem?_eq_getElem (by rw [R.len]; omega)⟩
  obtain ⟨row, hrow⟩ := hrow
  obtain ⟨sel, s1, s2⟩ := selLoop_ok (n := n) (g := g) row (List.replicate n true) (by simp) (by
    intro e he
    obtain ⟨j, hj⟩ := List.mem_iff_getElem?.1 he
    have hget : getE g (n+1) j = some e := by
      unfold getE rd2
      rw [hrow, Option.bind_some, hj]
    obtain ⟨k, hk, ⟨c1, c2⟩ | ⟨c1, c2⟩⟩ := R.all _ _ _ hget
    · exact absurd c1.symm (pspEdges_sink ops ho _ (arc_mem hk)).1
    · have := R.bw k hk
      rw [← c1, ← c2, hget] at this
      have := Option.some.inj this
      rw [this]
      exact ⟨(pspEdges_sink ops ho _ (arc_mem hk)).2 c1.symm, _, R.fw k hk⟩)
  refine ⟨psum ops - r, sel, ?_, s2, ⟨fun v => !X v, ?_⟩, ?_⟩
  · unfold psp
    rw [pspBuild_eq, hb]
    simp only [Option.map_some, Option.bind_some, zero_add]
    have hp' : dFlow fuel g0 n (n+1) (2^63 - 1) = some (g, r) := hp
    rw [hp', Option.bind_some]
    unfold selections
    rw [hrow, Option.bind_some, s1]
    rfl
  · rw [← psp_cut X x1 x2, x3]
  · intro S
    have e := psp_cut (n := n) (fun v => if v = n then true else if v = n + 1 then false else !S v) (by simp) (by simp) ops
    have hle := flow_le_cut h3 (fun v => (if v = n then true else if v = n + 1 then false else !S v) = true) (by simp) (by simp)
    have hv : value (fun v => !(if v = n then true else if v = n + 1 then false else !S v)) ops = value S ops := by
      refine value_congr (n := n) ?_ ops ho
      intro v hv
      rw [if_neg (by omega), if_neg (by omega), Bool.not_not]
    rw [← hv, ← e]
    have : (r : Int) ≤ (cutCap (pspEdges n ops) (fun v => (if v = n then true else if v = n + 1 then false else !S v) = true) : Int) := by exact_mod_cast hle
    omega

/-- **C62 is violated**: for a single project with profit 5, `solve()` returns 5 but `selections()` reports that the project is not carried out. -/
theorem C62_violated : psp 20 1 [.profit 0 5] = some (5, [false]) ∧ value (fun v => [false].getD v false) [.profit 0 5] = 0 := by decide +kernel

example : psp 40 3 [.profit 0 5, .profit 1 (-3), .profit 2 (-4), .loss 1 0 10, .loss 2 0 1] = some (1, [false, true, true]) := by decide +kernel
example : ∀ o ∈ [POp.profit 0 5, .profit 1 (-3), .profit 2 (-4), .loss 1 0 10, .loss 2 0 1], POk 3 o := by
  intro o ho
  simp at ho
  rcases ho with rfl | rfl | rfl | rfl | rfl <;> simp [POk]

end Verif.MaxFlow
