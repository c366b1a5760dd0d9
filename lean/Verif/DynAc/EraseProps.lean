import Verif.DynAc.Erase
import Verif.DynAc.EraseSearch
/-!
**C137.** `DynamicAcMachine` with insertions and erasures.
-/
namespace Verif.DynAc
open Verif.AcMachine

variable {α T : Type} [DecidableEq α]

/-! ### Specification -/

/-- The pairs the machine should hold after a call: an insertion adds its pair unless the key is empty or a beginning of a key that is there; an erasure removes the
pair with the key. -/
def after (Lv : List (List α × T)) : Op α T → List (List α × T)
  | .ins k v => keep Lv k v
  | .del k => Lv.filter (fun p => decide (p.1 ≠ k))

/-- The pairs after all calls. -/
def live (ops : List (Op α T)) : List (List α × T) := ops.foldl after []

/-- No call erases the empty key. -/
def legal : List (Op α T) → Bool
  | [] => true
  | .ins _ _ :: l => legal l
  | .del k :: l => !k.isEmpty && legal l

/-- Every time a key is inserted, its beginnings occur inside a key that is there only when they are also beginnings of a key that is there. -/
def freshRun : List (List α × T) → List (Op α T) → Bool
  | _, [] => true
  | Lv, .ins k v :: l => decide (∀ q ∈ k.inits, q ≠ [] → ∀ p ∈ Lv, q <:+: p.1 → ∃ r ∈ Lv, q <+: r.1) && freshRun (after Lv (.ins k v)) l
  | Lv, .del k :: l => freshRun (after Lv (.del k)) l

/-! ### Proofs -/

theorem runD_gd {ord : List Nat → List Nat} (hord : ∀ l, (ord l).Perm l) : ∀ (ops : List (Op α T)), legal ops = true → ∀ (b : Prop) (m : Dyn α T) (Lv : List (List α × T)) {N : Nat} {A : Nat → Prop} {g : Nat → Nd α} {lab : Nat → List α} {I : Nat → List Nat},
    Gd b m Lv N A g lab I → ∃ m' N' A' g' lab' I', runD ord m ops = some m' ∧ Gd (b ∧ freshRun Lv ops = true) m' (ops.foldl after Lv) N' A' g' lab' I' := by
  intro ops
  induction ops with
  | nil => intro _ b m Lv N A g lab I G; exact ⟨m, N, A, g, lab, I, rfl, G.mono And.left⟩
  | cons o ops ih =>
    intro hl b m Lv N A g lab I G
    unfold runD
    rw [List.foldl_cons]
    cases o with
    | ins k v =>
      obtain ⟨m1, N1, A1, g1, lab1, I1, e1, G1⟩ := insertD_gd G hord k v
      obtain ⟨m2, N2, A2, g2, lab2, I2, e2, G2⟩ := ih (by unfold legal at hl; exact hl) _ m1 _ G1
      refine ⟨m2, N2, A2, g2, lab2, I2, by unfold step; dsimp only; rw [e1, Option.bind_some, e2], G2.mono ?_⟩
      rintro ⟨hb, h⟩
      unfold freshRun at h
      rw [Bool.and_eq_true, decide_eq_true_iff] at h
      exact ⟨⟨hb, fun q hq => h.1 q ((List.mem_inits q k).2 hq)⟩, h.2⟩
    | del k =>
      unfold legal at hl
      rw [Bool.and_eq_true] at hl
      obtain ⟨m1, A1, g1, I1, e1, G1⟩ := eraseD_gd G hord k (by
        rintro rfl
        exact absurd hl.1 (by simp))
      obtain ⟨m2, N2, A2, g2, lab2, I2, e2, G2⟩ := ih hl.2 _ m1 _ G1
      refine ⟨m2, N2, A2, g2, lab2, I2, by unfold step; dsimp only; rw [e1, Option.bind_some, e2], G2.mono ?_⟩
      rintro ⟨hb, h⟩
      unfold freshRun at h
      exact ⟨hb, h⟩

theorem runD_new {ord : List Nat → List Nat} (hord : ∀ l, (ord l).Perm l) (k : List α) (v : T) (ops : List (Op α T)) (h : legal ops = true) :
    ∃ m N A g lab I, runD ord newD (.ins k v :: ops) = some m ∧ Gd (freshRun [] (.ins k v :: ops) = true) m (live (.ins k v :: ops)) N A g lab I := by
  obtain ⟨m, N, A, g, lab, I, h1, G⟩ := runD_gd hord (.ins k v :: ops) (by unfold legal; exact h) True ⟨⟨[], [Nd.new]⟩, [[]]⟩ [] new_gd
  exact ⟨m, N, A, g, lab, I, h1, G.mono (fun h => ⟨trivial, h⟩)⟩

/-! ### Theorems -/

/-- **C137, soundness.** After an insertion, any further insertions, and erasures of non-empty keys, no call goes wrong, and neither does a search; everything it
reports is true: at increasing positions, lists of pairs that are in the machine and whose keys end there, the longest first. -/
theorem C137_sound {ord : List Nat → List Nat} (hord : ∀ l, (ord l).Perm l) (k : List α) (v : T) (ops : List (Op α T)) (h : legal ops = true) (text : List α) :
    ∃ m L R, runD ord newD (.ins k v :: ops) = some m ∧ findAll m.ac text = some L ∧ gather m.ac L = some R ∧ (R.map Prod.fst).Pairwise (· < ·) ∧
      ∀ p ∈ R, p.1 ≤ text.length ∧ p.2 ≠ [] ∧ p.2.Sublist (occ (live (.ins k v :: ops)) (text.take p.1)) := by
  obtain ⟨m, N, A, g, lab, I, h1, G⟩ := runD_new hord k v ops h
  obtain ⟨L, R, l1, l2, l3, l4⟩ := G.find text [] 0 G.al.root (by rw [G.fo.root])
  refine ⟨m, L, R, h1, l1, l2, l3, fun p hp => ?_⟩
  obtain ⟨-, a2, a3, a4⟩ := l4 p hp
  rw [List.length_nil, Nat.zero_add] at a2
  exact ⟨a2, a3, a4⟩

/-- **C137 (partial).** If moreover every key is inserted when its beginnings occur inside keys of the machine only as beginnings, the search reports exactly
the occurrences of the keys that are in the machine.  Missing: the other histories, for which it is false (`C137_violated`). -/
theorem C137_exact_partial {ord : List Nat → List Nat} (hord : ∀ l, (ord l).Perm l) (k : List α) (v : T) (ops : List (Op α T)) (h : legal ops = true)
    (hf : freshRun [] (.ins k v :: ops) = true) (text : List α) :
    ∃ m L, runD ord newD (.ins k v :: ops) = some m ∧ findAll m.ac text = some L ∧ gather m.ac L = some (reports (live (.ins k v :: ops)) text) := by
  obtain ⟨m, N, A, g, lab, I, h1, G⟩ := runD_new hord k v ops h
  have hroot : Lg A lab [] 0 := ⟨G.al.root, by rw [G.fo.root], fun v _ hs => by rw [List.suffix_nil.1 hs]; exact Nat.zero_le _⟩
  obtain ⟨L, l1, l2⟩ := G.find_exact hf text [] 0 hroot
  refine ⟨m, L, h1, l1, ?_⟩
  rw [l2, reports_eq]

/-- **C137 is violated.** After `insert("abc")`, `insert("c")`, `insert("bc")` all three are found in `abc`; after `erase("c")` the key `bc` is not found any more. -/
theorem C137_violated : ¬ ∀ (k : List Nat) (v : Nat) (ops : List (Op Nat Nat)) (text : List Nat), legal ops = true →
    ∃ m L, runD id newD (.ins k v :: ops) = some m ∧ findAll m.ac text = some L ∧ gather m.ac L = some (reports (live (.ins k v :: ops)) text) := by
  intro h
  obtain ⟨m, L, h1, h2, h3⟩ := h [1, 2, 3] 1 [.ins [3] 2, .ins [2, 3] 3, .del [3]] [1, 2, 3] rfl
  have e : (runD id newD [.ins [1, 2, 3] 1, .ins [3] 2, .ins [2, 3] 3, .del [3]]).bind (fun m => (findAll m.ac [1, 2, 3]).bind (gather m.ac)) = some [(3, [([1, 2, 3], 1)])] := by decide +kernel
  rw [h1, Option.bind_some, h2, Option.bind_some, h3] at e
  revert e
  decide

/-- Before the erasure everything is found. -/
theorem C137_violated_before : (runD id newD [.ins [1, 2, 3] 1, .ins [3] 2, .ins [2, 3] 3]).bind (fun m => (findAll m.ac [1, 2, 3]).bind (gather m.ac)) =
    some [(3, [([1, 2, 3], 1), ([2, 3], 3), ([3], 2)])] := by decide +kernel

/-- **C137 is violated**: erasing the empty key reads `s[-1]` of an empty vector, whatever the machine holds. -/
theorem C137_violated_empty (ord : List Nat → List Nat) (m : Dyn α T) : eraseD ord m [] = none := rfl

/-- **C137 is violated**: erasing from a machine into which nothing was inserted reads `nodes_[0]` of an empty vector. -/
theorem C137_violated_new (ord : List Nat → List Nat) (c : α) (k : List α) : eraseD ord (newD : Dyn α T) (c :: k) = none := rfl

/-! ### Concrete cases -/

/-- The link of the erased node is passed on, its chain of nodes removed, and the key can come back. -/
example : (runD List.reverse newD [.ins [3] 2, .ins [2, 3] 3, .ins [1, 2, 3] 1, .del [2, 3]]).bind (fun m => (findAll m.ac [1, 2, 3]).bind (gather m.ac)) =
    some [(3, [([1, 2, 3], 1), ([3], 2)])] := by decide +kernel

/-- A key that is a beginning of another is erased without its nodes; the longer one is then erased up to the branch. -/
example : (runD id newD [.ins [1] 1, .ins [1, 2, 3, 4] 2, .ins [1, 2, 5] 3, .del [1], .del [1, 2, 3, 4], .del [7]]).bind (fun m => (findAll m.ac [1, 2, 3, 4, 1, 2, 5]).bind (gather m.ac)) =
    some [(7, [([1, 2, 5], 3)])] := by decide +kernel

example (text : List Nat) : ∃ m L, runD id newD [.ins [3] 2, .ins [2, 3] 3, .ins [1, 2, 3] 1, .del [2, 3], .ins [4, 2, 3] 5] = some m ∧ findAll m.ac text = some L ∧
    gather m.ac L = some (reports [([3], 2), ([1, 2, 3], 1), ([4, 2, 3], 5)] text) :=
  C137_exact_partial (fun _ => List.Perm.refl _) [3] 2 [.ins [2, 3] 3, .ins [1, 2, 3] 1, .del [2, 3], .ins [4, 2, 3] 5] rfl (by decide) text

end Verif.DynAc
