import Verif.Dijkstra.Proof
/-!
`Network<W>::dijkstra_search`: the properties.
-/
namespace Verif.Dijkstra

/-- The input: edges between vertices below `n` with weights that are not negative; the type of the distances can hold `inf` plus any weight. -/
def Input (n : Nat) (E : List (Nat × Nat × Int)) (inf B : Int) : Prop := ∀ e ∈ E, e.1 < n ∧ e.2.1 < n ∧ 0 ≤ e.2.2 ∧ inf + e.2.2 ≤ B

/-- What `dijkstra_search(s, dist, inf)` must do: end without undefined behaviour or a failed assertion, with `dist[v]` the distance of every vertex `v` from `s`, or `inf` if there is no walk with weight below `inf`. -/
def Correct (n : Nat) (E : List (Nat × Nat × Int)) (s : Nat) (inf : Int) (r : Option (List Int)) : Prop :=
  ∃ dist, r = some dist ∧ dist.length = n ∧ ∀ v, v < n → ∃ x, dist[v]? = some x ∧ IsDist E s inf v x

/-- The full claim, for weights of any integer type `W` (here: all integers). -/
def C76_full : Prop := ∀ (n : Nat) (E : List (Nat × Nat × Int)) (s : Nat) (inf B : Int), Input n E inf B → s < n → 0 < inf → Correct n E s inf (solve toInt B n E s inf)

/-- **C76 (partial).** The claim holds if all weights fit in an `int`. -/
theorem C76_partial {n : Nat} {E : List (Nat × Nat × Int)} {s : Nat} {inf B : Int} (hE : Input n E inf B) (hw : ∀ e ∈ E, e.2.2 < 2 ^ 31) (hs : s < n) (hinf : 0 < inf) :
    Correct n E s inf (solve toInt B n E s inf) := by
  obtain ⟨g, e, l, h⟩ := addDirs_ok toInt E (List.replicate n []) (fun x hx => by rw [List.length_replicate]; exact ⟨(hE x hx).1, (hE x hx).2.1⟩)
  rw [List.length_replicate] at l
  unfold solve
  rw [e, Option.bind_some]
  refine dijkstra_ok (fun u t w hm => hE (u, t, w) hm) hs hinf l (fun v hv => ?_)
  obtain ⟨es, h1, h2⟩ := h v [] (by rw [List.getElem?_replicate, if_pos hv])
  refine ⟨es, h1, fun t w => ?_⟩
  have ht : ∀ c, (v, t, c) ∈ E → toInt c = c := by
    intro c hc
    have a := hw _ hc
    have b := (hE _ hc).2.2.1
    dsimp only at a b
    unfold toInt
    rw [Int.bmod_eq_of_le] <;> omega
  rw [h2]
  constructor
  · rintro (h | ⟨c, hc, hw⟩)
    · cases h
    · rw [← hw, ht c hc]; exact hc
  · intro hm
    exact Or.inr ⟨w, hm, ht w hm⟩

/-- The distance is unique. -/
theorem IsDist.unique {E : List (Nat × Nat × Int)} {s : Nat} {inf : Int} {v : Nat} {x y : Int} (h : IsDist E s inf v x) (h' : IsDist E s inf v y) : x = y := by
  rcases h with ⟨a1, a2, a3⟩ | ⟨a1, a2⟩ <;> rcases h' with ⟨b1, b2, b3⟩ | ⟨b1, b2⟩
  · have := a3 y b2; have := b3 x a2; omega
  · have := b2 x a2; omega
  · have := a2 y b2; omega
  · omega

def badE : List (Nat × Nat × Int) := [(0, 1, 2 ^ 32 + 5)]

theorem bad_run : solve toInt (2 ^ 63 - 1) 2 badE 0 (2 ^ 60) = some [0, 5] := by decide +kernel

/-- **C76 fails** for `Network<long long>` and distances of type `long long`: one edge of weight 2^32 + 5 gets distance 5. -/
theorem C76_violated : ¬ C76_full := by
  intro h
  obtain ⟨dist, e, _, hd⟩ := h 2 badE 0 (2 ^ 60) (2 ^ 63 - 1) (by unfold Input; decide) (by decide) (by decide)
  rw [bad_run] at e
  cases e
  obtain ⟨x, hx, hx'⟩ := hd 1 (by decide)
  cases hx
  have key : ∀ v y, Walk badE 0 v y → (v = 0 ∧ y = 0) ∨ (v = 1 ∧ y = 2 ^ 32 + 5) := by
    intro v y w
    induction w with
    | nil => exact Or.inl ⟨rfl, rfl⟩
    | snoc _ he ih =>
      unfold badE at he
      rw [List.mem_singleton] at he
      cases he
      rcases ih with h | h <;> omega
  rcases hx' with ⟨_, h2, _⟩ | ⟨h1, _⟩
  · rcases key 1 5 h2 with h | h <;> omega
  · omega

/-! Examples. -/

def exE : List (Nat × Nat × Int) := [(0, 1, 7), (0, 2, 2), (2, 1, 3), (1, 3, 1), (2, 3, 6), (1, 0, 0), (4, 3, 1)]

example : Correct 5 exE 0 1000 (solve toInt (2 ^ 31 - 1) 5 exE 0 1000) := C76_partial (by unfold Input; decide) (by decide) (by decide) (by decide)
example : solve toInt (2 ^ 31 - 1) 5 exE 0 1000 = some [0, 5, 2, 6, 1000] := by decide +kernel
example : solve toInt (2 ^ 31 - 1) 5 exE 0 6 = some [0, 5, 2, 6, 6] := by decide +kernel

end Verif.Dijkstra
