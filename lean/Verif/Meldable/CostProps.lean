import Verif.Meldable.Cost
/-!
C133: the expected cost of the operations of `MeldableHeap`.
-/
namespace Verif.Meldable
open Verif.FibHeap (SWO)

variable {T : Type} {lt : T → T → Bool}

/-- The calls of `rand()` made by an operation which leads from `s` to `s'`. -/
def calls (s : St T) (s' : Option (St T)) : Nat :=
  match s' with
  | none => 0
  | some s' => s'.cnt - s.cnt

theorem calls_le {s : St T} {m : Option (List (Node T) × Nat × Option Nat)} {f : List (Node T) × Nat × Option Nat → Option (St T)} (hf : ∀ r s', f r = some s' → s'.cnt = r.2.1) :
    calls s (m.bind f) ≤ used s.cnt m := by
  cases m with
  | none => exact Nat.zero_le _
  | some r =>
    rw [Option.bind_some]
    cases h : f r with
    | none => exact Nat.zero_le _
    | some s' =>
      have := hf r s' h
      show s'.cnt - s.cnt ≤ r.2.1 - s.cnt
      omega

theorem run_world (hlt : SWO lt) (ρ : Nat → Bool) {k : Nat} {ops : List (Op T)} (hf : Fits k (fun _ => 0) ops) (hm : NoMeld ops) {s : St T} {outs : List (Out T)} (hr : run lt ρ (init k) ops = some (s, outs)) :
    ∃ τ M, World lt k s τ M := by
  obtain ⟨s', outs', e, _, τ, M, W⟩ := run_ok hlt ρ ops (init k) _ _ _ (init_ok k) (fun _ => rfl) hf hm
  rw [hr] at e
  cases e
  exact ⟨τ, M, W⟩

theorem World.size {k : Nat} {s : St T} {τ : Nat → BT T} {M : Nat → Multiset T} (W : World lt k s τ M) {i n : Nat} (hi : i < k) (hn : size s i = some n) : (τ i).sz = n := by
  obtain ⟨p, e, _⟩ := (W.obj i hi).ob
  unfold Meldable.size at hn
  rw [e] at hn
  exact Option.some.inj hn

/-- **C133, `push`.** After any program (with any outcome of the earlier calls of `rand()`), `push` on a heap of `n` values calls `rand()` at most `log₂(n+1) + 1` times on average over the coins
that it may use, and cannot fail. -/
theorem C133_push (hlt : SWO lt) (ρ : Nat → Bool) {k : Nat} {ops : List (Op T)} (hf : Fits k (fun _ => 0) ops) (hm : NoMeld ops) {s : St T} {outs : List (Out T)} (hr : run lt ρ (init k) ops = some (s, outs))
    {i n : Nat} (hi : i < k) (hn : size s i = some n) (x : T) {m : Nat} (hmm : s.mem.length < m) :
    (∀ ρ', push lt ρ' s i x ≠ none) ∧ avg m (fun b => (calls s (push lt (coins s.cnt b) s i x) : ℝ)) ≤ lg n + 1 := by
  obtain ⟨τ, M, W⟩ := run_world hlt ρ hf hm hr
  refine ⟨fun ρ' => ?_, ?_⟩
  · obtain ⟨s', _, e, _⟩ := W.push hlt ρ' hi x
    rw [e]; simp
  have H := W.obj i hi
  have hsz := W.size hi hn
  obtain ⟨p, e, o⟩ := H.ob
  have o1 : Own (s.mem ++ [(⟨x, none, none⟩ : Node T)]) p (τ i) := o.frame _ _ (fun u hu => List.getElem?_append_left (o.lt _ _ u hu))
  have o2 : Own (s.mem ++ [(⟨x, none, none⟩ : Node T)]) (some s.mem.length) (.node s.mem.length x .nil .nil) := ⟨rfl, none, none, by simp, rfl, rfl⟩
  have hle : (τ i).sz ≤ s.mem.length := by
    have := sz_le (q := none) (t2 := .nil) o rfl (by simpa [BT.ids] using H.nd)
    simpa [BT.sz] using this
  have key := meldF_avg (lt := lt) (2 * (s.mem ++ [(⟨x, none, none⟩ : Node T)]).length + 2) _ s.cnt _ _ _ _ m o1 o2 (by show (τ i).sz + 1 ≤ m; omega)
  have h1 : (BT.node s.mem.length x .nil .nil : BT T).sz = 1 := rfl
  rw [h1, lg_one, hsz] at key
  refine le_trans (avg_mono (fun b => ?_)) key
  have : calls s (push lt (coins s.cnt b) s i x) ≤ used s.cnt (meldM lt (coins s.cnt b) ⟨s.mem ++ [⟨x, none, none⟩], s.cnt, s.objs⟩ p (some s.mem.length)) := by
    unfold Meldable.push
    rw [e, Option.bind_some]
    refine calls_le (fun r s' h => ?_)
    obtain ⟨_, _, rfl⟩ := Option.map_eq_some_iff.mp h
    rfl
  exact_mod_cast this

/-- **C133, `pop`.** On average at most `2 log₂(n+1) - 2` calls of `rand()` for a heap of `n` values. -/
theorem C133_pop (hlt : SWO lt) (ρ : Nat → Bool) {k : Nat} {ops : List (Op T)} (hf : Fits k (fun _ => 0) ops) (hm : NoMeld ops) {s : St T} {outs : List (Out T)} (hr : run lt ρ (init k) ops = some (s, outs))
    {i n : Nat} (hi : i < k) (hn : size s i = some n) (hpos : 0 < n) {m : Nat} (hmm : s.mem.length ≤ m) :
    (∀ ρ', pop lt ρ' s i ≠ none) ∧ avg m (fun b => (calls s ((pop lt (coins s.cnt b) s i).map (fun r => r.2)) : ℝ)) ≤ 2 * lg n - 2 := by
  obtain ⟨τ, M, W⟩ := run_world hlt ρ hf hm hr
  have hsz := W.size hi hn
  refine ⟨fun ρ' => ?_, ?_⟩
  · obtain ⟨_, _, s', _, e, _⟩ := W.pop hlt ρ' hi (by rw [W.card hi]; omega)
    rw [e]; simp
  have H := W.obj i hi
  obtain ⟨p, e, o⟩ := H.ob
  cases ht : τ i with
  | nil => rw [ht] at hsz; simp [BT.sz] at hsz; omega
  | node id x l r =>
    rw [ht] at o hsz
    obtain ⟨rfl, a, b', e1, ol, or⟩ := o
    have hle : (BT.node id x l r).sz ≤ s.mem.length := by
      have := sz_le (q := none) (t2 := .nil) (show Own s.mem (some id) (.node id x l r) from ⟨rfl, a, b', e1, ol, or⟩) rfl (by have := H.nd; rw [ht] at this; rw [show (BT.nil : BT T).ids = [] from rfl, List.append_nil]; exact this)
      simpa [BT.sz] using this
    have hs : (BT.node id x l r).sz = l.sz + r.sz + 1 := rfl
    have key := meldF_avg (lt := lt) (2 * s.mem.length + 2) _ s.cnt _ _ _ _ m ol or (by omega)
    have hl := lg_node l.sz r.sz
    rw [← hs, hsz] at hl
    refine le_trans (avg_mono (fun b => ?_)) (key.trans (by linarith))
    have : calls s ((pop lt (coins s.cnt b) s i).map (fun r => r.2)) ≤ used s.cnt (meldM lt (coins s.cnt b) s a b') := by
      unfold Meldable.pop
      rw [e, Option.bind_some]
      dsimp only
      rw [Option.bind_some, e1, Option.bind_some, Option.map_bind]
      refine calls_le (fun r s' h => ?_)
      obtain ⟨q, hq, rfl⟩ := Option.map_eq_some_iff.mp h
      obtain ⟨_, _, rfl⟩ := Option.map_eq_some_iff.mp hq
      rfl
    exact_mod_cast this

/-- **C133, `meld`.** On average at most `log₂(n₁+1) + log₂(n₂+1)` calls of `rand()` for heaps of `n₁` and `n₂` values. -/
theorem C133_meld (hlt : SWO lt) (ρ : Nat → Bool) {k : Nat} {ops : List (Op T)} (hf : Fits k (fun _ => 0) ops) (hm : NoMeld ops) {s : St T} {outs : List (Out T)} (hr : run lt ρ (init k) ops = some (s, outs))
    {i j n₁ n₂ : Nat} (hi : i < k) (hj : j < k) (hij : i ≠ j) (hn₁ : size s i = some n₁) (hn₂ : size s j = some n₂) {m : Nat} (hmm : s.mem.length ≤ m) :
    (∀ ρ', meld lt ρ' s i j ≠ none) ∧ avg m (fun b => (calls s (meld lt (coins s.cnt b) s i j) : ℝ)) ≤ lg n₁ + lg n₂ := by
  obtain ⟨τ, M, W⟩ := run_world hlt ρ hf hm hr
  have hs₁ := W.size hi hn₁
  have hs₂ := W.size hj hn₂
  refine ⟨fun ρ' => ?_, ?_⟩
  · obtain ⟨s', _, e, _⟩ := W.absorb hlt ρ' hi hj hij
    intro h
    rw [h] at e
    cases e
  obtain ⟨p, e1, o1⟩ := (W.obj i hi).ob
  obtain ⟨q, e2, o2⟩ := (W.obj j hj).ob
  have nd : ((τ i).ids ++ (τ j).ids).Nodup := List.nodup_append.2 ⟨(W.obj i hi).nd, (W.obj j hj).nd, fun u hu v hv huv => W.dis i j hi hj hij u hu (huv ▸ hv)⟩
  have key := meldF_avg (lt := lt) (2 * s.mem.length + 2) _ s.cnt _ _ _ _ m o1 o2 (by have := sz_le o1 o2 nd; omega)
  rw [hs₁, hs₂] at key
  refine le_trans (avg_mono (fun b => ?_)) key
  have : calls s (meld lt (coins s.cnt b) s i j) ≤ used s.cnt (meldM lt (coins s.cnt b) s p q) := by
    unfold Meldable.meld
    rw [e1, Option.bind_some, e2, Option.bind_some]
    refine calls_le (fun r s' h => ?_)
    obtain ⟨_, _, rfl⟩ := Option.map_eq_some_iff.mp h
    rfl
  exact_mod_cast this

/-- **C133, depth.** A run of `_meld` with `d` calls of `rand()` recurses at most `2 d + 2` deep. -/
theorem C133_depth (hlt : SWO lt) (ρ : Nat → Bool) (s : St T) (p q : Option Nat) (res : List (Node T) × Nat × Option Nat) (h : meldM lt ρ s p q = some res) :
    s.cnt ≤ res.2.1 ∧ meldF lt ρ (2 * (res.2.1 - s.cnt) + 2) s.mem s.cnt p q = some res := by
  obtain ⟨h1, h2, _⟩ := meldF_depth hlt ρ _ _ _ _ _ _ h
  exact ⟨h1, h2⟩

-- five descending values make a path when every coin is the same: the next push costs 5 calls on one outcome of the coins and 1 on another
def ascOps : List (Op Nat) := [.push 0 9, .push 0 8, .push 0 7, .push 0 6, .push 0 5]

example : Fits 1 (fun _ => 0) ascOps ∧ NoMeld ascOps := by simp [ascOps, Fits, NoMeld]
example : (run ltN (fun _ => true) (init 1) ascOps).map (fun r => calls r.1 (push ltN (fun _ => true) r.1 0 1)) = some 5 := by decide +kernel
example : (run ltN (fun _ => true) (init 1) ascOps).map (fun r => calls r.1 (push ltN (fun _ => false) r.1 0 1)) = some 1 := by decide +kernel
example : avg 2 (fun b => if b = [true, true] then 4 else 0) = 1 := by unfold avg avg avg; norm_num

end Verif.Meldable
