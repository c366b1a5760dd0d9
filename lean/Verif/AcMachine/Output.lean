import Verif.AcMachine.Props
/-!
**C120.** `all_output`.
-/
namespace Verif.AcMachine

variable {α T : Type} [DecidableEq α]

/-- Lines 136-145 (`_output`), with fuel for the `while`. -/
def output (s : Ac α T) : Nat → Nat → Option (List (List α × T))
  | 0, _ => none
  | n+1, u => if u = 0 then some [] else (s.nodes[u]?).bind (fun nd =>
      (match nd.id with
        | none => some []
        | some k => (s.cont[k]?).map (fun x => [x])).bind (fun a => nd.fail.bind (fun f => (output s n f).map (fun r => a ++ r))))

/-- Lines 161-167: the loop; fuel for the number of rounds. -/
def outLoop (ord : List (α × Nat) → List (α × Nat)) (s : Ac α T) : Nat → List Nat → List (List (List α × T)) → Option (List (List (List α × T)))
  | _, [], res => some res
  | 0, _ :: _, _ => none
  | n+1, u :: q, res => (output s s.nodes.length u).bind (fun o => (wr res u o).bind (fun res => (s.nodes[u]?).bind (fun nd =>
      outLoop ord s n (q ++ (ord nd.e).map Prod.snd) res)))

/-- Lines 157-169 (`all_output`). -/
def allOutput (ord : List (α × Nat) → List (α × Nat)) (s : Ac α T) : Option (List (List (List α × T))) :=
  outLoop ord s s.nodes.length [0] (List.replicate s.nodes.length [])

theorem output_ok {s : Ac α T} {N : Nat} {g : Nat → Nd α} {lab : Nat → List α} (B : Built s N g lab) : ∀ n x, (lab x).length < n → x < N → output s n x = some (occ s.cont (lab x)) := by
  intro n
  induction n with
  | zero => intro x h; omega
  | succ n ih =>
    intro x hn hx
    have K := B.keys
    unfold output
    by_cases h0 : x = 0
    · rw [if_pos h0]
      subst h0
      rw [K.tr.root, occ_nil K]
    · rw [if_neg h0, K.rep.val x hx, Option.bind_some]
      obtain ⟨f, f1, ⟨f2, f3, f4⟩, f5⟩ := B.link hx h0
      have hrest : occ s.cont (lab x).tail = occ s.cont (lab f) := occ_skip s.cont (lab f) (lab x).tail f3 (fun q hq hqs => by
        obtain ⟨v, v1, v2, v3⟩ := has_node K hq
        rw [← v2] at hqs ⊢
        exact f4 v v1 hqs)
      obtain ⟨a, l, hl⟩ : ∃ a l, lab x = a :: l := List.exists_cons_of_ne_nil (K.tr.ne_nil hx h0)
      cases hid : (g x).id with
      | none =>
        dsimp only
        rw [Option.bind_some, f1, Option.bind_some, ih f (by omega) f2, ← hrest, Option.map_some, List.nil_append]
        have hnone : s.cont.find? (fun p => decide (p.1 = lab x)) = none := by
          rw [List.find?_eq_none]
          intro p hp hpe
          obtain ⟨v, v1, v2, v3⟩ := has_node K hp
          have := K.tr.inj v x v1 hx (by rw [v2, of_decide_eq_true hpe])
          subst this
          exact v3 hid
        rw [hl] at hnone ⊢
        unfold occ
        rw [List.tails_cons, List.filterMap_cons, hnone]; rfl
      | some k =>
        obtain ⟨p, p1, p2⟩ := entry K hx (by rw [hid]; simp)
        have hk : s.cont[k]? = some p := by
          unfold deref at p1
          rw [K.rep.val x hx, Option.bind_some, hid, Option.bind_some] at p1
          exact p1
        dsimp only
        rw [hk, Option.map_some, Option.bind_some, f1, Option.bind_some, ih f (by omega) f2, ← hrest, Option.map_some]
        rw [hl] at p2 ⊢
        unfold occ
        rw [List.tails_cons, List.filterMap_cons, p2]; rfl

theorem outLoop_ok {s : Ac α T} {N : Nat} {g : Nat → Nd α} {lab : Nat → List α} (B : Built s N g lab) {ord : List (α × Nat) → List (α × Nat)} (hord : ∀ l, (ord l).Perm l) :
    ∀ n (D Q : List Nat) (res : List (List (List α × T))) (_ : BI N lab (fun v => (g v).fail) D Q), N ≤ n + 1 + D.length → res.length = N →
      (∀ v, v = 0 ∨ v ∈ D → res[v]? = some (occ s.cont (lab v))) →
      ∃ r, outLoop ord s n Q res = some r ∧ r.length = N ∧ ∀ v, v < N → r[v]? = some (occ s.cont (lab v)) := by
  have K := B.keys
  have fin : ∀ (D : List Nat) (res : List (List (List α × T))) (_ : BI N lab (fun v => (g v).fail) D []), (∀ v, v = 0 ∨ v ∈ D → res[v]? = some (occ s.cont (lab v))) → ∀ v, v < N → res[v]? = some (occ s.cont (lab v)) := by
    intro D res I hr v hv
    by_cases h0 : v = 0
    · exact hr v (Or.inl h0)
    · exact hr v (Or.inr (by simpa using I.all K.tr v hv h0))
  intro n
  induction n with
  | zero =>
    intro D Q res I hn hl hr
    cases Q with
    | nil => exact ⟨res, rfl, hl, fin D res I hr⟩
    | cons h Q =>
      exfalso
      have := nodup_len (l := 0 :: (D ++ h :: Q)) (N := N) (List.nodup_cons.2 ⟨fun hm => (I.lt 0 hm).2 rfl, I.nodup⟩) (fun v hv => by
        rcases List.mem_cons.1 hv with h1 | h1
        · rw [h1]; exact K.tr.pos
        · exact (I.lt v h1).1)
      rw [List.length_cons, List.length_append, List.length_cons] at this
      omega
  | succ n ih =>
    intro D Q res I hn hl hr
    cases Q with
    | nil => exact ⟨res, rfl, hl, fin D res I hr⟩
    | cons h Q =>
      obtain ⟨hh, hh0⟩ := I.lt h (List.mem_append_right _ (List.mem_cons_self ..))
      have hhD : h ∉ D := fun hm => (List.nodup_append.1 I.nodup).2.2 h hm h (List.mem_cons_self ..) rfl
      have hle : ∀ p ∈ ord (g h).e, p.2 < N ∧ lab p.2 = lab h ++ [p.1] := fun p hp => (K.tr.edge h hh p.1 p.2).1 ((hord _).mem_iff.1 hp)
      have I' := I.step K.tr (hord (g h).e) (fun p hp => B.fail p.2 (hle p hp).1 (by
        intro h0
        have := (hle p hp).2
        rw [h0, K.tr.root] at this
        simp at this)) (fun x _ => rfl)
      obtain ⟨r, r1, r2, r3⟩ := ih (D ++ [h]) _ (res.set h (occ s.cont (lab h))) I' (by rw [List.length_append, List.length_singleton]; omega) (by rw [List.length_set, hl]) (by
        intro v hv
        by_cases e : h = v
        · subst e
          rw [List.getElem?_set_self (by omega)]
        · rw [List.getElem?_set_ne e]
          apply hr
          rcases hv with hv | hv
          · exact Or.inl hv
          · rcases List.mem_append.1 hv with hv | hv
            · exact Or.inr hv
            · exact absurd (List.mem_singleton.1 hv).symm e)
      refine ⟨r, ?_, r2, r3⟩
      unfold outLoop
      rw [K.rep.len, output_ok B N h (B.lt hh) hh, Option.bind_some]
      unfold wr
      rw [if_pos (by omega), Option.bind_some, K.rep.val h hh, Option.bind_some, r1]

theorem allOutput_ok {s : Ac α T} {N : Nat} {g : Nat → Nd α} {lab : Nat → List α} (B : Built s N g lab) {ord : List (α × Nat) → List (α × Nat)} (hord : ∀ l, (ord l).Perm l) :
    ∃ r, allOutput ord s = some r ∧ r.length = N ∧ ∀ v, v < N → r[v]? = some (occ s.cont (lab v)) := by
  have K := B.keys
  have t := K.tr
  have hle : ∀ p ∈ ord (g 0).e, p.2 < N ∧ lab p.2 = [] ++ [p.1] := fun p hp => by
    have := (t.edge 0 t.pos p.1 p.2).1 ((hord _).mem_iff.1 hp)
    rwa [t.root] at this
  have hlen : ∀ x ∈ (ord (g 0).e).map Prod.snd, (lab x).length = 1 := by
    intro x hx
    obtain ⟨p, p1, p2⟩ := List.mem_map.1 hx
    subst p2
    rw [(hle p p1).2]; rfl
  have hlt : ∀ x ∈ (ord (g 0).e).map Prod.snd, x < N ∧ x ≠ 0 := by
    intro v hv
    obtain ⟨p, p1, p2⟩ := List.mem_map.1 hv
    refine ⟨p2 ▸ (hle p p1).1, fun h0 => ?_⟩
    have := hlen v hv
    rw [h0, t.root] at this
    simp at this
  have I : BI N lab (fun v => (g v).fail) [] ((ord (g 0).e).map Prod.snd) := by
    refine ⟨?_, hlt, fun v hv => B.fail v (hlt v hv).1 (hlt v hv).2, ?_, ?_, ?_, ?_⟩
    · exact map_snd_nodup ((hord _).nodup_iff.2 (t.nd 0 t.pos)) (fun p hp => (hle p hp).2)
    · rintro v hv q c hq hlab (h | h)
      · subst h
        exact List.mem_map.2 ⟨(c, v), (hord _).mem_iff.2 ((t.edge 0 hq c v).2 ⟨hv, hlab⟩), rfl⟩
      · cases h
    · intro v hv q c hq hlab
      left
      have := hlen v hv
      rw [hlab, List.length_append, List.length_singleton] at this
      by_contra h0
      exact t.ne_nil hq h0 (List.eq_nil_of_length_eq_zero (by omega))
    · exact pairwise_of_mem (fun a ha b hb => Nat.le_of_eq (by rw [hlen a ha, hlen b hb]))
    · intro a ha b hb
      rw [hlen a ha, hlen b hb]; omega
  have hN := t.pos
  obtain ⟨M, rfl⟩ : ∃ M, N = M + 1 := ⟨N - 1, by omega⟩
  obtain ⟨r, r1, r2, r3⟩ := outLoop_ok B hord M [] _ ((List.replicate (M+1) []).set 0 (occ s.cont (lab 0))) ⟨I.nodup, I.lt, I.ok, I.kids, I.pars, I.sorted, I.close⟩ (by rw [List.length_nil]) (by simp) (by
    rintro v (hv | hv)
    · subst hv
      rw [List.getElem?_set_self (by simp)]
    · cases hv)
  refine ⟨r, ?_, r2, r3⟩
  unfold allOutput outLoop
  rw [K.rep.len]
  dsimp only
  rw [output_ok B _ 0 (B.lt hN) hN, Option.bind_some]
  unfold wr
  rw [if_pos (by simp), Option.bind_some, K.rep.val 0 hN, Option.bind_some, List.nil_append, r1]
/-- **C120.** After any insertions and `build`, `all_output` does not fail, and the entry of the node that an iterator reaches by pushing a text (its
public member `u_`) lists the keys that end the text, the longest first. -/
theorem C120_all_output {ord ord' : List (α × Nat) → List (α × Nat)} (hord : ∀ l, (ord l).Perm l) (hord' : ∀ l, (ord' l).Perm l) (k : List α) (v : T) (acts : List (Act α T)) :
    ∃ s r, setup ord (.ins k v :: acts) = some s ∧ allOutput ord' s = some r ∧ r.length = s.nodes.length ∧
      ∀ text, ∃ u, pushAll s 0 text = some u ∧ r[u]? = some (occ (kept (inserted (.ins k v :: acts))) text) := by
  obtain ⟨s, N, g, lab, h1, B, h3⟩ := setup_built hord k v acts
  obtain ⟨r, r1, r2, r3⟩ := allOutput_ok B hord'
  refine ⟨s, r, h1, r1, by rw [r2, B.keys.rep.len], fun text => ?_⟩
  obtain ⟨u, u1, u2⟩ := pushAll_ok B text [] 0 (root_long B)
  rw [List.nil_append] at u2
  refine ⟨u, u1, ?_⟩
  rw [r3 u u2.1, ← h3, occ_skip s.cont (lab u) text u2.2.1 (fun q hq hqs => by
    obtain ⟨v, v1, v2, v3⟩ := has_node B.keys hq
    rw [← v2] at hqs ⊢
    exact u2.2.2 v v1 hqs)]

/-- Three keys; the entries of the nodes in the order of their creation. -/
example : (setup id [.ins [1] 10, .ins [2, 1] 20, .ins [1, 2, 1] 30]).bind (fun s => allOutput List.reverse s) =
    some [[], [([1], 10)], [], [([2, 1], 20), ([1], 10)], [], [([1, 2, 1], 30), ([2, 1], 20), ([1], 10)]] := by decide +kernel

example : ∃ s r, setup id [.ins [1] 10, .ins [2, 1] 20, .ins [1, 2, 1] 30] = some s ∧ allOutput List.reverse s = some r ∧ r.length = s.nodes.length ∧
    ∀ text, ∃ u, pushAll s 0 text = some u ∧ r[u]? = some (occ (kept [([1], 10), ([2, 1], 20), ([1, 2, 1], 30)]) text) :=
  C120_all_output (fun _ => List.Perm.refl _) List.reverse_perm [1] 10 [.ins [2, 1] 20, .ins [1, 2, 1] 30]

end Verif.AcMachine
