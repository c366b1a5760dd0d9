import Verif.DynAc.Proofs
import Verif.AcMachine.Props
/-!
Insertion into the dynamic machine.
-/
namespace Verif.DynAc
open Verif.AcMachine

variable {α T : Type} [DecidableEq α]

theorem walkP_ok {N : Nat} {g : Nat → Nd α} {lab : Nat → List α} (t : Tr N g lab) {nodes : List (Nd α)} (R : Rep nodes N g) :
    ∀ (k : List α) (u : Nat), u < N → ∀ v r, walk nodes u k = some (v, r) →
      ∃ s, walkP nodes u k = some (v, s, r) ∧ s.length + r.length = k.length ∧ ∀ i, i < s.length → ∃ x, s[i]? = some x ∧ x < N ∧ lab x = lab u ++ k.take (i+1) := by
  intro k
  induction k with
  | nil =>
    intro u hu v r h
    unfold walk at h
    cases h
    exact ⟨[], rfl, rfl, fun i hi => by simp at hi⟩
  | cons c k ih =>
    intro u hu v r h
    unfold walk at h
    unfold walkP
    rw [R.val u hu, Option.bind_some] at h ⊢
    cases ha : assoc (g u).e c with
    | none =>
      rw [ha] at h
      dsimp only at h ⊢
      cases h
      exact ⟨[], rfl, by simp, fun i hi => by simp at hi⟩
    | some w =>
      rw [ha] at h
      dsimp only at h ⊢
      obtain ⟨h1, h2⟩ := t.assoc_some hu ha
      obtain ⟨s, s1, s2, s3⟩ := ih w h1 v r h
      refine ⟨w :: s, by rw [s1]; rfl, by rw [List.length_cons, List.length_cons]; omega, fun i hi => ?_⟩
      cases i with
      | zero => exact ⟨w, rfl, h1, by rw [h2]; simp⟩
      | succ i =>
        obtain ⟨x, x1, x2, x3⟩ := s3 i (by rw [List.length_cons] at hi; omega)
        exact ⟨x, by rw [List.getElem?_cons_succ, x1], x2, by rw [x3, h2, List.append_assoc, List.take_succ_cons]; rfl⟩

theorem addEdge_length {nodes n1 : List (Nd α)} {u : Nat} {c : α} {v : Nat} (h : addEdge nodes u c v = some n1) : n1.length = nodes.length := by
  unfold addEdge at h
  rw [Option.bind_eq_some_iff] at h
  obtain ⟨nd, -, h⟩ := h
  unfold wr at h
  split at h
  · rw [← Option.some.inj h, List.length_set]
  · cases h

theorem extendP_ok : ∀ (k : List α) (u : Nat) (nodes : List (Nd α)) (v : Nat) (n1 : List (Nd α)), extend k u nodes = some (v, n1) →
    extendP k u nodes = some (v, List.range' nodes.length k.length, n1) := by
  intro k
  induction k with
  | nil =>
    intro u nodes v n1 h
    unfold extend at h
    cases h
    rfl
  | cons c k ih =>
    intro u nodes v n1 h
    unfold extend at h
    rw [Option.bind_eq_some_iff] at h
    obtain ⟨n2, h1, h2⟩ := h
    unfold extendP
    have hl := addEdge_length h1
    rw [List.length_append, List.length_singleton] at hl
    rw [h1, Option.bind_some, ih _ _ _ _ h2, Option.map_some, hl, List.length_cons, List.range'_succ]

/-- The machine between the calls. -/
structure Good (b : Prop) (m : Dyn α T) (N : Nat) (g : Nat → Nd α) (lab : Nat → List α) (I : Nat → List Nat) : Prop where
  keys : Keys m.ac N g lab
  si : SI b N N g lab (m.ac.nodes, m.ifl) (fun v => (g v).fail) I

theorem good_congr {b b' : Prop} {m : Dyn α T} {N : Nat} {g : Nat → Nd α} {lab : Nat → List α} {I : Nat → List Nat} (h : b' → b) (G : Good b m N g lab I) : Good b' m N g lab I :=
  ⟨G.keys, ⟨G.si.rep, G.si.rip, fun v hv h0 => by
    obtain ⟨f, a1, a2, a3, a4⟩ := G.si.link v hv h0
    exact ⟨f, a1, a2, a3, fun hb => a4 (h hb)⟩, fun v hv => ⟨(G.si.mem v hv).1, fun x hx => by
    obtain ⟨a1, a2, a3, a4⟩ := (G.si.mem v hv).2 x hx
    exact ⟨a1, a2, a3, fun hb => a4 (h hb)⟩⟩⟩⟩

/-- The condition under which an insertion keeps the links right: a beginning of the key that occurs inside an earlier key is itself a beginning of an earlier key. -/
def Fresh (C : List (List α × T)) (key : List α) : Prop := ∀ q, q <+: key → q ≠ [] → ∀ p ∈ C, q <:+: p.1 → ∃ r ∈ C, q <+: r.1

theorem insertD_ok {b : Prop} {m : Dyn α T} {N : Nat} {g : Nat → Nd α} {lab : Nat → List α} {I : Nat → List Nat} (G : Good b m N g lab I) {ord : List Nat → List Nat} (hord : ∀ l, (ord l).Perm l)
    (key : List α) (v : T) : ∃ m' N' g' lab' I', insertD ord m key v = some m' ∧ Good (b ∧ Fresh m.ac.cont key) m' N' g' lab' I' ∧ m'.ac.cont = keep m.ac.cont key v := by
  have K := G.keys
  have hne : m.ac.nodes ≠ [] := keys_ne K
  have hroot : withRoot m.ac.nodes = m.ac.nodes := by
    unfold withRoot
    rw [if_neg (by simpa using hne)]
  obtain ⟨s', N', g', lab', e1, K', hcont, u, p, r, w1, u1, hk, hlu, hN', hold, hnew⟩ := insert_ext K key v hne
  obtain ⟨s0, sp, sl, s3⟩ := walkP_ok K.tr K.rep key 0 K.tr.pos u r w1
  unfold insertD
  rw [hroot, sp, Option.bind_some, if_neg (by simpa using hne)]
  unfold AcMachine.insert at e1
  rw [hroot, w1, Option.bind_some] at e1
  cases r with
  | nil =>
    unfold insertFrom at e1
    dsimp only at e1
    have e1 := Option.some.inj e1
    refine ⟨m, N, g, lab, I, by unfold insertFromD; rfl, good_congr And.left G, ?_⟩
    rw [← hcont, ← e1]
  | cons c r =>
    unfold insertFrom at e1
    dsimp only at e1
    rw [Option.bind_eq_some_iff] at e1
    obtain ⟨⟨x, n1⟩, x1, x2⟩ := e1
    rw [Option.map_eq_some_iff] at x2
    obtain ⟨n2, x2, rfl⟩ := x2
    have ep := extendP_ok _ _ _ _ _ x1
    have t' := K'.tr
    have hpl : p.length = s0.length := by
      have := congrArg List.length hk
      rw [List.length_append] at this
      omega
    have hlenk : key.length = s0.length + (r.length + 1) := by rw [← sl, List.length_cons]
    have hNpos := K.tr.pos
    rw [List.length_cons] at hN'
    -- the vector `s`
    obtain ⟨S, hS⟩ : ∃ S, S = s0 ++ List.range' m.ac.nodes.length (c :: r).length := ⟨_, rfl⟩
    have hSnew : ∀ i, i < r.length + 1 → S[s0.length + i]? = some (N + i) := by
      intro i hi
      rw [hS, List.getElem?_append_right (by omega), Nat.add_sub_cancel_left, K.rep.len, List.getElem?_range' (by rw [List.length_cons]; omega), Nat.one_mul]
    have hs : ∀ i, i < key.length → ∃ x, S[i]? = some x ∧ x < N' ∧ lab' x = key.take (i+1) := by
      intro i hi
      rcases Nat.lt_or_ge i s0.length with h | h
      · obtain ⟨x, x1, x2, x3⟩ := s3 i h
        refine ⟨x, by rw [hS, List.getElem?_append_left h, x1], by omega, ?_⟩
        rw [(hold x x2).1, x3, K.tr.root, List.nil_append]
      · obtain ⟨j, rfl⟩ : ∃ j, i = s0.length + j := ⟨i - s0.length, by omega⟩
        refine ⟨N + j, hSnew j (by omega), by omega, ?_⟩
        rw [(hnew (N+j) (by omega) (by omega)).1, hk, Nat.add_sub_cancel_left, List.take_append, List.take_of_length_le (l := p) (by omega)]
        congr 2
        omega
    -- the state before the links of the new nodes are set
    have hrip : Rep (m.ifl ++ List.replicate (r.length + 1) []) N' (fun x => if x < N then I x else []) := by
      constructor
      · rw [List.length_append, List.length_replicate, G.si.rip.len, hN']
      · intro i hi
        by_cases h : i < N
        · rw [if_pos h, List.getElem?_append_left (by rw [G.si.rip.len]; exact h), G.si.rip.val i h]
        · rw [if_neg h, List.getElem?_append_right (by rw [G.si.rip.len]; omega), List.getElem?_replicate, if_pos (by rw [G.si.rip.len]; omega)]
    have hbF : (b ∧ Fresh m.ac.cont key) → ∀ v f, v < N → IsLong N lab (lab v).tail f → IsLong N' lab' (lab' v).tail f := by
      rintro ⟨-, hF⟩ v f hv ⟨h1, h2, h3⟩
      refine ⟨by omega, by rw [(hold f h1).1, (hold v hv).1]; exact h2, fun x hx hxs => ?_⟩
      rw [(hold v hv).1] at hxs
      rw [(hold f h1).1]
      rcases Nat.lt_or_ge x N with hxN | hxN
      · rw [(hold x hxN).1] at hxs ⊢
        exact h3 x hxN hxs
      · exfalso
        obtain ⟨l1, -⟩ := hnew x hx hxN
        have hpre : lab' x <+: key := by
          rw [l1, hk]
          exact (List.prefix_append_right_inj p).2 (List.take_prefix ..)
        have hxne : lab' x ≠ [] := t'.ne_nil hx (by omega)
        have hlv : lab v ≠ [] := by
          intro h0
          rw [h0] at hxs
          exact hxne (List.suffix_nil.1 hxs)
        rcases (K.labs (lab v)).1 ⟨v, hv, rfl⟩ with h | ⟨q, q1, q2⟩
        · exact hlv h
        · have hin : lab' x <:+: q.1 := (tail_suffix hxs).isInfix.trans q2.isInfix
          obtain ⟨q', q3, q4⟩ := hF _ hpre hxne q q1 hin
          obtain ⟨y, y1, y2⟩ := (K.labs (lab' x)).2 (Or.inr ⟨q', q3, q4⟩)
          have := t'.inj y x (by omega) hx (by rw [(hold y y1).1, y2])
          omega
    have S0 : SI (b ∧ Fresh m.ac.cont key) N' N g' lab' (n2, m.ifl ++ List.replicate (r.length + 1) []) (fun x => (g' x).fail) (fun x => if x < N then I x else []) := by
      refine ⟨K'.rep.congr (fun i hi => rfl), hrip, fun x hx h0 => ?_, fun x hx => ?_⟩
      · obtain ⟨f, f1, f2, f3, f4⟩ := G.si.link x hx h0
        refine ⟨f, by rw [(hold x hx).2, f1], by omega, by rw [(hold f f2).1, (hold x hx).1]; exact f3, fun hb => hbF hb x f hx (f4 hb.1)⟩
      · by_cases h : x < N
        · rw [if_pos h]
          refine ⟨(G.si.mem x h).1, fun y hy => ?_⟩
          obtain ⟨a1, a2, a3, a4⟩ := (G.si.mem x h).2 y hy
          exact ⟨a1, a2, by rw [(hold x h).1, (hold y a1).1]; exact a3, fun hb => by rw [(hold y a1).2]; exact a4 hb.1⟩
        · rw [if_neg h]
          exact ⟨List.nodup_nil, fun y hy => by cases hy⟩
    obtain ⟨st1, F1, I1, z1, S1⟩ := newFails_ok t' hs (r.length + 1) s0.length N (by omega) (by omega) (by omega) hSnew S0
    -- the set the queue starts with
    obtain ⟨l, z2, hl⟩ : ∃ l, startSet S s0.length st1 = some l ∧ l.Nodup ∧ ∀ y ∈ l, Item (b ∧ Fresh m.ac.cont key) N' lab' key S y s0.length := by
      have gen : ∀ w, w < N' → lab' w = key.take s0.length → (I1 w).Nodup ∧ ∀ y ∈ I1 w, Item (b ∧ Fresh m.ac.cont key) N' lab' key S y s0.length := by
        intro w hw hlw
        refine ⟨(S1.mem w hw).1, fun y hy => ?_⟩
        obtain ⟨a1, a2, a3, a4⟩ := (S1.mem w hw).2 y hy
        refine ⟨a1, a2, fun hkl => ⟨by rw [← hlw]; exact a3, fun hb d z hd hz => ?_⟩⟩
        obtain ⟨f, f1, f2, f3, f4⟩ := S1.link y a1 a2
        rw [a4 hb] at f1
        have := Option.some.inj f1
        subst this
        obtain ⟨z', z1, z2, z3⟩ := hs s0.length hkl
        rw [hz] at z1
        have := Option.some.inj z1
        subst this
        exact IsLong.snoc t' (f4 hb) z2 (by rw [z3, hlw, List.take_succ, hd]; rfl)
      unfold startSet
      by_cases h0 : s0.length = 0
      · rw [if_pos h0]
        exact ⟨I1 0, S1.rip.val 0 t'.pos, gen 0 t'.pos (by rw [t'.root, h0, List.take_zero])⟩
      · rw [if_neg h0]
        obtain ⟨w, w1, w2, w3⟩ := hs (s0.length - 1) (by omega)
        rw [w1, Option.bind_some]
        exact ⟨I1 w, S1.rip.val w w2, gen w w2 (by rw [w3]; congr 1; omega)⟩
    obtain ⟨hl1, hl2⟩ := hl
    have hwt := weight_le (N := N') (lab := lab') (W := (N'+1)^N') ((ord l).map (fun x => (x, s0.length))) (fun q _ => Nat.pow_le_pow_right (by omega) (by omega))
    rw [List.length_map, (hord l).length_eq] at hwt
    have hll : l.length ≤ N' := nodup_len hl1 (fun y hy => (hl2 y hy).1)
    have hn2 : n2.length = N' := K'.rep.len
    have hle : l.length * (N'+1)^N' ≤ (N'+1)^(N'+1) := by
      rw [Nat.pow_succ, Nat.mul_comm]
      exact Nat.mul_le_mul_left _ (by omega)
    obtain ⟨st2, F2, I2, z3, S2⟩ := update_ok t' hord hs ((n2.length + 1) ^ (n2.length + 1)) ((ord l).map (fun x => (x, s0.length))) (by rw [hn2]; omega) (fun q hq => by
      obtain ⟨y, y1, rfl⟩ := List.mem_map.1 hq
      exact ⟨by dsimp only; omega, hl2 y ((hord l).mem_iff.1 y1)⟩) S1
    refine ⟨⟨⟨m.ac.cont ++ [(key, v)], st2.1⟩, st2.2⟩, N', wf g' F2, lab', I2, ?_, ⟨⟨S2.rep, ⟨t'.pos, t'.root, t'.edge, t'.inj, t'.par, t'.nd⟩, K'.idc, K'.cid, K'.labs, K'.ne⟩,
      ⟨S2.rep, S2.rip, S2.link, S2.mem⟩⟩, hcont⟩
    unfold insertFromD
    dsimp only
    rw [ep, Option.bind_some]
    dsimp only
    rw [x2, Option.bind_some, ← hS, z1, Option.bind_some, z2, Option.bind_some, z3]
    rfl

theorem new_good : Good (α := α) (T := T) True ⟨⟨[], [Nd.new]⟩, [[]]⟩ 1 (fun _ => Nd.new) (fun _ => []) (fun _ => []) := by
  refine ⟨new_keys, ⟨(new_keys (T := T)).rep.congr (fun i hi => rfl), ⟨rfl, fun i hi => ?_⟩, fun v hv h0 => absurd hv (by omega), fun v hv => ⟨List.nodup_nil, fun x hx => by cases hx⟩⟩⟩
  have : i = 0 := by omega
  subst this; rfl

theorem first_insertD (ord : List Nat → List Nat) (k : List α) (v : T) : insertD ord (newD : Dyn α T) k v = insertD ord ⟨⟨[], [Nd.new]⟩, [[]]⟩ k v := rfl

/-- The condition for all insertions of a list, given the pairs kept so far. -/
def AllFresh : List (List α × T) → List (List α × T) → Prop
  | _, [] => True
  | C, p :: l => Fresh C p.1 ∧ AllFresh (keep C p.1 p.2) l

theorem inserts_ok {ord : List Nat → List Nat} (hord : ∀ l, (ord l).Perm l) : ∀ (l : List (List α × T)) (b : Prop) (m : Dyn α T) {N : Nat} {g : Nat → Nd α} {lab : Nat → List α} {I : Nat → List Nat},
    Good b m N g lab I → ∃ m' N' g' lab' I', inserts ord m l = some m' ∧ Good (b ∧ AllFresh m.ac.cont l) m' N' g' lab' I' ∧ m'.ac.cont = l.foldl (fun C p => keep C p.1 p.2) m.ac.cont := by
  intro l
  induction l with
  | nil => intro b m N g lab I G; exact ⟨m, N, g, lab, I, rfl, good_congr And.left G, rfl⟩
  | cons p l ih =>
    intro b m N g lab I G
    obtain ⟨m1, N1, g1, lab1, I1, e1, G1, c1⟩ := insertD_ok G hord p.1 p.2
    obtain ⟨m2, N2, g2, lab2, I2, e2, G2, c2⟩ := ih _ m1 G1
    refine ⟨m2, N2, g2, lab2, I2, by unfold inserts; rw [e1, Option.bind_some, e2], good_congr ?_ G2, by rw [c2, c1]; rfl⟩
    rintro ⟨h1, h2, h3⟩
    exact ⟨⟨h1, h2⟩, by rw [c1]; exact h3⟩

end Verif.DynAc
