import Verif.SplayList.Kth
/-!
The operations of the list on its tree.
-/
namespace Verif.SplayList
open Verif Verif.LazySegTree Verif.Splay BT

variable {M A : Type} [Monoid M] {S : Acts M A} {n : Nat} {h : Heap M A} {g : Nat → Node M A}

theorem alloc_rep (hr : Rep h n g) (x : Node M A) : Rep (h ++ [x]) (n+1) (upd g n x) := by
  have hl := hr.len
  refine ⟨by simp [hl], fun i hi => ?_⟩
  by_cases e : i = n
  · subst e
    rw [upd_same, List.getElem?_append_right (by omega)]
    simp [hl]
  · rw [upd_ne _ _ e, List.getElem?_append_left (by omega)]
    exact hr.val i (by omega)

theorem alloc_H {T : BT M A} (I : H n h g none T) (x : Node M A) : H (n+1) (h ++ [x]) (upd g n x) none T ∧ n ∉ nodes T := by
  have hn : n ∉ nodes T := fun k => lt_irrefl _ (I.lt n k)
  exact ⟨⟨alloc_rep I.rep x, Rp_congr I.rp fun j hj => upd_ne _ _ (ne_of_mem_of_not_mem hj hn), I.nd, fun i hi => Nat.lt_succ_of_lt (I.lt i hi), fun q hq => by cases hq⟩, hn⟩

theorem root_lt {T : BT M A} {par : Option Nat} (I : H n h g par T) : ∀ i, BT.root T = some i → i < n := fun i hi => I.lt i (root_mem hi)

theorem updO_rp {T : BT M A} {p p' : Option Nat} {g : Nat → Node M A} (nd : (nodes T).Nodup) (h : Rp g p T) : Rp (updO g (BT.root T) (fun y => { y with p := p' })) p' T :=
  Rp_par nd h fun j _ => by unfold updO; rfl

/-- A new root above the whole tree. -/
theorem consRoot_ok (L : Laws S) {T : BT M A} (I : H n h g none T) (hv : Valid S false T) (b : Bool) (x : M) {Φ : Node M A → Node M A} (hΦ : Φ (fresh S x) = mkN b (BT.root T) none none (fresh S x).d) :
    ∃ h' g' T', ((modN (h ++ [fresh S x]) n Φ).bind (fun h => (modO h (BT.root T) (fun y => { y with p := some n })).bind (fun h => (aggregate false n h).map (fun h => (h, some n))))) = some (h', some n) ∧
      H (n+1) h' g' none T' ∧ Valid S false T' ∧ BT.root T' = some n ∧ seq S T' = (if b then seq S T ++ [(n, x)] else (n, x) :: seq S T) ∧ phi T' = phi T + Nat.log 2 (sz T + 1) := by
  obtain ⟨I1, hn⟩ := alloc_H I (fresh S x)
  obtain ⟨h2, e2, r2⟩ := modN_ok I1.rep (Nat.lt_succ_self n) Φ
  rw [upd_same, hΦ] at r2
  obtain ⟨h3, e3, r3⟩ := modO_ok r2 (root_lt I1) (fun y => { y with p := some n })
  have hp2 : Rp (upd (upd g n (fresh S x)) n (mkN b (BT.root T) none none (fresh S x).d)) none T := Rp_congr I1.rp fun j hj => upd_ne _ _ (ne_of_mem_of_not_mem hj hn)
  have hnm := nodes_mk b T n (fresh S x).d nil
  have hc : Clean S (fresh S x).d := ⟨rfl, rfl⟩
  have I3 : H (n+1) h3 (updO (upd (upd g n (fresh S x)) n (mkN b (BT.root T) none none (fresh S x).d)) (BT.root T) (fun y => { y with p := some n })) none (mk b T n (fresh S x).d nil) := by
    refine ⟨r3, ?_, ?_, ?_, fun q hq => by cases hq⟩
    · rw [Rp_mk]
      refine ⟨?_, updO_rp I.nd hp2, trivial⟩
      rw [updO_ne (fun e => hn (root_mem e)), upd_same]; rfl
    · refine hnm.nodup_iff.2 ?_
      simp only [nodes, List.append_nil]
      exact List.nodup_cons.2 ⟨hn, I.nd⟩
    · intro i hi
      have := hnm.mem_iff.1 hi
      simp only [nodes, List.append_nil, List.mem_cons] at this
      rcases this with rfl | k
      · omega
      · exact Nat.lt_succ_of_lt (I.lt i k)
  obtain ⟨h4, g4, e4, s4⟩ := aggregate_mk (lct := false) (c := []) I3 rfl
  refine ⟨h4, g4, _, ?_, s4.H, valid_mk_agg L hc b hv trivial, ?_, ?_, ?_⟩
  · rw [e2, Option.bind_some, e3, Option.bind_some, e4]; rfl
  · simp only [plug]; cases b <;> rfl
  · simp only [plug]
    rw [seq_agg, seq_mk_clean L hc]
    cases b <;> simp [seq, fresh]
  · simp only [plug]
    rw [phi_agg, phi_mk, sz_nil]; rfl

theorem insert_mid (L : Laws S) {T : BT M A} (I : H n h g none T) (hv : Valid S false T) {i : Nat} (hi : i < (seq S T).length) (x : M) :
    ∃ K h' g' T' a p q, (∀ fuel, K ≤ fuel → ((kth S fuel i (h ++ [fresh S x], BT.root T)).bind (fun a => (a.1[a.2]?).bind (fun z =>
          (modN a.1 n (fun y => { y with l := z.l, r := some a.2 })).bind (fun h => (modO h z.l (fun y => { y with p := some n })).bind (fun h =>
            (modN h a.2 (fun y => { y with p := some n, l := none })).bind (fun h =>
              (aggregate false a.2 h).bind (fun h => (aggregate false n h).map (fun h => (h, some n))))))))) = some (h', some n)) ∧
      H (n+1) h' g' none T' ∧ Valid S false T' ∧ BT.root T' = some n ∧ seq S T = a ++ p :: q ∧ a.length = i ∧ seq S T' = a ++ (n, x) :: p :: q ∧
      K ≤ n + 1 ∧ K + 2 * phi T' ≤ 2 * phi T + 6 * rk T + 2 + 2 * Nat.log 2 (sz T + 1) := by
  obtain ⟨I1, hn⟩ := alloc_H I (fresh S x)
  obtain ⟨K, h2, g2, l, p, d, r, e2, s2, v2, c2, q2, k2, kn, kp⟩ := kth_ok L I1 hv hi
  have I2 := s2.H
  have hn2 : n ∉ nodes (node l p d r) := fun k => hn (s2.perm.mem_iff.1 k)
  have hgn : g2 n = fresh S x := by rw [s2.fr n hn, upd_same]
  obtain ⟨ndl, ndr, hpl, hpr, hlr⟩ := nodup_parts I2.nd
  have hpn : p ≠ n := fun e => hn2 (by simp [nodes, e])
  have hnl : n ∉ nodes l := fun k => hn2 (by simp [nodes, k])
  have hnr : n ∉ nodes r := fun k => hn2 (by simp [nodes, k])
  obtain ⟨r1, r2, r3⟩ := I2.rp
  have hp : p < n + 1 := I2.lt p (by simp [nodes])
  obtain ⟨h3, e3, w3⟩ := modN_ok I2.rep (Nat.lt_succ_self n) (fun y => { y with l := BT.root l, r := some p })
  obtain ⟨h4, e4, w4⟩ := modO_ok w3 (c := BT.root l) (fun i hi => I2.lt i (by simp [nodes, root_mem hi])) (fun y => { y with p := some n })
  obtain ⟨h5, e5, w5⟩ := modN_ok w4 hp (fun y => { y with p := some n, l := none })
  have I5 : H (n+1) h5 (upd (updO (upd g2 n { g2 n with l := BT.root l, r := some p }) (BT.root l) (fun y => { y with p := some n })) p { (updO (upd g2 n { g2 n with l := BT.root l, r := some p }) (BT.root l) (fun y => { y with p := some n })) p with p := some n, l := none }) none (node l n (fresh S x).d (node nil p d r)) := by
    have hrl : BT.root l ≠ some p := fun e => hpl (root_mem e)
    have hrn : BT.root l ≠ some n := fun e => hnl (root_mem e)
    refine ⟨w5, ⟨?_, ?_, ?_, trivial, ?_⟩, ?_, ?_, fun q hq => by cases hq⟩
    · rw [upd_ne _ _ hpn.symm, updO_ne hrn, upd_same, hgn]; rfl
    · refine Rp_congr (updO_rp ndl (Rp_congr r2 (g' := upd g2 n { g2 n with l := BT.root l, r := some p }) fun j hj => upd_ne _ _ (ne_of_mem_of_not_mem hj hnl))) fun j hj => upd_ne _ _ (ne_of_mem_of_not_mem hj hpl)
    · rw [upd_same, updO_ne hrl, upd_ne _ _ hpn, r1]; rfl
    · refine Rp_congr r3 fun j hj => ?_
      rw [upd_ne _ _ (ne_of_mem_of_not_mem hj hpr), updO_ne (fun e => hlr j (root_mem e) hj), upd_ne _ _ (ne_of_mem_of_not_mem hj hnr)]
    · simp only [nodes, List.nil_append]
      refine List.nodup_cons.2 ⟨?_, ?_⟩
      · simp only [List.mem_append, List.mem_cons, not_or]
        exact ⟨hnl, hpn.symm, hnr⟩
      · refine List.perm_middle.nodup_iff.2 ?_
        exact I2.nd
    · intro j hj
      simp only [nodes, List.nil_append, List.mem_cons, List.mem_append] at hj
      rcases hj with rfl | hj | rfl | hj
      · omega
      · exact I2.lt j (by simp [nodes, hj])
      · exact hp
      · exact I2.lt j (by simp [nodes, hj])
  obtain ⟨h6, g6, e6, s6⟩ := aggregate_st (lct := false) (c := [⟨false, n, (fresh S x).d, l⟩]) (l := nil) (u := p) (d := d) (r := r) I5 rfl
  obtain ⟨h7, g7, e7, s7⟩ := aggregate_st (lct := false) (c := []) (l := l) (u := n) (d := (fresh S x).d) (r := agg false (node nil p d r)) s6.H rfl
  have hc : Clean S (fresh S x).d := ⟨rfl, rfl⟩
  refine ⟨K, h7, g7, _, seq S l, (p, d.m), seq S r, fun fuel hf => ?_, s7.H, ?_, rfl, ?_, k2, ?_, kn, ?_⟩
  · rw [e2 fuel hf, Option.bind_some]
    dsimp only
    rw [I2.rep.val p hp, Option.bind_some, r1]
    dsimp only
    rw [e3, Option.bind_some, e4, Option.bind_some, e5, Option.bind_some, e6, Option.bind_some, e7]
    rfl
  · exact valid_agg L hc v2.1 (valid_agg L c2 trivial v2.2.1)
  · rw [← q2, seq_clean L c2]
  · simp only [plug]
    rw [seq_agg, seq_clean L hc, seq_agg, seq_clean L c2]
    rfl
  · have hz : sz (node l p d r) = sz T := s2.perm.length_eq
    rw [sz_node] at hz
    simp only [plug, phi_agg, sz_agg, phi_node, sz_node, sz_nil, phi_nil] at kp ⊢
    have e1 : sz l + (0 + sz r + 1) + 1 = sz T + 1 := by omega
    have h1 := log_le (a := 0 + sz r + 1) (b := sz l + sz r + 1) (by omega)
    rw [e1]
    omega

theorem nil_of_len {t : BT M A} (e : (seq S t).length = 0) : t = nil := by
  cases t with
  | nil => rfl
  | node l i d r => rw [node_len] at e; omega

/-- `c->p.reset()` for a subtree. -/
theorem detach {t : BT M A} {hp : Option Nat} (hr : Rep h n g) (ht : Rp g hp t) (nd : (nodes t).Nodup) (hlt : ∀ j ∈ nodes t, j < n) :
    ∃ h', modO h (BT.root t) (fun y => { y with p := none }) = some h' ∧ H n h' (updO g (BT.root t) (fun y => { y with p := none })) none t := by
  obtain ⟨h', e, w⟩ := modO_ok hr (c := BT.root t) (fun i hi => hlt i (root_mem hi)) (fun y => { y with p := none })
  exact ⟨h', e, w, updO_rp nd ht, nd, hlt, fun q hq => by cases hq⟩

theorem erase_ok (L : Laws S) {T : BT M A} (I : H n h g none T) (hv : Valid S false T) {i : Nat} (hi : i < (seq S T).length) :
    ∃ K h' g' T' a p q, (∀ fuel, K ≤ fuel → erase S fuel i (h, BT.root T) = some (h', BT.root T')) ∧ H n h' g' none T' ∧ Valid S false T' ∧ seq S T = a ++ p :: q ∧ a.length = i ∧ seq S T' = a ++ q ∧
      K ≤ n ∧ K + 2 * phi T' ≤ 2 * phi T + 12 * rk T + 4 := by
  obtain ⟨K, h1, g1, l, p, d, r, e1, s1, v1, c1, q1, k1, kn, kp⟩ := kth_ok L I hv hi
  have hz : sz (node l p d r) = sz T := s1.perm.length_eq
  rw [sz_node] at hz
  have hrk : rk T = Nat.log 2 (sz l + sz r + 1) := by rw [rk, hz]
  rw [phi_node, hrk] at kp
  have I1 := s1.H
  obtain ⟨ndl, ndr, hpl, hpr, hlr⟩ := nodup_parts I1.nd
  obtain ⟨r1, r2, r3⟩ := I1.rp
  have hp : p < n := I1.lt p (by simp [nodes])
  have hltl : ∀ j ∈ nodes l, j < n := fun j hj => I1.lt j (by simp [nodes, hj])
  have hltr : ∀ j ∈ nodes r, j < n := fun j hj => I1.lt j (by simp [nodes, hj])
  have hs := seq_clean L c1 l p r
  have hgo : ∀ fuel, K ≤ fuel → erase S fuel i (h, BT.root T) = (if i = 0 then (modO h1 (BT.root r) (fun y => { y with p := none })).map (fun h => (h, BT.root r))
    else if i = d.sum - 1 then (modO h1 (BT.root l) (fun y => { y with p := none })).map (fun h => (h, BT.root l))
    else (BT.root r).bind (fun r => (BT.root l).bind (fun l =>
      (modN h1 r (fun y => { y with p := none })).bind (fun h => (kth S fuel 0 (h, some r)).bind (fun b =>
        (modN b.1 b.2 (fun y => { y with l := some l })).bind (fun h => (modN h l (fun y => { y with p := some b.2 })).bind (fun h =>
          (aggregate false b.2 h).map (fun h => (h, some b.2))))))))) := by
    intro fuel hf
    unfold erase
    rw [e1 fuel hf, Option.bind_some]
    dsimp only
    rw [I1.rep.val p hp, Option.bind_some, r1]
  have hsum : d.sum = (seq S l).length + (seq S r).length + 1 := by rw [v1.2.2.sum rfl, node_len]
  by_cases c0 : i = 0
  · have hl : l = nil := nil_of_len (S := S) (by omega)
    subst hl
    obtain ⟨h2, e2, I2⟩ := detach I1.rep r3 ndr hltr
    exact ⟨K, h2, _, r, [], (p, d.m), seq S r, fun fuel hf => by rw [hgo fuel hf, if_pos c0, e2]; rfl, I2, v1.2.1, by rw [← q1, hs]; rfl, c0.symm, rfl, kn, by omega⟩
  by_cases c1' : i = d.sum - 1
  · have hr' : r = nil := nil_of_len (S := S) (by omega)
    subst hr'
    obtain ⟨h2, e2, I2⟩ := detach I1.rep r2 ndl hltl
    exact ⟨K, h2, _, l, seq S l, (p, d.m), [], fun fuel hf => by rw [hgo fuel hf, if_neg c0, if_pos c1', e2]; rfl, I2, v1.1, by rw [← q1, hs]; rfl, k1, by simp, kn, by omega⟩
  obtain ⟨h2, e2, I2⟩ := detach I1.rep r3 ndr hltr
  have hrlen : 0 < (seq S r).length := by
    have : i < d.sum := by rw [hsum]; omega
    omega
  obtain ⟨K', h3, g3, a, q, dq, b, e3, s3, v3, c3, q3, k3, kn', kp'⟩ := kth_ok L I2 v1.2.1 hrlen
  have ha : a = nil := nil_of_len (S := S) k3
  subst ha
  have I3 := s3.H
  obtain ⟨_, ndb, _, hqb, _⟩ := nodup_parts I3.nd
  have hq : q < n := I3.lt q (by simp [nodes])
  have hmem : ∀ j, j ∈ nodes (node nil q dq b) ↔ j ∈ nodes r := fun j => s3.perm.mem_iff
  have hql : q ∉ nodes l := fun k => hlr q k ((hmem q).1 (by simp [nodes]))
  have hbl : ∀ j ∈ nodes b, j ∉ nodes l := fun j hj k => hlr j k ((hmem j).1 (by simp [nodes, hj]))
  obtain ⟨rr, er⟩ : ∃ rr, BT.root r = some rr := by
    cases r with
    | nil => simp [seq] at hrlen
    | node _ i _ _ => exact ⟨i, rfl⟩
  obtain ⟨ll, el⟩ : ∃ ll, BT.root l = some ll := by
    cases l with
    | nil => simp [seq] at k1; omega
    | node _ i _ _ => exact ⟨i, rfl⟩
  have hll := hltl ll (root_mem el)
  obtain ⟨w1, _, w2⟩ := I3.rp
  have hgl : ∀ j ∈ nodes l, g3 j = g1 j := fun j hj => by
    rw [s3.fr j (hlr j hj), updO_ne (fun e => hlr j hj (root_mem e))]
  have r2' : Rp g3 (some p) l := Rp_congr r2 hgl
  obtain ⟨h4, e4, w4⟩ := modN_ok I3.rep hq (fun y => { y with l := some ll })
  obtain ⟨h5, e5, w5⟩ := modN_ok w4 hll (fun y => { y with p := some q })
  have I5 : H n h5 (upd (upd g3 q { g3 q with l := some ll }) ll { (upd g3 q { g3 q with l := some ll }) ll with p := some q }) none (node l q dq b) := by
    have hqll : q ≠ ll := fun e => hql (e ▸ root_mem el)
    refine ⟨w5, ⟨?_, ?_, ?_⟩, ?_, ?_, fun q hq => by cases hq⟩
    · rw [upd_ne _ _ hqll, upd_same, w1, ← el]
    · refine Rp_par ndl r2' fun j hj => ?_
      by_cases hj' : j = ll
      · subst hj'
        rw [upd_same, if_pos el, upd_ne _ _ hqll.symm]
      · rw [upd_ne _ _ hj', if_neg (by rw [el]; simpa using Ne.symm hj'), upd_ne _ _ (ne_of_mem_of_not_mem hj hql)]
    · refine Rp_congr w2 fun j hj => ?_
      have hjl : j ≠ ll := fun e => hbl j hj (by rw [e]; exact root_mem el)
      rw [upd_ne _ _ hjl, upd_ne _ _ (ne_of_mem_of_not_mem hj hqb)]
    · refine List.nodup_cons.2 ⟨?_, List.nodup_append.2 ⟨ndl, ndb, fun x hx y hy e => hbl y hy (e ▸ hx)⟩⟩
      simp only [List.mem_append, not_or]
      exact ⟨hql, hqb⟩
    · intro j hj
      simp only [nodes, List.mem_cons, List.mem_append] at hj
      rcases hj with rfl | hj | hj
      · exact hq
      · exact hltl j hj
      · exact I3.lt j (by simp [nodes, hj])
  obtain ⟨h6, g6, e6, s6⟩ := aggregate_st (lct := false) (c := []) I5 rfl
  refine ⟨max K K', h6, g6, _, seq S l, (p, d.m), seq S r, fun fuel hf => ?_, s6.H, valid_agg L c3 v1.1 v3.2.1, by rw [← q1, hs], k1, ?_, by omega, ?_⟩
  · rw [hgo fuel (by omega), if_neg c0, if_neg c1']
    rw [er] at e2 e3 ⊢
    rw [el, Option.bind_some, Option.bind_some]
    have e2' : modN h1 rr (fun y => { y with p := none }) = some h2 := e2
    rw [e2', Option.bind_some, e3 fuel (by omega), Option.bind_some]
    dsimp only
    rw [e4, Option.bind_some, e5, Option.bind_some, e6]
    rfl
  · simp only [plug]
    rw [seq_agg, seq_clean L c3, ← q3, seq_clean L c3]
    rfl
  · have hz' : sz (node nil q dq b) = sz r := s3.perm.length_eq
    rw [sz_node, sz_nil] at hz'
    rw [phi_node, sz_nil] at kp'
    simp only [plug, phi_agg, phi_node]
    have h1 := log_le (a := sz l + sz b + 1) (b := sz l + sz r + 1) (by omega)
    have h2 : rk r ≤ Nat.log 2 (sz l + sz r + 1) := log_le (by omega)
    have h3 : phi (nil : BT M A) = 0 := rfl
    omega

/-! ### between -/

theorem between_ok (L : Laws S) {T : BT M A} (I : H n h g none T) (hv : Valid S false T) {l r : Nat} (hT : T ≠ nil) (hlr : l ≤ r) (hr : r ≤ (seq S T).length) :
    ∃ K h' g' c x a b, (∀ fuel, K ≤ fuel → between S fuel l r (h, BT.root T) = some ((h', BT.root (plug c x)), BT.root x)) ∧ H n h' g' none (plug c x) ∧ Valid S false (plug c x) ∧ Valid S false x ∧ ValidC S false c ∧
      (∀ t, seq S (plug c t) = a ++ seq S t ++ b) ∧ seq S T = a ++ seq S x ++ b ∧ a.length = l ∧ (seq S x).length = r - l ∧
      K ≤ n ∧ sz (plug c x) = sz T ∧ K + 2 * phi (plug c x) ≤ 2 * phi T + 12 * rk T + 4 := by
  obtain ⟨l0, q0, d0, r0, rfl⟩ : ∃ l q d r, T = node l q d r := by
    cases T with
    | nil => exact absurd rfl hT
    | node l q d r => exact ⟨l, q, d, r, rfl⟩
  have hq0 : q0 < n := I.lt q0 (by simp [nodes])
  have hbt : ∀ fuel, between S fuel l r (h, BT.root (node l0 q0 d0 r0)) = if l = 0 then
      if r = (seq S (node l0 q0 d0 r0)).length then some ((h, BT.root (node l0 q0 d0 r0)), BT.root (node l0 q0 d0 r0))
      else (kth S fuel r (h, BT.root (node l0 q0 d0 r0))).bind (fun a => (a.1[a.2]?).map (fun z => ((a.1, some a.2), z.l)))
    else if r = (seq S (node l0 q0 d0 r0)).length then (kth S fuel (l-1) (h, BT.root (node l0 q0 d0 r0))).bind (fun a => (a.1[a.2]?).map (fun z => ((a.1, some a.2), z.r)))
    else (kth S fuel r (h, BT.root (node l0 q0 d0 r0))).bind (fun a => (a.1[a.2]?).bind (fun z => z.l.bind (fun c =>
      (modN a.1 c (fun y => { y with p := none })).bind (fun h => (kth S fuel (l-1) (h, some c)).bind (fun b =>
        (modN b.1 a.2 (fun y => { y with l := some b.2 })).bind (fun h => (modN h b.2 (fun y => { y with p := some a.2 })).bind (fun h =>
          (aggregate false a.2 h).bind (fun h => (h[b.2]?).map (fun w => ((h, some a.2), w.r)))))))))) := by
    intro fuel
    unfold between
    rw [BT.root, Option.bind_some]
    dsimp only
    rw [I.rep.val q0 hq0, Option.bind_some, I.rp.1]
    dsimp only
    rw [hv.2.2.sum rfl, if_neg (by omega)]
  have vc0 : ValidC S false ([] : List (Fr M A)) := fun x hx => by cases hx
  by_cases cl : l = 0
  · by_cases cr : r = (seq S (node l0 q0 d0 r0)).length
    · exact ⟨0, h, g, [], node l0 q0 d0 r0, [], [], fun fuel _ => by rw [hbt, if_pos cl, if_pos cr]; rfl, I, hv, hv, vc0, fun t => by simp [plug], by simp, cl.symm, by omega, by omega, rfl, by rw [plug]; omega⟩
    · obtain ⟨K, h1, g1, x, p, d, y, e1, s1, v1, c1, q1, k1, kn, kp⟩ := kth_ok L I hv (k := r) (by omega)
      refine ⟨K, h1, g1, [⟨true, p, d, y⟩], x, [], (p, d.m) :: seq S y, fun fuel hf => ?_, s1.H, v1, v1.1, ?_, fun t => ?_, ?_, cl.symm, by omega, kn, s1.perm.length_eq, ?_⟩
      · rw [hbt, if_pos cl, if_neg cr, e1 fuel hf, Option.bind_some]
        dsimp only
        rw [s1.H.rep.val p (s1.H.lt p (by simp [nodes])), Option.map_some, s1.H.rp.1]
        rfl
      · intro z hz
        rw [List.mem_singleton] at hz
        subst hz
        exact v1.2.1
      · exact seq_clean L c1 t p y
      · rw [← q1, seq_clean L c1]; rfl
      · show K + 2 * phi (node x p d y) ≤ _
        omega
  · by_cases cr : r = (seq S (node l0 q0 d0 r0)).length
    · obtain ⟨K, h1, g1, x, p, d, y, e1, s1, v1, c1, q1, k1, kn, kp⟩ := kth_ok L I hv (k := l - 1) (by omega)
      have hlen : (seq S x).length + (seq S y).length + 1 = r := by rw [cr, ← q1, node_len]
      refine ⟨K, h1, g1, [⟨false, p, d, x⟩], y, seq S x ++ [(p, d.m)], [], fun fuel hf => ?_, s1.H, v1, v1.2.1, ?_, fun t => ?_, ?_, by simp; omega, by omega, kn, s1.perm.length_eq, ?_⟩
      · rw [hbt, if_neg cl, if_pos cr, e1 fuel hf, Option.bind_some]
        dsimp only
        rw [s1.H.rep.val p (s1.H.lt p (by simp [nodes])), Option.map_some, s1.H.rp.1]
        rfl
      · intro z hz
        rw [List.mem_singleton] at hz
        subst hz
        exact v1.1
      · show seq S (node x p d t) = _
        rw [seq_clean L c1]; simp
      · rw [← q1, seq_clean L c1]; simp
      · show K + 2 * phi (node x p d y) ≤ _
        omega
    · obtain ⟨K, h1, g1, x, p, d, y, e1, s1, v1, c1, q1, k1, kn, kp⟩ := kth_ok L I hv (k := r) (by omega)
      have I1 := s1.H
      obtain ⟨ndx, ndy, hpx, hpy, hxy⟩ := nodup_parts I1.nd
      obtain ⟨r1, r2, r3⟩ := I1.rp
      have hp : p < n := I1.lt p (by simp [nodes])
      have hltx : ∀ j ∈ nodes x, j < n := fun j hj => I1.lt j (by simp [nodes, hj])
      obtain ⟨h2, e2, I2⟩ := detach I1.rep r2 ndx hltx
      obtain ⟨K', h3, g3, a, w, dw, b, e3, s3, v3, c3, q3, k3, kn', kp'⟩ := kth_ok L I2 v1.1 (k := l - 1) (by omega)
      have I3 := s3.H
      obtain ⟨nda, ndb, hwa, hwb, hab⟩ := nodup_parts I3.nd
      obtain ⟨w1, w2, w3⟩ := I3.rp
      have hw : w < n := I3.lt w (by simp [nodes])
      have hmem : ∀ j, j ∈ nodes (node a w dw b) ↔ j ∈ nodes x := fun j => s3.perm.mem_iff
      have hwx : w ∈ nodes x := (hmem w).1 (by simp [nodes])
      have hpw : p ≠ w := fun e => hpx (e ▸ hwx)
      obtain ⟨xx, ex⟩ : ∃ xx, BT.root x = some xx := by
        cases x with
        | nil => simp [seq] at k1; omega
        | node _ i _ _ => exact ⟨i, rfl⟩
      have hgo : ∀ j, j ∉ nodes x → g3 j = g1 j := fun j hj => by rw [s3.fr j hj, updO_ne (fun e => hj (root_mem e))]
      obtain ⟨h4, e4, w4⟩ := modN_ok I3.rep hp (fun z => { z with l := some w })
      obtain ⟨h5, e5, w5⟩ := modN_ok w4 hw (fun z => { z with p := some p })
      have I5 : H n h5 (upd (upd g3 p { g3 p with l := some w }) w { (upd g3 p { g3 p with l := some w }) w with p := some p }) none (node (node a w dw b) p d y) := by
        refine ⟨w5, ⟨?_, ⟨?_, ?_, ?_⟩, ?_⟩, ?_, ?_, fun q hq => by cases hq⟩
        · rw [upd_ne _ _ hpw, upd_same, hgo p hpx, r1]; rfl
        · rw [upd_same, upd_ne _ _ hpw.symm, w1]
        · refine Rp_congr w2 fun j hj => ?_
          have hjx : j ∈ nodes x := (hmem j).1 (by simp [nodes, hj])
          rw [upd_ne _ _ (ne_of_mem_of_not_mem hj hwa), upd_ne _ _ (ne_of_mem_of_not_mem hjx hpx)]
        · refine Rp_congr w3 fun j hj => ?_
          have hjx : j ∈ nodes x := (hmem j).1 (by simp [nodes, hj])
          rw [upd_ne _ _ (ne_of_mem_of_not_mem hj hwb), upd_ne _ _ (ne_of_mem_of_not_mem hjx hpx)]
        · refine Rp_congr r3 fun j hj => ?_
          have hjx : j ∉ nodes x := fun k => hxy j k hj
          have hjw : j ≠ w := fun e => hjx (by rw [e]; exact hwx)
          rw [upd_ne _ _ hjw, upd_ne _ _ (ne_of_mem_of_not_mem hj hpy), hgo j hjx]
        · have : (nodes (node (node a w dw b) p d y)).Perm (nodes (node x p d y)) := List.Perm.cons _ (s3.perm.append_right _)
          exact this.nodup_iff.2 I1.nd
        · have : (nodes (node (node a w dw b) p d y)).Perm (nodes (node x p d y)) := List.Perm.cons _ (s3.perm.append_right _)
          exact fun j hj => I1.lt j (this.mem_iff.1 hj)
      obtain ⟨h6, g6, e6, s6⟩ := aggregate_st (lct := false) (c := []) I5 rfl
      have s6H : H n h6 g6 none (node (node a w dw b) p (aggD false (node a w dw b) d y) y) := s6.H
      have c6 : Clean S (aggD false (node a w dw b) d y) := clean_agg c1
      have m6 : (aggD false (node a w dw b) d y).m = d.m := (aggD_same (node a w dw b) d y).2.2
      have v6 : Valid S false (node (node a w dw b) p (aggD false (node a w dw b) d y) y) := valid_agg L c1 v3 v1.2.1
      have hlen : (seq S a).length + (seq S b).length + 1 = r := by rw [← k1, ← q3, node_len]
      have hz1 : sz (node x p d y) = sz (node l0 q0 d0 r0) := s1.perm.length_eq
      have hz3 : sz (node a w dw b) = sz x := s3.perm.length_eq
      refine ⟨max K K', h6, g6, [⟨false, w, dw, a⟩, ⟨true, p, aggD false (node a w dw b) d y, y⟩], b, seq S a ++ [(w, dw.m)], (p, d.m) :: seq S y, fun fuel hf => ?_, s6H, v6, v3.2.1, ?_, fun t => ?_, ?_, by simp; omega, by omega, by omega, ?_, ?_⟩
      · rw [hbt, if_neg cl, if_neg cr, e1 fuel (by omega), Option.bind_some]
        dsimp only
        rw [I1.rep.val p hp, Option.bind_some, r1]
        dsimp only
        rw [ex] at e2 e3 ⊢
        have e2' : modN h1 xx (fun y => { y with p := none }) = some h2 := e2
        rw [Option.bind_some, e2', Option.bind_some, e3 fuel (by omega), Option.bind_some]
        dsimp only
        rw [e4, Option.bind_some, e5, Option.bind_some, e6, Option.bind_some, s6H.rep.val w hw, Option.map_some, s6H.rp.2.1.1]
        rfl
      · intro z hz
        simp only [List.mem_cons, List.not_mem_nil, or_false] at hz
        rcases hz with rfl | rfl
        · exact v3.1
        · exact v1.2.1
      · show seq S (node (node a w dw t) p (aggD false (node a w dw b) d y) y) = _
        rw [seq_clean L c6, seq_clean L c3, m6]; simp
      · rw [← q1, seq_clean L c1, ← q3, seq_clean L c3]; simp
      · show sz (node (node a w dw b) p _ y) = _
        rw [← hz1, sz_node _ p, hz3, sz_node]
      · show max K K' + 2 * phi (node (node a w dw b) p _ y) ≤ _
        have hr0 : rk (node l0 q0 d0 r0) = Nat.log 2 (sz x + sz y + 1) := by rw [rk, ← hz1, sz_node]
        have h2 : rk x ≤ Nat.log 2 (sz x + sz y + 1) := log_le (by omega)
        rw [phi_node _ p, hz3]
        rw [phi_node] at kp
        omega

/-! ### changing a range -/

theorem seq_flip (l r : BT M A) (i : Nat) (d : Dat M A) : seq S (node l i (flipD d) r) = (seq S (node l i d r)).reverse := by
  rw [seq, seq]
  unfold through flipD
  cases hd : d.rev <;> simp

/-- New data at the root of a subtree, then splay. -/
theorem range_ok (L : Laws S) {c : List (Fr M A)} {l r : BT M A} {u : Nat} {d : Dat M A} (I : H n h g none (plug c (node l u d r))) (hl : Valid S false l) (hr : Valid S false r) (hc : ValidC S false c) (Φ : Dat M A → Dat M A) :
    ∃ K h' g' T', (∀ fuel, K ≤ fuel → ((modN h u (fun x => { x with d := Φ x.d })).bind (fun h => (splay S false fuel u h).map (fun h => (h, some u)))) = some (h', BT.root T')) ∧ H n h' g' none T' ∧ Valid S false T' ∧
      seq S T' = seq S (plug c (node l u (Φ d) r)) ∧ K ≤ n ∧ K + 2 * phi T' ≤ 2 * phi (plug c (node l u d r)) + 6 * rk (plug c (node l u d r)) + 1 := by
  have hnp := nodes_plug c (node l u d r)
  have hu : u < n := I.lt u (hnp.mem_iff.2 (by simp [nodes]))
  obtain ⟨h1, e1, w1⟩ := modN_ok I.rep hu (fun x => { x with d := Φ x.d })
  obtain ⟨_, k1, k2, k3⟩ := (Rp_plug g none c _).1 I.rp
  have nd := (List.nodup_append.1 (hnp.nodup_iff.1 I.nd)).1
  obtain ⟨_, _, hul, hur, _⟩ := nodup_parts nd
  obtain ⟨I1, _⟩ := I.replace (t' := node l u (Φ d) r) w1 (List.Perm.refl _) rfl
    ⟨by rw [upd_same, k1], Rp_congr k2 fun j hj => upd_ne _ _ (ne_of_mem_of_not_mem hj hul), Rp_congr k3 fun j hj => upd_ne _ _ (ne_of_mem_of_not_mem hj hur)⟩
    (fun j hj => upd_ne _ _ (fun e => hj (by simp [e, nodes])))
  obtain ⟨h2, g2, t, e2, s2, ⟨l', d', r', rfl, v', c', q'⟩, p'⟩ := splay_pot L I1 hl hr hc
  have hz : sz (node l u (Φ d) r) = sz (node l u d r) := by rw [sz_node, sz_node]
  have h1 := phi_plug_congr c hz
  rw [phi_node, phi_node] at h1
  have h2 : rk (plug c (node l u (Φ d) r)) = rk (plug c (node l u d r)) := congrArg (Nat.log 2) (sz_plug_congr c hz)
  exact ⟨c.length, _, g2, _, fun fuel hf => by rw [e1, Option.bind_some, e2 fuel hf]; rfl, s2.H, v', q', ctx_H I1, by omega⟩

/-- `set` and `update(i, f)` -/
theorem setm_ok (L : Laws S) {T : BT M A} (I : H n h g none T) (hv : Valid S false T) {i : Nat} (hi : i < (seq S T).length) (φ : M → M) :
    ∃ K h' g' T' a p q, (∀ fuel, K ≤ fuel → ((kth S fuel i (h, BT.root T)).bind (fun a => (modN a.1 a.2 (fun y => { y with d := { y.d with m := φ y.d.m } })).bind (fun h => (aggregate false a.2 h).map (fun h => (h, some a.2))))) = some (h', BT.root T')) ∧
      H n h' g' none T' ∧ Valid S false T' ∧ seq S T = a ++ p :: q ∧ a.length = i ∧ seq S T' = a ++ (p.1, φ p.2) :: q ∧ K ≤ n ∧ K + 2 * phi T' ≤ 2 * phi T + 6 * rk T + 2 := by
  obtain ⟨K, h1, g1, l, p, d, r, e1, s1, v1, c1, q1, k1, kn, kp⟩ := kth_ok L I hv hi
  have I1 := s1.H
  obtain ⟨_, _, hpl, hpr, _⟩ := nodup_parts I1.nd
  obtain ⟨r1, r2, r3⟩ := I1.rp
  have hp : p < n := I1.lt p (by simp [nodes])
  obtain ⟨h2, e2, w2⟩ := modN_ok I1.rep hp (fun y => { y with d := { y.d with m := φ y.d.m } })
  have I2 : H n h2 (upd g1 p { g1 p with d := { (g1 p).d with m := φ (g1 p).d.m } }) none (node l p { d with m := φ d.m } r) := by
    refine ⟨w2, ⟨by rw [upd_same, r1], Rp_congr r2 fun j hj => upd_ne _ _ (ne_of_mem_of_not_mem hj hpl), Rp_congr r3 fun j hj => upd_ne _ _ (ne_of_mem_of_not_mem hj hpr)⟩, I1.nd, I1.lt, fun q hq => by cases hq⟩
  have hc : Clean S { d with m := φ d.m } := c1
  obtain ⟨h3, g3, e3, s3⟩ := aggregate_st (lct := false) (c := []) I2 rfl
  refine ⟨K, h3, g3, _, seq S l, (p, d.m), seq S r, fun fuel hf => ?_, s3.H, valid_agg L hc v1.1 v1.2.1, by rw [← q1, seq_clean L c1], k1, ?_, kn, ?_⟩
  · rw [e1 fuel hf, Option.bind_some]
    dsimp only
    rw [e2, Option.bind_some, e3]
    rfl
  · simp only [plug]
    rw [seq_agg, seq_clean L hc]
  · simp only [plug, phi_agg, phi_node] at kp ⊢
    exact kp

/-! ### construction -/

/-- The potential of a perfectly balanced tree with `n` nodes is below `2n`. -/
theorem bal_phi {n p q : Nat} (hn : 0 < n) (hp : n / 2 = 0 ∧ p = 0 ∨ p + Nat.log 2 (n / 2) + 2 ≤ 2 * (n / 2)) (hq : n - (n / 2 + 1) = 0 ∧ q = 0 ∨ q + Nat.log 2 (n - (n / 2 + 1)) + 2 ≤ 2 * (n - (n / 2 + 1))) :
    p + q + Nat.log 2 n + Nat.log 2 n + 2 ≤ 2 * n := by
  by_cases h2 : n < 4
  · have h1 : Nat.log 2 1 = 0 := by decide
    have h3 : Nat.log 2 2 = 1 := by decide
    have h4 : Nat.log 2 3 = 1 := by decide
    obtain rfl | rfl | rfl : n = 1 ∨ n = 2 ∨ n = 3 := by omega
    · simp at hp hq; rw [h1]; omega
    · simp at hp hq; rw [h3]; omega
    · simp at hp hq; rw [h4]; omega
  · have e1 : Nat.log 2 n = Nat.log 2 (n / 2) + 1 := Nat.log_of_one_lt_of_le (by decide) (by omega)
    have e2 : Nat.log 2 (n / 2) = Nat.log 2 (n / 2 / 2) + 1 := Nat.log_of_one_lt_of_le (by decide) (by omega)
    have e3 := log_le (a := n / 2 / 2) (b := n - (n / 2 + 1)) (by omega)
    omega

theorem dfs_ok (L : Laws S) : ∀ (f : Nat) {xs : List M} {n : Nat} {h : Heap M A} {g : Nat → Node M A}, Rep h n g → xs.length < 2 ^ f →
    ∃ h' n' g' T, (∀ fuel, f + 1 ≤ fuel → dfsInit S fuel xs h = some (h', BT.root T)) ∧ n ≤ n' ∧ n' = n + xs.length ∧ H n' h' g' none T ∧ Valid S false T ∧ (seq S T).map Prod.snd = xs ∧ (∀ j ∈ nodes T, n ≤ j) ∧ (∀ j, j < n → g' j = g j) ∧
      (xs.length = 0 ∧ phi T = 0 ∨ phi T + Nat.log 2 xs.length + 2 ≤ 2 * xs.length) := by
  have base : ∀ (f : Nat) {n : Nat} {h : Heap M A} {g : Nat → Node M A}, Rep h n g →
    ∃ h' n' g' T, (∀ fuel, f + 1 ≤ fuel → dfsInit S fuel [] h = some (h', BT.root T)) ∧ n ≤ n' ∧ n' = n + ([] : List M).length ∧ H n' h' g' none T ∧ Valid S false T ∧ (seq S T).map Prod.snd = [] ∧ (∀ j ∈ nodes T, n ≤ j) ∧ (∀ j, j < n → g' j = g j) ∧
      (([] : List M).length = 0 ∧ phi T = 0 ∨ phi T + Nat.log 2 ([] : List M).length + 2 ≤ 2 * ([] : List M).length) := by
    intro f n h g hr
    refine ⟨h, n, g, nil, fun fuel hf => ?_, le_refl _, rfl, ⟨hr, trivial, List.nodup_nil, (fun i hi => by cases hi), (fun q hq => by cases hq)⟩, trivial, rfl, (fun j hj => by cases hj), fun _ _ => rfl, Or.inl ⟨rfl, rfl⟩⟩
    obtain ⟨f', rfl⟩ : ∃ f', fuel = f' + 1 := ⟨fuel - 1, by omega⟩
    rfl
  intro f
  induction f with
  | zero =>
    intro xs n h g hr hl
    obtain rfl : xs = [] := List.length_eq_zero_iff.1 (by rw [pow_zero] at hl; omega)
    exact base 0 hr
  | succ f ih =>
    intro xs n h g hr hl
    have hlen := hr.len
    by_cases h0 : xs = []
    · subst h0
      exact base _ hr
    have hpos : 0 < xs.length := List.length_pos_of_ne_nil h0
    have hmid : xs.length / 2 < xs.length := by omega
    have ex := List.getElem?_eq_getElem hmid
    rw [pow_succ] at hl
    generalize hx : xs[xs.length / 2] = x at ex
    have w1 := alloc_rep hr (fresh S x)
    obtain ⟨h1, n1, g1, T1, e1, b1, m1, I1, v1, q1, f1, o1, p1⟩ := ih (xs := xs.take (xs.length / 2)) w1 (by rw [List.length_take]; omega)
    have hn1 : n < n1 := by omega
    have hgn1 : g1 n = fresh S x := by rw [o1 n (by omega), upd_same]
    have hnT1 : n ∉ nodes T1 := fun k => by have := f1 n k; omega
    obtain ⟨h2, e2, w2⟩ := modN_ok I1.rep hn1 (fun y => { y with l := BT.root T1 })
    obtain ⟨h3, e3, w3⟩ := modO_ok w2 (root_lt I1) (fun y => { y with p := some n })
    have hr1 : BT.root T1 ≠ some n := fun e => hnT1 (root_mem e)
    have hT1 : Rp (updO (upd g1 n { g1 n with l := BT.root T1 }) (BT.root T1) (fun y => { y with p := some n })) (some n) T1 :=
      updO_rp I1.nd (Rp_congr I1.rp fun j hj => upd_ne _ _ (ne_of_mem_of_not_mem hj hnT1))
    have hg3n : updO (upd g1 n { g1 n with l := BT.root T1 }) (BT.root T1) (fun y => { y with p := some n }) n = ⟨BT.root T1, none, none, (fresh S x).d⟩ := by
      rw [updO_ne hr1, upd_same, hgn1]; rfl
    have ho3 : ∀ j, j < n → updO (upd g1 n { g1 n with l := BT.root T1 }) (BT.root T1) (fun y => { y with p := some n }) j = g j := by
      intro j hj
      rw [updO_ne (fun e => by have := f1 j (root_mem e); omega), upd_ne _ _ (by omega), o1 j (by omega), upd_ne _ _ (by omega)]
    generalize updO (upd g1 n { g1 n with l := BT.root T1 }) (BT.root T1) (fun y => { y with p := some n }) = g3 at w3 hT1 hg3n ho3
    obtain ⟨h4, n4, g4, T2, e4, b4, m4, I4, v4, q4, f4, o4, p4⟩ := ih (xs := xs.drop (xs.length / 2 + 1)) w3 (by rw [List.length_drop]; omega)
    have hn4 : n < n4 := by omega
    have hnT2 : n ∉ nodes T2 := fun k => by have := f4 n k; omega
    have hr2 : BT.root T2 ≠ some n := fun e => hnT2 (root_mem e)
    have h12 : ∀ j ∈ nodes T1, j ∉ nodes T2 := fun j hj hj' => by
      have := I1.lt j hj
      have := f4 j hj'
      omega
    obtain ⟨h5, e5, w5⟩ := modN_ok I4.rep hn4 (fun y => { y with r := BT.root T2 })
    obtain ⟨h6, e6, w6⟩ := modO_ok w5 (root_lt I4) (fun y => { y with p := some n })
    have I6 : H n4 h6 (updO (upd g4 n { g4 n with r := BT.root T2 }) (BT.root T2) (fun y => { y with p := some n })) none (node T1 n (fresh S x).d T2) := by
      refine ⟨w6, ⟨?_, ?_, ?_⟩, ?_, ?_, fun q hq => by cases hq⟩
      · rw [updO_ne hr2, upd_same, o4 n hn1, hg3n]
      · refine Rp_congr hT1 fun j hj => ?_
        have := I1.lt j hj
        rw [updO_ne (fun e => h12 j hj (root_mem e)), upd_ne _ _ (ne_of_mem_of_not_mem hj hnT1), o4 j this]
      · exact updO_rp I4.nd (Rp_congr I4.rp fun j hj => upd_ne _ _ (ne_of_mem_of_not_mem hj hnT2))
      · refine List.nodup_cons.2 ⟨by simp [hnT1, hnT2], List.nodup_append.2 ⟨I1.nd, I4.nd, fun a ha b hb e => h12 a ha (e ▸ hb)⟩⟩
      · intro j hj
        simp only [nodes, List.mem_cons, List.mem_append] at hj
        rcases hj with rfl | hj | hj
        · exact hn4
        · have := I1.lt j hj; omega
        · exact I4.lt j hj
    obtain ⟨h7, g7, e7, s7⟩ := aggregate_st (lct := false) (c := []) I6 rfl
    have hc : Clean S (fresh S x).d := ⟨rfl, rfl⟩
    have z1 : sz T1 = xs.length / 2 := by
      have := congrArg List.length q1
      rw [List.length_map, seq_len, List.length_take] at this
      exact this.trans (by omega)
    have z4 : sz T2 = xs.length - (xs.length / 2 + 1) := by
      have := congrArg List.length q4
      rw [List.length_map, seq_len, List.length_drop] at this
      exact this
    rw [List.length_take, Nat.min_eq_left (by omega)] at p1
    rw [List.length_drop] at p4
    refine ⟨h7, n4, g7, _, fun fuel hf => ?_, by omega, ?_, s7.H, valid_agg L hc v1 v4, ?_, ?_, ?_, ?_⟩
    · obtain ⟨f', rfl⟩ : ∃ f', fuel = f' + 1 := ⟨fuel - 1, by omega⟩
      rw [dfsInit, ex]
      dsimp only
      rw [hlen, e1 f' (by omega), Option.bind_some]
      dsimp only
      rw [e2, Option.bind_some, e3, Option.bind_some, e4 f' (by omega), Option.bind_some]
      dsimp only
      rw [e5, Option.bind_some, e6, Option.bind_some, e7]
      rfl
    · rw [m4, m1, List.length_take, List.length_drop]; omega
    · simp only [plug]
      rw [seq_agg, seq_clean L hc, List.map_append, List.map_cons, q1, q4]
      have : x = xs[xs.length / 2] := hx.symm
      conv_rhs => rw [← List.take_append_drop (xs.length / 2) xs, List.drop_eq_getElem_cons hmid]
      rw [hx]; rfl
    · intro j hj
      have := s7.perm.mem_iff.1 hj
      simp only [nodes, List.mem_cons, List.mem_append] at this
      rcases this with rfl | k | k
      · exact le_refl _
      · have := f1 j k; omega
      · have := f4 j k; omega
    · intro j hj
      rw [s7.fr j, updO_ne (fun e => by have := f4 j (root_mem e); omega), upd_ne _ _ (by omega), o4 j (by omega), ho3 j hj]
      intro k
      simp only [nodes, List.mem_cons, List.mem_append] at k
      rcases k with rfl | k | k
      · omega
      · have := f1 j k; omega
      · have := f4 j k; omega
    · simp only [plug, phi_agg, phi_node, z1, z4]
      have e : xs.length / 2 + (xs.length - (xs.length / 2 + 1)) + 1 = xs.length := by omega
      rw [e]
      exact Or.inr (bal_phi hpos p1 p4)

end Verif.SplayList
