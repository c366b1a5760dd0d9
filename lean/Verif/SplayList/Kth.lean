import Verif.SplayList.Model
import Verif.Splay.Rot
/-!
`kth_element` brings the `k`-th node to the root.
-/
namespace Verif.SplayList
open Verif Verif.LazySegTree Verif.Splay BT

variable {M A : Type} [Monoid M] {S : Acts M A} {n : Nat} {h : Heap M A} {g : Nat → Node M A} {par : Option Nat}

theorem sum_ok (hr : Rep h n g) {t : BT M A} {p : Option Nat} (ht : Rp g p t) (hlt : ∀ j ∈ nodes t, j < n) (hv : Valid S false t) : sumO h (BT.root t) = some (seq S t).length := by
  unfold sumO
  rw [getO_ok hr ht hlt]
  cases t with
  | nil => rfl
  | node l i d r =>
    rw [BT.root, Option.map_some, Option.map_some]
    have e := ht.1
    simp only [e]
    rw [hv.2.2.sum rfl]

theorem seq_len (t : BT M A) : (seq S t).length = (nodes t).length := by
  have := (seq_nodes (S := S) t).length_eq
  rwa [List.length_map] at this

theorem node_len (l : BT M A) (i : Nat) (d : Dat M A) (r : BT M A) : (seq S (node l i d r)).length = (seq S l).length + (seq S r).length + 1 := by
  rw [seq_len, seq_len, seq_len]
  simp [nodes]

theorem choose_ok (hr : Rep h n g) {l r : BT M A} {u : Nat} {d : Dat M A} {p : Option Nat} (ht : Rp g p (node l u d r)) (hlt : ∀ j ∈ nodes (node l u d r), j < n) (hl : Valid S false l) (k : Nat) :
    choose h u k = some (if (seq S l).length = k then none else if (seq S l).length > k then some (BT.root l, k) else some (BT.root r, k - ((seq S l).length + 1))) := by
  unfold choose
  obtain ⟨h1, h2, h3⟩ := ht
  rw [hr.val u (hlt u (by simp [nodes])), Option.bind_some, h1]
  cases l with
  | nil =>
    have h0 : (seq S (nil : BT M A)).length = 0 := rfl
    rw [h0]
    show (if k = 0 then some none else some (some (BT.root r, k - 1))) = _
    by_cases hk : k = 0
    · rw [if_pos hk, if_pos hk.symm]
    · rw [if_neg hk, if_neg (Ne.symm hk), if_neg (by omega), Nat.zero_add]
  | node a i e b =>
    show (h[i]?).map _ = _
    rw [hr.val i (hlt i (by simp [nodes])), Option.map_some, h2.1]
    dsimp only
    rw [hl.2.2.sum rfl]
    rfl

theorem kthLoop_ok (L : Laws S) : ∀ (m : Nat) {k : Nat} {c : List (Fr M A)} {l r : BT M A} {u : Nat} {d : Dat M A} {h : Heap M A} {g : Nat → Node M A} {a b : List (Nat × M)}, H n h g par (plug c (node l u d r)) →
    Valid S false (node l u d r) → ValidC S false c → seq S (plug c (node l u d r)) = a ++ seq S (node l u d r) ++ b → k < (seq S (node l u d r)).length → (nodes (node l u d r)).length ≤ m →
    ∃ h' g' c' l' u' d' r' a' b', (∀ f, c'.length + 1 ≤ f + c.length → kthLoop S f u k h = some (h', u')) ∧ St n par g (plug c (node l u d r)) h' g' (plug c' (node l' u' d' r')) ∧ Valid S false (node l' u' d' r') ∧ ValidC S false c' ∧
      seq S (plug c' (node l' u' d' r')) = seq S (plug c (node l u d r)) ∧ seq S (plug c (node l u d r)) = a' ++ (u', d'.m) :: b' ∧ a'.length = a.length + k ∧
      c.length ≤ c'.length ∧ phi (plug c' (node l' u' d' r')) = phi (plug c (node l u d r)) := by
  intro m
  induction m with
  | zero =>
    intro k c l r u d h g a b _ _ _ _ _ hl
    simp [nodes] at hl
  | succ m ih =>
    intro k c l r u d h g a b I hv hc hs hk hf
    obtain ⟨_, k2⟩ := (Rp_plug g par c _).1 I.rp
    have hlt : ∀ j ∈ nodes (node l u d r), j < n := fun j hj => I.lt j ((nodes_plug c _).mem_iff.2 (List.mem_append_left _ hj))
    have hun := hlt u (by simp [nodes])
    have e1 := sum_ok I.rep k2.2.1 (fun j hj => hlt j (by simp [nodes, hj])) hv.1
    have e2 := sum_ok I.rep k2.2.2 (fun j hj => hlt j (by simp [nodes, hj])) hv.2.1
    obtain ⟨h1, g1, e3, s1⟩ := propagate_st (S := S) (lct := false) I rfl
    have hseq := seq_prop L (node l u d r)
    have hvp := valid_prop L hv
    have hnp := (nodes_prop (S := S) (node l u d r)).length_eq
    have hst := seq_plug_congr (S := S) c hseq
    obtain ⟨x, y, ep, vx, vy⟩ := prop_node L true u d hv.1 hv.2.1
    have em : (clr S d).m = d.m := rfl
    have ep' : prop S (node l u d r) = node x u (clr S d) y := ep
    have hclean : Clean S (clr S d) := clr_clean d
    have hsd : d.sum = (seq S l).length + (seq S r).length + 1 := by
      rw [hv.2.2.sum rfl, node_len]
    have hphi : phi (plug c (prop S (node l u d r))) = phi (plug c (node l u d r)) := by
      have := phi_plug_congr c (sz_prop (S := S) (node l u d r))
      rw [phi_prop] at this; omega
    have hgo : ∀ f, kthLoop S (f+1) u k h = (choose h1 u k).bind (fun c => match c with
          | none => some (h1, u)
          | some (v, k) => v.bind (fun v => kthLoop S f v k h1)) := by
      intro f
      rw [kthLoop, I.rep.val u hun, Option.bind_some, k2.1]
      dsimp only
      rw [e1, Option.bind_some, e2, Option.bind_some, if_neg (by rw [hsd]; simp), e3, Option.bind_some]
      rfl
    rw [ep'] at hseq hvp hnp hst s1 hphi
    obtain ⟨_, k3⟩ := (Rp_plug g1 par c _).1 s1.H.rp
    have hlt1 : ∀ j ∈ nodes (node x u (clr S d) y), j < n := fun j hj => s1.H.lt j ((nodes_plug c _).mem_iff.2 (List.mem_append_left _ hj))
    rw [choose_ok s1.H.rep k3 hlt1 vx] at hgo
    have hss : seq S (node x u (clr S d) y) = seq S x ++ (u, d.m) :: seq S y := by rw [seq_clean L hclean]; rfl
    have hS : seq S (plug c (node l u d r)) = a ++ (seq S x ++ (u, d.m) :: seq S y) ++ b := by rw [hs, ← hseq, hss]
    have hlen : k < (seq S x).length + (seq S y).length + 1 := by rw [← hseq, node_len] at hk; exact hk
    by_cases c1 : (seq S x).length = k
    · refine ⟨h1, g1, c, x, u, clr S d, y, a ++ seq S x, seq S y ++ b, fun f hf => ?_, s1, hvp, hc, hst, ?_, by simp [c1], le_refl _, hphi⟩
      · obtain ⟨f', rfl⟩ : ∃ f', f = f' + 1 := ⟨f - 1, by omega⟩
        rw [hgo, if_pos c1]; rfl
      · rw [hS, em]; simp
    · rw [if_neg c1] at hgo
      have step : ∀ (bb : Bool) (z o : BT M A) (k' : Nat) (a1 b1 : List (Nat × M)), mk bb z u (clr S d) o = node x u (clr S d) y → Valid S false z → Valid S false o → k' < (seq S z).length → seq S (plug c (node l u d r)) = a1 ++ seq S z ++ b1 → a1.length + k' = a.length + k → ∃ h' g' c' l' u' d' r' a' b', (∀ f, c'.length + 1 ≤ f + 1 + c.length → ((BT.root z).bind (fun v => kthLoop S f v k' h1)) = some (h', u')) ∧ St n par g (plug c (node l u d r)) h' g' (plug c' (node l' u' d' r')) ∧ Valid S false (node l' u' d' r') ∧ ValidC S false c' ∧
      seq S (plug c' (node l' u' d' r')) = seq S (plug c (node l u d r)) ∧ seq S (plug c (node l u d r)) = a' ++ (u', d'.m) :: b' ∧ a'.length = a.length + k ∧
      c.length ≤ c'.length ∧ phi (plug c' (node l' u' d' r')) = phi (plug c (node l u d r)) := by
        intro bb z o k' a1 b1 hmk vz vo hk' hs1 ha1
        cases z with
        | nil => simp [seq] at hk'
        | node zl zu zd zr =>
          have I1 : H n h1 g1 par (plug (⟨bb, u, clr S d, o⟩ :: c) (node zl zu zd zr)) := by
            rw [plug]
            dsimp only
            rw [hmk]
            exact s1.H
          have epl : plug (⟨bb, u, clr S d, o⟩ :: c) (node zl zu zd zr) = plug c (node x u (clr S d) y) := by rw [plug]; dsimp only; rw [hmk]
          have hnz : (nodes (node zl zu zd zr)).length ≤ m := by
            have hm := (nodes_mk bb (node zl zu zd zr) u (clr S d) o).length_eq
            rw [hmk, hnp] at hm
            simp only [List.length_cons, List.length_append] at hm
            omega
          obtain ⟨h', g', c', l', u', d', r', a', b', e', s', v', vc', q', w', z', y', p'⟩ := ih (k := k') (a := a1) (b := b1) I1 vz (by
              intro w hw
              rcases List.mem_cons.1 hw with rfl | hw
              · exact vo
              · exact hc w hw) (by rw [epl, hst]; exact hs1) hk' hnz
          rw [epl] at s' q' w' p'
          rw [List.length_cons] at e' y'
          exact ⟨h', g', c', l', u', d', r', a', b', fun f hf => by rw [BT.root, Option.bind_some]; exact e' f (by omega), s1.trans s', v', vc', q'.trans hst, by rw [← hst]; exact w', z'.trans ha1, by omega, p'.trans hphi⟩
      have back : ∀ (w : Option Nat × Nat), (∀ f, kthLoop S (f+1) u k h = w.1.bind (fun v => kthLoop S f v w.2 h1)) →
          (∃ h' g' c' l' u' d' r' a' b', (∀ f, c'.length + 1 ≤ f + 1 + c.length → (w.1.bind (fun v => kthLoop S f v w.2 h1)) = some (h', u')) ∧ St n par g (plug c (node l u d r)) h' g' (plug c' (node l' u' d' r')) ∧ Valid S false (node l' u' d' r') ∧ ValidC S false c' ∧
      seq S (plug c' (node l' u' d' r')) = seq S (plug c (node l u d r)) ∧ seq S (plug c (node l u d r)) = a' ++ (u', d'.m) :: b' ∧ a'.length = a.length + k ∧
      c.length ≤ c'.length ∧ phi (plug c' (node l' u' d' r')) = phi (plug c (node l u d r))) →
          ∃ h' g' c' l' u' d' r' a' b', (∀ f, c'.length + 1 ≤ f + c.length → kthLoop S f u k h = some (h', u')) ∧ St n par g (plug c (node l u d r)) h' g' (plug c' (node l' u' d' r')) ∧ Valid S false (node l' u' d' r') ∧ ValidC S false c' ∧
      seq S (plug c' (node l' u' d' r')) = seq S (plug c (node l u d r)) ∧ seq S (plug c (node l u d r)) = a' ++ (u', d'.m) :: b' ∧ a'.length = a.length + k ∧
      c.length ≤ c'.length ∧ phi (plug c' (node l' u' d' r')) = phi (plug c (node l u d r)) := by
        rintro w hw ⟨h', g', c', l', u', d', r', a', b', e', s', v', vc', q', w', z', y', p'⟩
        refine ⟨h', g', c', l', u', d', r', a', b', fun f hf => ?_, s', v', vc', q', w', z', y', p'⟩
        obtain ⟨f', rfl⟩ : ∃ f', f = f' + 1 := ⟨f - 1, by omega⟩
        rw [hw]
        exact e' f' hf
      by_cases c2 : (seq S x).length > k
      · rw [if_pos c2] at hgo
        exact back (BT.root x, k) hgo (step true x y k a ((u, d.m) :: seq S y ++ b) rfl vx vy c2 (by rw [hS]; simp) rfl)
      · rw [if_neg c2] at hgo
        exact back (BT.root y, k - ((seq S x).length + 1)) hgo (step false y x (k - ((seq S x).length + 1)) (a ++ seq S x ++ [(u, d.m)]) b rfl vy vx (by omega) (by rw [hS]; simp) (by simp; omega))

theorem ctx_le (c : List (Fr M A)) : c.length ≤ (cnodes c).length := by
  induction c with
  | nil => exact le_refl _
  | cons z c ih => simp only [cnodes, List.length_cons, List.length_append]; omega

theorem len_le {l : List Nat} (nd : l.Nodup) (hl : ∀ i ∈ l, i < n) : l.length ≤ n := by
  have := (List.subperm_of_subset nd (fun i hi => List.mem_range.2 (hl i hi))).length_le
  rwa [List.length_range] at this

theorem ctx_H {c : List (Fr M A)} {t : BT M A} (I : H n h g par (plug c t)) : c.length ≤ n := by
  have h1 := len_le I.nd I.lt
  have h2 := (nodes_plug c t).length_eq
  have h3 := ctx_le c
  rw [List.length_append] at h2
  omega

/-- Positions in a sequence of distinct nodes. -/
theorem pos_unique {s1 s2 t1 t2 : List (Nat × M)} {u : Nat} {m m' : M} (e : s1 ++ (u, m) :: s2 = t1 ++ (u, m') :: t2) (nd : ((s1 ++ (u, m) :: s2).map Prod.fst).Nodup) : s1.length = t1.length := by
  have k1 : ((s1 ++ (u, m) :: s2).map Prod.fst)[s1.length]? = some u := by simp
  have k2 : ((s1 ++ (u, m) :: s2).map Prod.fst)[t1.length]? = some u := by rw [e]; simp
  obtain ⟨l1, e1⟩ := List.getElem?_eq_some_iff.1 k1
  obtain ⟨l2, e2⟩ := List.getElem?_eq_some_iff.1 k2
  exact (nd.getElem_inj_iff (hi := l1) (hj := l2)).1 (e1.trans e2.symm)

theorem H.seq_nodup {T : BT M A} (I : H n h g par T) : ((seq S T).map Prod.fst).Nodup := (seq_nodes (S := S) T).nodup_iff.2 I.nd

theorem ctx_H1 {c : List (Fr M A)} {l r : BT M A} {u : Nat} {d : Dat M A} (I : H n h g par (plug c (node l u d r))) : c.length + 1 ≤ n := by
  have h1 := len_le I.nd I.lt
  have h2 := (nodes_plug c (node l u d r)).length_eq
  have h3 := ctx_le c
  simp only [List.length_append, nodes, List.length_cons] at h2
  omega

/-- `kth_element(k)`: with a budget of `K` for each of its two loops, which the drop of the potential pays for up to a logarithmic part. -/
theorem kth_ok (L : Laws S) {T : BT M A} (I : H n h g par T) (hv : Valid S false T) {k : Nat} (hk : k < (seq S T).length) :
    ∃ K h' g' l u d r, (∀ fuel, K ≤ fuel → kth S fuel k (h, BT.root T) = some (h', u)) ∧ St n par g T h' g' (node l u d r) ∧ Valid S false (node l u d r) ∧ Clean S d ∧ seq S (node l u d r) = seq S T ∧ (seq S l).length = k ∧
      K ≤ n ∧ K + 2 * phi (node l u d r) ≤ 2 * phi T + 6 * rk T + 2 := by
  cases T with
  | nil => simp [seq] at hk
  | node l0 u0 d0 r0 =>
    have hn := len_le I.nd I.lt
    have hun := I.lt u0 (by simp [nodes])
    obtain ⟨h1, g1, c, l1, u, d1, r1, a', b', e1, s1, v1, vc1, q1, w1, z1, -, p1⟩ := kthLoop_ok L n (c := []) (a := []) (b := []) I hv (fun x hx => by cases hx) (by simp [plug]) hk (by omega)
    obtain ⟨h2, g2, t, e2, s2, ⟨l, d, r, rfl, v2, c2, q2⟩, p2⟩ := splay_pot L s1.H v1.1 v1.2.1 vc1
    have hrk : rk (plug c (node l1 u d1 r1)) = rk (node l0 u0 d0 r0) := congrArg (Nat.log 2) s1.perm.length_eq
    simp only [plug] at q1 w1 p1
    refine ⟨c.length + 1, h2, g2, l, u, d, r, fun fuel hf => ?_, s1.trans s2, v2, c2, q2.trans q1, ?_, ctx_H1 s1.H, by omega⟩
    · unfold kth
      rw [BT.root, Option.bind_some]
      dsimp only
      rw [I.rep.val u0 hun, Option.bind_some, I.rp.1]
      dsimp only
      rw [hv.2.2.sum rfl, if_pos hk, e1 fuel (by simpa using hf), Option.bind_some, e2 fuel (by omega)]
      rfl
    · have e := q2.trans q1
      rw [seq_clean L c2, w1] at e
      have := pos_unique e (by rw [e, ← w1]; exact H.seq_nodup I)
      rw [this, z1]; simp

end Verif.SplayList
