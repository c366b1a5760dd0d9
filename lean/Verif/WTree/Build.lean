import Verif.WTree.Model
/-!
The constructor of `WaveletTree`.
-/
namespace Verif.WTree
open Verif.BitManip Verif.Succinct Verif.Wavelet

/-! ### The nodes of each level -/

def split (k : Nat) (M : List Nat) : List (List Nat) := [M.filter (hb k false), M.filter (hb k true)]

/-- The nodes of level `t`, including empty ones. -/
def nodes (h : Nat) (S : List Nat) : Nat → List (List Nat)
  | 0 => [S]
  | t+1 => (nodes h S t).flatMap (split (h - 1 - t))

theorem split_length (k : Nat) (M : List Nat) : (split k M).flatten.length = M.length := by
  show (M.filter (hb k false) ++ (M.filter (hb k true) ++ [])).length = _
  rw [List.append_nil, List.length_append, filter_split_length]

theorem splits_length (k : Nat) : ∀ N : List (List Nat), (N.flatMap (split k)).flatten.length = N.flatten.length
  | [] => rfl
  | M :: N => by rw [List.flatMap_cons, List.flatten_append, List.length_append, split_length, splits_length k N, List.flatten_cons, List.length_append]

/-- The sequence of level `t`. -/
def seq (h : Nat) (S : List Nat) (t : Nat) : List Nat := (nodes h S t).flatten

theorem seq_length (h : Nat) (S : List Nat) : ∀ t, (seq h S t).length = S.length
  | 0 => by unfold seq nodes; simp
  | t+1 => by
    unfold seq nodes
    rw [splits_length]; exact seq_length h S t

/-- The bits of level `t`. -/
def lb (h : Nat) (S : List Nat) (t : Nat) : List Bool := (seq h S t).map (fun x => x.testBit (h - 1 - t))

/-- The bits of the levels below `t`. -/
def ab (h : Nat) (S : List Nat) : Nat → List Bool
  | 0 => []
  | t+1 => ab h S t ++ lb h S t

theorem lb_length (h : Nat) (S : List Nat) (t : Nat) : (lb h S t).length = S.length := by rw [lb, List.length_map, seq_length]

theorem ab_length (h : Nat) (S : List Nat) : ∀ t, (ab h S t).length = S.length * t
  | 0 => rfl
  | t+1 => by rw [ab, List.length_append, ab_length h S t, lb_length]; rfl

theorem ab_split (h : Nat) (S : List Nat) (t : Nat) : ∀ u, t < u → ∃ R, ab h S u = ab h S t ++ lb h S t ++ R
  | 0, hu => by omega
  | u+1, hu => by
    by_cases c : t = u
    · exact ⟨[], by rw [c, ab, List.append_nil]⟩
    · obtain ⟨R, e⟩ := ab_split h S t u (by omega)
      exact ⟨R ++ lb h S u, by rw [ab, e]; simp⟩

/-! ### Boundaries -/

/-- Non-empty nodes. -/
def ne (N : List (List Nat)) : List (List Nat) := N.filter (fun M => decide (M.length ≠ 0))

/-- Boundaries. -/
def bnd : Nat → List (List Nat) → List Nat
  | a, [] => [a]
  | a, M :: N => a :: bnd (a + M.length) N

theorem bnd_length : ∀ (N : List (List Nat)) (a : Nat), (bnd a N).length = N.length + 1
  | [], _ => rfl
  | M :: N, a => by rw [bnd, List.length_cons, bnd_length N]; rfl

theorem bnd_get : ∀ (N : List (List Nat)) (a d : Nat), d ≤ N.length → (bnd a N)[d]? = some (a + (N.take d).flatten.length)
  | [], a, d, h => by
    obtain rfl : d = 0 := by simpa using h
    rfl
  | M :: N, a, 0, h => rfl
  | M :: N, a, d+1, h => by
    rw [bnd, List.getElem?_cons_succ, bnd_get N _ d (by simpa using h), List.take_succ_cons, List.flatten_cons, List.length_append, Nat.add_assoc]

theorem bnd_snoc : ∀ (N : List (List Nat)) (a : Nat) (M : List Nat), bnd a (N ++ [M]) = bnd a N ++ [a + N.flatten.length + M.length]
  | [], a, M => rfl
  | X :: N, a, M => by
    rw [List.cons_append, bnd, bnd, bnd_snoc N, List.flatten_cons, List.length_append]
    simp [Nat.add_assoc]

theorem ne_append (A B : List (List Nat)) : ne (A ++ B) = ne A ++ ne B := List.filter_append ..

theorem ne_flatten : ∀ N : List (List Nat), (ne N).flatten = N.flatten
  | [] => rfl
  | M :: N => by
    unfold ne
    rw [List.filter_cons]
    have ih := ne_flatten N
    unfold ne at ih
    by_cases c : M.length = 0
    · rw [if_neg (by simpa using c), ih, List.flatten_cons, List.length_eq_zero_iff.1 c]; rfl
    · rw [if_pos (by simpa using c), List.flatten_cons, ih, List.flatten_cons]

theorem ne_split (k : Nat) : ∀ N : List (List Nat), ne ((ne N).flatMap (split k)) = ne (N.flatMap (split k)) ∧ ((ne N).flatMap (split k)).flatten = (N.flatMap (split k)).flatten
  | [] => ⟨rfl, rfl⟩
  | M :: N => by
    obtain ⟨h1, h2⟩ := ne_split k N
    by_cases c : M.length = 0
    · have e : ne (M :: N) = ne N := by unfold ne; rw [List.filter_cons, if_neg (by simpa using c)]
      rw [e, h1, h2, List.length_eq_zero_iff.1 c, List.flatMap_cons, ne_append, List.flatten_append]
      exact ⟨rfl, rfl⟩
    · have e : ne (M :: N) = M :: ne N := by unfold ne; rw [List.filter_cons, if_pos (by simpa using c)]
      rw [e, List.flatMap_cons, ne_append, h1, List.flatMap_cons, ne_append, List.flatten_append, h2, List.flatten_append]
      exact ⟨rfl, rfl⟩

/-! ### One node -/

theorem fill_ok : ∀ (L A X : List Nat), L.length ≤ X.length → fill (A ++ X) A.length L = some (A ++ L ++ X.drop L.length, A.length + L.length)
  | [], A, X, _ => by simp [fill]
  | x :: L, A, [], h => by simp at h
  | x :: L, A, y :: X, h => by
    rw [fill, wr_some (by simp), List.set_append, if_neg (by omega), Nat.sub_self, Option.bind_some, List.set_cons_zero]
    have := fill_ok L (A ++ [x]) X (by simpa using h)
    simp only [List.append_assoc, List.singleton_append, List.length_append, List.length_cons, List.length_nil] at this ⊢
    rw [show A.length + 1 = A.length + (0 + 1) by omega, this]
    simp [Nat.add_assoc, Nat.add_comm 1]

theorem part_ok (A M C : List Nat) (k : Nat) : forRange A.length (A.length + M.length) (partBody (A ++ M ++ C) k) ([], []) = some (M.filter (hb k false), M.filter (hb k true)) := by
  obtain ⟨q, e, h⟩ := forRange_inv (P := fun i (q : List Nat × List Nat) => q = ((M.take (i - A.length)).filter (hb k false), (M.take (i - A.length)).filter (hb k true)))
    (body := partBody (A ++ M ++ C) k) (s := ([], [])) (a := A.length) (b := A.length + M.length) (by omega) (by simp)
    (by
      intro i q h1 h2 hq
      have hi : i - A.length < M.length := by omega
      have ex : (A ++ M ++ C)[i]? = some M[i - A.length] := by
        rw [List.append_assoc, List.getElem?_append_right h1, List.getElem?_append_left hi, List.getElem?_eq_getElem hi]
      have ex2 : M[i - A.length]? = some M[i - A.length] := List.getElem?_eq_getElem hi
      generalize M[i - A.length] = x at ex ex2
      rw [partBody, ex, Option.map_some, show i + 1 - A.length = i - A.length + 1 by omega, take_succ_get ex2, hq]
      refine ⟨_, rfl, ?_⟩
      cases c : x.testBit k <;> simp [hb, c])
  rw [e, h, Nat.add_sub_cancel_left, List.take_length]

theorem node_ok {D : List Nat} {A M C nd : List Nat} {k d : Nat} (h1 : D[d]? = some A.length) (h2 : D[d+1]? = some (A.length + M.length)) (hM : M.length ≠ 0) {N : List (List Nat)}
    (hA : N.flatten.length = A.length) (hnd : nd = bnd 0 (ne N)) :
    nodeBody D k d (A ++ M ++ C, nd) = some (A ++ (split k M).flatten ++ C, bnd 0 (ne (N ++ split k M))) := by
  have hs := filter_split_length k M
  have e : (split k M).flatten = M.filter (hb k false) ++ M.filter (hb k true) := by
    show M.filter (hb k false) ++ (M.filter (hb k true) ++ []) = _
    rw [List.append_nil]
  have es : split k M = [M.filter (hb k false)] ++ [M.filter (hb k true)] := rfl
  unfold nodeBody
  rw [h1, Option.bind_some, h2, Option.bind_some]
  show ((forRange _ _ (partBody (A ++ M ++ C) k) _).bind _) = _
  rw [part_ok, Option.bind_some, e]
  rw [es]
  generalize M.filter (hb k false) = Z at *
  generalize M.filter (hb k true) = O at *
  show ((fill (A ++ M ++ C) A.length Z).bind _) = _
  rw [List.append_assoc A M C, fill_ok Z A (M ++ C) (by simp; omega), Option.bind_some]
  have f2 := fill_ok O (A ++ Z) ((M ++ C).drop Z.length) (by simp; omega)
  rw [List.length_append] at f2
  show ((fill (A ++ Z ++ (M ++ C).drop Z.length) (A.length + Z.length) O).bind _) = _
  rw [f2, Option.bind_some, List.drop_drop, hs, List.drop_left]
  simp only
  rw [if_pos (by omega)]
  have hZ : ne [Z] = if Z.length ≠ 0 then [Z] else [] := by
    unfold ne
    rw [List.filter_cons]
    by_cases c : Z.length = 0 <;> simp [c]
  have hO : ne [O] = if A.length + Z.length < A.length + M.length then [O] else [] := by
    unfold ne
    rw [List.filter_cons]
    by_cases c : O.length = 0
    · rw [if_neg (by simpa using c), if_neg (by omega)]; rfl
    · rw [if_pos (by simpa using c), if_pos (by omega)]; rfl
  have hnf := ne_flatten N
  congr 1
  refine Prod.ext ?_ ?_
  · simp
  · show (if A.length + Z.length < A.length + M.length then (if Z.length ≠ 0 then nd ++ [A.length + Z.length] else nd) ++ [A.length + M.length] else (if Z.length ≠ 0 then nd ++ [A.length + Z.length] else nd)) = _
    have e1 : (if Z.length ≠ 0 then nd ++ [A.length + Z.length] else nd) = bnd 0 (ne (N ++ [Z])) := by
      rw [ne_append, hZ]
      by_cases c : Z.length ≠ 0
      · rw [if_pos c, if_pos c, bnd_snoc, hnd, hnf, hA]
        simp
      · rw [if_neg c, if_neg c, List.append_nil, hnd]
    show _ = bnd 0 (ne (N ++ ([Z] ++ [O])))
    rw [e1, ← List.append_assoc N, ne_append (N ++ [Z]), hO]
    by_cases c : A.length + Z.length < A.length + M.length
    · rw [if_pos c, if_pos c, bnd_snoc, ne_flatten, List.flatten_append, List.length_append, hA]
      congr 2
      simp
      omega
    · rw [if_neg c, if_neg c, List.append_nil]

theorem nodesLoop_ok (k : Nat) (Ns : List (List Nat)) (hne : ∀ M ∈ Ns, M.length ≠ 0) :
    forRange 0 ((bnd 0 Ns).length - 1) (nodeBody (bnd 0 Ns) k) (Ns.flatten, [0]) = some ((Ns.flatMap (split k)).flatten, bnd 0 (ne (Ns.flatMap (split k)))) := by
  rw [bnd_length, Nat.add_sub_cancel]
  obtain ⟨q, e, h⟩ := forRange_inv (P := fun d (q : List Nat × List Nat) => q = (((Ns.take d).flatMap (split k)).flatten ++ (Ns.drop d).flatten, bnd 0 (ne ((Ns.take d).flatMap (split k)))))
    (body := nodeBody (bnd 0 Ns) k) (s := (Ns.flatten, [0])) (a := 0) (b := Ns.length) (Nat.zero_le _) (by simp [ne, bnd])
    (by
      intro d q _ hd hq
      have hl := splits_length k (Ns.take d)
      rw [hq, List.drop_eq_getElem_cons hd, List.flatten_cons, ← List.append_assoc]
      have h1 := bnd_get Ns 0 d (by omega)
      have h2 := bnd_get Ns 0 (d+1) (by omega)
      have et : Ns.take (d+1) = Ns.take d ++ [Ns[d]] := by rw [List.take_succ, List.getElem?_eq_getElem hd]; rfl
      rw [et, List.flatten_append, List.length_append] at h2
      rw [Nat.zero_add, ← hl] at h1 h2
      have := node_ok (k := k) (C := (Ns.drop (d+1)).flatten) h1 (by simpa using h2) (hne _ (List.getElem_mem hd)) (N := (Ns.take d).flatMap (split k)) rfl rfl
      refine ⟨_, this, ?_⟩
      rw [et, List.flatMap_append, List.flatten_append]
      simp only [List.flatMap_cons, List.flatMap_nil, List.append_nil])
  rw [e, h, List.take_length, List.drop_length]
  simp

/-! ### Levels -/

theorem write_ok {B : Bm} {it : It} {X Y : List Bool} {L : List Nat} {k : Nat} (hr : Rel B (X ++ List.replicate L.length false ++ Y)) (hc : Clean B)
    (hit : Succinct.At it (X.length : Int)) :
    ∃ q, forRange 0 L.length (writeBody L k) (B, it) = some q ∧ Rel q.1 (X ++ L.map (fun x => x.testBit k) ++ Y) ∧ Clean q.1 ∧
      Succinct.At q.2 ((X.length + L.length : Nat) : Int) := by
  obtain ⟨q, e, h1, h2, h3⟩ := forRange_inv
    (P := fun i (q : Bm × It) => Rel q.1 (X ++ ((L.take i).map (fun x => x.testBit k) ++ List.replicate (L.length - i) false) ++ Y) ∧ Clean q.1 ∧
      Succinct.At q.2 ((X.length + i : Nat) : Int))
    (body := writeBody L k) (s := (B, it)) (a := 0) (b := L.length) (Nat.zero_le _)
    ⟨by simpa using hr, hc, by simpa using hit⟩
    (by
      intro i q _ hi ⟨h1, h2, h3⟩
      have ex : L[i]? = some L[i] := List.getElem?_eq_getElem hi
      generalize L[i] = x at ex
      have hsz := h1.size
      have hlen : X.length + i < q.1.sz := by rw [← hsz]; simp; omega
      obtain ⟨B', eB, rB⟩ := put_ok h1 hlen (x.testBit k)
      have cB := clean_put h2 hlen eB
      have eset : (X ++ ((L.take i).map (fun x => x.testBit k) ++ List.replicate (L.length - i) false) ++ Y).set (X.length + i) (x.testBit k) =
          X ++ ((L.take (i + 1)).map (fun x => x.testBit k) ++ List.replicate (L.length - (i + 1)) false) ++ Y := by
        rw [show L.length - i = L.length - (i + 1) + 1 by omega, List.replicate_succ, take_succ_get ex, List.map_append]
        have := @set_mid (X ++ (L.take i).map (fun x => x.testBit k)) (List.replicate (L.length - (i + 1)) false ++ Y) (x.testBit k) false
        rw [List.length_append, List.length_map, List.length_take, Nat.min_eq_left (by omega)] at this
        simp only [List.append_assoc, List.cons_append, List.map_cons, List.map_nil, List.nil_append] at this ⊢
        exact this
      rw [eset] at rB
      rw [writeBody, ex, Option.bind_some, putIt_eq _ h3, eB, Option.map_some]
      exact ⟨_, rfl, rB, cB, inc_at h3⟩)
  rw [List.take_length, Nat.sub_self, List.replicate_zero, List.append_nil] at h1
  exact ⟨q, e, h1, h2, h3⟩

structure CInv (h : Nat) (S : List Nat) (t : Nat) (c : CSt) : Prop where
  seq : c.S = seq h S t
  rel : Rel c.B (ab h S t ++ List.replicate (S.length * (h - t)) false)
  clean : Clean c.B
  it : Succinct.At c.it ((S.length * t : Nat) : Int)
  bnd : c.D = bnd 0 (ne (nodes h S t))

theorem bits_ok {h : Nat} {S : List Nat} {t : Nat} (ht : t < h) {c : CSt} (hc : CInv h S t c) :
    ∃ q, forRange 0 S.length (writeBody c.S (h - 1 - t)) (c.B, c.it) = some q ∧ Rel q.1 (ab h S (t + 1) ++ List.replicate (S.length * (h - (t + 1))) false) ∧ Clean q.1 ∧
      Succinct.At q.2 ((S.length * (t + 1) : Nat) : Int) := by
  have hlen := seq_length h S t
  have hal := ab_length h S t
  have hsplit : List.replicate (S.length * (h - t)) false = List.replicate (seq h S t).length false ++ List.replicate (S.length * (h - (t + 1))) false := by
    rw [List.replicate_append_replicate, hlen, show h - t = (h - (t + 1)) + 1 by omega, Nat.mul_add, Nat.mul_one, Nat.add_comm]
  have hr := hc.rel
  rw [hsplit, ← List.append_assoc] at hr
  obtain ⟨q, e, h1, h2, h3⟩ := write_ok (k := h - 1 - t) hr hc.clean (by rw [hal]; exact hc.it)
  rw [hlen, ← hc.seq] at e
  rw [hal, hlen] at h3
  exact ⟨q, e, h1, h2, h3⟩

theorem level_ok {h : Nat} {S : List Nat} {t : Nat} (ht : t < h) {c : CSt} (hc : CInv h S t c) :
    ∃ c', levelBody S.length (h - 1 - t) c = some c' ∧ CInv h S (t + 1) c' := by
  obtain ⟨q, e, h1, h2, h3⟩ := bits_ok ht hc
  have hn := nodesLoop_ok (h - 1 - t) (ne (nodes h S t)) (fun M hM => by
    have := (List.mem_filter.1 hM).2
    simpa using this)
  obtain ⟨s1, s2⟩ := ne_split (h - 1 - t) (nodes h S t)
  rw [s1, s2, ne_flatten, ← hc.bnd] at hn
  unfold levelBody
  rw [e, Option.bind_some, hc.seq]
  unfold WTree.seq
  rw [hn, Option.map_some]
  exact ⟨_, rfl, ⟨rfl, h1, h2, h3, rfl⟩⟩

/-- What the constructor establishes. -/
structure Ok (w : WT) (S : List Nat) : Prop where
  n : w.n = S.length
  hne : S ≠ []
  h1 : 1 ≤ w.h
  lt : ∀ x ∈ S, x < 2^w.h
  get : ∀ p, p < S.length * w.h → w.B.get p = some ((ab w.h S w.h).getD p false)
  rk : ∀ p, p ≤ S.length * w.h → w.rk p = some (lrank (ab w.h S w.h) true p)
  sel : ∀ b k, ∃ p, selectB 64 w.B.src w.bv b k = some p ∧ IsSelect (ab w.h S w.h) b k p

theorem mk_ok (S : List Nat) (hS : ∀ x ∈ S, x < 2^64) {m : Nat} (hm : m ∈ S) (hm0 : m ≠ 0) :
    ∃ w, mk S = some w ∧ Ok w S ∧ ∃ x ∈ S, 2^(w.h - 1) ≤ x := by
  have hne : S ≠ [] := List.ne_nil_of_mem hm
  have hl : S.length ≠ 0 := fun h => hne (List.length_eq_zero_iff.1 h)
  have hle := fun x hx => le_foldl_max S 0 x (Or.inr hx)
  have hmx : S.foldl max 0 ≠ 0 := by have := hle m hm; omega
  have hmem : S.foldl max 0 ∈ S := by
    rcases foldl_max_mem S 0 with h | h
    · exact absurd h hmx
    · exact h
  obtain ⟨k, ek, hk, b1, b2⟩ := clz_spec (hS _ hmem) hmx
  have eh : height S = some (64 - k) := by unfold height; rw [if_neg hl, ek, Option.map_some]
  unfold mk
  rw [eh, Option.bind_some]
  generalize hh : 64 - k = h at *
  have h1 : 1 ≤ h := by omega
  obtain ⟨t, e, ht⟩ := forRangeDown_inv (P := fun k (c : CSt) => CInv h S (h - k) c) (body := levelBody S.length)
    (s := ⟨S, Bm.assign (Bm.mk' 0 false) (h * S.length) false, Bm.begin, [0, S.length]⟩) (a := 1) (b := h) h1
    (by
      rw [Nat.sub_self]
      refine ⟨?_, ?_, clean_mk _ _ (Or.inl rfl), ?_, ?_⟩
      · unfold WTree.seq nodes; simp
      · have := Succinct.mk_ok (h * S.length) false
        rw [Nat.mul_comm] at this
        show Rel (Bm.mk' (h * S.length) false) _
        rw [Nat.mul_comm]
        exact this
      · exact ⟨by show 0 < 64; omega, by show 64 * 0 + ((0 : Nat) : Int) = _; simp⟩
      · show [0, S.length] = bnd 0 (ne [S])
        unfold ne
        rw [List.filter_cons, if_pos (by simpa using hl)]
        simp [bnd])
    (by
      intro k q _ hk hq
      obtain ⟨c', e1, e2⟩ := level_ok (t := h - (k + 1)) (by omega) hq
      rw [show h - 1 - (h - (k + 1)) = k by omega] at e1
      rw [show h - (k + 1) + 1 = h - k by omega] at e2
      exact ⟨c', e1, e2⟩)
  obtain ⟨q, eq, r1, r2, _⟩ := bits_ok (by omega) ht
  rw [show h - 1 - (h - 1) = 0 by omega] at eq
  rw [show h - 1 + 1 = h by omega, Nat.sub_self, Nat.mul_zero, List.replicate_zero, List.append_nil] at r1
  have hsz : q.1.sz = S.length * h := by rw [← r1.size, ab_length]
  obtain ⟨bv, eb, k1, _, k3⟩ := rankSelect_of (src_ok r1 r2) r1.size (by
    intro p hp
    rw [sbit_bm, r1.bits p (by rw [← r1.size]; exact hp), List.getElem?_eq_getElem hp]; rfl)
  rw [e, Option.bind_some, eq, Option.bind_some, eb, Option.map_some]
  refine ⟨_, rfl, ⟨rfl, hne, h1, fun x hx => Nat.lt_of_le_of_lt (hle x hx) b2, ?_, ?_, k3⟩, ?_⟩
  · intro p hp
    exact get_ok r1 (by rw [hsz]; exact hp)
  · intro p hp
    exact (k1 p (by rw [ab_length]; exact hp)).1
  · refine ⟨_, hmem, ?_⟩
    show 2^(h - 1) ≤ _
    rw [← hh, show 64 - k - 1 = 63 - k by omega]
    exact b1

end Verif.WTree
