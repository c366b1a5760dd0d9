import Verif.Treap.Model
import Mathlib.Order.Basic
/-!
In-order sequences of treaps.
-/
namespace Verif.Treap

variable {K V : Type} [LinearOrder K]

/-- The elements in order. -/
def inorder : Tree K V → List (K × V)
  | .nil => []
  | .node l _ k v r => inorder l ++ (k, v) :: inorder r

/-- What lies to the left / right of a position. -/
def ctxL : Ctx K V → List (K × V)
  | [] => []
  | .fl _ _ _ _ :: c => ctxL c
  | .fr l _ k v :: c => ctxL c ++ (inorder l ++ [(k, v)])

def ctxR : Ctx K V → List (K × V)
  | [] => []
  | .fl _ k v r :: c => (k, v) :: inorder r ++ ctxR c
  | .fr _ _ _ _ :: c => ctxR c

theorem inorder_zip : ∀ (c : Ctx K V) (t : Tree K V), inorder (zip t c) = ctxL c ++ inorder t ++ ctxR c := by
  intro c
  induction c with
  | nil => intro t; simp [zip, ctxL, ctxR]
  | cons f c ih =>
    intro t
    cases f <;> simp [zip, ctxL, ctxR, ih, inorder]

theorem inorder_bubble : ∀ (c : Ctx K V) (l : Tree K V) (p : Nat) (k : K) (v : V) (r : Tree K V),
    inorder (bubble l p k v r c) = ctxL c ++ inorder l ++ (k, v) :: inorder r ++ ctxR c := by
  intro c
  induction c with
  | nil => intro l p k v r; simp [bubble, ctxL, ctxR, inorder]
  | cons f c ih =>
    intro l p k v r
    cases f with
    | fl pp pk pv pr =>
      unfold bubble
      split_ifs
      · rw [ih]; simp [ctxL, ctxR, inorder]
      · rw [inorder_zip]; simp [inorder]
    | fr pl pp pk pv =>
      unfold bubble
      split_ifs
      · rw [ih]; simp [ctxL, ctxR, inorder]
      · rw [inorder_zip]; simp [inorder]

theorem trickle_ok : ∀ (n : Nat) (l r : Tree K V) (c : Ctx K V), size l + size r ≤ n →
    ∃ c', trickle n l r c = some c' ∧ ctxL c' = ctxL c ++ inorder l ∧ ctxR c' = inorder r ++ ctxR c := by
  intro n
  induction n with
  | zero =>
    intro l r c h
    cases l with
    | nil =>
      cases r with
      | nil => exact ⟨c, by simp [trickle], by simp [inorder], by simp [inorder]⟩
      | node => simp [size] at h
    | node => simp [size] at h
  | succ n ih =>
    intro l r c h
    cases l with
    | nil =>
      cases r with
      | nil => exact ⟨c, by simp [trickle], by simp [inorder], by simp [inorder]⟩
      | node rl p k v rr =>
        unfold trickle
        simp only [size] at h
        obtain ⟨c', h1, h2, h3⟩ := ih .nil rl (.fl p k v rr :: c) (by simp only [size]; omega)
        exact ⟨c', h1, by rw [h2]; simp [ctxL, inorder], by rw [h3]; simp [ctxR, inorder]⟩
    | node ll p k v lr =>
      cases r with
      | nil =>
        unfold trickle
        simp only [size] at h
        obtain ⟨c', h1, h2, h3⟩ := ih lr .nil (.fr ll p k v :: c) (by simp only [size]; omega)
        exact ⟨c', h1, by rw [h2]; simp [ctxL, inorder], by rw [h3]; simp [ctxR, inorder]⟩
      | node rl p' k' v' rr =>
        unfold trickle
        simp only [size] at h
        split_ifs
        · obtain ⟨c', h1, h2, h3⟩ := ih lr (.node rl p' k' v' rr) (.fr ll p k v :: c) (by simp only [size]; omega)
          exact ⟨c', h1, by rw [h2]; simp [ctxL, inorder], by rw [h3]; simp [ctxR]⟩
        · obtain ⟨c', h1, h2, h3⟩ := ih (.node ll p k v lr) rl (.fl p' k' v' rr :: c) (by simp only [size]; omega)
          exact ⟨c', h1, by rw [h2]; simp [ctxL], by rw [h3]; simp [ctxR, inorder]⟩

theorem bubbleForce_ok : ∀ (c : Ctx K V) (l r : Tree K V), inorder (bubbleForce l r c).1 = ctxL c ++ inorder l ∧ inorder (bubbleForce l r c).2 = inorder r ++ ctxR c := by
  intro c
  induction c with
  | nil => intro l r; simp [bubbleForce, ctxL, ctxR]
  | cons f c ih =>
    intro l r
    cases f with
    | fl pp pk pv pr =>
      unfold bubbleForce
      rw [(ih _ _).1, (ih _ _).2]
      simp [ctxL, ctxR, inorder]
    | fr pl pp pk pv =>
      unfold bubbleForce
      rw [(ih _ _).1, (ih _ _).2]
      simp [ctxL, ctxR, inorder]

theorem nextUp_eq : ∀ c : Ctx K V, nextUp c = (ctxR c).head?.map Prod.fst := by
  intro c
  induction c with
  | nil => rfl
  | cons f c ih => cases f <;> simp [nextUp, ctxR, ih]

theorem prevUp_eq : ∀ c : Ctx K V, prevUp c = (ctxL c).getLast?.map Prod.fst := by
  intro c
  induction c with
  | nil => rfl
  | cons f c ih => cases f <;> simp [prevUp, ctxL, ih]

theorem leftmost_eq : ∀ (l : Tree K V) (k : K) (v : V) (L : List (K × V)), some (leftmost l k) = (inorder l ++ (k, v) :: L).head?.map Prod.fst := by
  intro l
  induction l with
  | nil => intro k v L; simp [leftmost, inorder]
  | node l p k' v' r ih _ =>
    intro k v L
    unfold leftmost inorder
    rw [ih k' v' (inorder r ++ (k, v) :: L)]
    simp

theorem rightmost_eq : ∀ (r : Tree K V) (k : K) (v : V) (L : List (K × V)), some (rightmost r k) = (L ++ (k, v) :: inorder r).getLast?.map Prod.fst := by
  intro r
  induction r with
  | nil => intro k v L; simp [rightmost, inorder]
  | node l p k' v' r _ ih =>
    intro k v L
    unfold rightmost inorder
    rw [ih k' v' (L ++ (k, v) :: inorder l)]
    simp

theorem begin_eq (t : Tree K V) : begin_ t = (inorder t).head?.map Prod.fst := by
  cases t with
  | nil => rfl
  | node l p k v r => exact leftmost_eq l k v (inorder r)

/-- Finding a node by its key. -/
theorem locate_some : ∀ (t : Tree K V) (c : Ctx K V) (x : K) (u : Loc K V), locate x t c = some u →
    u.k = x ∧ zip (.node u.l u.p u.k u.v u.r) u.ctx = zip t c ∧ ctxL u.ctx ++ inorder u.l ++ (x, u.v) :: inorder u.r ++ ctxR u.ctx = ctxL c ++ inorder t ++ ctxR c := by
  intro t
  induction t with
  | nil => intro c x u h; simp [locate] at h
  | node l p k v r ihl ihr =>
    intro c x u h
    unfold locate at h
    by_cases hk : k = x
    · rw [if_pos hk] at h
      cases h
      subst hk
      simp [inorder]
    · rw [if_neg hk] at h
      cases hl : locate x l (.fl p k v r :: c) with
      | some w =>
        rw [hl] at h
        simp at h
        subst h
        obtain ⟨h1, h2, h3⟩ := ihl _ _ _ hl
        exact ⟨h1, by rw [h2]; rfl, by rw [h3]; simp [ctxL, ctxR, inorder]⟩
      | none =>
        rw [hl] at h
        simp at h
        obtain ⟨h1, h2, h3⟩ := ihr _ _ _ h
        exact ⟨h1, by rw [h2]; rfl, by rw [h3]; simp [ctxL, ctxR, inorder]⟩

theorem locate_exists : ∀ (t : Tree K V) (c : Ctx K V) (x : K), x ∈ (inorder t).map Prod.fst → ∃ u, locate x t c = some u := by
  intro t
  induction t with
  | nil => intro c x h; simp [inorder] at h
  | node l p k v r ihl ihr =>
    intro c x h
    unfold locate
    by_cases hk : k = x
    · rw [if_pos hk]; exact ⟨_, rfl⟩
    · rw [if_neg hk]
      cases hl : locate x l (.fl p k v r :: c) with
      | some w => exact ⟨w, rfl⟩
      | none =>
        have h : x ∈ (inorder l).map Prod.fst ∨ x = k ∨ x ∈ (inorder r).map Prod.fst := by
          simpa [inorder] using h
        rcases h with h | h | h
        · obtain ⟨u, hu⟩ := ihl (.fl p k v r :: c) x h
          rw [hl] at hu; cases hu
        · exact absurd h.symm hk
        · obtain ⟨u, hu⟩ := ihr (.fr l p k v :: c) x h
          exact ⟨u, by simpa using hu⟩

/-! ### Sorted association lists -/

/-- Keys strictly increase. -/
def Sorted (L : List (K × V)) : Prop := L.Pairwise (fun a b => a.1 < b.1)

theorem sorted_split {A B : List (K × V)} {k : K} {v : V} (h : Sorted (A ++ (k, v) :: B)) : (∀ q ∈ A, q.1 < k) ∧ (∀ q ∈ B, k < q.1) ∧ Sorted A ∧ Sorted B := by
  unfold Sorted at h
  rw [List.pairwise_append, List.pairwise_cons] at h
  exact ⟨fun q hq => h.2.2 q hq _ List.mem_cons_self, h.2.1.1, h.1, h.2.1.2⟩

theorem filter_all {P : K × V → Bool} {L : List (K × V)} (h : ∀ q ∈ L, P q = true) : L.filter P = L := List.filter_eq_self.2 h
theorem filter_none {P : K × V → Bool} {L : List (K × V)} (h : ∀ q ∈ L, ¬ P q = true) : L.filter P = [] := List.filter_eq_nil_iff.2 h

/-- A sorted list split at a key. -/
theorem filter_lt {A B : List (K × V)} {x : K} (hA : ∀ q ∈ A, q.1 < x) (hB : ∀ q ∈ B, x ≤ q.1) : (A ++ B).filter (fun q => decide (q.1 < x)) = A := by
  rw [List.filter_append, filter_all (fun q hq => by simpa using hA q hq), filter_none (fun q hq => by simpa using hB q hq), List.append_nil]

theorem filter_ge {A B : List (K × V)} {x : K} (hA : ∀ q ∈ A, q.1 < x) (hB : ∀ q ∈ B, x ≤ q.1) : (A ++ B).filter (fun q => decide (x ≤ q.1)) = B := by
  rw [List.filter_append, filter_none (fun q hq => by simpa using hA q hq), filter_all (fun q hq => by simpa using hB q hq), List.nil_append]

theorem filter_gt {A B : List (K × V)} {x : K} (hA : ∀ q ∈ A, q.1 ≤ x) (hB : ∀ q ∈ B, x < q.1) : (A ++ B).filter (fun q => decide (x < q.1)) = B := by
  rw [List.filter_append, filter_none (fun q hq => by simpa using hA q hq), filter_all (fun q hq => by simpa using hB q hq), List.nil_append]

/-- The descent for insertion. -/
theorem descend_ok (x : K) : ∀ (t : Tree K V) (c : Ctx K V), Sorted (inorder t) → (∀ q ∈ ctxL c, q.1 < x) → (∀ q ∈ ctxR c, x < q.1) →
    (∃ v, (x, v) ∈ inorder t ∧ descend x t c = .inl x) ∨
    ∃ c', descend x t c = .inr c' ∧ ctxL c' ++ ctxR c' = ctxL c ++ inorder t ++ ctxR c ∧ (∀ q ∈ ctxL c', q.1 < x) ∧ (∀ q ∈ ctxR c', x < q.1) := by
  intro t
  induction t with
  | nil => intro c _ hL hR; exact Or.inr ⟨c, rfl, by simp [inorder], hL, hR⟩
  | node l p k v r ihl ihr =>
    intro c hs hL hR
    unfold inorder at hs
    obtain ⟨s1, s2, s3, s4⟩ := sorted_split hs
    unfold descend
    by_cases hk : x = k
    · rw [if_pos hk]
      exact Or.inl ⟨v, by simp [inorder, hk], by rw [hk]⟩
    · rw [if_neg hk]
      by_cases hlt : x < k
      · rw [if_pos hlt]
        rcases ihl (.fl p k v r :: c) s3 hL (by
          intro q hq
          simp only [ctxR, List.cons_append, List.mem_cons, List.mem_append] at hq
          rcases hq with rfl | hq | hq
          · exact hlt
          · exact hlt.trans (s2 q hq)
          · exact hR q hq) with ⟨w, h1, h2⟩ | ⟨c', h1, h2, h3, h4⟩
        · exact Or.inl ⟨w, by simp [inorder, h1], h2⟩
        · exact Or.inr ⟨c', h1, by rw [h2]; simp [ctxL, ctxR, inorder], h3, h4⟩
      · rw [if_neg hlt]
        have hgt : k < x := lt_of_le_of_ne (not_lt.1 hlt) (fun e => hk e.symm)
        rcases ihr (.fr l p k v :: c) s4 (by
          intro q hq
          simp only [ctxL, List.mem_append, List.mem_singleton] at hq
          rcases hq with hq | hq | rfl
          · exact hL q hq
          · exact (s1 q hq).trans hgt
          · exact hgt) hR with ⟨w, h1, h2⟩ | ⟨c', h1, h2, h3, h4⟩
        · exact Or.inl ⟨w, by simp [inorder, h1], h2⟩
        · exact Or.inr ⟨c', h1, by rw [h2]; simp [ctxL, ctxR, inorder], h3, h4⟩

/-! ### Searches -/

theorem find_eq (x : K) : ∀ t : Tree K V, Sorted (inorder t) → findT x t = ((inorder t).find? (fun q => decide (q.1 = x))).map Prod.fst := by
  intro t
  induction t with
  | nil => intro _; rfl
  | node l p k v r ihl ihr =>
    intro hs
    unfold inorder at hs ⊢
    obtain ⟨s1, s2, s3, s4⟩ := sorted_split hs
    unfold findT
    rw [List.find?_append, List.find?_cons]
    by_cases hk : k = x
    · rw [if_pos hk]
      subst hk
      have : (inorder l).find? (fun q => decide (q.1 = k)) = none := by
        rw [List.find?_eq_none]
        intro q hq
        simpa using ne_of_lt (s1 q hq)
      simp [this]
    · rw [if_neg hk]
      by_cases hlt : x < k
      · rw [if_pos hlt, ihl s3]
        have : (inorder r).find? (fun q => decide (q.1 = x)) = none := by
          rw [List.find?_eq_none]
          intro q hq
          simpa using (ne_of_lt (hlt.trans (s2 q hq))).symm
        simp [hk, this]
      · rw [if_neg hlt, ihr s4]
        have hgt : k < x := lt_of_le_of_ne (not_lt.1 hlt) hk
        have : (inorder l).find? (fun q => decide (q.1 = x)) = none := by
          rw [List.find?_eq_none]
          intro q hq
          simpa using ne_of_lt ((s1 q hq).trans hgt)
        simp [hk, this]

theorem lower_eq (x : K) : ∀ (t : Tree K V) (d : Iter K), Sorted (inorder t) →
    lowerT x t d = (((inorder t).find? (fun q => decide (x ≤ q.1))).map Prod.fst).or d := by
  intro t
  induction t with
  | nil => intro d _; rfl
  | node l p k v r ihl ihr =>
    intro d hs
    unfold inorder at hs ⊢
    obtain ⟨s1, s2, s3, s4⟩ := sorted_split hs
    unfold lowerT
    rw [List.find?_append, List.find?_cons]
    by_cases hk : k = x
    · rw [if_pos hk]
      subst hk
      have : (inorder l).find? (fun q => decide (k ≤ q.1)) = none := by
        rw [List.find?_eq_none]
        intro q hq
        simpa using s1 q hq
      simp [this]
    · rw [if_neg hk]
      by_cases hlt : x < k
      · rw [if_pos hlt, ihl _ s3]
        simp only [le_of_lt hlt, decide_true]
        cases (inorder l).find? (fun q => decide (x ≤ q.1)) <;> simp
      · rw [if_neg hlt, ihr _ s4]
        have hgt : k < x := lt_of_le_of_ne (not_lt.1 hlt) hk
        have : (inorder l).find? (fun q => decide (x ≤ q.1)) = none := by
          rw [List.find?_eq_none]
          intro q hq
          simpa using (s1 q hq).trans hgt
        simp [not_le.2 hgt, this]

theorem upper_eq (x : K) : ∀ (t : Tree K V) (d : Iter K), Sorted (inorder t) →
    upperT x t d = (((inorder t).find? (fun q => decide (x < q.1))).map Prod.fst).or d := by
  intro t
  induction t with
  | nil => intro d _; rfl
  | node l p k v r ihl ihr =>
    intro d hs
    unfold inorder at hs ⊢
    obtain ⟨s1, s2, s3, s4⟩ := sorted_split hs
    unfold upperT
    rw [List.find?_append, List.find?_cons]
    by_cases hlt : x < k
    · rw [if_pos hlt, ihl _ s3]
      simp only [hlt, decide_true]
      cases (inorder l).find? (fun q => decide (x < q.1)) <;> simp
    · rw [if_neg hlt, ihr _ s4]
      have : (inorder l).find? (fun q => decide (x < q.1)) = none := by
        rw [List.find?_eq_none]
        intro q hq
        simpa using le_of_lt (lt_of_lt_of_le (s1 q hq) (not_lt.1 hlt))
      simp [hlt, this]

theorem pred_eq (x : K) : ∀ (t : Tree K V) (d : Iter K), Sorted (inorder t) →
    predT x t d = (((inorder t).filter (fun q => decide (q.1 < x))).getLast?.map Prod.fst).or d := by
  intro t
  induction t with
  | nil => intro d _; rfl
  | node l p k v r ihl ihr =>
    intro d hs
    unfold inorder at hs ⊢
    obtain ⟨s1, s2, s3, s4⟩ := sorted_split hs
    unfold predT
    rw [List.filter_append, List.filter_cons]
    by_cases hlt : k < x
    · rw [if_neg (by simpa using hlt), ihr _ s4, if_pos (by simpa using hlt)]
      have : (inorder l).filter (fun q => decide (q.1 < x)) = inorder l := filter_all (fun q hq => by simpa using (s1 q hq).trans hlt)
      rw [this]
      cases h : ((inorder r).filter (fun q => decide (q.1 < x))).getLast? with
      | none =>
        rw [List.getLast?_eq_none_iff] at h
        rw [h]; simp
      | some y => simp [List.getLast?_append, List.getLast?_cons, h]
    · rw [if_pos hlt, ihl _ s3, if_neg (by simpa using hlt)]
      have : (inorder r).filter (fun q => decide (q.1 < x)) = [] := filter_none (fun q hq => by simpa using le_of_lt (lt_of_le_of_lt (not_lt.1 hlt) (s2 q hq)))
      rw [this, List.append_nil]

theorem clone_eq : ∀ t : Tree K V, clone t = t := by
  intro t
  induction t with
  | nil => rfl
  | node l p k v r ihl ihr => rw [clone, ihl, ihr]

end Verif.Treap
