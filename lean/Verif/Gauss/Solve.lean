import Verif.Gauss.Basis
/-!
`solve` and `inv`.
-/
namespace Verif.Gauss
open Verif Verif.MatrixM

variable {K : Type} [Field K] [DecidableEq K] {G G0 A B : Nat → Nat → K} {R C row w l rank : Nat} {p : Nat → Nat} {x a b : Mat K}

theorem zero_rep (R C : Nat) : Rep2 (zero R C : Mat K) R C (fun _ _ => 0) := Rep2.replicate R C 0

/-- Copying the first `n` entries of row `i`. -/
theorem copyRow_ok {W n i : Nat} {F : Nat → Nat → K} (h : Rep2 x R W F) (ha : Rep2 a R C A) (hi : i < R) (hn : n ≤ C) (hW : n ≤ W) :
    ∃ x', forRange 0 n (fun j x => (rd2 a i j).bind (fun v => wr2 x i j v)) x = some x' ∧ Rep2 x' R W (fun c d => if c = i ∧ d < n then A i d else F c d) := by
  refine forRange_inv (σ := Mat K) (fun j x' => Rep2 x' R W (fun c d => if c = i ∧ d < j then A i d else F c d)) (Nat.zero_le n) (h.congr (fun c d _ _ => by rw [if_neg (by omega)])) ?_
  intro j x' _ hj hx
  rw [ha.rd hi (by omega), Option.bind_some]
  obtain ⟨x2, e2, h2⟩ := hx.wr hi (show j < W by omega) (A i j)
  refine ⟨x2, e2, h2.congr (fun c d _ _ => ?_)⟩
  simp only [upd2]
  by_cases h1 : c = i ∧ d = j
  · rw [if_pos h1, if_pos (by omega), h1.2]
  · rw [if_neg h1]
    by_cases h2 : c = i ∧ d < j
    · rw [if_pos h2, if_pos (by omega)]
    · rw [if_neg h2, if_neg (by omega)]

theorem augmented_ok {column : Nat} (ha : Rep2 a R C A) (hb : Rep2 b R 1 B) (hr : row ≤ R) (hc : column ≤ C) :
    ∃ x F, augmented R C row column a b = some x ∧ Rep2 x R (C+1) F ∧ ∀ i < row, (∀ j < column, F i j = A i j) ∧ F i column = B i 0 := by
  unfold augmented
  have key := forRange_inv (σ := Mat K) (fun k x' => ∃ F, Rep2 x' R (C+1) F ∧ ∀ i < k, (∀ j < column, F i j = A i j) ∧ F i column = B i 0)
    (body := fun i x => (forRange 0 column (fun j x => (rd2 a i j).bind (fun v => wr2 x i j v)) x).bind (fun x => (rd2 b i 0).bind (fun v => wr2 x i column v)))
    (Nat.zero_le row) (s := zero R (C+1)) ⟨_, zero_rep R (C+1), fun i hi => by omega⟩ ?_
  · obtain ⟨x, e, F, h1, h2⟩ := key
    exact ⟨x, F, e, h1, h2⟩
  · rintro i x' _ hi ⟨F, h1, h2⟩
    obtain ⟨x2, e2, h3⟩ := copyRow_ok h1 ha (show i < R by omega) hc (show column ≤ C + 1 by omega)
    rw [e2, Option.bind_some, hb.rd (by omega) (by omega), Option.bind_some]
    obtain ⟨x3, e3, h4⟩ := h3.wr (show i < R by omega) (show column < C + 1 by omega) (B i 0)
    refine ⟨x3, e3, _, h4, fun k hk => ?_⟩
    rcases Nat.lt_succ_iff_lt_or_eq.1 hk with hk' | rfl
    · refine ⟨fun j hj => ?_, ?_⟩
      · rw [upd2_ne _ _ (by omega), if_neg (by omega)]; exact (h2 k hk').1 j hj
      · rw [upd2_ne _ _ (by omega), if_neg (by omega)]; exact (h2 k hk').2
    · refine ⟨fun j hj => ?_, upd2_same ..⟩
      rw [upd2_ne _ _ (by omega), if_pos ⟨rfl, hj⟩]

theorem bad_ok {W column : Nat} {F : Nat → Nat → K} (h : Rep2 x R W F) (hc : column < W) : ∀ (f i : Nat), i + f ≤ R →
    ∃ r, bad x column f i = some r ∧ (r = true → ∃ k, i ≤ k ∧ k < i + f ∧ F k column ≠ 0) ∧ (r = false → ∀ k, i ≤ k → k < i + f → F k column = 0) := by
  intro f
  induction f with
  | zero => intro i _; exact ⟨false, rfl, (fun h => by cases h), fun _ k h1 h2 => by omega⟩
  | succ f ih =>
    intro i hi
    rw [bad, h.rd (by omega) hc, Option.bind_some]
    by_cases hv : F i column = 0
    · rw [if_neg (fun e => e hv)]
      obtain ⟨r, e, h1, h2⟩ := ih (i+1) (by omega)
      refine ⟨r, e, fun hr => ?_, fun hr k hk1 hk2 => ?_⟩
      · obtain ⟨k, hk1, hk2, hk3⟩ := h1 hr
        exact ⟨k, by omega, by omega, hk3⟩
      · by_cases hki : k = i
        · subst hki; exact hv
        · exact h2 hr k (by omega) (by omega)
    · rw [if_pos hv]
      exact ⟨true, rfl, fun _ => ⟨i, le_refl _, by omega, hv⟩, fun h => by cases h⟩

/-- What is known while the answer is filled in: the columns below `hi` are done, `t` of them are free. -/
structure BI (R C l rank : Nat) (p : Nat → Nat) (G : Nat → Nat → K) (hi t : Nat) (fr : Nat → Nat) (F : Nat → Nat → K) (res : Mat K) : Prop where
  rep : Rep2 res (R+1) C F
  en : Enum l rank p hi t fr
  vp : ∀ t' < t, VP l rank p G (fr t') (F (t'+1))
  z : ∀ t', t ≤ t' → ∀ q, F (t'+1) q = 0
  s1 : ∀ k < rank, F 0 (p k) = G k l
  s2 : ∀ c < l, Free rank p c → F 0 c = 0

variable {hi t : Nat} {fr : Nat → Nat} {F : Nat → Nat → K} {res : Mat K}

/-- The next free column. -/
theorem BI.next (I : BI R C l rank p G hi t fr F res) (hf : Free rank p hi) (hl : hi < l) {F' : Nat → Nat → K} {res' : Mat K} (h : Rep2 res' (R+1) C F') (ho : ∀ a, a ≠ t + 1 → F' a = F a) (hv : VP l rank p G hi (F' (t+1))) :
    BI R C l rank p G (hi+1) (t+1) (upd fr t hi) F' res' := by
  have fe : ∀ t' < t, upd fr t hi t' = fr t' := fun t' h => upd_ne _ _ (by omega)
  refine ⟨h, ⟨?_, ?_, ?_⟩, ?_, ?_, ?_, ?_⟩
  · intro t' ht'
    rcases Nat.lt_succ_iff_lt_or_eq.1 ht' with h' | rfl
    · rw [fe t' h']; exact ⟨Nat.lt_succ_of_lt (I.en.lt t' h').1, (I.en.lt t' h').2⟩
    · rw [upd_same]; exact ⟨Nat.lt_succ_self _, hf⟩
  · intro a ha b hb e
    rcases Nat.lt_succ_iff_lt_or_eq.1 ha with ha' | rfl <;> rcases Nat.lt_succ_iff_lt_or_eq.1 hb with hb' | rfl
    · rw [fe a ha', fe b hb'] at e; exact I.en.inj a ha' b hb' e
    · rw [fe a ha', upd_same] at e; have := (I.en.lt a ha').1; omega
    · rw [fe b hb', upd_same] at e; have := (I.en.lt b hb').1; omega
    · rfl
  · intro c hc hcf
    rcases Nat.lt_succ_iff_lt_or_eq.1 hc with hc' | rfl
    · obtain ⟨t', h1, h2⟩ := I.en.surj c hc' hcf
      exact ⟨t', by omega, by rw [fe t' h1]; exact h2⟩
    · exact ⟨t, by omega, upd_same ..⟩
  · intro t' ht'
    rcases Nat.lt_succ_iff_lt_or_eq.1 ht' with h' | rfl
    · rw [fe t' h', ho _ (by omega)]; exact I.vp t' h'
    · rw [upd_same]; exact hv
  · intro t' ht' q
    rw [ho _ (by omega)]; exact I.z t' (by omega) q
  · intro k hk; rw [ho 0 (by omega)]; exact I.s1 k hk
  · intro c hc hcf; rw [ho 0 (by omega)]; exact I.s2 c hc hcf

/-- A pivot column. -/
theorem BI.pass (I : BI R C l rank p G hi t fr F res) (hf : ¬ Free rank p hi) : BI R C l rank p G (hi+1) t fr F res := by
  refine ⟨I.rep, ⟨fun t' h => ⟨Nat.lt_succ_of_lt (I.en.lt t' h).1, (I.en.lt t' h).2⟩, I.en.inj, fun c hc hcf => ?_⟩, I.vp, I.z, I.s1, I.s2⟩
  rcases Nat.lt_succ_iff_lt_or_eq.1 hc with hc' | rfl
  · exact I.en.surj c hc' hcf
  · exact absurd hcf hf

/-- Pivot positions, followed by `l`. -/
def pe (l rank : Nat) (p : Nat → Nat) (k : Nat) : Nat := if k < rank then p k else l

theorem pe_room {W : Nat} (I : RI row W l rank p G0 G) {k : Nat} (hk : k ≤ rank) : pe l rank p k + (rank - k) ≤ l ∧ k ≤ pe l rank p k := by
  have down : ∀ d, d ≤ rank → pe l rank p (rank - d) + d ≤ l := by
    intro d
    induction d with
    | zero => intro _; unfold pe; rw [if_neg (by omega)]; omega
    | succ d ih =>
      intro hd
      have h1 := ih (by omega)
      have : pe l rank p (rank - (d+1)) < pe l rank p (rank - d) := by
        unfold pe
        rw [if_pos (by omega)]
        by_cases h : rank - d < rank
        · rw [if_pos h]; exact I.mono _ _ (by omega) h
        · rw [if_neg h]; exact I.lt _ (by omega)
      omega
  have up : ∀ k, k ≤ rank → k ≤ pe l rank p k := by
    intro k
    induction k with
    | zero => intro _; omega
    | succ k ih =>
      intro hk
      have h1 := ih (by omega)
      have : pe l rank p k < pe l rank p (k+1) := by
        unfold pe
        rw [if_pos (by omega)]
        by_cases h : k + 1 < rank
        · rw [if_pos h]; exact I.mono _ _ (by omega) h
        · rw [if_neg h]; exact I.lt _ (by omega)
      omega
  refine ⟨?_, up k hk⟩
  have := down (rank - k) (by omega)
  rwa [show rank - (rank - k) = k by omega] at this

theorem free_between {W : Nat} (I : RI row W l rank p G0 G) {i c : Nat} (hi : i < rank) (h1 : p i < c) (h2 : c < pe l rank p (i+1)) : Free rank p c := by
  intro k hk e
  rcases Nat.lt_trichotomy k i with h | h | h
  · have := I.mono k i h hi; omega
  · subst h; omega
  · unfold pe at h2
    rw [if_pos (by omega)] at h2
    rcases Nat.eq_or_lt_of_le (show i + 1 ≤ k from h) with h' | h'
    · subst h'; omega
    · have := I.mono (i+1) k h' hk; omega

theorem basisVec_ok {W : Nat} (I : RI row W l rank p G0 G) (hW : l ≤ W) {Wx : Nat} (hWx : l ≤ Wx) (hx : Rep2 x R Wx G) {col : List Nat} (hcol : Rep col (row+1) (pe l rank p)) (hrow : row ≤ R) (hC : l ≤ C) {i c : Nat} (hi : i < rank) (h1 : p i < c) (h2 : c < pe l rank p (i+1)) (hcl : c < l)
    (J : BI R C l rank p G c t fr F res) (ht : t < R) :
    ∃ res' fr' F', basisVec x col i c (res, t) = some (res', t+1) ∧ BI R C l rank p G (c+1) (t+1) fr' F' res' := by
  have hf := free_between I hi h1 h2
  have hler := I.ler
  unfold basisVec
  dsimp only
  have key := forRange_inv (σ := Mat K) (fun j r => ∃ F', Rep2 r (R+1) C F' ∧ (∀ a, a ≠ t + 1 → F' a = F a) ∧ (∀ k < j, F' (t+1) (p k) = - G k c) ∧ ∀ q, (∀ k < j, p k ≠ q) → F' (t+1) q = 0)
    (body := fun j res => (col[j]?).bind (fun q => (rd2 x j c).bind (fun v => wr2 res (t+1) q (-v)))) (Nat.zero_le (i+1)) (s := res)
    ⟨F, J.rep, fun _ _ => rfl, fun k hk => by omega, fun q _ => J.z t (le_refl _) q⟩ ?_
  · obtain ⟨r, e, F1, k1, k2, k3, k4⟩ := key
    rw [e, Option.bind_some]
    obtain ⟨r2, e2, k5⟩ := k1.wr (show t + 1 < R + 1 by omega) (show c < C by omega) 1
    rw [e2]
    refine ⟨r2, upd fr t c, _, rfl, J.next hf hcl k5 ?_ ⟨upd2_same .., ?_, ?_⟩⟩
    · intro a ha
      funext q
      rw [upd2_ne _ _ (by omega), k2 a ha]
    · intro k hk
      rw [upd2_ne _ _ (fun e => hf k hk e.2)]
      by_cases hki : k < i + 1
      · exact k3 k hki
      · have hck : c < p k := by
          rcases Nat.eq_or_lt_of_le (show i + 1 ≤ k by omega) with h | h
          · rw [← h]; unfold pe at h2; rwa [if_pos (by omega)] at h2
          · have := I.mono (i+1) k h hk
            unfold pe at h2; rw [if_pos (by omega)] at h2; omega
        rw [I.left k hk c hck, neg_zero]
        exact k4 _ (fun k' hk' e => hki (by have := I.inj (by omega) hk e; omega))
    · intro q _ hq hne
      rw [upd2_ne _ _ (fun e => hne e.2)]
      exact k4 q (fun k hk => hq k (by omega))
  · rintro j r _ hj ⟨F1, k1, k2, k3, k4⟩
    have hjr : j < rank := by omega
    rw [hcol.val j (by omega), Option.bind_some, hx.rd (by omega) (by omega), Option.bind_some]
    have hpj : pe l rank p j = p j := by unfold pe; rw [if_pos hjr]
    rw [hpj]
    have := I.lt j hjr
    obtain ⟨r2, e2, k5⟩ := k1.wr (show t + 1 < R + 1 by omega) (show p j < C by omega) (- G j c)
    refine ⟨r2, e2, _, k5, ?_, ?_, ?_⟩
    · intro a ha
      funext q
      rw [upd2_ne _ _ (by omega), k2 a ha]
    · intro k hk
      rcases Nat.lt_succ_iff_lt_or_eq.1 hk with hk' | rfl
      · rw [upd2_ne _ _ (fun e => by have := I.inj (by omega) hjr e.2; omega)]; exact k3 k hk'
      · exact upd2_same ..
    · intro q hq
      rw [upd2_ne _ _ (fun e => hq j (by omega) e.2.symm)]
      exact k4 q (fun k hk => hq k (by omega))

theorem answer_ok {W : Nat} (I : RI row W l rank p G0 G) (hW : l < W) {Wx : Nat} (hWx : l < Wx) (hx : Rep2 x R Wx G) {col : List Nat} (hcol : Rep col (row+1) (pe l rank p)) (hrow : row ≤ R) (hC : l ≤ C) (hR : l - rank ≤ R) :
    ∃ res fr F, answer R C l rank x col = some res ∧ BI R C l rank p G l (l - rank) fr F res := by
  have hler := I.ler
  have hle := I.le
  unfold answer
  -- the particular solution
  have s1 := forRange_inv (σ := Mat K) (fun j r => ∃ F, Rep2 r (R+1) C F ∧ (∀ k < j, F 0 (p k) = G k l) ∧ (∀ q, (∀ k < j, p k ≠ q) → F 0 q = 0) ∧ ∀ t q, F (t+1) q = 0)
    (body := fun i res => (col[i]?).bind (fun q => (rd2 x i l).bind (fun v => wr2 res 0 q v))) (Nat.zero_le rank) (s := (zero (R+1) C : Mat K))
    ⟨_, zero_rep (R+1) C, fun k hk => by omega, fun _ _ => rfl, fun _ _ => rfl⟩ ?_
  · obtain ⟨r0, e0, F0, a1, a2, a3, a4⟩ := s1
    rw [e0, Option.bind_some]
    obtain ⟨col', ec, hcol'⟩ := hcol.wr (show rank < row + 1 by omega) l
    have hcol'' : Rep col' (row+1) (pe l rank p) := hcol'.congr (fun k _ => by
      by_cases hk : k = rank
      · subst hk; rw [upd_same]; unfold pe; rw [if_neg (lt_irrefl _)]
      · rw [upd_ne _ _ hk])
    rw [ec, Option.bind_some, hcol''.val 0 (by omega), Option.bind_some]
    have hr0 := pe_room I (Nat.zero_le rank)
    -- free columns before the first pivot
    have s2 := forRange_inv (σ := Mat K) (fun c r => ∃ fr F, BI R C l rank p G c c fr F r) (body := fun t res => wr2 res (t+1) t 1) (Nat.zero_le (pe l rank p 0)) (s := r0)
      ⟨fun _ => 0, F0, a1, ⟨fun t ht => by omega, fun a ha => by omega, fun c hc => by omega⟩, fun t ht => by omega, fun t _ q => a4 t q, a2, fun c _ hf => a3 c hf⟩ ?_
    · obtain ⟨r1, e1, fr1, F1, J1⟩ := s2
      rw [e1, Option.bind_some]
      -- the gaps after the pivots
      have s3 := forRange_inv (σ := Mat K × Nat) (fun i s => s.2 = pe l rank p i - i ∧ ∃ fr F, BI R C l rank p G (pe l rank p i) s.2 fr F s.1)
        (body := fun i s => (col'[i]?).bind (fun lo => (col'[i+1]?).bind (fun hi => forRange (lo+1) hi (basisVec x col' i) s))) (Nat.zero_le rank) (s := (r1, pe l rank p 0))
        ⟨by simp, fr1, F1, J1⟩ ?_
      · obtain ⟨⟨r2, t2⟩, e2, h2, fr2, F2, J2⟩ := s3
        rw [e2, Option.bind_some]
        have : pe l rank p rank = l := by unfold pe; rw [if_neg (lt_irrefl _)]
        rw [this] at h2 J2
        dsimp only at h2 J2
        subst h2
        rw [if_pos (by rfl)]
        exact ⟨r2, fr2, F2, rfl, J2⟩
      · rintro i ⟨r, t⟩ _ hi ⟨ht, fr, F, J⟩
        dsimp only at ht J
        rw [hcol''.val i (by omega), Option.bind_some, hcol''.val (i+1) (by omega), Option.bind_some]
        have hpi : pe l rank p i = p i := by unfold pe; rw [if_pos hi]
        have hri := pe_room I (show i ≤ rank by omega)
        have hri1 := pe_room I (show i + 1 ≤ rank by omega)
        have hlt : p i < pe l rank p (i+1) := by
          unfold pe
          by_cases h : i + 1 < rank
          · rw [if_pos h]; exact I.mono _ _ (by omega) h
          · rw [if_neg h]; exact I.lt _ hi
        rw [hpi] at J ht hri
        rw [hpi]
        have J' := J.pass (fun hf => hf i hi rfl)
        have s4 := forRange_inv (σ := Mat K × Nat) (fun c s => s.2 = c - (i+1) ∧ ∃ fr F, BI R C l rank p G c s.2 fr F s.1) (body := basisVec x col' i) (show p i + 1 ≤ pe l rank p (i+1) from hlt) (s := (r, t))
          ⟨by dsimp only; omega, fr, F, J'⟩ ?_
        · exact s4
        · rintro c ⟨r', t'⟩ hc1 hc2 ⟨ht', fr', F', J2⟩
          dsimp only at ht' J2
          obtain ⟨r3, fr3, F3, e3, J3⟩ := basisVec_ok I (by omega) (by omega) hx hcol'' hrow hC hi (show p i < c by omega) hc2 (by omega) J2 (by omega)
          exact ⟨(r3, t'+1), e3, by dsimp only; omega, fr3, F3, J3⟩
    · rintro c r _ hc ⟨fr, F, J⟩
      have hcl : c < l := by omega
      obtain ⟨r2, e2, k2⟩ := J.rep.wr (show c + 1 < R + 1 by omega) (show c < C by omega) 1
      have hck : ∀ k < rank, c < p k := by
        intro k hk
        have h0 : pe l rank p 0 = p 0 := by unfold pe; rw [if_pos (by omega)]
        rw [h0] at hc
        rcases Nat.eq_zero_or_pos k with rfl | hk0
        · exact hc
        · exact lt_trans hc (I.mono 0 k hk0 hk)
      refine ⟨r2, e2, _, _, J.next (fun k hk e => by have := hck k hk; omega) hcl k2 ?_ ⟨upd2_same .., ?_, ?_⟩⟩
      · intro a ha
        funext q
        rw [upd2_ne _ _ (by omega)]
      · intro k hk
        have := hck k hk
        rw [upd2_ne _ _ (by omega), J.z c (le_refl _), I.left k hk c this, neg_zero]
      · intro q _ _ hne
        rw [upd2_ne _ _ (by omega), J.z c (le_refl _)]
  · rintro j r _ hj ⟨F1, k1, k2, k3, k4⟩
    rw [hcol.val j (by omega), Option.bind_some, hx.rd (by omega) (by omega), Option.bind_some]
    have hpj : pe l rank p j = p j := by unfold pe; rw [if_pos hj]
    rw [hpj]
    have := I.lt j hj
    obtain ⟨r2, e2, k5⟩ := k1.wr (show 0 < R + 1 by omega) (show p j < C by omega) (G j l)
    refine ⟨r2, e2, _, k5, ?_, ?_, ?_⟩
    · intro k hk
      rcases Nat.lt_succ_iff_lt_or_eq.1 hk with hk' | rfl
      · rw [upd2_ne _ _ (fun e => by have := I.inj (by omega) hj e.2; omega)]; exact k2 k hk'
      · exact upd2_same ..
    · intro q hq
      rw [upd2_ne _ _ (fun e => hq j (by omega) e.2.symm)]
      exact k3 q (fun k hk => hq k (by omega))
    · intro t q
      rw [upd2_ne _ _ (by omega)]
      exact k4 t q

/-- `solve`. -/
theorem solve_ok (ha : Rep2 a R C A) (hb : Rep2 b R 1 B) (hr : row ≤ R) (hc : l ≤ C) (hR : ∀ k V, IsBasis row l A k V → k ≤ R) :
    ∃ k res ok F, solve R C a b row l = some (k, res, ok) ∧ Rep2 res (R+1) C F ∧
      (ok = true → IsSol row l A (fun i => B i 0) (F 0) ∧ IsBasis row l A k (fun t => F (t+1))) ∧
      (ok = false → (∀ y, ¬ IsSol row l A (fun i => B i 0) y) ∧ ∃ V, IsBasis row l A k V) := by
  obtain ⟨x, F0, e1, h1, h2⟩ := augmented_ok ha hb hr hc
  obtain ⟨x', rank, p, G, q, e2, hq, h3, I, P⟩ := gauss_ok (l := l) (r := 1) hr (show l + 1 ≤ C + 1 by omega) h1 (some []) (Or.inr rfl)
  obtain ⟨col, rfl⟩ : ∃ col, q = some col := by
    cases q with
    | none => cases hq
    | some c => exact ⟨c, rfl⟩
  have hkA : ∀ y, Ker row l F0 y ↔ Ker row l A y := fun y => Ker.congr (fun i hi j hj => (h2 i hi).1 j hj)
  have hsA : ∀ y, IsSol row l F0 (fun i => F0 i l) y ↔ IsSol row l A (fun i => B i 0) y := by
    intro y
    refine forall_congr' fun i => forall_congr' fun hi => ?_
    show _ = F0 i l ↔ _ = B i 0
    rw [Finset.sum_congr rfl (fun j hj => by rw [(h2 i hi).1 j (Finset.mem_range.1 hj)]), (h2 i hi).2]
  have hker : ∀ y, Ker row l G y ↔ Ker row l A y := fun y => (I.ker_iff y).trans (hkA y)
  have hsol : ∀ y, IsSol row l G (fun i => G i l) y ↔ IsSol row l A (fun i => B i 0) y := fun y => (I.sol_iff y).trans (hsA y)
  obtain ⟨V, hV⟩ := basis_ex I
  have hVA := hV.of_iff hker
  have hkR := hR _ _ hVA
  have hler := I.ler
  obtain ⟨no, e3, b1, b2⟩ := bad_ok h3 (show l < C + 1 by omega) (row - rank) rank (by omega)
  unfold solve
  rw [e1, Option.bind_some, e2, Option.bind_some]
  dsimp only
  rw [e3, Option.bind_some]
  cases no with
  | true =>
    obtain ⟨i, hi1, hi2, hi3⟩ := b1 rfl
    rw [if_pos rfl]
    refine ⟨_, _, _, _, rfl, zero_rep (R+1) C, (fun h => by cases h), fun _ => ⟨fun y hy => no_sol I hi1 (by omega) hi3 ((hsol y).2 hy), V, hVA⟩⟩
  | false =>
    obtain ⟨res, fr, F, e4, J⟩ := answer_ok I (by omega) (show l < C + 1 by omega) h3 (P col rfl) hr hc hkR
    rw [if_neg (by simp), Option.bind_some, e4]
    refine ⟨_, _, _, F, rfl, J.rep, fun _ => ⟨(hsol _).1 (sol_of I J.s1 J.s2 (fun i hi1 hi2 => b2 rfl i hi1 (by omega))), (basis_of I J.en J.vp).of_iff hker⟩, (fun h => by cases h)⟩

end Verif.Gauss
