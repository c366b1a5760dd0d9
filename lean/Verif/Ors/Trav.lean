import Verif.Ors.Levels
/-! The traversal in `sum`. -/
namespace Verif.Ors
open Verif Verif.Succinct Verif.Wavelet

variable {W : Type}

theorem tie_eq {w : WM} {S : List Nat} (ok : Wavelet.Ok w S) (hne : S ≠ []) {t : Nat} (ht : t < w.h) {A M C : List Nat} (e : lev w.h S t = A ++ M ++ C) (b : Bool) :
    w.tie t (S.length * t + A.length) (S.length * t + A.length + M.length) b =
      some (S.length * (t + 1) + off w.h S t b + (A.filter (hb (w.h - 1 - t) b)).length,
        S.length * (t + 1) + off w.h S t b + (A.filter (hb (w.h - 1 - t) b)).length + (M.filter (hb (w.h - 1 - t) b)).length) := by
  have hlen := lev_length w.h S t
  rw [e, List.length_append, List.length_append] at hlen
  have h1 := ok.child hne ht (i := A.length) (by omega) b
  have h2 := ok.child hne ht (i := A.length + M.length) (by omega) b
  rw [e, List.append_assoc, List.take_append_of_le_length (Nat.le_refl _), List.take_length] at h1
  rw [e, List.take_append_of_le_length (by rw [List.length_append]), ← List.length_append, List.take_length, List.filter_append, List.length_append, List.length_append] at h2
  unfold WM.tie
  rw [← Nat.add_assoc (S.length * t)] at h2
  rw [h1, Option.bind_some, h2, Nat.add_assoc (_ + _) _ (List.length _)]; rfl

/-- The range `[l, r)` is the part `M` of level `t`. -/
def SgP (w : WM) (SW : List (Nat × W)) (t l r : Nat) (M : List (Nat × W)) : Prop :=
  ∃ A C, levP w.h SW t = A ++ M ++ C ∧ l = SW.length * t + A.length ∧ r = l + M.length

/-- What comes before a part of the next level. -/
def preB (k : Nat) (b : Bool) (A M C : List (Nat × W)) : List (Nat × W) :=
  if b then (A ++ M ++ C).filter (hp k false) ++ A.filter (hp k true) else A.filter (hp k false)

def postB (k : Nat) (b : Bool) (A M C : List (Nat × W)) : List (Nat × W) :=
  if b then C.filter (hp k true) else C.filter (hp k false) ++ (A ++ M ++ C).filter (hp k true)

theorem lev_next {h t : Nat} {SW A M C : List (Nat × W)} (e : levP h SW t = A ++ M ++ C) (b : Bool) :
    levP h SW (t+1) = preB (h - 1 - t) b A M C ++ M.filter (hp (h - 1 - t) b) ++ postB (h - 1 - t) b A M C := by
  rw [levP, e]
  cases b <;> simp [preB, postB, List.filter_append]

theorem pre_len {h t : Nat} {SW A M C : List (Nat × W)} (e : levP h SW t = A ++ M ++ C) (b : Bool) :
    (preB (h - 1 - t) b A M C).length = off h (SW.map (·.1)) t b + (A.filter (hp (h - 1 - t) b)).length := by
  unfold preB off zc
  rw [← levP_fst, ← map_hp, List.length_map, e]
  cases b
  · simp
  · simp only [if_true, List.filter_append, List.length_append]

theorem len_hp (k : Nat) (b : Bool) (L : List (Nat × W)) : ((L.map (·.1)).filter (hb k b)).length = (L.filter (hp k b)).length := by
  rw [← map_hp, List.length_map]

theorem tieP {w : WM} {SW : List (Nat × W)} (ok : Wavelet.Ok w (SW.map (·.1))) (hne : SW ≠ []) {t : Nat} (ht : t < w.h) {A M C : List (Nat × W)} (e : levP w.h SW t = A ++ M ++ C) (b : Bool) :
    w.tie t (SW.length * t + A.length) (SW.length * t + A.length + M.length) b =
      some (SW.length * (t + 1) + (preB (w.h - 1 - t) b A M C).length, SW.length * (t + 1) + (preB (w.h - 1 - t) b A M C).length + (M.filter (hp (w.h - 1 - t) b)).length) := by
  have e2 : lev w.h (SW.map (·.1)) t = A.map (·.1) ++ M.map (·.1) ++ C.map (·.1) := by rw [← levP_fst, e]; simp
  have := tie_eq ok (by simpa using hne) ht e2 b
  rw [len_hp, len_hp, List.length_map, List.length_map, List.length_map] at this
  rw [this, pre_len e, Nat.add_assoc (SW.length * (t+1))]

theorem SgP.next {w : WM} {SW : List (Nat × W)} (ok : Wavelet.Ok w (SW.map (·.1))) (hne : SW ≠ []) {t l r : Nat} {M : List (Nat × W)} (ht : t < w.h) (hs : SgP w SW t l r M) (b : Bool) :
    ∃ l' r', w.tie t l r b = some (l', r') ∧ SgP w SW (t + 1) l' r' (M.filter (hp (w.h - 1 - t) b)) := by
  obtain ⟨A, C, e, rfl, rfl⟩ := hs
  exact ⟨_, _, tieP ok hne ht e b, _, _, lev_next e b, rfl, rfl⟩

theorem SgP.level {w : WM} {SW : List (Nat × W)} (ok : Wavelet.Ok w (SW.map (·.1))) {t l r : Nat} {M : List (Nat × W)} (h : SgP w SW t l r M) (hM : M ≠ []) : l / w.n = t := by
  obtain ⟨A, C, e, rfl, _⟩ := h
  have hlen := levP_length w.h SW t
  rw [e, List.length_append, List.length_append] at hlen
  have := List.length_pos_iff.2 hM
  rw [ok.n, List.length_map, Nat.mul_add_div (by omega), Nat.div_eq_of_lt (by omega), Nat.add_zero]

theorem rangeSum_ok [AddCommMonoid W] {w : WM} {SW : List (Nat × W)} {t l r : Nat} {M : List (Nat × W)} (ht : t ≤ w.h) (h : SgP w SW t l r M) :
    rangeSum (allW w.h SW (w.h + 1)) l r = some (M.map (·.2)).sum := by
  obtain ⟨A, C, e, rfl, rfl⟩ := h
  obtain ⟨R, eR⟩ := allW_split w.h SW t (w.h + 1) (by omega)
  have hl := allW_length w.h SW t
  rw [e] at eR
  unfold rangeSum
  rw [eR, ← hl, if_pos ⟨by omega, by simp; omega⟩]
  congr 2
  have e1 : (allW w.h SW t ++ (A ++ M ++ C).map (·.2) ++ R) = (allW w.h SW t ++ A.map (·.2)) ++ (M.map (·.2) ++ (C.map (·.2) ++ R)) := by simp
  rw [e1, show (allW w.h SW t).length + A.length = (allW w.h SW t ++ A.map (·.2)).length by simp, List.drop_left,
    show (allW w.h SW t ++ A.map (·.2)).length + M.length - (allW w.h SW t ++ A.map (·.2)).length = (M.map (·.2)).length by simp, List.take_left]

/-- A queue item with the elements below it. -/
structure G (w : WM) (SW : List (Nat × W)) (q : Nat × Nat × Nat) (V : List (Nat × W)) : Prop where
  clt : q.2.2 < 2^w.h
  ne : V ≠ [] → q.1 / w.n ≤ w.h ∧ SgP w SW (q.1 / w.n) q.1 q.2.1 V ∧ q.2.2 % 2^(w.h - q.1 / w.n) = 0 ∧ ∀ p ∈ V, hi (w.h - q.1 / w.n) q.2.2 p.1 = true
  em : V = [] → q.1 = q.2.1 ∧ q.1 ≤ w.n * (w.h + 1)

theorem off_le (h : Nat) (S : List Nat) (t : Nat) (b : Bool) (i : Nat) : off h S t b + (((lev h S t).take i).filter (hb (h - 1 - t) b)).length ≤ S.length := by
  have h1 := filter_split_length (h - 1 - t) (lev h S t)
  rw [lev_length] at h1
  have h2 : (((lev h S t).take i).filter (hb (h - 1 - t) b)).length ≤ ((lev h S t).filter (hb (h - 1 - t) b)).length := ((List.take_sublist _ _).filter _).length_le
  cases b
  · show 0 + _ ≤ _
    omega
  · show zc h S t + _ ≤ _
    unfold zc
    omega

theorem G.child {w : WM} {SW : List (Nat × W)} (ok : Wavelet.Ok w (SW.map (·.1))) (hne : SW ≠ []) {l r c : Nat} {V : List (Nat × W)} (h : G w SW (l, r, c) V) (hlv : l / w.n < w.h) (b : Bool) :
    ∃ p, w.tie (l / w.n) l r b = some p ∧ G w SW (p.1, p.2, if b then c ||| 2^(w.h - 1 - l / w.n) else c) (V.filter (hp (w.h - 1 - l / w.n) b)) ∧ l / w.n + 1 ≤ p.1 / w.n := by
  have hn : w.n = SW.length := by rw [ok.n, List.length_map]
  have hpos : 0 < w.n := by rw [hn]; exact List.length_pos_iff.2 hne
  have hclt : (if b then c ||| 2^(w.h - 1 - l / w.n) else c) < 2^w.h := by
    cases b
    · exact h.clt
    · exact Nat.or_lt_two_pow h.clt (Nat.pow_lt_pow_right (by omega) (by generalize l / w.n = z at hlv; omega))
  have emp : ∀ x, SW.length * (l / w.n + 1) ≤ x → x ≤ SW.length * (l / w.n + 2) → l / w.n + 1 ≤ x / w.n ∧ x ≤ w.n * (w.h + 1) := by
    intro x h1 h2
    refine ⟨(Nat.le_div_iff_mul_le hpos).2 (by rw [hn, Nat.mul_comm]; rw [hn] at h1; exact h1), ?_⟩
    have : SW.length * (l / w.n + 2) ≤ SW.length * (w.h + 1) := Nat.mul_le_mul_left _ (by omega)
    rw [hn] at this ⊢
    rw [hn] at h2
    omega
  by_cases cV : V = []
  · obtain ⟨e, _⟩ := h.em cV
    have e : l = r := e
    subst e
    have hch := ok.child (by simpa using hne) hlv (i := l % w.n) (by rw [List.length_map, ← hn]; exact Nat.le_of_lt (Nat.mod_lt _ hpos)) b
    rw [List.length_map, ← hn, Nat.div_add_mod] at hch
    have ho := off_le w.h (SW.map (·.1)) (l / w.n) b (l % w.n)
    rw [List.length_map] at ho
    refine ⟨_, by rw [WM.tie, hch, Option.bind_some, Option.map_some], ⟨hclt, fun hv => absurd (by rw [cV]; rfl) hv, fun _ => ⟨rfl, ?_⟩⟩, ?_⟩
    · exact (emp _ (by rw [← hn]; show w.n * _ ≤ w.n * _ + _ + _; omega) (by
        rw [← hn] at ho ⊢
        show w.n * _ + _ + _ ≤ _
        rw [Nat.mul_add, Nat.mul_add]; omega)).2
    · exact (emp _ (by rw [← hn]; show w.n * _ ≤ w.n * _ + _ + _; omega) (by
        rw [← hn] at ho ⊢
        show w.n * _ + _ + _ ≤ _
        rw [Nat.mul_add, Nat.mul_add]; omega)).1
  · obtain ⟨_, hs, hc0, hhi⟩ := h.ne cV
    have hs : SgP w SW (l / w.n) l r V := hs
    obtain ⟨l', r', e, h'⟩ := hs.next ok hne hlv b
    have hc0 : c % 2^(w.h - 1 - l / w.n + 1) = 0 := by
      rwa [show w.h - l / w.n = w.h - 1 - l / w.n + 1 by omega] at hc0
    obtain ⟨e1, e2, e3⟩ := ext_bit hc0 b
    refine ⟨(l', r'), e, ⟨hclt, fun hv => ?_, fun hv => ?_⟩, ?_⟩
    · have hl := h'.level ok hv
      dsimp only
      rw [hl]
      refine ⟨hlv, h', ?_, fun p hp => ?_⟩
      · rw [show w.h - (l / w.n + 1) = w.h - 1 - l / w.n by omega]; exact e1
      · obtain ⟨p1, p2⟩ := List.mem_filter.1 hp
        have h3 := hhi p p1
        dsimp only at h3
        rw [show w.h - l / w.n = w.h - 1 - l / w.n + 1 by omega, hi_congr e3.symm] at h3
        rw [show w.h - (l / w.n + 1) = w.h - 1 - l / w.n by omega, hi_succ, h3, e2, Bool.true_and]
        exact p2
    · obtain ⟨A, C, e4, e5, e6⟩ := h'
      have e7 := levP_length w.h SW (l / w.n + 1)
      rw [e4, hv] at e7
      rw [hv] at e6
      simp only [List.length_append, List.length_nil] at e6 e7
      refine ⟨e6.symm, (emp l' (by omega) ?_).2⟩
      rw [Nat.mul_add] at e5 ⊢
      omega
    · obtain ⟨A, C, e4, e5, e6⟩ := h'
      have e7 := levP_length w.h SW (l / w.n + 1)
      rw [e4] at e7
      simp only [List.length_append] at e7
      refine (emp l' (by omega) ?_).1
      rw [Nat.mul_add] at e5 ⊢
      omega

/-- The part of the sum below an item. -/
def con [AddCommMonoid W] (a b : Int) (V : List (Nat × W)) : W := ((V.filter (fun p => decide (a ≤ (p.1 : Int) ∧ (p.1 : Int) < b))).map (·.2)).sum

theorem con_split [AddCommMonoid W] (a b : Int) (k : Nat) : ∀ V : List (Nat × W), con a b V = con a b (V.filter (hp k false)) + con a b (V.filter (hp k true))
  | [] => by simp [con]
  | p :: V => by
    have ih := con_split a b k V
    unfold con at *
    have e0 : hp k false p = !p.1.testBit k := by unfold hp hb; cases p.1.testBit k <;> rfl
    have e1 : hp k true p = p.1.testBit k := by unfold hp hb; cases p.1.testBit k <;> rfl
    rw [List.filter_cons (p := hp k false), List.filter_cons (p := hp k true), e0, e1]
    by_cases d : a ≤ (p.1 : Int) ∧ (p.1 : Int) < b
    · rw [List.filter_cons_of_pos (by simpa using d), List.map_cons, List.sum_cons, ih]
      cases p.1.testBit k
      · simp only [Bool.not_false, if_true, Bool.false_eq_true, if_false]
        rw [List.filter_cons_of_pos (by simpa using d), List.map_cons, List.sum_cons, add_assoc]
      · simp only [Bool.not_true, if_true, Bool.false_eq_true, if_false]
        rw [List.filter_cons_of_pos (by simpa using d), List.map_cons, List.sum_cons, add_left_comm]
    · rw [List.filter_cons_of_neg (by simpa using d), ih]
      cases p.1.testBit k
      · simp only [Bool.not_false, if_true, Bool.false_eq_true, if_false]
        rw [List.filter_cons_of_neg (by simpa using d)]
      · simp only [Bool.not_true, if_true, Bool.false_eq_true, if_false]
        rw [List.filter_cons_of_neg (by simpa using d)]

/-- Work left for an item. -/
def wtT (w : WM) (q : Nat × Nat × Nat) : Nat := 2^(w.h + 2 - q.1 / w.n) - 1

theorem i32_small {x : Nat} (h : x < 2^31) : i32 x = (x : Int) := by
  unfold i32
  rw [Nat.mod_eq_of_lt (by omega), if_pos h]

theorem i32_junk {c : Nat} (h : c < 2^31) : i32 (c ||| (2^63 - 1)) = -1 := by
  have : c ||| (2^63 - 1) = 2^63 - 1 := by
    apply Nat.eq_of_testBit_eq
    intro i
    rw [Nat.testBit_or, Nat.testBit_two_pow_sub_one]
    by_cases d : i < 63
    · simp [d]
    · rw [Nat.testBit_lt_two_pow (Nat.lt_of_lt_of_le h (Nat.pow_le_pow_right (by omega) (by omega)))]
      simp
  rw [this]; decide

theorem G.sum [AddCommMonoid W] {w : WM} {SW : List (Nat × W)} (ok : Wavelet.Ok w (SW.map (·.1))) {l r c : Nat} {V : List (Nat × W)} (h : G w SW (l, r, c) V) (cl : l / w.n ≤ w.h) :
    rangeSum (allW w.h SW (w.h + 1)) l r = some (V.map (·.2)).sum := by
  by_cases cV : V = []
  · obtain ⟨q1, q2⟩ := h.em cV
    dsimp only at q1 q2
    unfold rangeSum
    rw [← q1, allW_length, ← List.length_map (f := (·.1)) (as := SW), ← ok.n, if_pos ⟨Nat.le_refl _, q2⟩, Nat.sub_self, cV]; rfl
  · exact rangeSum_ok cl (h.ne cV).2.1

theorem trav_ok [AddCommMonoid W] {w : WM} {SW : List (Nat × W)} (ok : Wavelet.Ok w (SW.map (·.1))) (hne : SW ≠ []) (h31 : w.h ≤ 31) {a b : Int} (ha : 0 ≤ a)
    {σ : Type} {inner : σ → Nat → Nat → Nat → Option σ} (leaf : σ → Nat → Nat → Nat → Option σ) {act : σ → W → σ} (act0 : ∀ t, act t 0 = t) (actA : ∀ t x y, act (act t x) y = act t (x + y))
    (hin : ∀ t l r c V, G w SW (l, r, c) V → l / w.n ≤ w.h → inner t l r c = some (act t (V.map (·.2)).sum)) :
    ∀ (fuel : Nat) (Q : List ((Nat × Nat × Nat) × List (Nat × W))) (t : σ), (∀ x ∈ Q, G w SW x.1 x.2) → (Q.map (fun x => wtT w x.1)).sum ≤ fuel →
      trav (some (2^63)) w a b inner leaf fuel (Q.map (·.1)) t = some (act t (Q.map (fun x => con a b x.2)).sum)
  | fuel, [], t, _, _ => by cases fuel <;> simp [trav, act0]
  | 0, ((l, r, c), V) :: Q, t, hq, hf => by
    have h := hq _ List.mem_cons_self
    have hlv : l / w.n ≤ w.h + 1 := by
      have hn : w.n = SW.length := by rw [ok.n, List.length_map]
      by_cases cV : V = []
      · have := (h.em cV).2
        have := Nat.div_le_div_right (c := w.n) this
        rwa [Nat.mul_div_cancel_left _ (by rw [hn]; exact List.length_pos_iff.2 hne)] at this
      · have := (h.ne cV).1
        dsimp only at this; omega
    rw [List.map_cons, List.sum_cons] at hf
    have : 2^1 ≤ 2^(w.h + 2 - l / w.n) := Nat.pow_le_pow_right (by omega) (by omega)
    unfold wtT at hf
    dsimp only at hf
    omega
  | fuel+1, ((l, r, c), V) :: Q, t, hq, hf => by
    have h := hq _ List.mem_cons_self
    have hq' : ∀ x ∈ Q, G w SW x.1 x.2 := fun x hx => hq x (List.mem_cons_of_mem _ hx)
    have hn : w.n = SW.length := by rw [ok.n, List.length_map]
    have hpos : 0 < w.n := by rw [hn]; exact List.length_pos_iff.2 hne
    have hlv : l / w.n ≤ w.h + 1 := by
      by_cases cV : V = []
      · have := (h.em cV).2
        have := Nat.div_le_div_right (c := w.n) this
        rwa [Nat.mul_div_cancel_left _ hpos] at this
      · have := (h.ne cV).1
        dsimp only at this; omega
    have hclt : c < 2^w.h := h.clt
    have hc31 : c < 2^31 := Nat.lt_of_lt_of_le hclt (Nat.pow_le_pow_right (by omega) h31)
    rw [List.map_cons, List.sum_cons] at hf
    have hw : 2^1 ≤ 2^(w.h + 2 - l / w.n) := Nat.pow_le_pow_right (by omega) (by omega)
    have hw1 : 1 ≤ wtT w (l, r, c) := by unfold wtT; exact Nat.le_sub_of_add_le hw
    have hf' : (Q.map (fun x => wtT w x.1)).sum ≤ fuel := by
      clear hw hlv
      dsimp only at hf
      omega
    have hwt : wtT w (l, r, c) = 2^(w.h + 2 - l / w.n) - 1 := rfl
    have ih := trav_ok ok hne h31 (b := b) ha leaf act0 actA hin fuel Q
    rw [List.map_cons, List.map_cons, List.sum_cons, trav, if_pos (by omega)]
    by_cases cl : l / w.n ≤ w.h
    · have hm : mask (some (2^63)) w.h (l / w.n) = some (2^(w.h - l / w.n) - 1) := by
        unfold mask
        rw [if_pos cl, if_pos (Nat.lt_of_le_of_lt (Nat.sub_le _ _) (by omega))]
      rw [hm, Option.bind_some]
      have hp2 := Nat.two_pow_pos (w.h - l / w.n)
      have hchi31 : c ||| (2^(w.h - l / w.n) - 1) < 2^w.h := Nat.or_lt_two_pow hclt (Nat.lt_of_lt_of_le (Nat.sub_lt hp2 (by omega)) (Nat.pow_le_pow_right (by omega) (Nat.sub_le _ _)))
      rw [i32_small (Nat.lt_of_lt_of_le hchi31 (Nat.pow_le_pow_right (by omega) h31))]
      have hbnd : ∀ p ∈ V, c ≤ p.1 ∧ p.1 ≤ c ||| (2^(w.h - l / w.n) - 1) := by
        intro p hpV
        obtain ⟨_, _, hc0, hhi⟩ := h.ne (List.ne_nil_of_mem hpV)
        have hc0 : c % 2^(w.h - l / w.n) = 0 := hc0
        have this : hi (w.h - l / w.n) c p.1 = true := hhi p hpV
        have hchi : c ||| (2^(w.h - l / w.n) - 1) = c + (2^(w.h - l / w.n) - 1) := by
          have := Nat.two_pow_add_eq_or_of_lt (i := w.h - l / w.n) (b := 2^(w.h - l / w.n) - 1) (by omega) (c / 2^(w.h - l / w.n))
          rw [Nat.mul_div_cancel' (Nat.dvd_of_mod_eq_zero hc0)] at this
          exact this.symm
        unfold hi at this
        have this := of_decide_eq_true this
        have d1 := Nat.div_add_mod p.1 (2^(w.h - l / w.n))
        have d2 := Nat.div_add_mod c (2^(w.h - l / w.n))
        have d3 := Nat.mod_lt p.1 hp2
        rw [this] at d1
        rw [hchi]
        generalize 2^(w.h - l / w.n) * (c / 2^(w.h - l / w.n)) = z at *
        omega
      generalize hch : c ||| (2^(w.h - l / w.n) - 1) = chi at hbnd
      by_cases c1 : ((chi : Int) < a ∨ b ≤ (c : Int))
      · rw [if_pos c1, ih t hq' hf']
        have hz : con a b V = 0 := by
          unfold con
          rw [List.filter_eq_nil_iff.2]
          · rfl
          · intro p hpV hd
            have hd := of_decide_eq_true hd
            have := hbnd p hpV
            omega
        rw [hz, zero_add]
      · rw [if_neg c1]
        by_cases c2 : a ≤ (c : Int) ∧ (chi : Int) < b
        · have hz : con a b V = (V.map (·.2)).sum := by
            unfold con
            rw [List.filter_eq_self.2]
            intro p hpV
            have := hbnd p hpV
            exact decide_eq_true (by omega)
          rw [if_pos c2, hin t l r c V h cl, Option.bind_some, ih _ hq' hf', hz, actA]
        · rw [if_neg c2]
          have hlv2 : l / w.n < w.h := by
            by_contra hc
            have : w.h - l / w.n = 0 := by omega
            rw [this] at hch
            simp at hch
            omega
          rw [if_neg (by omega), if_pos hlv2]
          obtain ⟨p0, t0, g0, l0⟩ := h.child ok hne hlv2 false
          obtain ⟨p1, t1, g1, l1⟩ := h.child ok hne hlv2 true
          rw [t0, Option.bind_some, t1, Option.bind_some]
          simp only [Bool.false_eq_true, if_false] at g0
          simp only [if_true] at g1
          have ih2 := trav_ok ok hne h31 (b := b) ha leaf act0 actA hin fuel (Q ++ [((p0.1, p0.2, c), V.filter (hp (w.h - 1 - l / w.n) false)), ((p1.1, p1.2, c ||| 2^(w.h - 1 - l / w.n)), V.filter (hp (w.h - 1 - l / w.n) true))]) t
            (by
              intro x hx
              rcases List.mem_append.1 hx with hx | hx
              · exact hq' x hx
              · rcases List.mem_cons.1 hx with rfl | hx
                · exact g0
                · rw [List.mem_singleton.1 hx]; exact g1)
            (by
              rw [List.map_append, List.sum_append]
              simp only [List.map_cons, List.map_nil, List.sum_cons, List.sum_nil, Nat.add_zero, wtT]
              have k0 : 2^(w.h + 2 - p0.1 / w.n) ≤ 2^(w.h + 1 - l / w.n) := Nat.pow_le_pow_right (by omega) (by omega)
              have k1 : 2^(w.h + 2 - p1.1 / w.n) ≤ 2^(w.h + 1 - l / w.n) := Nat.pow_le_pow_right (by omega) (by omega)
              have k2 : 2^(w.h + 2 - l / w.n) = 2 * 2^(w.h + 1 - l / w.n) := by rw [show w.h + 2 - l / w.n = w.h + 1 - l / w.n + 1 by omega, Nat.pow_succ]; omega
              have k3 := Nat.two_pow_pos (w.h + 1 - l / w.n)
              have k4 := Nat.two_pow_pos (w.h + 2 - p0.1 / w.n)
              have k5 := Nat.two_pow_pos (w.h + 2 - p1.1 / w.n)
              have hf : wtT w (l, r, c) + (Q.map (fun x => 2^(w.h + 2 - x.1.1 / w.n) - 1)).sum ≤ fuel + 1 := hf
              omega)
          rw [List.map_append] at ih2
          refine ih2.trans ?_
          rw [List.map_append, List.sum_append]
          simp only [List.map_cons, List.map_nil, List.sum_cons, List.sum_nil, add_zero]
          rw [con_split a b (w.h - 1 - l / w.n) V, add_comm (Q.map _).sum]
    · have hV : V = [] := by
        by_contra cV
        have := (h.ne cV).1
        exact cl this
      have hm : mask (some (2^63)) w.h (l / w.n) = some (2^63 - 1) := by
        unfold mask
        rw [if_neg cl, if_pos (by omega)]; rfl
      rw [hm, Option.bind_some, i32_junk hc31, if_pos (Or.inl (by omega)), ih t hq' hf', hV]
      simp [con]

end Verif.Ors
