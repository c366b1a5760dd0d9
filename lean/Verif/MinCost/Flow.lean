import Verif.MinCost.Net
/-!
The rounds of `flow`: search, bottleneck, augmentation.
-/
namespace Verif.MinCost
open Verif.FibHeap
open Verif.MaxFlow (Arc arc net IsFlow IsMax Rp FlowPath getE at_ cutCap)

variable {n s t : Nat} {es : List Arc} {ct : Nat → Int} {pf pr φ : Nat → Nat} {g : G} {π hv : Nat → Int} {C inf : Int} {L M : Nat → Option Int} {pv pe : Nat → Nat}

/-! ### Chains of predecessors -/

theorem Chain.det {v : Nat} {l : List Nat} (h : Chain pv s v l) : ∀ l', Chain pv s v l' → l = l' := by
  induction h with
  | nil =>
    intro l' h'
    cases h' with
    | nil => rfl
    | cons hv _ => exact absurd rfl hv
  | @cons v l hv h ih =>
    intro l' h'
    cases h' with
    | nil => exact absurd rfl hv
    | cons _ h' => rw [ih _ h']

theorem Chain.mem {v : Nat} {l : List Nat} (h : Chain pv s v l) : ∀ w ∈ l, ∃ l', Chain pv s w l' ∧ l'.length < l.length := by
  induction h with
  | nil => intro w hw; cases hw
  | @cons v l hv h ih =>
    intro w hw
    rcases List.mem_cons.1 hw with rfl | hw
    · exact ⟨l, h, by simp⟩
    · obtain ⟨l', h1, h2⟩ := ih w hw
      exact ⟨l', h1, by rw [List.length_cons]; omega⟩

theorem Chain.nodup {v : Nat} {l : List Nat} (h : Chain pv s v l) : (v :: l).Nodup := by
  have key : ∀ {v : Nat} {l : List Nat}, Chain pv s v l → v ∉ l := by
    intro v l h hm
    obtain ⟨l', h1, h2⟩ := h.mem v hm
    rw [h.det _ h1] at h2
    omega
  induction h with
  | nil => simp
  | @cons v l hv h ih => exact List.nodup_cons.2 ⟨key (Chain.cons hv h), ih⟩

theorem SI.chain_lab (I : SI g n s hv L M pv pe) {u : Nat} {l : List Nat} (h : Chain pv s u l) : ∀ x, L u = some x → ∀ w ∈ u :: l, ∃ z, L w = some z := by
  induction h with
  | nil => intro x hx w hw; rw [List.mem_singleton] at hw; subst hw; exact ⟨x, hx⟩
  | @cons v l hvs h ih =>
    intro x hx w hw
    rcases List.mem_cons.1 hw with rfl | hw
    · exact ⟨x, hx⟩
    · obtain ⟨c, y, _, hy, _⟩ := I.pred v x hx hvs
      exact ih y hy w hw

/-- Tight arcs: what the entry of a vertex on the way must be. -/
def Tight (g : G) (π : Nat → Int) (pv pe : Nat → Nat) (d : Nat) (w : Nat) : Prop := ∃ e, rd2 g (pv w) (pe w) = some e ∧ e.t = w ∧ d ≤ e.cap ∧ e.cost + π (pv w) - π w = 0

theorem Tight.mono {d d' w : Nat} (h : Tight g π pv pe d w) (hd : d' ≤ d) : Tight g π pv pe d' w := by
  obtain ⟨e, h1, h2, h3, h4⟩ := h
  exact ⟨e, h1, h2, hd.trans h3, h4⟩

theorem bottle_ok {pvl pel : List Nat} (hpv : Rep pvl n pv) (hpe : Rep pel n pe) {i : Nat} {l : List Nat} (h : Chain pv s i l) : ∀ (f d : Nat) (c : Int), l.length < f → 0 < d → (∀ w ∈ i :: l, w < n) → (∀ w ∈ i :: l, w ≠ s → Tight g π pv pe 1 w) →
    ∃ d', bottle g pvl pel s f i d c = some (d', c + (π i - π s)) ∧ 0 < d' ∧ d' ≤ d ∧ ∀ w ∈ i :: l, w ≠ s → Tight g π pv pe d' w := by
  induction h with
  | nil =>
    intro f d c hf hd _ _
    obtain ⟨f, rfl⟩ : ∃ k, f = k + 1 := ⟨f - 1, by omega⟩
    refine ⟨d, by rw [bottle, if_pos rfl, sub_self, add_zero], hd, le_refl _, ?_⟩
    intro w hw hws
    rw [List.mem_singleton] at hw
    exact absurd hw hws
  | @cons v l hvs h ih =>
    intro f d c hf hd hlt ht
    obtain ⟨f, rfl⟩ : ∃ k, f = k + 1 := ⟨f - 1, by omega⟩
    obtain ⟨e, h1, h2, h3, h4⟩ := ht v (List.mem_cons_self ..) hvs
    have hvn := hlt v (List.mem_cons_self ..)
    rw [List.length_cons] at hf
    obtain ⟨d', q1, q2, q3, q4⟩ := ih f (min d e.cap) (c + e.cost) (by omega) (by omega) (fun w hw => hlt w (List.mem_cons_of_mem _ hw)) (fun w hw => ht w (List.mem_cons_of_mem _ hw))
    refine ⟨d', ?_, q2, by omega, ?_⟩
    · rw [bottle, if_neg hvs, hpv.val v hvn, Option.bind_some, hpe.val v hvn, Option.bind_some, h1, Option.bind_some, q1]
      congr 2
      omega
    · intro w hw hws
      rcases List.mem_cons.1 hw with rfl | hw
      · exact ⟨e, h1, h2, by omega, h4⟩
      · exact q4 w hw hws

theorem augment_ok {pvl pel : List Nat} (hpv : Rep pvl n pv) (hpe : Rep pel n pe) {d : Nat} {i : Nat} {l : List Nat} (h : Chain pv s i l) : ∀ (f : Nat) (g : G) (φ : Nat → Nat), l.length < f → RC n es ct pf pr φ g → FeasN es ct φ π →
    (∀ w ∈ i :: l, w < n) → (∀ w ∈ i :: l, w ≠ s → Tight g π pv pe d w) →
    ∃ g' φ', augment pvl pel s d f i g = some g' ∧ RC n es ct pf pr φ' g' ∧ FeasN es ct φ' π ∧ (∀ w, net es φ' w = net es φ w + at_ s d w - at_ i d w) ∧ costOf es ct φ' = costOf es ct φ + d * (π i - π s) := by
  have hnd := @Chain.nodup s pv
  induction h with
  | nil =>
    intro f g φ hf X hF _ _
    obtain ⟨f, rfl⟩ : ∃ k, f = k + 1 := ⟨f - 1, by omega⟩
    exact ⟨g, φ, by rw [augment, if_pos rfl], X, hF, fun w => by omega, by simp⟩
  | @cons v l hvs h ih =>
    intro f g φ hf X hF hlt ht
    obtain ⟨f, rfl⟩ : ∃ k, f = k + 1 := ⟨f - 1, by omega⟩
    obtain ⟨e, h1, h2, h3, h4⟩ := ht v (List.mem_cons_self ..) hvs
    have hvn := hlt v (List.mem_cons_self ..)
    rw [List.length_cons] at hf
    obtain ⟨g1, φ1, a1, X1, F1, n1, c1, f1⟩ := X.push h1 h2 h3 hF h4
    have nd1 := hnd (Chain.cons hvs h)
    have nd2 := hnd h
    obtain ⟨g2, φ2, b1, X2, F2, n2, c2⟩ := ih f g1 φ1 (by omega) X1 F1 (fun w hw => hlt w (List.mem_cons_of_mem _ hw)) (fun w hw hws => by
      obtain ⟨e', k1, k2, k3, k4⟩ := ht w (List.mem_cons_of_mem _ hw) hws
      refine ⟨e', f1 _ _ _ k1 ?_, k2, k3, k4⟩
      have hwv : w ≠ v := fun e => (List.nodup_cons.1 nd1).1 (e ▸ hw)
      rcases List.mem_cons.1 hw with rfl | hw'
      · left
        have hc : ∃ l', l = pv (pv v) :: l' := by
          cases h with
          | nil => exact absurd rfl hws
          | @cons _ l' _ _ => exact ⟨l', rfl⟩
        obtain ⟨l', rfl⟩ := hc
        rintro (e | e)
        · exact (List.nodup_cons.1 nd2).1 (by rw [e]; exact List.mem_cons_self ..)
        · exact (List.nodup_cons.1 nd1).1 (List.mem_cons_of_mem _ (by rw [e]; exact List.mem_cons_self ..))
      · right
        rw [k2]
        rintro (e | e)
        · exact (List.nodup_cons.1 nd2).1 (e ▸ hw')
        · exact hwv e)
    refine ⟨g2, φ2, ?_, X2, F2, ?_, ?_⟩
    · rw [augment, if_neg hvs, hpv.val v hvn, Option.bind_some, hpe.val v hvn, Option.bind_some, a1, Option.bind_some, b1]
    · intro w
      rw [n2, n1]
      omega
    · rw [c2, c1, add_assoc, ← mul_add]
      congr 2
      omega

/-! ### One search -/

/-- The labels, or the old potentials. -/
def newH (hv : Nat → Int) (L : Nat → Option Int) (v : Nat) : Int := (L v).getD (hv v)

/-- New potentials. -/
def newπ (π : Nat → Int) (L : Nat → Option Int) (D : Int) (v : Nat) : Int := (L v).getD (π v + D)

theorem lower_ex (π : Nat → Int) : ∀ n : Nat, ∃ D : Int, ∀ v < n, D ≤ π v := by
  intro n
  induction n with
  | zero => exact ⟨0, fun v hv => by omega⟩
  | succ n ih =>
    obtain ⟨D, hD⟩ := ih
    refine ⟨min D (π n), fun v hv => ?_⟩
    rcases Nat.lt_succ_iff_lt_or_eq.1 hv with h | rfl
    · have := hD v h; omega
    · omega

theorem sssp_ok (X : Ctx g n s π hv C inf) (hg : g.length = n) (hv0 : hv s = 0) {x : St} (hxg : x.g = g) (hR : Rep x.h n hv) (hpv : Rep x.pv n pv) (hpe : Rep x.pe n pe) (W : Wf gt n (fun _ => none) x.H) :
    ∃ K sp L pv' pe', (∀ K', K ≤ K' → sssp inf K' s x = some sp) ∧ Fin g n s inf hv L pv' pe' sp := by
  obtain ⟨d1, e1, R1⟩ := (Rep.replicate n inf).wr X.hs 0
  obtain ⟨H1, e2, W1⟩ := push_spec gt_swo W X.hs 0
  have eM : insertRaise gt (fun _ => none) s 0 = upd (fun _ => (none : Option Int)) s (some 0) := rfl
  rw [eM] at W1
  have hI : SI g n s hv (upd (fun _ => none) s (some 0)) (upd (fun _ => none) s (some 0)) pv pe := by
    have hone : ∀ v y, upd (fun _ => (none : Option Int)) s (some 0) v = some y → v = s ∧ y = 0 := by
      intro v y h
      by_cases hvs : v = s
      · subst hvs; rw [upd_same] at h; cases h; exact ⟨rfl, rfl⟩
      · rw [upd_ne _ _ hvs] at h; cases h
    refine ⟨upd_same .., ?_, ?_, ?_, ?_⟩
    · intro v k h
      obtain ⟨rfl, rfl⟩ := hone v k h
      rw [upd_same, hv0, add_zero]
    · intro v y h
      obtain ⟨rfl, rfl⟩ := hone v y h
      refine ⟨[], HW.nil, by simp, fun p hp => ?_⟩
      rw [List.mem_singleton] at hp
      subst hp
      exact ⟨0, upd_same .., le_refl _⟩
    · intro v y h hvs
      exact absurd (hone v y h).1 hvs
    · intro v y h
      obtain ⟨rfl, rfl⟩ := hone v y h
      exact ⟨[], Chain.nil⟩
  obtain ⟨sp, L, pv', pe', h1, h2⟩ := search_ok X hg hR _ ⟨d1, x.pv, x.pe, H1⟩ _ _ pv pe (Nat.lt_succ_self _) hI ⟨R1.congr (fun v _ => by
      by_cases hvs : v = s
      · subst hvs; rw [upd_same, upd_same]; simp only [lab]; omega
      · rw [upd_ne _ _ hvs, upd_ne _ _ hvs]; rfl), hpv, hpe, W1⟩ (fun v hv j t c y _ hy => by
      by_cases hvs : v = s
      · subst hvs; rw [upd_same] at hv; cases hv
      · rw [upd_ne _ _ hvs] at hy; cases hy)
  refine ⟨(mu n C π s (upd (fun _ => none) s (some 0)) (upd (fun _ => none) s (some 0))).succ, sp, L, pv', pe', fun K' hK => ?_, h2⟩
  unfold sssp
  rw [hxg, hg, e1, Option.bind_some, e2, Option.bind_some]
  exact h1 K' hK

variable {sp : SP}

theorem Fin.lab_ne (X : Ctx g n s π hv C inf) (F : Fin g n s inf hv L pv pe sp) {v : Nat} {x : Int} (h : L v = some x) : lab inf hv v (L v) ≠ inf := by
  rw [h]
  simp only [lab]
  have := F.I.bound X.hB X.hC X.hs h
  have := X.hh v
  have := X.hi
  have := X.hC
  omega

theorem Fin.addPot_ok (X : Ctx g n s π hv C inf) (F : Fin g n s inf hv L pv pe sp) {hl : List Int} (hR : Rep hl n hv) : Rep (addPot inf hl sp.dist) n (newH hv L) := by
  refine ⟨by unfold addPot; rw [List.length_zipWith, hR.len, F.R.dist.len, Nat.min_self], fun v hvn => ?_⟩
  unfold addPot
  rw [List.getElem?_zipWith, hR.val v hvn, F.R.dist.val v hvn]
  dsimp only
  unfold newH
  cases hL : L v with
  | none => simp [lab]
  | some x =>
    have := F.lab_ne X hL
    rw [hL] at this
    rw [if_pos this]
    simp [lab]

theorem Fin.hh (X : Ctx g n s π hv C inf) (F : Fin g n s inf hv L pv pe sp) (v : Nat) : -(n * C) ≤ newH hv L v ∧ newH hv L v ≤ n * C := by
  unfold newH
  cases hL : L v with
  | none => exact X.hh v
  | some x =>
    have := F.I.bound X.hB X.hC X.hs hL
    have := X.hC
    simp only [Option.getD_some]
    omega

theorem Fin.feas (X : Ctx g n s π hv C inf) (F : Fin g n s inf hv L pv pe sp) {D : Int} (hD : ∀ v < n, n * C - D ≤ π v) : Feas g (newπ π L D) := by
  intro u i v c a
  unfold newπ
  cases hu : L u with
  | none =>
    have h1 := X.hf _ _ _ _ a
    cases hv' : L v with
    | none => simp only [Option.getD_none]; omega
    | some y =>
      have h2 := F.I.bound X.hB X.hC X.hs hv'
      obtain ⟨e, he, ht, hc, _⟩ := a
      obtain ⟨hun, htn, _, _⟩ := X.hB _ _ _ he
      have h3 := hD v (by omega)
      simp only [Option.getD_none, Option.getD_some]
      have := X.hC
      omega
  | some x =>
    obtain ⟨y, hy, hle⟩ := F.rx u _ _ _ _ a hu
    rw [hy]
    simp only [Option.getD_some]
    omega

theorem Fin.tight (X : Ctx g n s π hv C inf) (F : Fin g n s inf hv L pv pe sp) (D : Int) {w : Nat} {x : Int} (hw : L w = some x) (hws : w ≠ s) : Tight g (newπ π L D) pv pe 1 w := by
  obtain ⟨c, y, a, hy, hle⟩ := F.I.pred w x hw hws
  obtain ⟨z, hz, hle'⟩ := F.rx _ _ _ _ _ a hy
  rw [hw] at hz
  cases hz
  obtain ⟨e, h1, h2, h3, h4⟩ := a
  refine ⟨e, h1, h2, by omega, ?_⟩
  unfold newπ
  rw [hy, hw]
  simp only [Option.getD_some]
  omega

/-- If `t` has no label the flow is maximal. -/
theorem Fin.max (X : RC n es ct pf pr φ g) (F : Fin g n s inf hv L pv pe sp) (ht : L t = none) {f : Nat} (h : IsFlow es s t φ f) : IsMax es s t f := by
  have hs : (L s).isSome = true := by rw [F.I.src]; rfl
  have ht' : ¬ (L t).isSome = true := by rw [ht]; simp
  refine Verif.MaxFlow.cut_max h (fun v => (L v).isSome = true) hs ht' (X.R.cut h _ hs ht' ?_)
  intro v j x hx hv hc
  rw [getE_era] at hx
  cases he : rd2 g v j with
  | none => rw [he] at hx; cases hx
  | some e =>
    rw [he] at hx
    have hx := Option.some.inj hx
    subst hx
    obtain ⟨y, hy⟩ := Option.isSome_iff_exists.1 hv
    obtain ⟨z, hz, _⟩ := F.rx v j e.t e.cost y ⟨e, he, rfl, rfl, hc⟩ hy
    show (L e.t).isSome = true
    rw [hz]; rfl

/-! ### The rounds -/

/-- What holds between rounds. -/
structure LI (n s t : Nat) (es : List Arc) (ct : Nat → Int) (pf pr φ : Nat → Nat) (π hv : Nat → Int) (C : Int) (F : Nat) (x : St) : Prop where
  rc : RC n es ct pf pr φ x.g
  fe : FeasN es ct φ π
  fl : IsFlow es s t φ F
  h : Rep x.h n hv
  hh : ∀ v, -(n * C) ≤ hv v ∧ hv v ≤ n * C
  h0 : hv s = 0
  pv : ∃ p, Rep x.pv n p
  pe : ∃ p, Rep x.pe n p
  H : Wf gt n (fun _ => none) x.H

/-- What holds between calls. -/
structure OI (n s t : Nat) (es : List Arc) (ct : Nat → Int) (pf pr φ : Nat → Nat) (π : Nat → Int) (F : Nat) (o : Obj) : Prop where
  rc : RC n es ct pf pr φ o.g
  fe : FeasN es ct φ π
  fl : IsFlow es s t φ F
  pv : ∃ p, Rep o.pv n p
  pe : ∃ p, Rep o.pe n p

theorem LI.toOI {F : Nat} {x : St} (I : LI n s t es ct pf pr φ π hv C F x) : OI n s t es ct pf pr φ π F ⟨x.g, x.pv, x.pe⟩ := ⟨I.rc, I.fe, I.fl, I.pv, I.pe⟩

theorem loop_ok (hst : s ≠ t) (hs : s < n) (ht : t < n) (hC : 0 ≤ C) (hct : ∀ k < es.length, -C ≤ ct k ∧ ct k ≤ C) (hi : 2 * (n * C) < inf) (F0 lim : Nat) : ∀ (r : Nat) (x : St) (f : Nat) (res : Int) (φ : Nat → Nat) (π hv : Nat → Int), lim - f < r → f ≤ lim →
    LI n s t es ct pf pr φ π hv C (F0 + f) x →
    ∃ K y f' res' φ' π', (∀ K', K ≤ K' → loop inf K' s t lim r x f res = some (y, f', res')) ∧ OI n s t es ct pf pr φ' π' (F0 + f') ⟨y.g, y.pv, y.pe⟩ ∧ costOf es ct φ' - costOf es ct φ = res' - res ∧
      f' ≤ lim ∧ (f' = lim ∨ IsMax es s t (F0 + f')) := by
  intro r
  induction r with
  | zero => intro x f res φ π hv h; omega
  | succ r ih =>
    intro x f res φ π hv hr hfl I
    by_cases hlt : f < lim
    · have X : Ctx x.g n s π hv C inf := ⟨I.rc.feas I.fe, I.rc.bnd hct, hC, hs, hi, I.hh⟩
      obtain ⟨pv0, hpv0⟩ := I.pv
      obtain ⟨pe0, hpe0⟩ := I.pe
      obtain ⟨K1, sp, L, pv, pe, k1, F⟩ := sssp_ok X I.rc.len I.h0 rfl I.h hpv0 hpe0 I.H
      have hdt := F.R.dist.val t ht
      cases hL : L t with
      | none =>
        rw [hL] at hdt
        refine ⟨K1, ⟨x.g, x.h, sp.pv, sp.pe, sp.H⟩, f, res, φ, π, fun K' hK => ?_, ⟨I.rc, I.fe, I.fl, ⟨_, F.R.pv⟩, ⟨_, F.R.pe⟩⟩, by simp, hfl, Or.inr (Fin.max I.rc F hL I.fl)⟩
        rw [loop, if_pos hlt, k1 K' hK, Option.bind_some, hdt, Option.bind_some, if_pos (by rfl)]
      | some xt =>
        have hne := F.lab_ne X hL
        obtain ⟨D, hD⟩ := lower_ex π n
        have hD' : ∀ v < n, n * C - (n * C - D) ≤ π v := fun v hv => by have := hD v hv; omega
        have fe1 := I.rc.feasN (F.feas X hD')
        obtain ⟨l, hch⟩ := F.I.chain t xt hL
        have hlab := F.I.chain_lab hch xt hL
        have hln : ∀ w ∈ t :: l, w < n := fun w hw => by
          obtain ⟨z, hz⟩ := hlab w hw
          exact F.I.lt X.hB hs hz
        have hlen := nodup_len hch.nodup hln
        rw [List.length_cons] at hlen
        have hti : ∀ w ∈ t :: l, w ≠ s → Tight x.g (newπ π L (n * C - D)) pv pe 1 w := fun w hw hws => by
          obtain ⟨z, hz⟩ := hlab w hw
          exact F.tight X _ hz hws
        obtain ⟨d, b1, b2, b3, b4⟩ := bottle_ok F.R.pv F.R.pe hch (x.g.length + 1) (lim - f) 0 (by rw [I.rc.len]; omega) (by omega) hln hti
        obtain ⟨g', φ', a1, X', fe2, n2, c2⟩ := augment_ok F.R.pv F.R.pe hch (x.g.length + 1) x.g φ (by rw [I.rc.len]; omega) I.rc fe1 hln b4
        have hfl' : IsFlow es s t φ' (F0 + (f + d)) := by
          refine ⟨X'.R.le, ?_, ?_⟩
          · intro u hus hut
            rw [n2, I.fl.cons u hus hut]
            unfold at_
            rw [if_neg hus, if_neg hut]
            omega
          · rw [n2, I.fl.val]
            unfold at_
            rw [if_pos rfl, if_neg hst]
            push_cast
            omega
        have I' : LI n s t es ct pf pr φ' (newπ π L (n * C - D)) (newH hv L) C (F0 + (f + d)) ⟨g', addPot inf x.h sp.dist, sp.pv, sp.pe, sp.H⟩ :=
          ⟨X', fe2, hfl', F.addPot_ok X I.h, F.hh X, by unfold newH; rw [F.I.src]; rfl, ⟨_, F.R.pv⟩, ⟨_, F.R.pe⟩, F.R.H⟩
        obtain ⟨K2, y, f', res', φ2, π2, q1, q2, q3, q4, q5⟩ := ih _ (f + d) (res + d * (0 + (newπ π L (n * C - D) t - newπ π L (n * C - D) s))) φ' _ _ (by omega) (by omega) I'
        refine ⟨max K1 K2, y, f', res', φ2, π2, fun K' hK => ?_, q2, ?_, q4, q5⟩
        · rw [loop, if_pos hlt, k1 K' (by omega), Option.bind_some, hdt, Option.bind_some, if_neg hne, b1, Option.bind_some, a1, Option.bind_some]
          exact q1 K' (by omega)
        · rw [c2, zero_add] at *
          omega
    · exact ⟨0, x, f, res, φ, π, fun K' _ => by rw [loop, if_neg hlt], I.toOI, by simp, hfl, Or.inl (by omega)⟩

theorem flow_ok (hst : s ≠ t) (hs : s < n) (ht : t < n) (hC : 0 ≤ C) (hct : ∀ k < es.length, -C ≤ ct k ∧ ct k ≤ C) (hi : 2 * (n * C) < inf) {F0 : Nat} (lim : Nat) {o : Obj} (I : OI n s t es ct pf pr φ π F0 o) :
    ∃ K o' f res φ' π', (∀ K', K ≤ K' → flow inf K' o s t lim = some (o', f, res)) ∧ OI n s t es ct pf pr φ' π' (F0 + f) o' ∧ costOf es ct φ' = costOf es ct φ + res ∧ f ≤ lim ∧ (f = lim ∨ IsMax es s t (F0 + f)) := by
  obtain ⟨H, e, W⟩ := mk_wf gt n
  have hn : 0 ≤ (n : Int) * C := Int.mul_nonneg (by omega) hC
  obtain ⟨K, y, f, res, φ', π', q1, q2, q3, q4, q5⟩ := loop_ok (pf := pf) (pr := pr) hst hs ht hC hct hi F0 lim (lim + 1) ⟨o.g, List.replicate o.g.length 0, o.pv, o.pe, H⟩ 0 0 φ π (fun _ => 0) (by omega) (by omega)
    ⟨I.rc, I.fe, I.fl, by rw [I.rc.len]; exact Rep.replicate n 0, fun v => by constructor <;> omega, rfl, I.pv, I.pe, W⟩
  refine ⟨K, ⟨y.g, y.pv, y.pe⟩, f, res, φ', π', fun K' hK => ?_, q2, by omega, q4, q5⟩
  unfold flow
  rw [I.rc.len, e, Option.bind_some]
  have := q1 K' hK
  rw [I.rc.len] at this
  rw [this]
  rfl

end Verif.MinCost
