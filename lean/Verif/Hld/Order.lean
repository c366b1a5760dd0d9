import Verif.Hld.Size
/-!
`dfs_hld`: the preorder with the heavy child first.
-/
namespace Verif.Hld

variable {n r : Nat} {P : Nat → Option Nat} {edge : List (List Nat)}

/-- `w` is the child of `q` which comes first. -/
def Heavy (P : Nat → Option Nat) (edge : List (List Nat)) (q w : Nat) : Prop := P w = some q ∧ ∃ tl, edge[q]? = some (w :: tl)

/-- The lists of neighbours after `dfs_sz`. -/
def EdgeOk (n : Nat) (P : Nat → Option Nat) (edge : List (List Nat)) : Prop := ∀ v, v < n → ∃ ev, edge[v]? = some ev ∧ Adj n P v ev ∧ First P v ev

structure LensH (n : Nat) (s : Hs) : Prop where
  inn : s.inn.length = n
  out : s.out.length = n
  head : s.head.length = n
  rev : s.rev.length = n
  depth : s.depth.length = n
  clen : s.clen.length = n

/-- `s` and `s'` agree at `w`. -/
structure SameH (s s' : Hs) (w : Nat) : Prop where
  inn : s'.inn[w]? = s.inn[w]?
  out : s'.out[w]? = s.out[w]?
  head : s'.head[w]? = s.head[w]?
  depth : s'.depth[w]? = s.depth[w]?
  clen : s'.clen[w]? = s.clen[w]?

theorem SameH.refl (s : Hs) (w : Nat) : SameH s s w := ⟨rfl, rfl, rfl, rfl, rfl⟩

theorem SameH.trans {s s' s'' : Hs} {w : Nat} (a : SameH s s' w) (b : SameH s' s'' w) : SameH s s'' w :=
  ⟨b.inn.trans a.inn, b.out.trans a.out, b.head.trans a.head, b.depth.trans a.depth, b.clen.trans a.clen⟩

theorem rdI_congr {l l' : List (Option Nat)} {i : Nat} (h : l'[i]? = l[i]?) : rdI l' i = rdI l i := by
  unfold rdI
  rw [h]

theorem rdI_of {l : List (Option Nat)} {i : Nat} {x : Option Nat} (h : l[i]? = some x) : rdI l i = x := by
  unfold rdI
  rw [h]
  rfl

/-- A heavy edge. -/
structure HLink (s : Hs) (q w : Nat) : Prop where
  head : rdI s.head w = rdI s.head q
  depth : rdI s.depth w = rdI s.depth q
  inn : ∃ i, rdI s.inn q = some i ∧ rdI s.inn w = some (i + 1)
  clen : ∃ c, s.clen[w]? = some c ∧ s.clen[q]? = some (c + 1)

/-- A light edge. -/
structure LLink (s : Hs) (q w : Nat) : Prop where
  head : rdI s.head w = some w
  depth : ∃ d, rdI s.depth q = some d ∧ rdI s.depth w = some (d + 1)

/-- The subtree of `v` has been finished; it started at time `t`. -/
structure Done (n : Nat) (P : Nat → Option Nat) (edge : List (List Nat)) (s : Hs) (v t : Nat) : Prop where
  inv : rdI s.inn v = some t
  node : ∀ w, w < n → Anc P v w → ∃ i, rdI s.inn w = some i ∧ t ≤ i ∧ i + sz n P w ≤ t + sz n P v ∧ rdI s.out w = some (i + sz n P w) ∧ rdI s.rev i = some w
  heavy : ∀ q w, w < n → Anc P v q → Heavy P edge q w → HLink s q w
  light : ∀ q w, w < n → Anc P v q → P w = some q → ¬ Heavy P edge q w → LLink s q w
  nest : ∀ q w, w < n → Anc P v q → P w = some q → ∃ iq iw, rdI s.inn q = some iq ∧ rdI s.inn w = some iw ∧ iq < iw ∧ iw + sz n P w ≤ iq + sz n P q
  leaf : ∀ q, q < n → Anc P v q → (∀ w, w < n → ¬ Heavy P edge q w) → s.clen[q]? = some 1

theorem HLink.same {s s' : Hs} {q w : Nat} (h : HLink s q w) (hq : SameH s s' q) (hw : SameH s s' w) : HLink s' q w :=
  ⟨by rw [rdI_congr hw.head, rdI_congr hq.head, h.head], by rw [rdI_congr hw.depth, rdI_congr hq.depth, h.depth], by rw [rdI_congr hw.inn, rdI_congr hq.inn]; exact h.inn, by rw [hw.clen, hq.clen]; exact h.clen⟩

theorem LLink.same {s s' : Hs} {q w : Nat} (h : LLink s q w) (hq : SameH s s' q) (hw : SameH s s' w) : LLink s' q w :=
  ⟨by rw [rdI_congr hw.head, h.head], by rw [rdI_congr hw.depth, rdI_congr hq.depth]; exact h.depth⟩

theorem Done.same {s s' : Hs} {v t : Nat} (D : Done n P edge s v t) (h : ∀ w, Anc P v w → SameH s s' w) (hr : ∀ i, t ≤ i → i < t + sz n P v → s'.rev[i]? = s.rev[i]?) : Done n P edge s' v t := by
  refine ⟨by rw [rdI_congr (h v Anc.refl).inn]; exact D.inv, ?_, ?_, ?_, ?_, ?_⟩
  · intro w hw a
    obtain ⟨i, h1, h2, h3, h4, h5⟩ := D.node w hw a
    have := sz_pos (P := P) hw
    exact ⟨i, by rw [rdI_congr (h w a).inn]; exact h1, h2, h3, by rw [rdI_congr (h w a).out]; exact h4, by rw [rdI_congr (hr i h2 (by omega))]; exact h5⟩
  · intro q w hw a hh
    exact (D.heavy q w hw a hh).same (h q a) (h w (Anc.step hh.1 a))
  · intro q w hw a hp hh
    exact (D.light q w hw a hp hh).same (h q a) (h w (Anc.step hp a))
  · intro q w hw a hp
    rw [rdI_congr (h q a).inn, rdI_congr (h w (Anc.step hp a)).inn]
    exact D.nest q w hw a hp
  · intro q hq a hh
    rw [(h q a).clen]
    exact D.leaf q hq a hh

/-- The state after the subtrees of the neighbours `dn` of `v`. -/
structure K (n : Nat) (P : Nat → Option Nat) (edge : List (List Nat)) (s0 s : Hs) (v t0 h d : Nat) (dn : List Nat) : Prop where
  lens : LensH n s
  times : s.times = t0 + 1 + (dn.map (wt n P v)).sum
  out : ∀ w, ¬ Anc P v w → SameH s0 s w
  rev : ∀ i, i < t0 ∨ s.times ≤ i → s.rev[i]? = s0.rev[i]?
  inn : rdI s.inn v = some t0
  revv : rdI s.rev t0 = some v
  hd : rdI s.head v = some h
  dp : rdI s.depth v = some d
  hd0 : s.head[v]? = s0.head[v]?
  dp0 : s.depth[v]? = s0.depth[v]?
  kids : ∀ c ∈ dn, c < n → P c = some v → ∃ tc, t0 < tc ∧ tc + sz n P c ≤ s.times ∧ Done n P edge s c tc ∧
    (Heavy P edge v c → rdI s.head c = some h ∧ rdI s.depth c = some d ∧ tc = t0 + 1) ∧ (¬ Heavy P edge v c → rdI s.head c = some c ∧ rdI s.depth c = some (d + 1))

theorem K.snoc_par {s0 s : Hs} {v t0 h d c : Nat} {dn : List Nat} (T : Tree n r P) (k : K n P edge s0 s v t0 h d dn) (hp : some c = P v) : K n P edge s0 s v t0 h d (dn ++ [c]) := by
  refine { k with times := ?_, kids := ?_ }
  · rw [k.times]; simp [wt, hp]
  · intro x hx hxn hxv
    rcases List.mem_append.1 hx with h' | h'
    · exact k.kids x h' hxn hxv
    · rw [List.mem_singleton] at h'
      subst h'
      exact absurd hp.symm (T.not_both hxn hxv)

theorem setHead_ok {s : Hs} (L : LensH n s) {c : Nat} (hc : c < n) (h d : Nat) : ∃ s1, setHead c h d s = some s1 ∧ LensH n s1 ∧ s1.times = s.times ∧ s1.rev = s.rev ∧
    rdI s1.head c = some h ∧ rdI s1.depth c = some d ∧ ∀ w, w ≠ c → SameH s s1 w := by
  obtain ⟨head, e1, l1, h1, h1'⟩ := wr_ok (l := s.head) (i := c) (by rw [L.head]; exact hc) (some h)
  obtain ⟨depth, e2, l2, h2, h2'⟩ := wr_ok (l := s.depth) (i := c) (by rw [L.depth]; exact hc) (some d)
  refine ⟨{ s with head := head, depth := depth }, by unfold setHead; rw [e1, Option.bind_some, e2]; rfl, { L with head := by rw [← L.head]; exact l1, depth := by rw [← L.depth]; exact l2 }, rfl, rfl, rdI_of h1, rdI_of h2, ?_⟩
  intro w hw
  exact ⟨rfl, rfl, h1' w hw, h2' w hw, rfl⟩

/-- What the recursive call does. -/
def RecOk (n : Nat) (P : Nat → Option Nat) (edge : List (List Nat)) (v : Nat) (s : Hs) (res : Option Hs) : Prop :=
  ∃ s', res = some s' ∧ LensH n s' ∧ s'.times = s.times + sz n P v ∧ (∀ w, ¬ Anc P v w → SameH s s' w) ∧ s'.head[v]? = s.head[v]? ∧ s'.depth[v]? = s.depth[v]? ∧
    (∀ i, i < s.times ∨ s.times + sz n P v ≤ i → s'.rev[i]? = s.rev[i]?) ∧ Done n P edge s' v s.times

theorem K.snoc {s0 s : Hs} {v t0 h d c : Nat} {dn : List Nat} (T : Tree n r P) (k : K n P edge s0 s v t0 h d dn) (hcn : c < n) (hcv : P c = some v) (hdn : c ∉ dn)
    {rec : Nat → Hs → Option Hs} (hrec : ∀ s1, LensH n s1 → s1.times = s.times → ∀ h' d', rdI s1.head c = some h' → rdI s1.depth c = some d' → RecOk n P edge c s1 (rec c s1))
    {h' d' : Nat} (hH : Heavy P edge v c → h' = h ∧ d' = d ∧ dn = []) (hL : ¬ Heavy P edge v c → h' = c ∧ d' = d + 1) :
    ∃ s2, (setHead c h' d' s).bind (rec c) = some s2 ∧ K n P edge s0 s2 v t0 h d (dn ++ [c]) ∧ ∀ w, ¬ Anc P c w → SameH s s2 w := by
  obtain ⟨s1, e1, L1, t1, r1, hd1, dp1, same1⟩ := setHead_ok k.lens hcn h' d'
  obtain ⟨s2, e2, L2, t2, same2, hd2, dp2, rev2, D2⟩ := hrec s1 L1 t1 h' d' hd1 dp1
  rw [e1, Option.bind_some]
  have hnv : ¬ Anc P c v := T.not_anc_par hcn hcv
  have hsame : ∀ w, ¬ Anc P c w → SameH s s2 w := fun w hw => (same1 w (by rintro rfl; exact hw Anc.refl)).trans (same2 w hw)
  have sv := hsame v hnv
  have hwt : wt n P v c = sz n P c := by
    unfold wt
    rw [if_neg]
    intro e
    exact T.not_both hcn hcv e.symm
  have hle : t0 + 1 ≤ s.times := by rw [k.times]; omega
  rw [t1] at t2 rev2 D2
  rw [r1] at rev2
  refine ⟨s2, e2, ⟨L2, ?_, ?_, ?_, ?_, ?_, ?_, ?_, ?_, ?_, ?_⟩, hsame⟩
  · rw [t2, k.times]; simp [hwt]; omega
  · intro w hw
    exact (k.out w hw).trans (hsame w fun a => hw ((Anc.step hcv Anc.refl).trans a))
  · intro i hi
    rw [rev2 i (by omega)]
    exact k.rev i (by omega)
  · rw [rdI_congr sv.inn]; exact k.inn
  · rw [rdI_congr (rev2 t0 (by omega))]; exact k.revv
  · rw [rdI_congr sv.head]; exact k.hd
  · rw [rdI_congr sv.depth]; exact k.dp
  · rw [sv.head]; exact k.hd0
  · rw [sv.depth]; exact k.dp0
  · intro x hx hxn hxv
    by_cases hxc : x = c
    · subst hxc
      refine ⟨s.times, by omega, by omega, D2, ?_, ?_⟩
      · intro hh
        obtain ⟨rfl, rfl, rfl⟩ := hH hh
        refine ⟨by rw [rdI_congr hd2]; exact hd1, by rw [rdI_congr dp2]; exact dp1, by rw [k.times]; rfl⟩
      · intro hh
        obtain ⟨rfl, rfl⟩ := hL hh
        exact ⟨by rw [rdI_congr hd2]; exact hd1, by rw [rdI_congr dp2]; exact dp1⟩
    · have hxd : x ∈ dn := by
        rcases List.mem_append.1 hx with h' | h'
        · exact h'
        · exact absurd (List.mem_singleton.1 h') hxc
      obtain ⟨tc, a1, a2, D, a4, a5⟩ := k.kids x hxd hxn hxv
      have hdisj : ∀ w, w < n → Anc P x w → ¬ Anc P c w := fun w _ a a' => hxc (T.children_disjoint hxn hcn hxv hcv a a')
      have hdisj' : ∀ w, Anc P x w → ¬ Anc P c w := by
        intro w a a'
        rcases Anc.total a a' with b | b
        · rcases b.cases' with b | ⟨y, b1, b2⟩
          · exact hxc b.symm
          · have : Anc P x v := by
              cases b with
              | refl => exact absurd rfl hxc
              | step e b => rw [hcv] at e; cases e; exact b
            exact T.not_anc_par hxn hxv this
        · have : Anc P c v := by
            cases b with
            | refl => exact absurd rfl hxc
            | step e b => rw [hxv] at e; cases e; exact b
          exact hnv this
      have sx := hsame x (hdisj' x Anc.refl)
      refine ⟨tc, a1, by omega, D.same (fun w a => hsame w (hdisj' w a)) (fun i h1 h2 => rev2 i (by omega)), ?_, ?_⟩
      · rw [rdI_congr sx.head, rdI_congr sx.depth]; exact a4
      · rw [rdI_congr sx.head, rdI_congr sx.depth]; exact a5

theorem K.setClen {s0 s : Hs} {v t0 h d : Nat} {dn : List Nat} (T : Tree n r P) (k : K n P edge s0 s v t0 h d dn) {clen : List Nat} (hl : clen.length = n) (hc : ∀ w, w ≠ v → clen[w]? = s.clen[w]?) :
    K n P edge s0 { s with clen := clen } v t0 h d dn := by
  have same : ∀ w, w ≠ v → SameH s { s with clen := clen } w := fun w hw => ⟨rfl, rfl, rfl, rfl, hc w hw⟩
  refine ⟨{ k.lens with clen := hl }, k.times, fun w hw => (k.out w hw).trans (same w (by rintro rfl; exact hw Anc.refl)), k.rev, k.inn, k.revv, k.hd, k.dp, k.hd0, k.dp0, ?_⟩
  intro c hcd hcn hcv
  obtain ⟨tc, a1, a2, D, a4, a5⟩ := k.kids c hcd hcn hcv
  exact ⟨tc, a1, a2, D.same (fun w a => same w (by rintro rfl; exact T.not_anc_par hcn hcv a)) (fun _ _ _ => rfl), a4, a5⟩

/-- The length of the chain below `v`. -/
structure Cl (n : Nat) (P : Nat → Option Nat) (edge : List (List Nat)) (s : Hs) (v : Nat) : Prop where
  heavy : ∀ w, w < n → Heavy P edge v w → ∃ c, s.clen[w]? = some c ∧ s.clen[v]? = some (c + 1)
  leaf : (∀ w, w < n → ¬ Heavy P edge v w) → s.clen[v]? = some 1

theorem enter_ok {s : Hs} (L : LensH n s) {v h d : Nat} (hv : v < n) (ht : s.times < n) (hh : rdI s.head v = some h) (hd : rdI s.depth v = some d) :
    ∃ s1, enter v s = some s1 ∧ K n P edge s s1 v s.times h d [] ∧ s1.clen[v]? = some 1 := by
  obtain ⟨inn, e1, l1, h1, h1'⟩ := wr_ok (l := s.inn) (i := v) (by rw [L.inn]; exact hv) (some s.times)
  obtain ⟨rev, e2, l2, h2, h2'⟩ := wr_ok (l := s.rev) (i := s.times) (by rw [L.rev]; exact ht) (some v)
  obtain ⟨clen, e3, l3, h3, h3'⟩ := wr_ok (l := s.clen) (i := v) (by rw [L.clen]; exact hv) 1
  refine ⟨{ s with inn := inn, rev := rev, clen := clen, times := s.times + 1 }, by unfold enter; rw [e1, Option.bind_some, e2, Option.bind_some, e3]; rfl, ?_, h3⟩
  refine ⟨⟨by rw [← L.inn]; exact l1, L.out, L.head, by rw [← L.rev]; exact l2, L.depth, by rw [← L.clen]; exact l3⟩, rfl, ?_, ?_, rdI_of h1, rdI_of h2, hh, hd, rfl, rfl, (fun c hc => by cases hc)⟩
  · intro w hw
    have : w ≠ v := by rintro rfl; exact hw Anc.refl
    exact ⟨h1' w this, rfl, rfl, rfl, h3' w this⟩
  · intro i hi
    refine h2' i ?_
    rintro rfl
    rcases hi with hi | hi
    · exact absurd hi (lt_irrefl _)
    · have : s.times + 1 ≤ s.times := hi
      omega

theorem leave_ok {s0 s : Hs} {v t0 h d : Nat} {ev : List Nat} (T : Tree n r P) (hv : v < n) (A : Adj n P v ev) (k : K n P edge s0 s v t0 h d ev) (cl : Cl n P edge s v) (h0 : s0.times = t0) :
    RecOk n P edge v s0 (leave v s) := by
  obtain ⟨out, e1, l1, h1, h1'⟩ := wr_ok (l := s.out) (i := v) (by rw [k.lens.out]; exact hv) (some s.times)
  have hsz := T.sz_sum hv A
  have htm : s.times = t0 + sz n P v := by rw [k.times, hsz]; omega
  have same : ∀ w, w ≠ v → SameH s { s with out := out } w := fun w hw => ⟨rfl, h1' w hw, rfl, rfl, rfl⟩
  have kid : ∀ c, c < n → P c = some v → ∃ tc, t0 < tc ∧ tc + sz n P c ≤ s.times ∧ Done n P edge { s with out := out } c tc ∧
      (Heavy P edge v c → rdI s.head c = some h ∧ rdI s.depth c = some d ∧ tc = t0 + 1) ∧ (¬ Heavy P edge v c → rdI s.head c = some c ∧ rdI s.depth c = some (d + 1)) := by
    intro c hc hcv
    obtain ⟨tc, a1, a2, D, a4, a5⟩ := k.kids c ((A.mem c).2 (Or.inl ⟨hc, hcv⟩)) hc hcv
    exact ⟨tc, a1, a2, D.same (fun w a => same w (by rintro rfl; exact T.not_anc_par hc hcv a)) (fun _ _ _ => rfl), a4, a5⟩
  refine ⟨{ s with out := out }, by unfold leave; rw [e1]; rfl, { k.lens with out := by rw [← k.lens.out]; exact l1 }, by rw [h0]; exact htm, ?_, k.hd0, k.dp0, ?_, ?_⟩
  · intro w hw
    exact (k.out w hw).trans (same w (by rintro rfl; exact hw Anc.refl))
  · intro i hi
    rw [h0] at hi
    exact k.rev i (by omega)
  · rw [h0]
    refine ⟨k.inn, ?_, ?_, ?_, ?_, ?_⟩
    · intro w hw a
      rcases a.cases' with e | ⟨c, hc1, hc2⟩
      · subst e
        exact ⟨t0, k.inn, le_refl _, le_refl _, by rw [← htm]; exact rdI_of h1, k.revv⟩
      · obtain ⟨tc, a1, a2, D, _, _⟩ := kid c (hc2.lt T hw) hc1
        obtain ⟨i, b1, b2, b3, b4, b5⟩ := D.node w hw hc2
        exact ⟨i, b1, by omega, by omega, b4, b5⟩
    · intro q w hw a hh
      have hq := T.par_lt hw hh.1
      rcases a.cases' with e | ⟨c, hc1, hc2⟩
      · subst e
        obtain ⟨tc, a1, a2, D, a4, _⟩ := kid w hw hh.1
        obtain ⟨b1, b2, b3⟩ := a4 hh
        refine ⟨b1.trans k.hd.symm, b2.trans k.dp.symm, ⟨t0, k.inn, by rw [← b3]; exact D.inv⟩, cl.heavy w hw hh⟩
      · obtain ⟨tc, a1, a2, D, _, _⟩ := kid c (hc2.lt T hq) hc1
        exact D.heavy q w hw hc2 hh
    · intro q w hw a hp hh
      have hq := T.par_lt hw hp
      rcases a.cases' with e | ⟨c, hc1, hc2⟩
      · subst e
        obtain ⟨tc, a1, a2, D, _, a5⟩ := kid w hw hp
        obtain ⟨b1, b2⟩ := a5 hh
        exact ⟨b1, d, k.dp, b2⟩
      · obtain ⟨tc, a1, a2, D, _, _⟩ := kid c (hc2.lt T hq) hc1
        exact D.light q w hw hc2 hp hh
    · intro q w hw a hp
      have hq := T.par_lt hw hp
      rcases a.cases' with e | ⟨c, hc1, hc2⟩
      · subst e
        obtain ⟨tc, a1, a2, D, _, a5⟩ := kid w hw hp
        exact ⟨t0, tc, k.inn, D.inv, a1, by omega⟩
      · obtain ⟨tc, a1, a2, D, _, _⟩ := kid c (hc2.lt T hq) hc1
        exact D.nest q w hw hc2 hp
    · intro q hq a hh
      rcases a.cases' with e | ⟨c, hc1, hc2⟩
      · subst e; exact cl.leaf hh
      · obtain ⟨tc, a1, a2, D, _, _⟩ := kid c (hc2.lt T hq) hc1
        exact D.leaf q hq hc2 hh

theorem sum_prefix {l dn td : List Nat} {f : Nat → Nat} {c : Nat} (h : l = dn ++ c :: td) : (dn.map f).sum + f c ≤ (l.map f).sum := by
  subst h
  simp

theorem heavyPart_ok (T : Tree n r P) {v t0 h d : Nat} {ev : List Nat} (hev : edge[v]? = some ev) (A : Adj n P v ev) {s0 s : Hs} (k : K n P edge s0 s v t0 h d [])
    (hc1 : s.clen[v]? = some 1) (hv : v < n)
    {rec : Nat → Hs → Option Hs} (hrec : ∀ c, c < n → P c = some v → ∀ s1, LensH n s1 → s1.times + sz n P c ≤ t0 + sz n P v → ∀ h' d', rdI s1.head c = some h' → rdI s1.depth c = some d' → RecOk n P edge c s1 (rec c s1)) :
    ∃ s2, heavyPart rec v (P v) ev s = some s2 ∧ K n P edge s0 s2 v t0 h d (ev.take 1) ∧ Cl n P edge s2 v := by
  have hsum := T.sz_sum hv A
  unfold heavyPart
  cases ev with
  | nil =>
    refine ⟨s, rfl, k, ⟨?_, fun _ => hc1⟩⟩
    rintro w _ ⟨_, tl, e⟩
    rw [hev] at e
    cases e
  | cons c tl =>
    dsimp only
    by_cases hp : some c = P v
    · rw [if_pos hp]
      refine ⟨s, rfl, k.snoc_par T hp, ⟨?_, fun _ => hc1⟩⟩
      rintro w hw ⟨e1, tl', e2⟩
      rw [hev] at e2
      cases e2
      exact absurd hp.symm (T.not_both hw e1)
    · rw [if_neg hp]
      obtain ⟨hcn, hcv⟩ := A.child (List.mem_cons_self ..) hp
      have hH : Heavy P edge v c := ⟨hcv, tl, hev⟩
      unfold heavyStep
      rw [k.hd, Option.bind_some, k.dp, Option.bind_some]
      have hwt : wt n P v c = sz n P c := by unfold wt; rw [if_neg hp]
      have hs := sum_prefix (l := c :: tl) (dn := []) (td := tl) (f := wt n P v) rfl
      obtain ⟨s2, e2, k2, same2⟩ := k.snoc T hcn hcv (by simp) (rec := rec) (fun s1 L1 t1 h' d' a b => hrec c hcn hcv s1 L1 (by
        have := k.times
        simp only [List.map_nil, List.sum_nil] at this hs
        omega) h' d' a b) (fun _ => ⟨rfl, rfl, rfl⟩) (fun h' => absurd hH h')
      have hb : ((setHead c h d s).bind (fun s => (rec c s).bind (addLen v c))) = ((setHead c h d s).bind (rec c)).bind (addLen v c) := by
        cases setHead c h d s <;> rfl
      rw [hb, e2, Option.bind_some]
      -- the chain length of the child
      obtain ⟨b, hbc⟩ : ∃ b, s2.clen[c]? = some b := by
        rw [List.getElem?_eq_getElem (by rw [k2.lens.clen]; exact hcn)]
        exact ⟨_, rfl⟩
      obtain ⟨clen, e3, l3, h3, h3'⟩ := wr_ok (l := s2.clen) (i := v) (by rw [k2.lens.clen]; exact hv) (1 + b)
      unfold addLen
      rw [(same2 v (T.not_anc_par hcn hcv)).clen, hc1, Option.bind_some, hbc, Option.bind_some, e3]
      refine ⟨_, rfl, k2.setClen T (by rw [l3]; exact k2.lens.clen) h3', ⟨?_, ?_⟩⟩
      · rintro w hw ⟨e1, tl', e2⟩
        rw [hev] at e2
        cases e2
        exact ⟨b, by rw [← hbc]; exact h3' c (T.par_ne hcn hcv).symm, by rw [Nat.add_comm b 1]; exact h3⟩
      · intro hno
        exact absurd hH (hno c hcn)

theorem lightStep_ok (T : Tree n r P) {v t0 h d : Nat} {ev : List Nat} (hev : edge[v]? = some ev) (A : Adj n P v ev) {s0 s : Hs} {i : Nat} (hi : 1 ≤ i) (hil : i < ev.length) (hv : v < n)
    (k : K n P edge s0 s v t0 h d (ev.take i)) (cl : Cl n P edge s v)
    {rec : Nat → Hs → Option Hs} (hrec : ∀ c, c < n → P c = some v → ∀ s1, LensH n s1 → s1.times + sz n P c ≤ t0 + sz n P v → ∀ h' d', rdI s1.head c = some h' → rdI s1.depth c = some d' → RecOk n P edge c s1 (rec c s1)) :
    ∃ s2, lightStep rec v (P v) ev i s = some s2 ∧ K n P edge s0 s2 v t0 h d (ev.take (i+1)) ∧ Cl n P edge s2 v := by
  have hsum := T.sz_sum hv A
  have hg : ev[i]? = some ev[i] := List.getElem?_eq_getElem hil
  have htake : ev.take (i+1) = ev.take i ++ [ev[i]] := List.take_succ_eq_append_getElem hil
  have hsplit : ev = ev.take i ++ ev[i] :: ev.drop (i+1) := by rw [List.getElem_cons_drop, List.take_append_drop]
  unfold lightStep
  rw [hg, Option.bind_some, htake]
  generalize ev[i] = c at *
  by_cases hp : some c = P v
  · rw [if_pos hp]
    exact ⟨s, rfl, k.snoc_par T hp, cl⟩
  · rw [if_neg hp, k.dp, Option.bind_some]
    have hcm : c ∈ ev := by rw [hsplit]; simp
    obtain ⟨hcn, hcv⟩ := A.child hcm hp
    have hnd : c ∉ ev.take i := by
      have := A.nodup
      rw [hsplit, List.nodup_append] at this
      intro h'
      exact this.2.2 c h' c (List.mem_cons_self ..) rfl
    have hnh : ¬ Heavy P edge v c := by
      rintro ⟨_, tl, e⟩
      rw [hev] at e
      cases e
      apply hnd
      cases i with
      | zero => omega
      | succ i => simp
    have hwt : wt n P v c = sz n P c := by unfold wt; rw [if_neg hp]
    have hs := sum_prefix (f := wt n P v) hsplit
    obtain ⟨s2, e2, k2, same2⟩ := k.snoc T hcn hcv hnd (rec := rec) (fun s1 L1 t1 h' d' a b => hrec c hcn hcv s1 L1 (by
      have := k.times
      omega) h' d' a b) (h' := c) (d' := d + 1) (fun h' => absurd h' hnh) (fun _ => ⟨rfl, rfl⟩)
    refine ⟨s2, e2, k2, ?_⟩
    have sv := (same2 v (T.not_anc_par hcn hcv)).clen
    refine ⟨?_, by rw [sv]; exact cl.leaf⟩
    intro w hw hH
    have hwc : ¬ Anc P c w := by
      intro a
      cases a with
      | refl => exact hnh hH
      | step e a => rw [hH.1] at e; cases e; exact T.not_anc_par hcn hcv a
    rw [sv, (same2 w hwc).clen]
    exact cl.heavy w hw hH

theorem dfsHld_ok (T : Tree n r P) (hE : EdgeOk n P edge) : ∀ (f v : Nat) (s : Hs) (h d : Nat), v < n → sz n P v ≤ f → LensH n s → s.times + sz n P v ≤ n → rdI s.head v = some h → rdI s.depth v = some d →
    RecOk n P edge v s (dfsHld edge f v (P v) s) := by
  intro f
  induction f with
  | zero => intro v s h d hv hf; have := sz_pos (P := P) hv; omega
  | succ f ih =>
    intro v s h d hv hf L ht hh hd
    obtain ⟨ev, hev, A, _⟩ := hE v hv
    have hpos := sz_pos (P := P) hv
    rw [dfsHld, hev, Option.bind_some]
    obtain ⟨s1, e1, k1, c1⟩ := enter_ok (P := P) (edge := edge) L hv (by omega) hh hd
    rw [e1, Option.bind_some]
    have hrec : ∀ c, c < n → P c = some v → ∀ s1, LensH n s1 → s1.times + sz n P c ≤ s.times + sz n P v → ∀ h' d', rdI s1.head c = some h' → rdI s1.depth c = some d' → RecOk n P edge c s1 ((fun t s => dfsHld edge f t (some v) s) c s1) := by
      intro c hc hcv s1 L1 ht1 h' d' a b
      have := ih c s1 h' d' hc (by have := T.sz_child hc hcv; omega) L1 (by omega) a b
      rw [hcv] at this
      exact this
    obtain ⟨s2, e2, k2, cl2⟩ := heavyPart_ok T hev A k1 c1 hv hrec
    rw [e2, Option.bind_some]
    by_cases hl : ev.length < 1
    · have hnil : ev = [] := List.length_eq_zero_iff.1 (by omega)
      rw [forRange_nil (by omega), Option.bind_some]
      rw [hnil] at k2
      rw [hnil] at A
      exact leave_ok T hv A k2 cl2 rfl
    · obtain ⟨s3, e3, k3, cl3⟩ := forRange_inv (a := 1) (b := ev.length) (s := s2) (body := lightStep (fun t s => dfsHld edge f t (some v) s) v (P v) ev)
        (P := fun i s' => K n P edge s s' v s.times h d (ev.take i) ∧ Cl n P edge s' v) (by omega) ⟨k2, cl2⟩ (by
          rintro i s' h1 h2 ⟨k, cl⟩
          exact lightStep_ok T hev A h1 h2 hv k cl hrec)
      rw [e3, Option.bind_some]
      rw [List.take_length] at k3
      exact leave_ok T hv A k3 cl3 rfl

end Verif.Hld
