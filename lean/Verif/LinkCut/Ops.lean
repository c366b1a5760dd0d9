import Verif.LinkCut.Expose
/-!
The operations of the link-cut tree on the forest.
-/
namespace Verif.LinkCut
open Verif Verif.LazySegTree Verif.Splay BT

variable {M A : Type} [Monoid M] {S : Acts M A} {n : Nat} {h : Heap M A} {g : Nat → Node M A} {F F' : Forest M A} {P : Nat → Option Nat} {dep : Nat → Nat} {val : Nat → M}

theorem map_inj {s s' : List Nat} {val' : Nat → M} (e : s.map (fun a => (a, val a)) = s'.map (fun a => (a, val' a))) : s = s' := by
  have := congrArg (List.map Prod.fst) e
  simpa [List.map_map, Function.comp_def] using this

/-- New data at the root of the first tree. -/
theorem G0.modRoot {l r : BT M A} {q : Nat} {d : Dat M A} {pp : Option Nat} (I : G0 S n h g ((node l q d r, pp) :: F) P dep val) (Φ : Dat M A → Dat M A)
    {P' : Nat → Option Nat} {dep' : Nat → Nat} {val' : Nat → M} (hd : ∀ a b, P' a = some b → dep' b < dep' a) (hP : ∀ a, a ∉ nodes (node l q d r) → P' a = P a ∧ val' a = val a)
    (hs : ∃ s, seq S (node l q (Φ d) r) = s.map (fun a => (a, val' a)) ∧ Path P' pp s) :
    ∃ h' g', modN h q (fun x => { x with d := Φ x.d }) = some h' ∧ G0 S n h' g' ((node l q (Φ d) r, pp) :: F) P' dep' val' ∧ ∀ j, j ≠ q → g' j = g j := by
  have hq : q ∈ alln ((node l q d r, pp) :: F) := by simp [alln_cons, nodes]
  obtain ⟨h', e, r'⟩ := modN_ok I.rep (I.lt q hq) (fun x => { x with d := Φ x.d })
  refine ⟨h', upd g q { g q with d := Φ (g q).d }, e, ?_, fun j hj => upd_ne _ _ hj⟩
  have hH := I.toH (x := (node l q d r, pp)) (by simp)
  obtain ⟨_, _, hl, hr, _⟩ := nodup_parts hH.nd
  obtain ⟨r1, r2, r3⟩ := hH.rp
  refine ⟨r', I.nd, I.lt, ?_, ?_, ?_, hd⟩
  · intro x hx
    rcases List.mem_cons.1 hx with rfl | hx
    · exact ⟨by rw [upd_same, r1], Rp_congr r2 fun j hj => upd_ne _ _ (fun e => hl (e ▸ hj)), Rp_congr r3 fun j hj => upd_ne _ _ (fun e => hr (e ▸ hj))⟩
    · exact Rp_congr (I.rp x (by simp [hx])) fun j hj => upd_ne _ _ (fun e => I.disj (x := (node l q d r, pp)) (j := j) (by rw [e]; simp [nodes]) (mem_alln.2 ⟨x, hx, hj⟩))
  · intro x hx
    rcases List.mem_cons.1 hx with rfl | hx
    · exact hs
    · obtain ⟨s, e, p⟩ := I.path x (by simp [hx])
      have hno : ∀ a ∈ s, a ∉ nodes (node l q d r) := fun a ha hm => I.disj (x := (node l q d r, pp)) hm (mem_alln.2 ⟨x, hx, (seq_fst e).mem_iff.1 ha⟩)
      refine ⟨s, ?_, p.congr fun a ha => (hP a (hno a ha)).1⟩
      rw [e]
      exact List.map_congr_left fun a ha => by rw [(hP a (hno a ha)).2]
  · intro x hx hn q' hq'
    rcases List.mem_cons.1 hx with rfl | hx
    · exact I.par (node l q d r, pp) (by simp) (by simp) q' hq'
    · exact I.par x (by simp [hx]) hn q' hq'

/-! ### reversing a path -/

def nxt : List Nat → Nat → Option Nat
  | [], _ => none
  | b :: s, a => if a = b then s.head? else nxt s a

def aft : List Nat → Nat → Nat
  | [], _ => 0
  | b :: s, a => if a = b then s.length else aft s a

theorem nxt_mem : ∀ {s : List Nat} {a b : Nat}, nxt s a = some b → a ∈ s ∧ b ∈ s := by
  intro s
  induction s with
  | nil => intro a b h; cases h
  | cons c s ih =>
    intro a b h
    rw [nxt] at h
    split at h
    · rename_i e
      subst e
      exact ⟨by simp, List.mem_cons_of_mem _ (List.mem_of_head? h)⟩
    · exact ⟨List.mem_cons_of_mem _ (ih h).1, List.mem_cons_of_mem _ (ih h).2⟩

theorem aft_lt : ∀ {s : List Nat} {a : Nat}, a ∈ s → aft s a < s.length := by
  intro s
  induction s with
  | nil => intro a h; cases h
  | cons c s ih =>
    intro a h
    rw [aft]
    split
    · simp
    · rename_i e
      have := ih ((List.mem_cons.1 h).resolve_left e)
      rw [List.length_cons]; omega

theorem nxt_aft : ∀ {s : List Nat} (_ : s.Nodup) {a b : Nat}, nxt s a = some b → aft s b < aft s a := by
  intro s
  induction s with
  | nil => intro _ a b h; cases h
  | cons c s ih =>
    intro nd a b h
    rw [List.nodup_cons] at nd
    rw [nxt] at h
    rw [aft, aft]
    split at h
    · rename_i e
      have hb := List.mem_of_head? h
      rw [if_neg (ne_of_mem_of_not_mem hb nd.1), if_pos e]
      exact aft_lt hb
    · rename_i e
      have hb := (nxt_mem h).2
      rw [if_neg (ne_of_mem_of_not_mem hb nd.1), if_neg e]
      exact ih nd.2 h

theorem nxt_edge : ∀ {s : List Nat} {pp : Option Nat} {a b : Nat}, Path P pp s → nxt s a = some b → P b = some a := by
  intro s
  induction s with
  | nil => intro _ a b _ h; cases h
  | cons c s ih =>
    rintro pp a b ⟨_, h2⟩ h
    rw [nxt] at h
    split at h
    · rename_i e
      subst e
      cases s with
      | nil => cases h
      | cons d s => cases h; exact h2.1
    · exact ih h2 h

theorem edge_nxt : ∀ {s : List Nat} {pp : Option Nat} {a b : Nat}, s.Nodup → Path P pp s → b ∈ s → P b = some a → (pp = some a ∧ s.head? = some b) ∨ nxt s a = some b := by
  intro s
  induction s with
  | nil => intro _ a b _ _ h; cases h
  | cons c s ih =>
    rintro pp a b nd ⟨h1, h2⟩ hb e
    rw [List.nodup_cons] at nd
    by_cases hbc : b = c
    · subst hbc
      exact Or.inl ⟨h1.symm.trans e, rfl⟩
    · right
      rw [nxt]
      rcases ih nd.2 h2 ((List.mem_cons.1 hb).resolve_left hbc) e with ⟨k1, k2⟩ | k
      · rw [if_pos (by simpa using k1.symm)]; exact k2
      · rw [if_neg (ne_of_mem_of_not_mem (nxt_mem k).1 nd.1)]; exact k

theorem path_rev : ∀ {s : List Nat}, s.Nodup → Path (nxt s) none s.reverse := by
  intro s
  induction s with
  | nil => intro _; trivial
  | cons a s ih =>
    intro nd
    rw [List.nodup_cons] at nd
    have h1 : Path (nxt (a :: s)) none s.reverse := (ih nd.2).congr fun b hb => by
      rw [nxt, if_neg (fun e => nd.1 (by rw [← e]; exact List.mem_reverse.1 hb))]
    rw [List.reverse_cons]
    cases s with
    | nil => exact ⟨by rw [nxt, if_pos rfl]; rfl, trivial⟩
    | cons b s =>
      rw [List.reverse_cons] at h1 ⊢
      rw [List.append_assoc, List.singleton_append, Path.append_iff]
      exact ⟨h1, by rw [nxt, if_pos rfl]; rfl, trivial⟩

/-- The parent function with the path `s` reversed. -/
def revP (P : Nat → Option Nat) (s : List Nat) (a : Nat) : Option Nat := if a ∈ s then nxt s a else P a

theorem revP_edges {s : List Nat} (nd : s.Nodup) (hp : Path P none s) (a b : Nat) : (revP P s a = some b ∨ revP P s b = some a) ↔ (P a = some b ∨ P b = some a) := by
  have fwd : ∀ a b, revP P s a = some b → (P a = some b ∨ P b = some a) := by
    intro a b e
    unfold revP at e
    split at e
    · exact Or.inr (nxt_edge hp e)
    · exact Or.inl e
  have bwd : ∀ a b, P a = some b → (revP P s a = some b ∨ revP P s b = some a) := by
    intro a b e
    unfold revP
    by_cases ha : a ∈ s
    · rcases edge_nxt nd hp ha e with ⟨k, _⟩ | k
      · cases k
      · exact Or.inr (by rw [if_pos (nxt_mem k).1]; exact k)
    · exact Or.inl (by rw [if_neg ha]; exact e)
  constructor
  · rintro (e | e)
    · exact fwd a b e
    · exact (fwd b a e).symm
  · rintro (e | e)
    · exact bwd a b e
    · exact (bwd b a e).symm

theorem revP_dep {s : List Nat} (nd : s.Nodup) (hd : ∀ a b, P a = some b → dep b < dep a) (a b : Nat) (e : revP P s a = some b) :
    (if b ∈ s then aft s b else dep b + s.length) < (if a ∈ s then aft s a else dep a + s.length) := by
  unfold revP at e
  split at e
  · rename_i ha
    rw [if_pos ha, if_pos (nxt_mem e).2]
    exact nxt_aft nd e
  · rename_i ha
    rw [if_neg ha]
    have := hd a b e
    split
    · rename_i hb
      have := aft_lt hb
      omega
    · omega

/-! ### evert -/

theorem seq_flip (L : Laws S) {l r : BT M A} {i : Nat} {d : Dat M A} (hc : Clean S d) : seq S (node l i (flipD d) r) = (seq S (node l i d r)).reverse := by
  rw [seq_clean L hc, seq, if_pos (by unfold flipD; simp [hc.1])]
  have ht : ∀ s : List (Nat × M), through S (flipD d) s = s.reverse := by
    intro s
    unfold through flipD
    rw [if_pos (by simp [hc.1])]
    dsimp only
    rw [hc.2]
    congr 1
    conv_rhs => rw [← List.map_id s]
    exact List.map_congr_left fun x _ => by rw [L.ida]; rfl
  rw [ht, ht]
  simp [flipD]

theorem last_none {s : List Nat} {v : Nat} (nd : (s ++ [v]).Nodup) : nxt (s ++ [v]) v = none := by
  induction s with
  | nil => simp [nxt]
  | cons a s ih =>
    rw [List.cons_append, List.nodup_cons] at nd
    rw [List.cons_append, nxt, if_neg (fun e => nd.1 (by simp [e]))]
    exact ih nd.2

theorem evert_ok (L : Laws S) {v fuel : Nat} (hf : n ≤ fuel) (I : G0 S n h g F P dep val) (hv : VAll S F) (hx : v ∈ alln F) :
    ∃ h' g' d r F' P' dep', evert S fuel v h = some h' ∧ G0 S n h' g' ((node nil v d r, none) :: F') P' dep' val ∧ VAll S ((node nil v d r, none) :: F') ∧
      (alln ((node nil v d r, none) :: F')).Perm (alln F) ∧ P' v = none ∧ ∀ a b, (P' a = some b ∨ P' b = some a) ↔ (P a = some b ∨ P b = some a) := by
  obtain ⟨h1, g1, l, d, F1, e1, I1, v1, c1, p1, _⟩ := expose_ok L hf I hv hx
  obtain ⟨s, es, ps⟩ := I1.path (node l v d nil, none) (by simp)
  dsimp only at es ps
  have hnd : s.Nodup := (seq_fst es).nodup_iff.2 (I1.toH (x := (node l v d nil, none)) (by simp)).nd
  have hmem : ∀ a, a ∈ s ↔ a ∈ nodes (node l v d nil) := fun a => (seq_fst es).mem_iff
  have hpath : Path (revP P s) none s.reverse := (path_rev hnd).congr fun a ha => by unfold revP; rw [if_pos (List.mem_reverse.1 ha)]
  obtain ⟨h2, g2, e2, I2, _⟩ := I1.modRoot flipD (P' := revP P s) (dep' := fun a => if a ∈ s then aft s a else dep a + s.length) (val' := val) (fun a b e => revP_dep hnd I1.dep a b e)
    (fun a ha => ⟨by unfold revP; rw [if_neg (fun k => ha ((hmem a).1 k))], rfl⟩) ⟨s.reverse, by rw [seq_flip L c1, es, List.map_reverse], hpath⟩
  have hv2 : Valid S true (node l v (flipD d) nil) := by
    obtain ⟨k1, k2, k3⟩ := v1 (node l v d nil, none) (by simp)
    refine ⟨k1, k2, ?_⟩
    rw [seq_flip L c1]
    exact ⟨k3.rprod, by rw [List.reverse_reverse]; exact k3.prod, fun h => by cases h⟩
  obtain ⟨h3, g3, e3, s3⟩ := propagate_st (S := S) (lct := true) (c := []) (I2.toH (by simp)) rfl
  obtain ⟨I3, p3, _⟩ := I2.step (by simp) s3 (seq_prop L _)
  have hrev : (flipD d).rev = true := by unfold flipD; simp [c1.1]
  have hpr : prop S (node l v (flipD d) nil) = node nil v (clr S (flipD d)) (recv S (flipD d) l) := by
    unfold prop mk
    dsimp only
    rw [hrev]; rfl
  have hv3 := valid_prop L hv2
  simp only [plug] at I3 p3
  rw [hpr] at I3 p3 hv3
  refine ⟨h3, g3, _, _, F1, _, _, ?_, I3, ?_, ?_, ?_, revP_edges hnd ps⟩
  · unfold evert
    rw [e1, Option.bind_some, e2, Option.bind_some, e3]
  · intro y hy
    rcases List.mem_cons.1 hy with rfl | hy
    · exact hv3
    · exact v1 y (by simp [hy])
  · exact p3.trans p1
  · have hvs : v ∈ s := (hmem v).2 (by simp [nodes])
    unfold revP
    rw [if_pos hvs]
    rw [seq_clean L c1] at es
    obtain ⟨s1, s2, rfl, _, _, e4⟩ := split_seq es
    have : s2 = [] := by simpa [seq] using e4
    subst this
    exact last_none hnd

/-! ### closed parts -/

theorem path_class {Q : Nat → Prop} (hQ : ∀ a b, P a = some b → (Q a ↔ Q b)) : ∀ {s : List Nat} {q : Nat}, Path P (some q) s → ∀ a ∈ s, Q a ↔ Q q := by
  intro s
  induction s with
  | nil => intro q _ a ha; cases ha
  | cons b s ih =>
    rintro q ⟨h1, h2⟩ a ha
    rcases List.mem_cons.1 ha with rfl | ha
    · exact hQ _ _ h1
    · rw [ih h2 a ha]; exact hQ _ _ h1

theorem path_class' {Q : Nat → Prop} (hQ : ∀ a b, P a = some b → (Q a ↔ Q b)) {s : List Nat} {pp : Option Nat} (hp : Path P pp s) (a : Nat) (ha : a ∈ s) (b : Nat) (hb : b ∈ s) : Q a ↔ Q b := by
  cases s with
  | nil => cases ha
  | cons c s =>
    have k : ∀ x ∈ c :: s, Q x ↔ Q c := by
      intro x hx
      rcases List.mem_cons.1 hx with rfl | hx
      · exact Iff.rfl
      · exact path_class hQ hp.2 x hx
    rw [k a ha, k b hb]

open Classical in
theorem G0.part (I : G0 S n h g F P dep val) {Q : Nat → Prop} (hQ : ∀ a b, P a = some b → (Q a ↔ Q b)) :
    ∃ X Y, F.Perm (X ++ Y) ∧ (∀ a ∈ alln X, ¬ Q a) ∧ (∀ a ∈ alln Y, Q a) ∧ G0 S n h g X P dep val := by
  have hp : F.Perm (F.filter (fun x => decide (∀ a ∈ nodes x.1, ¬ Q a)) ++ F.filter (fun x => !decide (∀ a ∈ nodes x.1, ¬ Q a))) := (List.filter_append_perm _ F).symm
  generalize hX : F.filter (fun x => decide (∀ a ∈ nodes x.1, ¬ Q a)) = X at hp
  generalize hY : F.filter (fun x => !decide (∀ a ∈ nodes x.1, ¬ Q a)) = Y at hp
  have q1 : ∀ a ∈ alln X, ¬ Q a := by
    intro a ha
    obtain ⟨x, hx, ha⟩ := mem_alln.1 ha
    rw [← hX, List.mem_filter] at hx
    exact (by simpa using hx.2 : ∀ a ∈ nodes x.1, ¬ Q a) a ha
  have q2 : ∀ a ∈ alln Y, Q a := by
    intro a ha
    obtain ⟨x, hx, ha⟩ := mem_alln.1 ha
    rw [← hY, List.mem_filter] at hx
    obtain ⟨hxF, hx⟩ := hx
    obtain ⟨b, hb, hQb⟩ : ∃ b ∈ nodes x.1, Q b := by simpa using hx
    obtain ⟨s, es, ps⟩ := I.path x hxF
    exact (path_class' hQ ps a ((seq_fst es).mem_iff.2 ha) b ((seq_fst es).mem_iff.2 hb)).2 hQb
  have hall : (alln F).Perm (alln X ++ alln Y) := by
    have := alln_perm hp
    unfold alln at this ⊢
    rwa [List.flatMap_append] at this
  have hsub : ∀ x ∈ X, x ∈ F := fun x hx => hp.mem_iff.2 (by simp [hx])
  refine ⟨X, Y, hp, q1, q2, I.rep, (List.nodup_append.1 (hall.nodup_iff.1 I.nd)).1, fun i hi => I.lt i (hall.mem_iff.2 (by simp [hi])), fun x hx => I.rp x (hsub x hx), fun x hx => I.path x (hsub x hx), ?_, I.dep⟩
  intro x hx hn q hq
  have hqF := hall.mem_iff.1 (I.par x (hsub x hx) hn q hq)
  refine (List.mem_append.1 hqF).resolve_right fun hqY => ?_
  obtain ⟨s, es, ps⟩ := I.path x (hsub x hx)
  rw [hq] at ps
  obtain ⟨a, ha⟩ : ∃ a, a ∈ nodes x.1 := by
    obtain ⟨t, pt⟩ := x
    cases t with
    | nil => exact absurd rfl hn
    | node l i d r => exact ⟨i, by simp [nodes]⟩
  exact q1 a (mem_alln.2 ⟨x, hx, ha⟩) ((path_class hQ ps a ((seq_fst es).mem_iff.2 ha)).2 (q2 q hqY))

theorem alln_append (X Y : Forest M A) : alln (X ++ Y) = alln X ++ alln Y := by unfold alln; rw [List.flatMap_append]

theorem G0.join {X Y X' : Forest M A} (I : G0 S n h g (X ++ Y) P dep val) {h' : Heap M A} {g' : Nat → Node M A} (I' : G0 S n h' g' X' P dep val) (hp : (alln X').Perm (alln X)) (hf : ∀ j, j ∉ alln X → g' j = g j) :
    G0 S n h' g' (X' ++ Y) P dep val := by
  have hall : (alln (X' ++ Y)).Perm (alln (X ++ Y)) := by rw [alln_append, alln_append]; exact hp.append_right _
  refine ⟨I'.rep, hall.nodup_iff.2 I.nd, fun i hi => I.lt i (hall.mem_iff.1 hi), ?_, ?_, ?_, I.dep⟩
  · intro x hx
    rcases List.mem_append.1 hx with hx | hx
    · exact I'.rp x hx
    · refine Rp_congr (I.rp x (by simp [hx])) fun j hj => hf j fun hj' => ?_
      have := I.nd
      rw [alln_append] at this
      exact (List.nodup_append.1 this).2.2 j hj' j (mem_alln.2 ⟨x, hx, hj⟩) rfl
  · intro x hx
    rcases List.mem_append.1 hx with hx | hx
    · exact I'.path x hx
    · exact I.path x (by simp [hx])
  · intro x hx hn q hq
    rcases List.mem_append.1 hx with hx | hx
    · rw [alln_append]; exact List.mem_append_left _ (I'.par x hx hn q hq)
    · exact hall.mem_iff.2 (I.par x (by simp [hx]) hn q hq)

/-! ### link -/

theorem link_ok (L : Laws S) {u v fuel : Nat} (hf : n ≤ fuel) (I : G0 S n h g F P dep val) (hv : VAll S F) (hu : u ∈ alln F) (hvF : v ∈ alln F) {Q : Nat → Prop} (hQ : ∀ a b, P a = some b → (Q a ↔ Q b)) (hQv : Q v) (hQu : ¬ Q u) :
    ∃ h' g' F' P' dep', link S fuel u v h = some h' ∧ G0 S n h' g' F' P' dep' val ∧ VAll S F' ∧ (alln F').Perm (alln F) ∧
      ∀ a b, (P' a = some b ∨ P' b = some a) ↔ ((P a = some b ∨ P b = some a) ∨ (a = u ∧ b = v) ∨ (a = v ∧ b = u)) := by
  obtain ⟨h1, g1, d1, r1, F1, P1, dep1, e1, I1, v1, p1, pv, E1⟩ := evert_ok L hf I hv hvF
  have hQ1 : ∀ a b, P1 a = some b → (Q a ↔ Q b) := by
    intro a b e
    rcases (E1 a b).1 (Or.inl e) with k | k
    · exact hQ a b k
    · exact (hQ b a k).symm
  obtain ⟨X, Y, hXY, qX, qY, IX⟩ := I1.part hQ1
  have huX : u ∈ alln X := by
    have := (alln_perm hXY).mem_iff.1 (p1.mem_iff.2 hu)
    rw [alln_append, List.mem_append] at this
    exact this.resolve_right fun k => hQu (qY u k)
  have vXY := v1.perm hXY
  obtain ⟨h2, g2, l2, d2, X2, e2, I2, v2, c2, p2, f2⟩ := expose_ok L hf IX (fun x hx => vXY x (by simp [hx])) huX
  have hvY : (node nil v d1 r1, none) ∈ Y := by
    have : (node nil v d1 r1, none) ∈ X ++ Y := hXY.mem_iff.1 (by simp)
    refine (List.mem_append.1 this).resolve_left fun k => ?_
    exact qX v (mem_alln.2 ⟨_, k, by simp [nodes]⟩) hQv
  obtain ⟨a, b, rfl⟩ := List.append_of_mem hvY
  have I3 := (I1.perm hXY).join I2 p2 f2
  have hp3 : (((node l2 u d2 nil, none) :: X2) ++ (a ++ (node nil v d1 r1, none) :: b)).Perm ((node l2 u d2 nil, none) :: (node nil v d1 r1, none) :: (X2 ++ (a ++ b))) := by
    rw [List.cons_append]
    refine List.Perm.cons _ ?_
    rw [← List.append_assoc, ← List.append_assoc]
    exact List.perm_middle
  have I4 := I3.perm hp3
  have v4 : VAll S ((node l2 u d2 nil, none) :: (node nil v d1 r1, none) :: (X2 ++ (a ++ b))) := by
    refine VAll.perm ?_ hp3
    intro y hy
    rcases List.mem_append.1 hy with hy | hy
    · exact v2 y hy
    · exact vXY y (List.mem_append_right _ hy)
  have nd4 := I4.nd
  have huv : u ≠ v := fun e => hQu (e ▸ hQv)
  have hun : u < n := I4.lt u (by simp [alln_cons, nodes])
  have hvn : v < n := I4.lt v (by simp [alln_cons, nodes])
  obtain ⟨h5, e5, r5⟩ := modN_ok I4.rep hun (fun x => { x with r := some v })
  obtain ⟨h6, e6, r6⟩ := modN_ok r5 hvn (fun x => { x with p := some u })
  have hut : u ∉ nodes (node nil v d1 r1) := fun k => I4.disj (x := (node l2 u d2 nil, none)) (j := u) (by simp [nodes]) (by rw [alln_cons]; exact List.mem_append_left _ k)
  have ndt : (nodes (node nil v d1 r1)).Nodup := (I1.toH (x := (node nil v d1 r1, none)) (by simp)).nd
  obtain ⟨s, es, ps⟩ := I4.path (node nil v d1 r1, none) (by simp)
  obtain ⟨h7, g7, d7, e7, I7, v7, _, p7, _⟩ := I4.attach L v4 c2 (h2 := h6) r6 (by rw [upd_ne _ _ huv, upd_same]; rfl)
    (Rp_par ndt (I4.rp (node nil v d1 r1, none) (by simp)) fun j hj => by
      by_cases hjv : j = v
      · subst hjv
        rw [upd_same, upd_ne _ _ huv.symm, if_pos (by rfl)]
      · rw [upd_ne _ _ hjv, upd_ne _ _ (ne_of_mem_of_not_mem hj hut), if_neg (by simpa [root] using Ne.symm hjv)])
    (fun j hj hj' => by rw [upd_ne _ _ (fun e => hj' (by simp [e, nodes])), upd_ne _ _ hj])
    (P' := upd P1 v (some u)) (dep' := fun a => open Classical in if Q a then dep1 a + dep1 u + 1 else dep1 a)
    (by
      intro a b e
      by_cases hav : a = v
      · subst hav
        rw [upd_same] at e
        cases e
        simp only [if_pos hQv, if_neg hQu]
        omega
      · rw [upd_ne _ _ hav] at e
        have := I1.dep a b e
        by_cases hqa : Q a
        · simp only [if_pos hqa, if_pos ((hQ1 a b e).1 hqa)]; omega
        · simp only [if_neg hqa, if_neg (fun k => hqa ((hQ1 a b e).2 k))]; exact this)
    (fun a ha => upd_ne _ _ (fun e => ha (by simp [e, nodes])))
    (by
      intro s' es'
      have : s' = s := map_inj (es'.symm.trans es)
      subst this
      cases s' with
      | nil =>
        have := (seq_fst es').length_eq
        simp [nodes] at this
      | cons x s' =>
        have hxv : x = v := by
          by_contra hne
          have hvm : v ∈ s' := by
            have := (seq_fst es').mem_iff.2 (by simp [nodes] : v ∈ nodes (node nil v d1 r1))
            exact (List.mem_cons.1 this).resolve_left (Ne.symm hne)
          have key : ∀ (s : List Nat) (q : Nat), Path P1 (some q) s → ∀ a ∈ s, P1 a ≠ none := by
            intro s
            induction s with
            | nil => intro q _ a ha; cases ha
            | cons b s ih =>
              rintro q ⟨k1, k2⟩ a ha
              rcases List.mem_cons.1 ha with rfl | ha
              · rw [k1]; simp
              · exact ih b k2 a ha
          exact key s' x ps.2 v hvm pv
        subst hxv
        refine ⟨upd_same .., ps.2.congr fun a ha => upd_ne _ _ fun e => ?_⟩
        have nd := (seq_fst es').nodup_iff.2 ndt
        exact (List.nodup_cons.1 nd).1 (e ▸ ha))
  refine ⟨h7, g7, _, _, _, ?_, I7, v7, ?_, ?_⟩
  · unfold link
    rw [e1, Option.bind_some, e2, Option.bind_some, e5, Option.bind_some, e6, Option.bind_some, e7]
  · refine p7.trans ((alln_perm hp3.symm).trans (List.Perm.trans ?_ p1))
    refine List.Perm.trans ?_ (alln_perm hXY).symm
    rw [alln_append _ (a ++ _), alln_append X]
    exact p2.append_right _
  · intro a b
    rw [← E1 a b]
    unfold upd
    by_cases ha : a = v <;> by_cases hb : b = v
    · subst ha; subst hb; simp [pv, huv.symm, huv]
    · subst ha; simp [pv, hb, huv.symm, eq_comm]; tauto
    · subst hb; simp [pv, ha, huv.symm, eq_comm]
    · simp [ha, hb]

/-! ### the exposed path -/

/-- A path down from a root ends in its last node only in one way. -/
theorem path_unique : ∀ (k : Nat) {s w : List Nat} {v : Nat}, s.length ≤ k → Path P none (s ++ [v]) → Path P none (w ++ [v]) → s = w := by
  have key : ∀ (s : List Nat) (v b : Nat), Path P none ((s ++ [b]) ++ [v]) → P v = some b ∧ Path P none (s ++ [b]) := by
    intro s v b hp
    rw [List.append_assoc, List.singleton_append, Path.append_iff] at hp
    exact ⟨hp.2.1, hp.1⟩
  intro k
  induction k with
  | zero =>
    intro s w v hl hs hw
    have : s = [] := by simpa using hl
    subst this
    rcases List.eq_nil_or_concat w with rfl | ⟨w', b, rfl⟩
    · rfl
    · rw [List.concat_eq_append] at hw
      have := (key _ _ _ hw).1
      rw [hs.1] at this; cases this
  | succ k ih =>
    intro s w v hl hs hw
    rcases List.eq_nil_or_concat s with rfl | ⟨s', b, rfl⟩
    · rcases List.eq_nil_or_concat w with rfl | ⟨w', b, rfl⟩
      · rfl
      · rw [List.concat_eq_append] at hw
        have := (key _ _ _ hw).1
        rw [hs.1] at this; cases this
    · rw [List.concat_eq_append] at hs ⊢
      obtain ⟨k1, k2⟩ := key _ _ _ hs
      rcases List.eq_nil_or_concat w with rfl | ⟨w', c, rfl⟩
      · have : P v = none := hw.1
        rw [this] at k1; cases k1
      · rw [List.concat_eq_append] at hw ⊢
        obtain ⟨m1, m2⟩ := key _ _ _ hw
        rw [k1] at m1
        cases m1
        rw [ih (by simp at hl; omega) k2 m2]

/-! ### cut -/

theorem cut_ok (L : Laws S) {u v fuel : Nat} (hf : n ≤ fuel) (I : G0 S n h g F P dep val) (hv : VAll S F) (hu : u ∈ alln F) (hvF : v ∈ alln F) (hE : P u = some v ∨ P v = some u) :
    ∃ h' g' F' P' dep', cut S fuel u v h = some h' ∧ G0 S n h' g' F' P' dep' val ∧ VAll S F' ∧ (alln F').Perm (alln F) ∧
      ∀ a b, (P' a = some b ∨ P' b = some a) ↔ ((P a = some b ∨ P b = some a) ∧ ¬ ((a = u ∧ b = v) ∨ (a = v ∧ b = u))) := by
  obtain ⟨h1, g1, d1, r1, F1, P1, dep1, e1, I1, v1, p1, pu, E1⟩ := evert_ok L hf I hv hu
  have hPv : P1 v = some u := by
    rcases (E1 u v).2 hE with k | k
    · rw [pu] at k; cases k
    · exact k
  obtain ⟨h2, g2, l, d, F2, e2, I2, v2, c2, p2, _⟩ := expose_ok L hf I1 v1 (p1.mem_iff.2 hvF)
  obtain ⟨s, es, ps⟩ := I2.path (node l v d nil, none) (by simp)
  dsimp only at es ps
  rw [seq_clean L c2] at es
  obtain ⟨s1, s2, rfl, el, em, er⟩ := split_seq es
  have hs2 : s2 = [] := by simpa [seq] using er
  subst hs2
  have hs1 : s1 = [u] := path_unique (P := P1) (v := v) (w := [u]) s1.length (le_refl _) ps ⟨pu, hPv, trivial⟩
  subst hs1
  have hH := I2.toH (x := (node l v d nil, none)) (by simp)
  obtain ⟨_, _, hvl, _, _⟩ := nodup_parts hH.nd
  have hln : ∃ dl, l = node nil u dl nil := by
    have hp := seq_fst el
    cases l with
    | nil => simpa [nodes] using hp.length_eq
    | node a i dl b =>
      have := hp.length_eq
      simp only [nodes, List.length_cons, List.length_nil, List.length_append] at this
      have ha : a = nil := by
        cases a with
        | nil => rfl
        | node => simp only [nodes, List.length_cons] at this; omega
      have hb : b = nil := by
        cases b with
        | nil => rfl
        | node => simp only [nodes, List.length_cons] at this; omega
      subst ha; subst hb
      have : i ∈ [u] := hp.mem_iff.2 (by simp [nodes])
      rw [List.mem_singleton] at this
      exact ⟨dl, by rw [this]⟩
  obtain ⟨dl, rfl⟩ := hln
  have huv : u ≠ v := fun e => hvl (by simp [e, nodes])
  have hun : u < n := hH.lt u (by simp [nodes])
  have hvn : v < n := hH.lt v (by simp [nodes])
  obtain ⟨k1, k2, _⟩ := hH.rp
  obtain ⟨h3, e3, r3⟩ := modN_ok I2.rep hvn (fun x => { x with l := none })
  obtain ⟨h4, e4, r4⟩ := modN_ok r3 hun (fun x => { x with p := none })
  have hall : ∀ e : Dat M A, (alln ((node nil v e nil, none) :: (node nil u dl nil, none) :: F2)).Perm (alln ((node (node nil u dl nil) v d nil, none) :: F2)) := by
    intro e
    simp only [alln_cons, nodes]
    exact List.Perm.refl _
  have hno : v ∉ alln F2 ∧ u ∉ alln F2 := ⟨I2.disj (x := (node (node nil u dl nil) v d nil, none)) (by simp [nodes]), I2.disj (x := (node (node nil u dl nil) v d nil, none)) (by simp [nodes])⟩
  have I5 : G0 S n h4 (upd (upd g2 v { g2 v with l := none }) u { upd g2 v { g2 v with l := none } u with p := none }) ((node nil v d nil, none) :: (node nil u dl nil, none) :: F2) (upd P1 v none) dep1 val := by
    refine ⟨r4, (hall d).nodup_iff.2 I2.nd, fun i hi => I2.lt i ((hall d).mem_iff.1 hi), ?_, ?_, ?_, ?_⟩
    · intro x hx
      rw [List.mem_cons, List.mem_cons] at hx
      rcases hx with rfl | rfl | hx
      · exact ⟨by rw [upd_ne _ _ huv.symm, upd_same, k1]; rfl, trivial, trivial⟩
      · exact ⟨by rw [upd_same, upd_ne _ _ huv, k2.1], trivial, trivial⟩
      · refine Rp_congr (I2.rp x (by simp [hx])) fun j hj => ?_
        have hj' : j ∈ alln F2 := mem_alln.2 ⟨x, hx, hj⟩
        rw [upd_ne _ _ (ne_of_mem_of_not_mem hj' hno.2), upd_ne _ _ (ne_of_mem_of_not_mem hj' hno.1)]
    · intro x hx
      rw [List.mem_cons, List.mem_cons] at hx
      rcases hx with rfl | rfl | hx
      · exact ⟨[v], by rw [seq_clean L c2, em]; rfl, upd_same .., trivial⟩
      · exact ⟨[u], el, by rw [upd_ne _ _ huv]; exact pu, trivial⟩
      · obtain ⟨s, e, p⟩ := I2.path x (by simp [hx])
        exact ⟨s, e, p.congr fun a ha => upd_ne _ _ (ne_of_mem_of_not_mem (mem_alln.2 ⟨x, hx, (seq_fst e).mem_iff.1 ha⟩) hno.1)⟩
    · intro x hx hn q' hq'
      rw [List.mem_cons, List.mem_cons] at hx
      refine (hall d).mem_iff.2 ?_
      rcases hx with rfl | rfl | hx
      · cases hq'
      · cases hq'
      · exact I2.par x (by simp [hx]) hn q' hq'
    · intro a b e
      by_cases hav : a = v
      · rw [hav, upd_same] at e; cases e
      · rw [upd_ne _ _ hav] at e; exact I2.dep a b e
  obtain ⟨h6, g6, e6, s6⟩ := aggregate_st (lct := true) (c := []) (I5.toH (by simp)) rfl
  obtain ⟨I6, p6, _⟩ := I5.step (by simp) s6 (seq_agg _)
  refine ⟨h6, g6, _, _, _, ?_, I6, ?_, p6.trans ((hall d).trans (p2.trans p1)), ?_⟩
  · unfold cut
    rw [e1, Option.bind_some, e2, Option.bind_some, I2.rep.val v hvn, Option.bind_some, e3, Option.bind_some, k1]
    dsimp only [root, Option.bind_some]
    rw [e4, Option.bind_some, e6]
  · intro y hy
    rw [List.mem_cons, List.mem_cons] at hy
    have hvv := v2 (node (node nil u dl nil) v d nil, none) (by simp)
    rcases hy with rfl | rfl | hy
    · exact valid_agg L c2 trivial trivial
    · exact hvv.1
    · exact v2 y (by simp [hy])
  · intro a b
    rw [← E1 a b]
    unfold upd
    by_cases ha : a = v <;> by_cases hb : b = v
    · subst ha; subst hb; simp [hPv, huv, huv.symm]
    · subst ha
      simp only [if_neg hb, hPv]
      constructor
      · rintro (k | k)
        · cases k
        · refine ⟨Or.inr k, ?_⟩
          rintro (⟨rfl, rfl⟩ | ⟨_, rfl⟩)
          · exact hb rfl
          · rw [pu] at k; cases k
      · rintro ⟨k | k, h⟩
        · cases k; exact absurd (by simp) h
        · exact Or.inr k
    · subst hb
      simp only [if_neg ha, hPv]
      constructor
      · rintro (k | k)
        · refine ⟨Or.inl k, ?_⟩
          rintro (⟨rfl, _⟩ | ⟨rfl, _⟩)
          · rw [pu] at k; cases k
          · exact ha rfl
        · cases k
      · rintro ⟨k | k, h⟩
        · exact Or.inl k
        · cases k; exact absurd (by simp) h
    · simp [ha, hb]

/-! ### values -/

theorem setm_ok (L : Laws S) {i fuel : Nat} (hf : n ≤ fuel) (I : G0 S n h g F P dep val) (hv : VAll S F) (hi : i ∈ alln F) (φ : M → M) :
    ∃ h' g' F', ((splay S true fuel i h).bind (fun h => (modN h i (fun y => { y with d := { y.d with m := φ y.d.m } })).bind (aggregate true i))) = some h' ∧
      G0 S n h' g' F' P dep (upd val i (φ (val i))) ∧ VAll S F' ∧ (alln F').Perm (alln F) := by
  obtain ⟨⟨t, pp⟩, F1, hit, hp⟩ := perm_pick hi
  have I1 := I.perm hp
  have v1 := hv.perm hp
  obtain ⟨h2, g2, l, d, r, e2, I2, v2, c2, q2, p2, _⟩ := I1.splay L (v1 (t, pp) (by simp)) hit hf
  obtain ⟨s, es, ps⟩ := I2.path (node l i d r, pp) (by simp)
  dsimp only at es ps
  have hnd : s.Nodup := (seq_fst es).nodup_iff.2 (I2.toH (x := (node l i d r, pp)) (by simp)).nd
  rw [seq_clean L c2] at es
  obtain ⟨s1, s2, rfl, el, em, er⟩ := split_seq es
  have hn1 : i ∉ s1 := fun k => (List.nodup_append.1 hnd).2.2 i k i (by simp) rfl
  have hn2 : i ∉ s2 := fun k => (List.nodup_cons.1 (List.nodup_append.1 hnd).2.1).1 k
  have hc : Clean S { d with m := φ d.m } := c2
  obtain ⟨h3, g3, e3, I3, _⟩ := I2.modRoot (fun d => { d with m := φ d.m }) (P' := P) (dep' := dep) (val' := upd val i (φ (val i))) I2.dep
    (fun a ha => ⟨rfl, upd_ne _ _ (fun e => ha (by simp [e, nodes]))⟩)
    ⟨s1 ++ i :: s2, by
      rw [seq_clean L hc, el, er, em, List.map_append, List.map_cons, upd_same]
      congr 1
      · exact List.map_congr_left fun a ha => by rw [upd_ne _ _ (ne_of_mem_of_not_mem ha hn1)]
      · congr 1
        exact List.map_congr_left fun a ha => by rw [upd_ne _ _ (ne_of_mem_of_not_mem ha hn2)], ps⟩
  obtain ⟨h4, g4, e4, s4⟩ := aggregate_st (lct := true) (c := []) (I3.toH (by simp)) rfl
  obtain ⟨I4, p4, _⟩ := I3.step (by simp) s4 (seq_agg _)
  refine ⟨h4, g4, _, ?_, I4, ?_, p4.trans (List.Perm.trans ?_ (alln_perm hp).symm)⟩
  · rw [e2, Option.bind_some, e3, Option.bind_some, e4]
  · intro y hy
    rcases List.mem_cons.1 hy with rfl | hy
    · exact valid_agg L hc v2.1 v2.2.1
    · exact v1 y (by simp [hy])
  · rw [alln_cons, alln_cons]; exact p2.append_right _

/-- `expose(v)` after `evert(u)`: the root path of `v` in its tree. -/
theorem both_ok (L : Laws S) {u v fuel : Nat} (hf : n ≤ fuel) (I : G0 S n h g F P dep val) (hv : VAll S F) (hu : u ∈ alln F) (hvF : v ∈ alln F) :
    ∃ h' g' l d F' P' dep', ((evert S fuel u h).bind (expose S fuel v)) = some h' ∧ G0 S n h' g' ((node l v d nil, none) :: F') P' dep' val ∧ VAll S ((node l v d nil, none) :: F') ∧ Clean S d ∧
      (alln ((node l v d nil, none) :: F')).Perm (alln F) ∧ P' u = none ∧ (∀ a b, (P' a = some b ∨ P' b = some a) ↔ (P a = some b ∨ P b = some a)) ∧
      ∃ s, seq S (node l v d nil) = (s ++ [v]).map (fun a => (a, val a)) ∧ Path P' none (s ++ [v]) := by
  obtain ⟨h1, g1, d1, r1, F1, P1, dep1, e1, I1, v1, p1, pu, E1⟩ := evert_ok L hf I hv hu
  obtain ⟨h2, g2, l, d, F2, e2, I2, v2, c2, p2, _⟩ := expose_ok L hf I1 v1 (p1.mem_iff.2 hvF)
  refine ⟨h2, g2, l, d, F2, P1, dep1, by rw [e1, Option.bind_some, e2], I2, v2, c2, p2.trans p1, pu, E1, ?_⟩
  obtain ⟨s, es, ps⟩ := I2.path (node l v d nil, none) (by simp)
  dsimp only at es ps
  have es' := es
  rw [seq_clean L c2] at es'
  obtain ⟨s1, s2, rfl, el, em, er⟩ := split_seq es'
  have hs2 : s2 = [] := by simpa [seq] using er
  subst hs2
  exact ⟨s1, es, ps⟩

theorem upath_ok (L : Laws S) {v fuel : Nat} (hf : n ≤ fuel) {l : BT M A} {d : Dat M A} (I : G0 S n h g ((node l v d nil, none) :: F) P dep val) (hv : VAll S ((node l v d nil, none) :: F)) (hc : Clean S d) (f : A) :
    ∃ h' g' F', ((modN h v (fun x => { x with d := actD S f x.d })).bind (splay S true fuel v)) = some h' ∧
      G0 S n h' g' F' P dep (fun a => if a ∈ nodes (node l v d nil) then S.act f (val a) else val a) ∧ VAll S F' ∧ (alln F').Perm (alln ((node l v d nil, none) :: F)) := by
  obtain ⟨s, es, ps⟩ := I.path (node l v d nil, none) (by simp)
  dsimp only at es ps
  have hr : recv S { d with rev := false, f := f } (node l v d nil) = node l v (actD S f d) nil := by rfl
  have hsq : seq S (node l v (actD S f d) nil) = s.map (fun a => (a, S.act f (val a))) := by
    rw [← hr, seq_recv L, es]
    unfold through
    rw [if_neg (by simp), List.map_map]
    rfl
  obtain ⟨h2, g2, e2, I2, _⟩ := I.modRoot (actD S f) (P' := P) (dep' := dep) (val' := fun a => if a ∈ nodes (node l v d nil) then S.act f (val a) else val a) I.dep
    (fun a ha => ⟨rfl, if_neg ha⟩) ⟨s, by
      rw [hsq]
      exact List.map_congr_left fun a ha => by rw [if_pos ((seq_fst es).mem_iff.1 ha)], ps⟩
  have hv2 : Valid S true (node l v (actD S f d) nil) := by rw [← hr]; exact valid_recv L _ (hv (node l v d nil, none) (by simp))
  obtain ⟨h3, g3, l3, d3, r3, e3, I3, v3, c3, q3, p3, _⟩ := I2.splay L hv2 (by simp [nodes] : v ∈ nodes (node l v (actD S f d) nil)) hf
  refine ⟨h3, g3, _, by rw [e2, Option.bind_some, e3], I3, ?_, ?_⟩
  · intro y hy
    rcases List.mem_cons.1 hy with rfl | hy
    · exact v3
    · exact hv y (by simp [hy])
  · rw [alln_cons, alln_cons]; exact p3.append_right _

end Verif.LinkCut
