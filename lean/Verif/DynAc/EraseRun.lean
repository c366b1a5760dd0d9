import Verif.DynAc.EraseInsert
/-!
The machine after insertions and erasures.
-/
namespace Verif.DynAc
open Verif.AcMachine

variable {α T : Type} [DecidableEq α]

/-- The machine between the calls; `Lv` are the pairs it holds. -/
structure Gd (b : Prop) (m : Dyn α T) (Lv : List (List α × T)) (N : Nat) (A : Nat → Prop) (g : Nat → Nd α) (lab : Nat → List α) (I : Nat → List Nat) : Prop where
  fo : Fo N g lab
  al : Al N g A
  li : Li b N N A NoP g lab (m.ac.nodes, m.ifl) (fun v => (g v).fail) I
  idc : ∀ u, A u → ∀ k, (g u).id = some k → ∃ t, m.ac.cont[k]? = some (lab u, t) ∧ (lab u, t) ∈ Lv
  cid : ∀ p ∈ Lv, ∃ u k, A u ∧ lab u = p.1 ∧ (g u).id = some k ∧ m.ac.cont[k]? = some p
  labs : ∀ u, A u → lab u = [] ∨ ∃ p ∈ Lv, lab u <+: p.1
  ne : ∀ p ∈ Lv, p.1 ≠ []

theorem Fo.congr {N : Nat} {g g' : Nat → Nd α} {lab : Nat → List α} (t : Fo N g lab) (h : ∀ u, u < N → (g' u).e = (g u).e) : Fo N g' lab :=
  ⟨t.pos, t.root, t.dep, t.ne, fun u hu c v hm => t.edge u hu c v (by rw [← h u hu]; exact hm), fun u hu => by rw [h u hu]; exact t.fn u hu⟩

theorem Al.congr {N : Nat} {g g' : Nat → Nd α} {A : Nat → Prop} (a : Al N g A) (h : ∀ u, u < N → (g' u).e = (g u).e) : Al N g' A :=
  ⟨a.lt, a.root, fun u hu c v hm => a.down u hu c v (by rw [← h u (a.lt u hu)]; exact hm), fun v hv h0 => by
    obtain ⟨q, c, q1, q2⟩ := a.up v hv h0
    exact ⟨q, c, q1, by rw [h q (a.lt q q1)]; exact q2⟩⟩

theorem Li.mono {b b' : Prop} {N M : Nat} {A : Nat → Prop} {P : Nat → Nat → Prop} {g : Nat → Nd α} {lab : Nat → List α} {st : St α} {F : Nat → Option Nat} {I : Nat → List Nat} (S : Li b N M A P g lab st F I)
    (h : b' → b) : Li b' N M A P g lab st F I :=
  ⟨S.rep, S.rip, fun v hv h0 => by
    obtain ⟨f, a1, a2, a3, a4, a5⟩ := S.link v hv h0
    exact ⟨f, a1, a2, a3, a4, fun hb => a5 (h hb)⟩, fun v hv => ⟨(S.mem v hv).1, fun x hx => by
    obtain ⟨a1, a2, a3, a4⟩ := (S.mem v hv).2 x hx
    exact ⟨a1, a2, a3, fun hb => a4 (h hb)⟩⟩, S.comp⟩

theorem Li.swap {b : Prop} {N M : Nat} {A : Nat → Prop} {P : Nat → Nat → Prop} {g g' : Nat → Nd α} {lab : Nat → List α} {st : St α} {n' : List (Nd α)} {F F' : Nat → Option Nat} {I : Nat → List Nat} (S : Li b N M A P g lab st F I)
    (h : F' = F) (R : Rep n' N (wf g' F')) : Li b N M A P g' lab (n', st.2) F' I := by
  subst h
  exact ⟨R, S.rip, S.link, S.mem, S.comp⟩

theorem Gd.mono {b b' : Prop} {m : Dyn α T} {Lv : List (List α × T)} {N : Nat} {A : Nat → Prop} {g : Nat → Nd α} {lab : Nat → List α} {I : Nat → List Nat} (G : Gd b m Lv N A g lab I) (h : b' → b) : Gd b' m Lv N A g lab I :=
  ⟨G.fo, G.al, G.li.mono h, G.idc, G.cid, G.labs, G.ne⟩

/-- Beginnings of labels are labels. -/
theorem Al.pre {N : Nat} {g : Nat → Nd α} {lab : Nat → List α} {A : Nat → Prop} (t : Fo N g lab) (a : Al N g A) {u : Nat} (hu : A u) {x : List α} (hx : x <+: lab u) : ∃ v, A v ∧ lab v = x := by
  obtain ⟨r, hr⟩ := hx
  cases r with
  | nil => exact ⟨u, hu, by rw [← hr, List.append_nil]⟩
  | cons c r =>
    obtain ⟨w, z, w1, w2, -⟩ := a.way t c x r u hu hr.symm
    exact ⟨w, w1, w2⟩

theorem Gd.ne_nodes {b : Prop} {m : Dyn α T} {Lv : List (List α × T)} {N : Nat} {A : Nat → Prop} {g : Nat → Nd α} {lab : Nat → List α} {I : Nat → List Nat} (G : Gd b m Lv N A g lab I) : m.ac.nodes ≠ [] := by
  intro h
  have h1 := G.li.rep.len
  have h2 := G.fo.pos
  dsimp only at h1
  rw [h, List.length_nil] at h1
  omega

theorem insertD_gd {b : Prop} {m : Dyn α T} {Lv : List (List α × T)} {N : Nat} {A : Nat → Prop} {g : Nat → Nd α} {lab : Nat → List α} {I : Nat → List Nat} (G : Gd b m Lv N A g lab I)
    {ord : List Nat → List Nat} (hord : ∀ l, (ord l).Perm l) (key : List α) (v : T) :
    ∃ m' N' A' g' lab' I', insertD ord m key v = some m' ∧ Gd (b ∧ Fresh Lv key) m' (keep Lv key v) N' A' g' lab' I' := by
  have t := G.fo
  have a := G.al
  have hne : m.ac.nodes ≠ [] := G.ne_nodes
  have hroot : withRoot m.ac.nodes = m.ac.nodes := by
    unfold withRoot
    rw [if_neg (by simpa using hne)]
  have R : Rep m.ac.nodes N g := G.li.rep.congr (fun i hi => rfl)
  obtain ⟨u, s0, r, w1, hu, sl, hk, hlu, s3, hno⟩ := walkP_al t a R key 0 a.root
  rw [t.root, List.nil_append] at hlu
  unfold insertD
  rw [hroot, w1, Option.bind_some, if_neg (by simpa using hne)]
  cases r with
  | nil =>
    refine ⟨m, N, A, g, lab, I, by unfold insertFromD; rfl, ?_⟩
    have : keep Lv key v = Lv := by
      unfold keep
      rw [if_pos]
      rw [List.append_nil] at hk
      rcases G.labs u hu with h | ⟨p, p1, p2⟩
      · rw [hlu, ← hk] at h
        exact Or.inl h
      · rw [hlu, ← hk] at p2
        exact Or.inr (List.any_eq_true.2 ⟨p, p1, List.isPrefixOf_iff_prefix.2 p2⟩)
    rw [this]
    exact G.mono And.left
  | cons c r =>
    have hno := hno c r rfl
    obtain ⟨p, hp⟩ : ∃ p, p = key.take s0.length := ⟨_, rfl⟩
    rw [← hp] at hk hlu
    have hpl : p.length = s0.length := by
      rw [hp, List.length_take]
      rw [List.length_cons] at sl
      omega
    have hkeep : keep Lv key v = Lv ++ [(key, v)] := by
      unfold keep
      rw [if_neg]
      rintro (h | h)
      · rw [h] at hk
        simp at hk
      · obtain ⟨q, q1, q2⟩ := List.any_eq_true.1 h
        have q2 := List.isPrefixOf_iff_prefix.1 q2
        obtain ⟨w, k, w1, w2, -⟩ := G.cid q q1
        rw [← w2] at q2
        obtain ⟨z, z1, z2⟩ := a.pre t w1 (x := p ++ [c]) (by
          refine List.IsPrefix.trans ?_ q2
          rw [hk]
          exact (List.prefix_append_right_inj p).2 (by simp))
        exact a.nochild t hu hno z z1 (by rw [z2, hlu])
    rw [hkeep]
    obtain ⟨x, n1, g1, lab1, ep, r1, t1, a1, hx, hold, hnew⟩ := extendP_al (c :: r) t a R hu (fun d k' h => by
      rw [List.cons.injEq] at h
      rw [← h.1]; exact hno)
    have hx := hx (by simp)
    obtain ⟨N', hN'⟩ : ∃ N', N' = N + (c :: r).length := ⟨_, rfl⟩
    rw [← hN'] at r1 t1 a1 hx
    rw [List.length_cons] at hN' hnew sl
    have hxN' : x < N' := by omega
    obtain ⟨n2, w2, r2⟩ := r1.wr hxN' { g1 x with id := some m.ac.cont.length }
    obtain ⟨g2, hg2⟩ : ∃ g2, g2 = upd g1 x { g1 x with id := some m.ac.cont.length } := ⟨_, rfl⟩
    rw [← hg2] at r2
    have g2e : ∀ y, (g2 y).e = (g1 y).e ∧ (g2 y).fail = (g1 y).fail := by
      intro y
      rw [hg2]
      by_cases e : y = x
      · subst e; rw [upd_same]; exact ⟨rfl, rfl⟩
      · rw [upd_ne _ _ e]; exact ⟨rfl, rfl⟩
    have g2i : ∀ y, y ≠ x → (g2 y).id = (g1 y).id := by
      intro y e
      rw [hg2, upd_ne _ _ e]
    have g2x : (g2 x).id = some m.ac.cont.length := by
      rw [hg2, upd_same]
    obtain ⟨A', hA'⟩ : ∃ A' : Nat → Prop, A' = fun y => A y ∨ N ≤ y ∧ y < N' := ⟨_, rfl⟩
    rw [← hA'] at a1
    have hAo : ∀ y, y < N → (A' y ↔ A y) := by
      intro y hy
      rw [hA']
      exact ⟨fun h => h.resolve_right (by omega), Or.inl⟩
    have hAn : ∀ i, i < r.length + 1 → A' (N + i) := by
      intro i hi
      rw [hA']
      exact Or.inr (by omega)
    have t' : Fo N' g2 lab1 := t1.congr (fun y _ => (g2e y).1)
    have a' : Al N' g2 A' := a1.congr (fun y _ => (g2e y).1)
    have hNpos := t.pos
    -- the vector `s`
    obtain ⟨S, hS⟩ : ∃ S, S = s0 ++ List.range' N (c :: r).length := ⟨_, rfl⟩
    have hSnew : ∀ i, i < r.length + 1 → S[s0.length + i]? = some (N + i) := by
      intro i hi
      rw [hS, List.getElem?_append_right (by omega), Nat.add_sub_cancel_left, List.getElem?_range' (by rw [List.length_cons]; omega), Nat.one_mul]
    have hlabn : ∀ i, i < r.length + 1 → lab1 (N+i) = key.take (s0.length + i + 1) := by
      intro i hi
      rw [(hnew i hi).2.2, hlu, hk, List.take_append, List.take_of_length_le (l := p) (by omega)]
      congr 2
      omega
    have hs : ∀ i, i < key.length → ∃ x, S[i]? = some x ∧ A' x ∧ lab1 x = key.take (i+1) := by
      intro i hi
      rcases Nat.lt_or_ge i s0.length with h | h
      · obtain ⟨y, y1, y2, y3⟩ := s3 i h
        have hyN := a.lt y y2
        refine ⟨y, by rw [hS, List.getElem?_append_left h, y1], (hAo y hyN).2 y2, ?_⟩
        rw [(hold y hyN).1, y3, t.root, List.nil_append]
      · obtain ⟨j, rfl⟩ : ∃ j, i = s0.length + j := ⟨i - s0.length, by omega⟩
        exact ⟨N + j, hSnew j (by omega), hAn j (by omega), hlabn j (by omega)⟩
    -- the state before the links of the new nodes are set
    have hrip : Rep (m.ifl ++ List.replicate (r.length + 1) []) N' (fun x => if x < N then I x else []) := by
      constructor
      · rw [List.length_append, List.length_replicate, G.li.rip.len, hN']
      · intro i hi
        by_cases h : i < N
        · rw [if_pos h, List.getElem?_append_left (by rw [G.li.rip.len]; exact h), G.li.rip.val i h]
        · rw [if_neg h, List.getElem?_append_right (by rw [G.li.rip.len]; omega), List.getElem?_replicate, if_pos (by rw [G.li.rip.len]; omega)]
    have hbF : (b ∧ Fresh Lv key) → ∀ v f, A v → Lg A lab (lab v).tail f → Lg A' lab1 (lab1 v).tail f := by
      rintro ⟨-, hF⟩ v f hv ⟨h1, h2, h3⟩
      have hvN := a.lt v hv
      have hfN := a.lt f h1
      refine ⟨(hAo f hfN).2 h1, by rw [(hold f hfN).1, (hold v hvN).1]; exact h2, fun y hy hys => ?_⟩
      rw [(hold v hvN).1] at hys
      rw [(hold f hfN).1]
      rcases Nat.lt_or_ge y N with hyN | hyN
      · rw [(hold y hyN).1] at hys ⊢
        exact h3 y ((hAo y hyN).1 hy) hys
      · exfalso
        have hyN' := a'.lt y hy
        obtain ⟨i, rfl⟩ : ∃ i, y = N + i := ⟨y - N, by omega⟩
        have l1 := hlabn i (by omega)
        have hpre : lab1 (N+i) <+: key := by
          rw [l1]
          exact List.take_prefix ..
        have hyne : lab1 (N+i) ≠ [] := t'.ne _ hyN' (by omega)
        rcases G.labs v hv with h | ⟨q, q1, q2⟩
        · rw [h] at hys
          exact hyne (List.suffix_nil.1 hys)
        · have hin : lab1 (N+i) <:+: q.1 := (tail_suffix hys).isInfix.trans q2.isInfix
          obtain ⟨q', q3, q4⟩ := hF _ hpre hyne q q1 hin
          obtain ⟨w, k, w1, w2, -⟩ := G.cid q' q3
          rw [← w2] at q4
          obtain ⟨z, z1, z2⟩ := a.pre t w1 q4
          have hzN := a.lt z z1
          have := a'.inj t' _ z (N+i) rfl ((hAo z hzN).2 z1) hy (by rw [(hold z hzN).1, z2])
          omega
    have S0 : Li (b ∧ Fresh Lv key) N' N A' NoP g2 lab1 (n2, m.ifl ++ List.replicate (r.length + 1) []) (fun x => (g2 x).fail) (fun x => if x < N then I x else []) := by
      refine ⟨r2.congr (fun i hi => rfl), hrip, fun y hy h0 => ?_, fun y hy => ?_, fun y hy hA h0 f hf => ?_⟩
      · obtain ⟨f, f1, f2, f3, f4, f5⟩ := G.li.link y hy h0
        refine ⟨f, by rw [(g2e y).2, (hold y hy).2.2]; exact f1, by omega, by rw [(hold f f2).1, (hold y hy).1]; exact f3, fun hA => ?_, fun hb hA => ?_⟩
        · exact Or.inl ((hAo f f2).2 ((f4 ((hAo y hy).1 hA)).resolve_right id))
        · have hA := (hAo y hy).1 hA
          exact Or.inr (hbF hb y f hA ((f5 hb.1 hA).resolve_left id))
      · by_cases h : y < N
        · rw [if_pos h]
          refine ⟨(G.li.mem y h).1, fun z hz => ?_⟩
          obtain ⟨a1, a2, a3, a4⟩ := (G.li.mem y h).2 z hz
          refine ⟨a1, a2, by rw [(hold y h).1, (hold z a1).1]; exact a3, fun hb hA => ?_⟩
          obtain ⟨c1, c2⟩ := a4 hb.1 ((hAo y h).1 hA)
          exact ⟨(hAo z a1).2 c1, by rw [(g2e z).2, (hold z a1).2.2]; exact c2⟩
        · rw [if_neg h]
          exact ⟨List.nodup_nil, fun z hz => by cases hz⟩
      · rw [(g2e y).2, (hold y hy).2.2] at hf
        obtain ⟨f', f1, f2, -⟩ := G.li.link y hy h0
        rw [hf] at f1
        have := Option.some.inj f1
        subst this
        rw [if_pos f2]
        exact G.li.comp y hy ((hAo y hy).1 hA) h0 f hf
    obtain ⟨st1, F1, I1, z1, S1⟩ := newFails_li t' a' hs (r.length + 1) s0.length N (by omega) (by omega) (by omega) hSnew S0
    -- the set the queue starts with
    obtain ⟨l, z2, hl⟩ : ∃ l, startSet S s0.length st1 = some l ∧ l.Nodup ∧ ∀ y ∈ l, ItemA (b ∧ Fresh Lv key) N' A' lab1 key S y s0.length := by
      have gen : ∀ w, A' w → lab1 w = key.take s0.length → (I1 w).Nodup ∧ ∀ y ∈ I1 w, ItemA (b ∧ Fresh Lv key) N' A' lab1 key S y s0.length := by
        intro w hw hlw
        have hwN := a'.lt w hw
        refine ⟨(S1.mem w hwN).1, fun y hy => ?_⟩
        obtain ⟨a1, a2, a3, a4⟩ := (S1.mem w hwN).2 y hy
        refine ⟨a1, a2, fun hb => (a4 hb hw).1, fun hkl => ⟨by rw [← hlw]; exact a3, fun hb d z hd hz => ?_⟩⟩
        obtain ⟨f, f1, f2, f3, f4, f5⟩ := S1.link y a1 a2
        rw [(a4 hb hw).2] at f1
        have := Option.some.inj f1
        subst this
        obtain ⟨z', z1, z2, z3⟩ := hs s0.length hkl
        rw [hz] at z1
        have := Option.some.inj z1
        subst this
        exact Lg.snoc t' a' ((f5 hb (a4 hb hw).1).resolve_left id) z2 (by rw [z3, hlw, List.take_succ, hd]; rfl)
      unfold startSet
      by_cases h0 : s0.length = 0
      · rw [if_pos h0]
        exact ⟨I1 0, S1.rip.val 0 t'.pos, gen 0 a'.root (by rw [t'.root, h0, List.take_zero])⟩
      · rw [if_neg h0]
        obtain ⟨w, w1, w2, w3⟩ := hs (s0.length - 1) (by omega)
        rw [w1, Option.bind_some]
        exact ⟨I1 w, S1.rip.val w (a'.lt w w2), gen w w2 (by rw [w3]; congr 1; omega)⟩
    obtain ⟨hl1, hl2⟩ := hl
    have hwt := weight_le (N := N') (lab := lab1) (W := (N'+1)^N') ((ord l).map (fun x => (x, s0.length))) (fun q _ => Nat.pow_le_pow_right (by omega) (by omega))
    rw [List.length_map, (hord l).length_eq] at hwt
    have hll : l.length ≤ N' := nodup_len hl1 (fun y hy => (hl2 y hy).1)
    have hn2 : n2.length = N' := r2.len
    have hle : l.length * (N'+1)^N' ≤ (N'+1)^(N'+1) := by
      rw [Nat.pow_succ, Nat.mul_comm]
      exact Nat.mul_le_mul_left _ (by omega)
    obtain ⟨st2, F2, I2, z3, S2⟩ := update_li t' a' hord hs ((n2.length + 1) ^ (n2.length + 1)) ((ord l).map (fun x => (x, s0.length))) (by rw [hn2]; omega) (fun q hq => by
      obtain ⟨y, y1, rfl⟩ := List.mem_map.1 hq
      exact ⟨by dsimp only; omega, hl2 y ((hord l).mem_iff.1 y1)⟩) S1
    have hxl : lab1 x = key := by
      have e : x = N + r.length := by omega
      rw [e, hlabn r.length (by omega), List.take_of_length_le (by omega)]
    refine ⟨⟨⟨m.ac.cont ++ [(key, v)], st2.1⟩, st2.2⟩, N', A', wf g2 F2, lab1, I2, ?_, ⟨t'.congr (fun _ _ => rfl), a'.congr (fun _ _ => rfl), ⟨S2.rep, S2.rip, S2.link, S2.mem, S2.comp⟩, ?_, ?_, ?_, ?_⟩⟩
    · unfold insertFromD
      dsimp only
      have hsid : setId n1 x m.ac.cont.length = some n2 := by
        unfold setId
        rw [r1.val x hxN', Option.bind_some, w2]
      rw [ep, Option.bind_some]
      dsimp only
      rw [hsid, Option.bind_some, ← hS, z1, Option.bind_some, z2, Option.bind_some, z3]
      rfl
    · intro y hy k hk'
      have hk' : (g2 y).id = some k := hk'
      by_cases e : y = x
      · subst e
        rw [g2x] at hk'
        have := Option.some.inj hk'
        subst this
        refine ⟨v, ?_, ?_⟩
        · rw [hxl]
          simp
        · rw [hxl]
          exact List.mem_append_right _ List.mem_cons_self
      · rw [g2i y e] at hk'
        rcases Nat.lt_or_ge y N with hyN | hyN
        · rw [(hold y hyN).2.1] at hk'
          obtain ⟨t, t1, t2⟩ := G.idc y ((hAo y hyN).1 hy) k hk'
          refine ⟨t, ?_, ?_⟩
          · rw [(hold y hyN).1]
            rw [List.getElem?_append_left (List.getElem?_eq_some_iff.1 t1).1, t1]
          · rw [(hold y hyN).1]
            exact List.mem_append_left _ t2
        · have := a'.lt y hy
          obtain ⟨i, rfl⟩ : ∃ i, y = N + i := ⟨y - N, by omega⟩
          rw [(hnew i (by omega)).1] at hk'
          cases hk'
    · intro q hq
      rcases List.mem_append.1 hq with h | h
      · obtain ⟨w, k, b1, b2, b3, b4⟩ := G.cid q h
        have hwN := a.lt w b1
        refine ⟨w, k, (hAo w hwN).2 b1, by rw [(hold w hwN).1, b2], ?_, ?_⟩
        · show (g2 w).id = some k
          rw [g2i w (by omega), (hold w hwN).2.1, b3]
        · rw [List.getElem?_append_left (List.getElem?_eq_some_iff.1 b4).1, b4]
      · rw [List.mem_singleton.1 h]
        refine ⟨x, m.ac.cont.length, ?_, hxl, g2x, by simp⟩
        rw [show x = N + r.length by omega]
        exact hAn _ (by omega)
    · intro y hy
      rcases Nat.lt_or_ge y N with hyN | hyN
      · rcases G.labs y ((hAo y hyN).1 hy) with h | ⟨q, q1, q2⟩
        · exact Or.inl (by rw [(hold y hyN).1, h])
        · exact Or.inr ⟨q, List.mem_append_left _ q1, by rw [(hold y hyN).1]; exact q2⟩
      · have := a'.lt y hy
        obtain ⟨i, rfl⟩ : ∃ i, y = N + i := ⟨y - N, by omega⟩
        refine Or.inr ⟨_, List.mem_append_right _ List.mem_cons_self, ?_⟩
        rw [hlabn i (by omega)]
        exact List.take_prefix ..
    · intro q hq
      rcases List.mem_append.1 hq with h | h
      · exact G.ne q h
      · rw [List.mem_singleton.1 h]
        intro h
        dsimp only at h
        rw [h] at hk
        simp at hk

theorem new_gd : Gd (α := α) (T := T) True ⟨⟨[], [Nd.new]⟩, [[]]⟩ [] 1 (fun v => v = 0) (fun _ => Nd.new) (fun _ => []) (fun _ => []) := by
  have z : ∀ i, i < 1 → i = 0 := fun i hi => by omega
  refine ⟨⟨by omega, rfl, fun v _ => Nat.zero_le _, fun v hv h0 => absurd (z v hv) h0, fun u _ c v h => (List.not_mem_nil h).elim, fun u _ => List.nodup_nil⟩,
    ⟨fun v hv => by omega, rfl, fun u _ c v h => (List.not_mem_nil h).elim, fun v hv h0 => absurd hv h0⟩,
    ⟨⟨rfl, fun i hi => by rw [z i hi]; rfl⟩, ⟨rfl, fun i hi => by rw [z i hi]; rfl⟩, fun v hv h0 => absurd (z v hv) h0, fun v hv => ⟨List.nodup_nil, fun x hx => (List.not_mem_nil hx).elim⟩, fun v _ hv h0 => absurd hv h0⟩,
    fun u _ k h => (by cases h), fun p hp => (List.not_mem_nil hp).elim, fun u _ => Or.inl rfl, fun p hp => (List.not_mem_nil hp).elim⟩

/-! ### Erasing -/

/-- The pairs with another key. -/
def drop (Lv : List (List α × T)) (key : List α) : List (List α × T) := Lv.filter (fun p => decide (p.1 ≠ key))

theorem mem_drop {Lv : List (List α × T)} {key : List α} {p : List α × T} : p ∈ drop Lv key ↔ p ∈ Lv ∧ p.1 ≠ key := by
  unfold drop
  rw [List.mem_filter, decide_eq_true_iff]

theorem drop_self {Lv : List (List α × T)} {key : List α} (h : ∀ p ∈ Lv, p.1 ≠ key) : drop Lv key = Lv := by
  unfold drop
  rw [List.filter_eq_self]
  exact fun p hp => decide_eq_true (h p hp)

theorem lower_ok {N : Nat} {g : Nat → Nd α} {nodes : List (Nd α)} (R : Rep nodes N g) {s : List Nat} : ∀ D, (∀ i, i < D → ∃ x, s[i]? = some x ∧ x < N) →
    ∃ d, lower nodes s D = some d ∧ d ≤ D ∧ (∀ j y, d ≤ j → j < D → s[j]? = some y → (g y).id = none ∧ (g y).e.length = 1) ∧
      (d = 0 ∨ ∃ y, s[d-1]? = some y ∧ ¬ ((g y).id = none ∧ (g y).e.length = 1)) := by
  intro D
  induction D with
  | zero => intro _; exact ⟨0, rfl, le_refl _, fun j y h1 h2 => by omega, Or.inl rfl⟩
  | succ D ih =>
    intro hs
    obtain ⟨x, x1, x2⟩ := hs D (by omega)
    unfold lower
    rw [x1, Option.bind_some, R.val x x2, Option.bind_some]
    by_cases h : (g x).id = none ∧ (g x).e.length = 1
    · rw [if_pos h]
      obtain ⟨d, d1, d2, d3, d4⟩ := ih (fun i hi => hs i (by omega))
      refine ⟨d, d1, by omega, fun j y h1 h2 hy => ?_, d4⟩
      by_cases e : j = D
      · subst e
        rw [x1] at hy
        rw [← Option.some.inj hy]
        exact h
      · exact d3 j y h1 (by omega) hy
    · rw [if_neg h]
      exact ⟨D+1, rfl, le_refl _, fun j y h1 h2 => by omega, Or.inr ⟨x, by rw [Nat.add_sub_cancel]; exact x1, h⟩⟩

theorem other_edge {l : List (α × Nat)} (h : (l.map Prod.fst).Nodup) {p : α × Nat} (hp : p ∈ l) (h1 : l.length ≠ 1) : ∃ q ∈ l, q.1 ≠ p.1 := by
  by_contra hc
  have hall : ∀ q ∈ l, q.1 = p.1 := fun q hq => by
    by_contra hne
    exact hc ⟨q, hq, hne⟩
  rcases l with _ | ⟨x, _ | ⟨y, l⟩⟩
  · cases hp
  · exact h1 rfl
  · rw [List.map_cons, List.map_cons, List.nodup_cons] at h
    apply h.1
    rw [hall x List.mem_cons_self, hall y (List.mem_cons_of_mem _ List.mem_cons_self)]
    exact List.mem_cons_self

theorem eraseD_gd {b : Prop} {m : Dyn α T} {Lv : List (List α × T)} {N : Nat} {A : Nat → Prop} {g : Nat → Nd α} {lab : Nat → List α} {I : Nat → List Nat} (G : Gd b m Lv N A g lab I)
    {ord : List Nat → List Nat} (hord : ∀ l, (ord l).Perm l) (key : List α) (hkey : key ≠ []) :
    ∃ m' A' g' I', eraseD ord m key = some m' ∧ Gd b m' (drop Lv key) N A' g' lab I' := by
  have t := G.fo
  have a := G.al
  have inj : ∀ u v, A u → A v → lab u = lab v → u = v := fun u v => a.inj t _ u v rfl
  have R : Rep m.ac.nodes N g := G.li.rep.congr (fun i hi => rfl)
  obtain ⟨u, s, r, w1, hu, sl, hk, hlu, s3, hno⟩ := walkP_al t a R key 0 a.root
  rw [t.root, List.nil_append] at hlu
  unfold eraseD
  rw [w1, Option.bind_some]
  cases r with
  | cons c r =>
    have hno := hno c r rfl
    refine ⟨m, A, g, I, rfl, ?_⟩
    rw [drop_self]
    · exact G
    · intro p hp he
      obtain ⟨w, k, b1, b2, -⟩ := G.cid p hp
      rw [he, hk, ← hlu] at b2
      obtain ⟨y, z, y1, y2, y3⟩ := a.way t c (lab u) r w b1 b2
      have := inj y u y1 hu y2
      subst this
      exact assoc_none _ _ hno z y3
  | nil =>
    rw [List.length_nil, Nat.add_zero] at sl
    have hpos : 0 < key.length := List.length_pos_iff.2 hkey
    have hs : ∀ i, i < key.length → ∃ x, s[i]? = some x ∧ A x ∧ lab x = key.take (i+1) := fun i hi => by
      obtain ⟨x, x1, x2, x3⟩ := s3 i (by omega)
      exact ⟨x, x1, x2, by rw [x3, t.root, List.nil_append]⟩
    obtain ⟨x, x1, hx, x3⟩ := hs (key.length - 1) (by omega)
    have hxl : lab x = key := by rw [x3, List.take_of_length_le (by omega)]
    have hxN := a.lt x hx
    show ∃ m' A' g' I', eraseAt ord m s key = some m' ∧ _
    unfold eraseAt
    rw [if_neg (by omega), x1, Option.bind_some, R.val x hxN, Option.bind_some]
    cases hid : (g x).id with
    | none =>
      rw [if_pos rfl]
      refine ⟨m, A, g, I, rfl, ?_⟩
      rw [drop_self]
      · exact G
      · intro p hp he
        obtain ⟨w, k, b1, b2, b3, -⟩ := G.cid p hp
        have := inj w x b1 hx (by rw [b2, he, hxl])
        subst this
        rw [hid] at b3
        cases b3
    | some k0 =>
      rw [if_neg (by simp)]
      obtain ⟨n1, e1, r1⟩ := R.wr hxN { g x with id := none }
      rw [hid] at *
      rw [e1, Option.bind_some]
      obtain ⟨g1, hg1⟩ : ∃ g1, g1 = upd g x { g x with id := none } := ⟨_, rfl⟩
      rw [← hg1] at r1
      have g1e : ∀ y, (g1 y).e = (g y).e ∧ (g1 y).fail = (g y).fail := by
        intro y
        rw [hg1]
        by_cases e : y = x
        · subst e; rw [upd_same]; exact ⟨rfl, rfl⟩
        · rw [upd_ne _ _ e]; exact ⟨rfl, rfl⟩
      have g1i : ∀ y, y ≠ x → (g1 y).id = (g y).id := by
        intro y e
        rw [hg1, upd_ne _ _ e]
      have g1x : (g1 x).id = none := by
        rw [hg1, upd_same]
      have t1 : Fo N g1 lab := t.congr (fun y _ => (g1e y).1)
      have a1 : Al N g1 A := a.congr (fun y _ => (g1e y).1)
      have F1 : Li b N N A NoP g1 lab (n1, m.ifl) (fun v => (g1 v).fail) I := by
        have hF : (fun v => (g1 v).fail) = fun v => (g v).fail := funext (fun y => (g1e y).2)
        exact G.li.swap hF (r1.congr (fun i hi => rfl))
      have idc1 : ∀ u, A u → ∀ k, (g1 u).id = some k → ∃ t, m.ac.cont[k]? = some (lab u, t) ∧ (lab u, t) ∈ drop Lv key := by
        intro u hu k h
        have hux : u ≠ x := by
          rintro rfl
          rw [g1x] at h
          cases h
        rw [g1i u hux] at h
        obtain ⟨t, t1, t2⟩ := G.idc u hu k h
        exact ⟨t, t1, mem_drop.2 ⟨t2, fun he => hux (inj u x hu hx (by rw [hxl]; exact he))⟩⟩
      have cid1 : ∀ p ∈ drop Lv key, ∃ u k, A u ∧ lab u = p.1 ∧ (g1 u).id = some k ∧ m.ac.cont[k]? = some p := by
        intro p hp
        obtain ⟨h1, h2⟩ := mem_drop.1 hp
        obtain ⟨u, k, b1, b2, b3, b4⟩ := G.cid p h1
        refine ⟨u, k, b1, b2, ?_, b4⟩
        rw [g1i u (by rintro rfl; exact h2 (by rw [← b2, hxl])), b3]
      have ne1 : ∀ p ∈ drop Lv key, p.1 ≠ [] := fun p hp => G.ne p (mem_drop.1 hp).1
      by_cases he : (g x).e.isEmpty = true
      · rw [if_pos he]
        have he0 : (g x).e = [] := List.isEmpty_iff.1 he
        unfold prune
        obtain ⟨d, d1, d2, d3, d4⟩ := lower_ok r1 (s := s) (key.length - 1) (fun i hi => by
          obtain ⟨y, y1, y2, -⟩ := hs i (by omega)
          exact ⟨y, y1, a.lt y y2⟩)
        rw [d1, Option.bind_some]
        have hd : d < key.length := by omega
        -- the removed nodes
        have hmem : ∀ y, y ∈ s.drop d ↔ ∃ j, d ≤ j ∧ j < key.length ∧ s[j]? = some y := by
          intro y
          rw [List.mem_iff_getElem?]
          constructor
          · rintro ⟨i, hi⟩
            rw [List.getElem?_drop] at hi
            exact ⟨d + i, by omega, by rw [← sl]; exact (List.getElem?_eq_some_iff.1 hi).1, hi⟩
          · rintro ⟨j, h1, h2, h3⟩
            exact ⟨j - d, by rw [List.getElem?_drop, show d + (j - d) = j by omega]; exact h3⟩
        have hlj : ∀ j y, j < key.length → s[j]? = some y → A y ∧ lab y = key.take (j+1) := by
          intro j y hj hy
          obtain ⟨z, z1, z2, z3⟩ := hs j hj
          rw [hy] at z1
          rw [Option.some.inj z1]
          exact ⟨z2, z3⟩
        have hnd : (s.drop d).Nodup := by
          unfold List.Nodup
          rw [List.pairwise_iff_getElem]
          intro i j hi hj hlt hij
          rw [List.getElem_drop, List.getElem_drop] at hij
          rw [List.length_drop] at hi hj
          have l1 := (hlj (d+i) _ (by omega) (List.getElem?_eq_getElem (by omega))).2
          have l2 := (hlj (d+j) _ (by omega) (List.getElem?_eq_getElem (by omega))).2
          rw [hij, l2] at l1
          have := congrArg List.length l1
          rw [List.length_take, List.length_take] at this
          omega
        have hne0 : ∀ y, y ∈ s.drop d → y ≠ 0 := by
          rintro y hy rfl
          obtain ⟨j, h1, h2, h3⟩ := (hmem 0).1 hy
          have h4 := (hlj j 0 h2 h3).2
          rw [t.root] at h4
          have := congrArg List.length h4
          rw [List.length_take, List.length_nil] at this
          omega
        obtain ⟨st2, F2, I2, e2, S2⟩ := unlinks_li t1 hord (s.drop d) inj hnd (fun y hy => by
          obtain ⟨j, h1, h2, h3⟩ := (hmem y).1 hy
          have h4 := (hlj j y h2 h3).1
          exact ⟨a.lt y h4, hne0 y hy, h4⟩) F1
        rw [e2, Option.bind_some]
        -- the node above
        obtain ⟨q, q1, hq, q3⟩ : ∃ q, (if d = 0 then some 0 else s[d-1]?) = some q ∧ A q ∧ lab q = key.take d := by
          by_cases h0 : d = 0
          · rw [if_pos h0]
            exact ⟨0, rfl, a.root, by rw [t.root, h0, List.take_zero]⟩
          · rw [if_neg h0]
            obtain ⟨y, y1, y2, y3⟩ := hs (d-1) (by omega)
            exact ⟨y, y1, y2, by rw [y3]; congr 1; omega⟩
        have hqN := a.lt q hq
        have hcd : key[d]? = some key[d] := List.getElem?_eq_getElem hd
        -- the edges of the path
        have hedge : ∀ j y z, (h : j < key.length) → s[j]? = some y → A z → lab z = key.take j → (key[j], y) ∈ (g z).e := by
          intro j y z hj hy hz hlz
          obtain ⟨h1, h2⟩ := hlj j y hj hy
          have hy0 : y ≠ 0 := by
            rintro rfl
            rw [t.root] at h2
            have := congrArg List.length h2
            rw [List.length_take, List.length_nil] at this
            omega
          obtain ⟨q', c', p1, p2, p3⟩ := a.par t h1 hy0
          rw [h2, List.take_succ, List.getElem?_eq_getElem hj] at p3
          obtain ⟨i1, i2⟩ := List.append_inj' p3 rfl
          have hc' : key[j] = c' := by simpa using i2
          have := inj q' z p1 hz (by rw [hlz, i1])
          subst this
          rw [hc']
          exact p2
        obtain ⟨n3, e3, r3⟩ := S2.rep.wr hqN { wf g1 F2 q with e := (wf g1 F2 q).e.filter (fun p => decide (p.1 ≠ key[d])) }
        have hdel : delEdge st2.1 q key[d] = some n3 := by
          unfold delEdge
          rw [S2.rep.val q hqN, Option.bind_some, e3]
        rw [q1, Option.bind_some, hcd, Option.bind_some, hdel, Option.map_some]
        obtain ⟨g3, hg3⟩ : ∃ g3, g3 = upd (wf g1 F2) q { wf g1 F2 q with e := (wf g1 F2 q).e.filter (fun p => decide (p.1 ≠ key[d])) } := ⟨_, rfl⟩
        rw [← hg3] at r3
        have g3f : ∀ y, (g3 y).fail = F2 y ∧ (g3 y).id = (g1 y).id := by
          intro y
          rw [hg3]
          by_cases e : y = q
          · subst e; rw [upd_same]; exact ⟨rfl, rfl⟩
          · rw [upd_ne _ _ e]; exact ⟨rfl, rfl⟩
        have g3m : ∀ y c' v, (c', v) ∈ (g3 y).e ↔ (c', v) ∈ (g y).e ∧ (y = q → c' ≠ key[d]) := by
          intro y c' v
          rw [hg3]
          by_cases e : y = q
          · subst e
            rw [upd_same]
            show (c', v) ∈ (g1 y).e.filter (fun p => decide (p.1 ≠ key[d])) ↔ _
            rw [(g1e y).1, List.mem_filter, decide_eq_true_iff]
            exact ⟨fun h => ⟨h.1, fun _ => h.2⟩, fun h => ⟨h.1, h.2 rfl⟩⟩
          · rw [upd_ne _ _ e]
            show (c', v) ∈ (g1 y).e ↔ _
            rw [(g1e y).1]
            exact ⟨fun h => ⟨h, fun h => absurd h e⟩, fun h => h.1⟩
        have t3 : Fo N g3 lab := by
          refine ⟨t.pos, t.root, t.dep, t.ne, fun y hy c' v hm => t.edge y hy c' v ((g3m y c' v).1 hm).1, fun y hy => ?_⟩
          rw [hg3]
          by_cases e : y = q
          · subst e
            rw [upd_same]
            show (((g1 y).e.filter (fun p => decide (p.1 ≠ key[d]))).map Prod.fst).Nodup
            rw [(g1e y).1]
            exact (List.filter_sublist.map _).nodup (t.fn y hy)
          · rw [upd_ne _ _ e]
            show ((g1 y).e.map Prod.fst).Nodup
            rw [(g1e y).1]
            exact t.fn y hy
        have hsplit : ∀ j y u c', j < key.length → s[j]? = some y → A u → (c', y) ∈ (g u).e → lab u = key.take j ∧ key[j]? = some c' := by
          intro j y u c' hj hy hu hm
          have h1 := (t.edge u (a.lt u hu) c' y hm).2.2
          rw [(hlj j y hj hy).2, List.take_succ, List.getElem?_eq_getElem hj] at h1
          obtain ⟨i1, i2⟩ := List.append_inj' h1 rfl
          have : key[j] = c' := by simpa using i2
          exact ⟨i1.symm, by rw [List.getElem?_eq_getElem hj, this]⟩
        have a3 : Al N g3 (fun v => A v ∧ v ∉ s.drop d) := by
          refine ⟨fun v hv => a.lt v hv.1, ⟨a.root, fun h => hne0 0 h rfl⟩, fun y hy c' v hm => ?_, fun v hv h0 => ?_⟩
          · obtain ⟨m1, m2⟩ := (g3m y c' v).1 hm
            refine ⟨a.down y hy.1 c' v m1, fun hv => ?_⟩
            obtain ⟨j, h1, h2, h3⟩ := (hmem v).1 hv
            obtain ⟨l1, l2⟩ := hsplit j v y c' h2 h3 hy.1 m1
            by_cases e : j = d
            · subst e
              have hyq := inj y q hy.1 hq (by rw [l1, q3])
              rw [hcd] at l2
              exact m2 hyq (Option.some.inj l2).symm
            · obtain ⟨z, z1, z2, z3⟩ := hs (j-1) (by omega)
              rw [show j - 1 + 1 = j by omega] at z3
              have := inj y z hy.1 z2 (by rw [l1, z3])
              subst this
              exact hy.2 ((hmem y).2 ⟨j-1, by omega, by omega, z1⟩)
          · obtain ⟨p, c', p1, p2⟩ := a.up v hv.1 h0
            refine ⟨p, c', ⟨p1, fun hp => ?_⟩, (g3m p c' v).2 ⟨p2, fun hpq hcc => ?_⟩⟩
            · obtain ⟨j, h1, h2, h3⟩ := (hmem p).1 hp
              by_cases e : j = key.length - 1
              · subst e
                rw [x1] at h3
                rw [← Option.some.inj h3, he0] at p2
                cases p2
              · obtain ⟨-, k2⟩ := d3 j p h1 (by omega) h3
                rw [(g1e p).1] at k2
                obtain ⟨z, z1, z2, z3⟩ := hs (j+1) (by omega)
                have hz := hedge (j+1) z p (by omega) z1 p1 (hlj j p h2 h3).2
                have : v = z := by
                  obtain ⟨w, hw⟩ := List.length_eq_one_iff.1 k2
                  rw [hw, List.mem_singleton] at hz p2
                  rw [← hz] at p2
                  exact (Prod.mk.inj p2).2
                subst this
                exact hv.2 ((hmem v).2 ⟨j+1, by omega, by omega, z1⟩)
            · subst hpq
              obtain ⟨z, z1, z2, z3⟩ := hs d hd
              have hz := hedge d z p hd z1 hq q3
              rw [← hcc] at hz
              have := fn_inj (t.fn p hqN) p2 hz
              subst this
              exact hv.2 ((hmem v).2 ⟨d, le_refl _, hd, z1⟩)
        have hF3 : (fun v => (g3 v).fail) = F2 := funext (fun y => (g3f y).1)
        refine ⟨_, _, g3, I2, rfl, t3, a3, S2.swap hF3 (r3.congr (fun i hi => rfl)), ?_, ?_, ?_, ne1⟩
        · intro y hy k hyk
          rw [(g3f y).2] at hyk
          exact idc1 y hy.1 k hyk
        · intro p hp
          obtain ⟨y, k, b1, b2, b3, b4⟩ := cid1 p hp
          refine ⟨y, k, ⟨b1, fun hy => ?_⟩, b2, by rw [(g3f y).2]; exact b3, b4⟩
          obtain ⟨j, h1, h2, h3⟩ := (hmem y).1 hy
          by_cases e : j = key.length - 1
          · subst e
            rw [x1] at h3
            rw [← Option.some.inj h3, g1x] at b3
            cases b3
          · rw [(d3 j y h1 (by omega) h3).1] at b3
            cases b3
        · intro y hy
          rcases G.labs y hy.1 with h | ⟨p, p1, p2⟩
          · exact Or.inl h
          · by_cases hpk : p.1 = key
            · by_cases hy0 : lab y = []
              · exact Or.inl hy0
              · right
                rw [hpk] at p2
                have hyl := p2.length_le
                have hyp : 0 < (lab y).length := List.length_pos_iff.2 hy0
                have hyt := List.prefix_iff_eq_take.1 p2
                obtain ⟨z, z1, z2, z3⟩ := hs ((lab y).length - 1) (by omega)
                rw [show (lab y).length - 1 + 1 = (lab y).length by omega, ← hyt] at z3
                have := inj y z hy.1 z2 z3.symm
                subst this
                have hjd : (lab y).length - 1 < d := by
                  by_contra hc
                  exact hy.2 ((hmem y).2 ⟨_, by omega, by omega, z1⟩)
                rcases d4 with h0 | ⟨w, w1, w2⟩
                · omega
                · obtain ⟨hw, hlw⟩ := hlj (d-1) w (by omega) w1
                  rw [show d - 1 + 1 = d by omega] at hlw
                  have hyw : lab y <+: lab w := by
                    rw [hyt, hlw]
                    exact List.take_prefix_take_left (by omega)
                  cases hwi : (g1 w).id with
                  | some k =>
                    obtain ⟨tt, -, k2⟩ := idc1 w hw k hwi
                    exact ⟨_, k2, hyw⟩
                  | none =>
                    have hlen : (g w).e.length ≠ 1 := fun h => w2 ⟨hwi, by rw [(g1e w).1]; exact h⟩
                    obtain ⟨z, z1, z2, z3⟩ := hs d hd
                    have hz := hedge d z w hd z1 hw hlw
                    obtain ⟨⟨c', o⟩, o1, o2⟩ := other_edge (t.fn w (a.lt w hw)) hz hlen
                    dsimp only at o2
                    have ho := a.down w hw c' o o1
                    have hlo := (t.edge w (a.lt w hw) c' o o1).2.2
                    rcases G.labs o ho with h | ⟨p', p3, p4⟩
                    · rw [hlo] at h
                      simp at h
                    · refine ⟨p', mem_drop.2 ⟨p3, fun he => ?_⟩, (hyw.trans (by rw [hlo]; exact List.prefix_append ..)).trans p4⟩
                      rw [he, hlo, hlw] at p4
                      have := List.prefix_iff_eq_take.1 p4
                      rw [List.length_append, List.length_take, List.length_singleton, show min d key.length + 1 = d + 1 by omega, List.take_succ, hcd] at this
                      have := (List.append_inj' this rfl).2
                      exact o2 (by simpa using this)
            · exact Or.inr ⟨p, mem_drop.2 ⟨p1, hpk⟩, p2⟩
      · rw [if_neg he]
        refine ⟨_, A, g1, I, rfl, t1, a1, F1, idc1, cid1, ?_, ne1⟩
        intro y hy
        rcases G.labs y hy with h | ⟨p, p1, p2⟩
        · exact Or.inl h
        · right
          by_cases hpk : p.1 = key
          · obtain ⟨⟨c', o⟩, o1⟩ : ∃ o, o ∈ (g x).e := List.exists_mem_of_ne_nil _ (by simpa using he)
            have ho := a.down x hx c' o o1
            have hlo := (t.edge x hxN c' o o1).2.2
            rcases G.labs o ho with h | ⟨p', p3, p4⟩
            · rw [hlo] at h
              simp at h
            · refine ⟨p', mem_drop.2 ⟨p3, fun he => ?_⟩, ?_⟩
              · have := p4.length_le
                rw [he, hlo, hxl, List.length_append, List.length_singleton] at this
                omega
              · rw [hpk, ← hxl] at p2
                exact (p2.trans (by rw [hlo]; exact List.prefix_append ..)).trans p4
          · exact ⟨p, mem_drop.2 ⟨p1, hpk⟩, p2⟩

end Verif.DynAc
