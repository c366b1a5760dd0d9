import Verif.Trie.Emplace
/-! `_insert_init`: construction from a range. -/
namespace Verif.Trie
open Verif

variable {V : Type} {W x y z i j p q h d px : Nat} {K : Finset Nat} {rt xf : Bool} {s : St V} {val : Nat → Option V} {v : V} {us : Nat → Nat}

theorem rejump_ok (x : Nat) : ∀ k (s : St V), (∀ i < k, ∃ u, s.node i (us i) = some u) →
    ∃ nd, rejump us x k s = some { s with node := nd } ∧ ∀ j q, nd j q = if j < k ∧ q = us j then (s.node j q).map (fun u => if u.c1 then u else { u with jump := some (some x) }) else s.node j q := by
  intro k
  induction k with
  | zero => intro s _; exact ⟨s.node, rfl, fun j q => by rw [if_neg (by omega)]⟩
  | succ k ih =>
    intro s hs
    obtain ⟨nd, e, hnd⟩ := ih s (fun i hi => hs i (by omega))
    obtain ⟨u, eu⟩ := hs k (by omega)
    unfold rejump
    have hu : nd k (us k) = some u := by rw [hnd, if_neg (by omega), eu]
    rw [e, Option.bind_some]
    dsimp only
    rw [hu, Option.bind_some]
    by_cases c : u.c1 = true
    · rw [if_pos c]
      refine ⟨nd, rfl, fun j q => ?_⟩
      rw [hnd]
      by_cases c1 : j < k ∧ q = us j
      · rw [if_pos c1, if_pos ⟨by omega, c1.2⟩]
      · rw [if_neg c1]
        by_cases c2 : j < k + 1 ∧ q = us j
        · have : j = k := by
            by_contra hne
            exact c1 ⟨by omega, c2.2⟩
          subst this
          rw [if_pos c2, c2.2, eu, Option.map_some, if_pos c]
        · rw [if_neg c2]
    · rw [if_neg c]
      refine ⟨upd2 nd k (us k) (some { u with jump := some (some x) }), by unfold modNode; dsimp only; rw [hu]; rfl, fun j q => ?_⟩
      by_cases c3 : j = k ∧ q = us k
      · obtain ⟨rfl, rfl⟩ := c3
        rw [upd2_same, if_pos ⟨by omega, rfl⟩, eu, Option.map_some, if_neg c]
      · rw [upd2_ne _ _ c3, hnd]
        by_cases c1 : j < k ∧ q = us j
        · rw [if_pos c1, if_pos ⟨by omega, c1.2⟩]
        · rw [if_neg c1, if_neg]
          rintro ⟨a, b⟩
          by_cases e : j = k
          · subst e; exact c3 ⟨rfl, b⟩
          · exact c1 ⟨by omega, b⟩

theorem grow_ok : ∀ k i (us : Nat → Nat) (s : St V) (u : Nd), i + k + 1 = W → us i = pre W x i → s.node i (pre W x i) = some u → (∀ j, i < j → j < W → s.tb j (pre W x j) = false) →
    ∃ nd tb us', grow W x k i us s = some ({ s with node := nd, tb := tb }, us') ∧
      (∀ j q, nd j q = if i < j ∧ j < W ∧ q = pre W x j then some (newNd W x j) else if j = i ∧ q = pre W x i then some (setChild u (bit W x i) true) else s.node j q) ∧
      (∀ j q, tb j q = true ↔ s.tb j q = true ∨ (i < j ∧ j < W ∧ q = pre W x j)) ∧
      (∀ j, i < j → j < W → us' j = pre W x j) ∧ (∀ j, j ≤ i → us' j = us j) := by
  intro k
  induction k with
  | zero =>
    intro i us s u hi hus hu ht
    refine ⟨upd2 s.node i (pre W x i) (some (setChild u (bit W x i) true)), s.tb, us, ?_, ?_, ?_, ?_, fun _ _ => rfl⟩
    · unfold grow modNode
      rw [hus, hu]; rfl
    · intro j q
      rw [if_neg (by omega)]; rfl
    · intro j q
      constructor
      · exact Or.inl
      · rintro (h | h)
        · exact h
        · omega
    · intro j a b; omega
  | succ k ih =>
    intro i us s u hi hus hu ht
    unfold grow createNode modNode
    rw [if_neg (by simp [ht (i+1) (by omega) (by omega)]), Option.bind_some]
    dsimp only
    rw [hus, upd2_ne _ _ (by omega), hu, Option.map_some, Option.bind_some]
    obtain ⟨nd, tb, us', e, h1, h2, h3, h4⟩ := ih (i+1) (upd us (i+1) (pre W x (i+1))) { s with
        node := upd2 (upd2 s.node (i+1) (pre W x (i+1)) (some ⟨false, false, some (some x)⟩)) i (pre W x i) (some (setChild u (bit W x i) true))
        tb := upd2 s.tb (i+1) (pre W x (i+1)) true } ⟨false, false, some (some x)⟩ (by omega) (upd_same _ _ _) (by dsimp only; rw [upd2_ne _ _ (by omega), upd2_same])
      (fun j h1 h2 => by dsimp only; rw [upd2_ne _ _ (by omega)]; exact ht j (by omega) h2)
    refine ⟨nd, tb, us', e, fun j q => ?_, fun j q => ?_, fun j a b => ?_, fun j a => by rw [h4 j (by omega), upd_ne _ _ (by omega)]⟩
    · rw [h1]
      dsimp only
      by_cases c1 : i + 1 < j ∧ j < W ∧ q = pre W x j
      · rw [if_pos c1, if_pos (by omega)]
      rw [if_neg c1]
      by_cases c2 : j = i + 1 ∧ q = pre W x (i+1)
      · rw [if_pos c2, if_pos (by obtain ⟨rfl, rfl⟩ := c2; omega), c2.1]; rfl
      rw [if_neg c2, if_neg (by
        rintro ⟨a, b, c⟩
        by_cases e : j = i + 1
        · exact c2 ⟨e, by rw [c, e]⟩
        · exact c1 ⟨by omega, b, c⟩)]
      unfold upd2
      by_cases c3 : j = i ∧ q = pre W x i
      · rw [if_pos c3, if_pos c3]
      · rw [if_neg c3, if_neg c3, if_neg c2]
    · rw [h2]
      dsimp only
      unfold upd2
      by_cases c2 : j = i + 1 ∧ q = pre W x (i+1)
      · simp only [c2, and_self, if_true, true_or, true_iff]
        exact Or.inr ⟨by omega, by omega, trivial⟩
      · rw [if_neg c2]
        constructor
        · rintro (h | ⟨a, b, c⟩)
          · exact Or.inl h
          · exact Or.inr ⟨by omega, b, c⟩
        · rintro (h | ⟨a, b, c⟩)
          · exact Or.inl h
          · refine Or.inr ⟨?_, b, c⟩
            by_contra hh
            have : j = i + 1 := by omega
            exact c2 ⟨this, by rw [c, this]⟩
    · by_cases e : j = i + 1
      · subst e; rw [h4 _ (le_refl _), upd_same]
      · exact h3 j (by omega) b

/-- One step: `x` is above all keys, `h` is the depth where its path leaves the trie. -/
theorem push_ok (I : Inv W rt { s with size := K.card } K val) (hx : x < 2 ^ W) (hmax : ∀ z ∈ K, z < x) (t : Top W K x h) (hh : h < W) (hus : ∀ i ≤ h, us i = pre W x i)
    {jv : Option (Option Nat)} (hjv : JOk W (insert x K) h (pre W x h) jv) (v : V) :
    ∃ s' us', ((pushLink W s x v).bind (fun s => (rejump us x h s).bind (fun s => (modNode s h (us h) (fun u => { u with jump := jv })).bind (fun s => grow W x (W - 1 - h) h us s)))) = some (s', us') ∧
      Inv W rt { s' with size := (insert x K).card } (insert x K) (upd val x (some v)) ∧ ∀ i < W, us' i = pre W x i := by
  have hW : 0 < W := by omega
  have hxK : x ∉ K := fun hm => by have := hmax x hm; omega
  have hb := bit_lt W x h
  have htbx : ∀ j, h < j → j ≤ W → s.tb j (pre W x j) = false := fun j a b => by
    cases hc : s.tb j (pre W x j) with
    | false => rfl
    | true =>
      rcases (I.tb _ _).1 hc with ⟨_, _, c⟩ | ⟨c, _⟩
      · exact absurd c (t.no j a b)
      · omega
  have hhasp : ∀ j, j ≠ 0 → j ≤ h → Has W K j (pre W x j) := fun j hj hjh => by
    rcases t.has with e | hc
    · omega
    · exact hc.up hjh t.le
  have hpathn : ∀ i ≤ h, ∃ u, s.node i (pre W x i) = some u ∧ Flags W K i (pre W x i) u ∧ JOk W K i (pre W x i) u.jump := fun i hi =>
    I.node i (by omega) (pre W x i) (ex_of hx (by
      by_cases e : i = 0
      · exact Or.inl e
      · exact Or.inr (hhasp i e hi)))
  -- the links
  obtain ⟨dl, edl, dp, dn, dv⟩ := I.leaf none trivial
  have hpr : IsPrev K (some x) dl.prev := IsMax.congr dp fun z => ⟨fun a => ⟨a.1, hmax z a.1⟩, fun a => ⟨a.1, trivial⟩⟩
  obtain ⟨pl, s1, epl, e1, n1, z1, t1, l1⟩ := links_ok (W := W) (s := s) (v := v) I.leaf (by have := htbx W hh (le_refl _); rwa [pre_W] at this) hxK hpr
  have hplz : pl.next = none := by
    obtain ⟨pl', epl', _, pn, _⟩ := I.leaf dl.prev hpr.ptr
    have epl'' : pl = pl' := by
      have := epl.symm.trans epl'
      injection this
    subst epl''
    have := next_of_prev hxK hpr pn
    cases hc : pl.next with
    | none => rfl
    | some w =>
      rw [hc] at this
      have h1 := hmax w this.1.1
      have h2 : x < w := this.1.2
      omega
  have e1' : pushLink W s x v = some s1 := by
    unfold pushLink
    have edl' : s.leaf none = some dl := edl
    rw [edl', Option.bind_some]
    rw [hplz] at e1
    exact e1
  obtain ⟨nd2, e2, hnd2⟩ := rejump_ok (us := us) x h s1 (fun i hi => by
    obtain ⟨u, eu, _⟩ := hpathn i (by omega)
    exact ⟨u, by rw [n1, hus i (by omega)]; exact eu⟩)
  obtain ⟨u, eu, fu, ju⟩ := hpathn h (le_refl _)
  have hu2 : nd2 h (pre W x h) = some u := by rw [hnd2, if_neg (by omega), n1]; exact eu
  obtain ⟨nd, tb, us', e4, hnd, htb, hus1, hus2⟩ := grow_ok (x := x) (W := W) (W - 1 - h) h us { s1 with node := upd2 nd2 h (pre W x h) (some { u with jump := jv }) } { u with jump := jv } (by omega)
    (hus h (le_refl _)) (upd2_same _ _ _ _) (fun j a b => by
      dsimp only
      rw [t1]
      exact (upd2_ne _ _ (by omega)).trans (htbx j a (by omega)))
  have hnodes : ∀ i < W, ∀ p, Ex W (insert x K) i p → ∃ w, nd i p = some w ∧ Flags W (insert x K) i p w ∧ JOk W (insert x K) i p w.jump := by
    intro i hi p hp
    rw [hnd]
    dsimp only
    by_cases hpath : p = pre W x i
    · subst hpath
      by_cases c1 : h < i
      · rw [if_pos ⟨c1, hi, rfl⟩]
        have hno : ∀ q, Has W (insert x K) (i+1) q ↔ pre W x (i+1) = q ∨ (Has W K (i+1) q) := fun q => by rw [has_insert]; exact or_comm
        have hK : ∀ b < 2, ¬ Has W K (i+1) (2 * pre W x i + b) := fun b hb' ⟨z, hz, ez⟩ => t.no i c1 (by omega) ⟨z, hz, by
          rw [← pre_half hi, ez]; omega⟩
        refine ⟨_, rfl, ?_, ⟨?_, ?_, fun e => absurd e insert_ne_empty⟩⟩
        · intro b hb'
          unfold newNd
          rw [child_set _ (bit_lt _ _ _) hb', hno, pre_succ hi]
          by_cases c : b = bit W x i
          · rw [if_pos c, c]; simp
          · rw [if_neg c]
            constructor
            · intro hc; unfold child at hc; split at hc <;> cases hc
            · rintro (a | a)
              · omega
              · exact absurd a (hK b hb')
        · intro b hb' _ _
          refine ⟨x, by unfold newNd; rw [jump_set], Finset.mem_insert_self _ _, rfl, fun z hz ez => ?_⟩
          rcases Finset.mem_insert.1 hz with rfl | hz
          · exact ⟨fun _ => le_refl _, fun _ => le_refl _⟩
          · exact absurd ⟨z, hz, ez⟩ (t.no i c1 (by omega))
        · intro a b
          have hbx := bit_lt W x i
          have hps := pre_succ (x := x) hi
          rcases (hno _).1 a with a | a
          · rcases (hno _).1 b with b | b
            · omega
            · exact absurd b (hK 1 (by omega))
          · exact absurd a (hK 0 (by omega))
      · rw [if_neg (by omega)]
        by_cases c2 : i = h
        · subst c2
          rw [if_pos ⟨rfl, rfl⟩]
          refine ⟨_, rfl, ?_, by rw [jump_set]; exact hjv⟩
          intro b hb'
          rw [child_set _ hb hb', has_insert, pre_succ hi]
          have hfu := fu b hb'
          by_cases c : b = bit W x i
          · rw [if_pos c, c]; simp
          · rw [if_neg c]
            have e : child { u with jump := jv } b = child u b := rfl
            rw [e, hfu]
            exact ⟨Or.inl, fun a => a.elim id fun a => by omega⟩
        · rw [if_neg (by omega), upd2_ne _ _ (by omega), hnd2, if_pos ⟨by omega, (hus i (by omega)).symm⟩, n1]
          obtain ⟨w, ew, fw, jw⟩ := hpathn i (by omega)
          have ew' : s.node i (pre W x i) = some w := ew
          have hc := hhasp (i+1) (by omega) (by omega)
          have hps := pre_succ (x := x) hi
          have hbi := bit_lt W x i
          have hf1 := fw 1 (by omega)
          rw [ew', Option.map_some]
          refine ⟨_, rfl, ?_, ?_⟩
          · have : Flags W (insert x K) i (pre W x i) w := fun b hb' => by rw [fw b hb', has_on hi hc]
            split
            · exact this
            · exact this
          · by_cases c : w.c1 = true
            · rw [if_pos c]
              refine jok_on hi hc jw fun b hb' hno => ?_
              obtain ⟨z, hz, ez⟩ := hc
              refine ⟨z, hz, pre_eq_of_le (by omega) (by omega) ez, fun e => ?_, fun _ => le_of_lt (hmax z hz)⟩
              subst e
              exact absurd (hf1.1 c) hno
            · rw [if_neg c]
              have h1 : ¬ Has W K (i+1) (2 * pre W x i + 1) := fun h => c (hf1.2 h)
              have hb0 : bit W x i = 0 := by
                by_contra e
                have : bit W x i = 1 := by omega
                rw [hps, this] at hc
                exact h1 hc
              refine ⟨fun b hb' a1 a2 => ⟨x, rfl, Finset.mem_insert_self _ _, rfl, fun z hz _ => ?_⟩, fun _ a => absurd ((has_on hi hc).1 a) h1, fun e => absurd e insert_ne_empty⟩
              have hb1 : b = 1 := by
                by_contra e
                have : b = 0 := by omega
                rw [this, ← hb0, ← hps] at a2
                exact a2 ⟨x, Finset.mem_insert_self _ _, rfl⟩
              refine ⟨fun _ => ?_, fun e => by omega⟩
              rcases Finset.mem_insert.1 hz with rfl | hz
              · exact le_refl _
              · exact le_of_lt (hmax z hz)
    · rw [if_neg (fun a => hpath a.2.2), if_neg (fun a => hpath (by rw [a.2, a.1])), upd2_ne _ _ (fun a => hpath (by rw [a.2, a.1])), hnd2,
        if_neg (fun a => hpath (by rw [a.2, hus i (by omega)])), n1]
      have hne : pre W x i ≠ p := fun e => hpath e.symm
      have hK : Has W K i p := by
        rcases hp with hp | ⟨rfl, rfl⟩
        · rcases has_insert.1 hp with hp | hp
          · exact hp
          · exact absurd hp hne
        · exact absurd (pre_zero hx) hne
      have hKne : K ≠ ∅ := by obtain ⟨z, hz, _⟩ := hK; exact Finset.ne_empty_of_mem hz
      obtain ⟨w, ew, fw, jw⟩ := I.node i hi p (Or.inl hK)
      exact ⟨w, ew, (flags_off hi hne).2 fw, (jok_off hi hne hKne).2 jw⟩
  refine ⟨{ s1 with node := nd, tb := tb }, us', ?_, ?_, fun i hi => ?_⟩
  rotate_left
  rotate_left
  · by_cases c : h < i
    · exact hus1 i c hi
    · rw [hus2 i (by omega)]; exact hus i (by omega)
  · rw [e1', Option.bind_some, e2, Option.bind_some]
    unfold modNode
    dsimp only
    rw [hus h (le_refl _), hu2, Option.map_some, Option.bind_some]
    exact e4
  · refine ⟨?_, ?_, hnodes, l1, rfl, ?_⟩
    · intro y
      by_cases c : y = x
      · subst c; simp [upd_same]
      · rw [upd_ne _ _ c, ← I.mem]; simp [c]
    · intro y hy
      rcases Finset.mem_insert.1 hy with rfl | hy
      · exact hx
      · exact I.lt y hy
    · intro i p
      dsimp only
      rw [htb]
      dsimp only
      rw [t1]
      unfold upd2
      rw [has_insert]
      have Itb := I.tb i p
      dsimp only at Itb
      by_cases c : i = W ∧ p = x
      · rw [if_pos c]
        simp only [true_or, true_iff]
        exact Or.inl ⟨by omega, by omega, Or.inr (by rw [c.1, c.2, pre_W])⟩
      · rw [if_neg c, Itb]
        constructor
        · rintro ((⟨a1, a2, a3⟩ | a) | ⟨a1, a2, a3⟩)
          · exact Or.inl ⟨a1, a2, Or.inl a3⟩
          · exact Or.inr a
          · exact Or.inl ⟨by omega, by omega, Or.inr a3.symm⟩
        · rintro (⟨a1, a2, a3 | a3⟩ | a)
          · exact Or.inl (Or.inl ⟨a1, a2, a3⟩)
          · by_cases e : i ≤ h
            · exact Or.inl (Or.inl ⟨a1, a2, a3 ▸ hhasp i (by omega) e⟩)
            · refine Or.inr ⟨by omega, ?_, a3.symm⟩
              by_contra e2
              have : i = W := by omega
              subst this
              rw [pre_W] at a3
              exact c ⟨rfl, a3.symm⟩
          · exact Or.inl (Or.inr a)

/-- The paths of two different keys part below their longest common prefix. -/
theorem lca_part (hx : x < 2 ^ W) (hy : y < 2 ^ W) (hne : x ^^^ y ≠ 0) : pre W x (W - 1 - Nat.log2 (x ^^^ y) + 1) ≠ pre W y (W - 1 - Nat.log2 (x ^^^ y) + 1) := by
  have hlt : x ^^^ y < 2 ^ W := Nat.xor_lt_two_pow hx hy
  have hl : Nat.log2 (x ^^^ y) < W := (Nat.log2_lt hne).2 hlt
  have e : W - (W - 1 - Nat.log2 (x ^^^ y) + 1) = Nat.log2 (x ^^^ y) := by omega
  unfold pre
  rw [e, ← Nat.shiftRight_eq_div_pow, ← Nat.shiftRight_eq_div_pow]
  intro h
  have h0 : (x ^^^ y) >>> Nat.log2 (x ^^^ y) = 0 := by rw [Nat.shiftRight_xor_distrib, h, Nat.xor_self]
  rw [Nat.shiftRight_eq_div_pow, Nat.div_eq_zero_iff] at h0
  have := Nat.log2_self_le hne
  rcases h0 with h0 | h0
  · exact absurd h0 (Nat.pos_iff_ne_zero.1 (Nat.two_pow_pos _))
  · omega

/-- The map after putting in the elements of a list, earlier ones winning. -/
def put (val : Nat → Option V) : List (Nat × V) → (Nat → Option V)
  | [] => val
  | (x, v) :: l => put (if (val x).isSome then val else upd val x (some v)) l

theorem put_eq (y : Nat) : ∀ (l : List (Nat × V)) (val : Nat → Option V), put val l y = (val y).or ((l.find? (fun a => a.1 == y)).map Prod.snd)
  | [], val => by simp [put]
  | (x, v) :: l, val => by
    unfold put
    rw [put_eq y l]
    by_cases c : (val x).isSome = true
    · rw [if_pos c]
      by_cases e : x = y
      · subst e
        obtain ⟨w, hw⟩ := Option.isSome_iff_exists.1 c
        rw [hw]; rfl
      · rw [List.find?_cons_of_neg (by simp [e])]
    · rw [if_neg c]
      by_cases e : x = y
      · subst e
        have hn : val x = none := by simpa using c
        rw [upd_same, hn, List.find?_cons_of_pos (by simp)]
        rfl
      · rw [upd_ne _ _ (fun h => e h.symm), List.find?_cons_of_neg (by simp [e])]

theorem addAll_ok (hW : 0 < W) (xf : Bool) : ∀ (l : List (Nat × V)) (s : St V) (K : Finset Nat) (val : Nat → Option V), (∀ a ∈ l, a.1 < 2 ^ W) → Inv W rt s K val →
    ∃ s' K', addAll xf W l s = some s' ∧ Inv W rt s' K' (put val l)
  | [], s, K, val, _, I => ⟨s, K, rfl, I⟩
  | (x, v) :: l, s, K, val, hl, I => by
    obtain ⟨s1, e1, I1⟩ := add_ok I hW (hl _ (List.mem_cons_self)) xf v
    have hc : (if x ∈ K then val else upd val x (some v)) = (if (val x).isSome then val else upd val x (some v)) := by
      by_cases c : x ∈ K
      · rw [if_pos c, if_pos ((I.mem x).1 c)]
      · rw [if_neg c, if_neg (fun h => c ((I.mem x).2 h))]
    rw [hc] at I1
    obtain ⟨s2, K2, e2, I2⟩ := addAll_ok hW xf l s1 _ _ (fun a ha => hl a (List.mem_cons_of_mem _ ha)) I1
    exact ⟨s2, K2, by unfold addAll; rw [e1, Option.bind_some]; exact e2, I2⟩

theorem pushAll_ok (hW : 0 < W) : ∀ (l : List (Nat × V)) (px : Nat) (us : Nat → Nat) (s : St V) (K : Finset Nat) (val : Nat → Option V), (∀ a ∈ l, a.1 < 2 ^ W) →
    ((l.map Prod.fst).Pairwise (· ≤ ·)) → (∀ a ∈ l, px ≤ a.1) → px ∈ K → (∀ z ∈ K, z ≤ px) → (∀ i < W, us i = pre W px i) → Inv W rt { s with size := K.card } K val →
    ∃ s' K', pushAll W l px us K.card s = some (s', K'.card) ∧ Inv W rt { s' with size := K'.card } K' (put val l)
  | [], px, us, s, K, val, _, _, _, _, _, _, I => ⟨s, K, rfl, I⟩
  | (x, v) :: l, px, us, s, K, val, hl, hs, hge, hpx, hmax, hus, I => by
    have hx : x < 2 ^ W := hl _ List.mem_cons_self
    have hl' : ∀ a ∈ l, a.1 < 2 ^ W := fun a ha => hl a (List.mem_cons_of_mem _ ha)
    rw [List.map_cons, List.pairwise_cons] at hs
    have hge' : ∀ a ∈ l, x ≤ a.1 := fun a ha => hs.1 _ (List.mem_map_of_mem ha)
    have hxp : px ≤ x := hge _ List.mem_cons_self
    unfold pushAll
    by_cases c : x ^^^ px = 0
    · rw [if_pos c]
      have e : x = px := eq_of_xor c
      subst e
      obtain ⟨s', K', e', I'⟩ := pushAll_ok hW l x us s K val hl' hs.2 hge' hpx hmax hus I
      refine ⟨s', K', e', ?_⟩
      unfold put
      rw [if_pos ((I.mem x).1 hpx)]
      exact I'
    · rw [if_neg c]
      have hpl := I.lt px hpx
      obtain ⟨h1, h2⟩ := lca_ok hx hpl c
      have h3 := lca_part hx hpl c
      have hlt : px < x := by
        rcases Nat.lt_or_eq_of_le hxp with h | h
        · exact h
        · exact absurd (by rw [h, Nat.xor_self]) c
      generalize W - 1 - Nat.log2 (x ^^^ px) = h at h1 h2 h3 ⊢
      have hmax' : ∀ z ∈ K, z < x := fun z hz => by have := hmax z hz; omega
      have h4 : pre W px (h+1) < pre W x (h+1) := by
        have := pre_mono (W := W) (i := h+1) hxp
        omega
      have t : Top W K x h := ⟨le_of_lt h1, Or.inr ⟨px, hpx, h2.symm⟩, fun j a b => no_of_succ h1 (fun ⟨z, hz, ez⟩ => by
        have := pre_mono (W := W) (i := h+1) (hmax z hz)
        omega) j a b⟩
      have hpsx := pre_succ (x := x) h1
      have hpsp := pre_succ (x := px) h1
      have hbx := bit_lt W x h
      have hbp := bit_lt W px h
      obtain ⟨s', us', e1, I1, hus1⟩ := push_ok (us := us) I hx hmax' t h1 (fun i hi => by
          rw [hus i (by omega)]
          exact pre_eq_of_le hi (by omega) h2.symm) (jv := none) (by
          have hx1 : Has W (insert x K) (h+1) (2 * pre W x h + 1) := ⟨x, Finset.mem_insert_self _ _, by omega⟩
          have hx0 : Has W (insert x K) (h+1) (2 * pre W x h) := ⟨px, Finset.mem_insert_of_mem hpx, by omega⟩
          refine ⟨fun b hb a1 a2 => ?_, fun _ _ _ => rfl, fun e => absurd e insert_ne_empty⟩
          rcases (by omega : b = 0 ∨ b = 1) with e | e
          · rw [e] at a2; exact absurd hx0 a2
          · rw [e] at a2; exact absurd hx1 a2) v
      have hxK : x ∉ K := fun hm => by have := hmax' x hm; omega
      have hn : ¬ (val x).isSome = true := fun h => hxK ((I.mem x).2 h)
      obtain ⟨s2, K2, e2, I2⟩ := pushAll_ok hW l x us' s' (insert x K) (upd val x (some v)) hl' hs.2 hge' (Finset.mem_insert_self _ _) (fun z hz => by
        rcases Finset.mem_insert.1 hz with rfl | hz
        · exact le_refl _
        · exact le_of_lt (hmax' z hz)) hus1 I1
      refine ⟨s2, K2, ?_, by unfold put; rw [if_neg hn]; exact I2⟩
      rw [Finset.card_insert_of_notMem hxK] at e2
      have := congrArg (fun o : Option (St V × (Nat → Nat)) => o.bind (fun a => pushAll W l x a.2 (K.card + 1) a.1)) e1
      simp only [Option.bind_assoc, Option.bind_some] at this
      rw [this, e2]

theorem ofRange_ok (hW : 0 < W) (xf : Bool) : ∀ (l : List (Nat × V)), (∀ a ∈ l, a.1 < 2 ^ W) →
    ∃ s K, ofRange xf W l = some s ∧ Inv W true s K (put (fun _ => none) l)
  | [], _ => ⟨init true, ∅, rfl, init_inv W true⟩
  | (x, v) :: l, hl => by
    have hx : x < 2 ^ W := hl _ List.mem_cons_self
    rw [ofRange]
    by_cases c : (((x, v) :: l).map Prod.fst).Pairwise (· ≤ ·)
    · rw [if_pos c]
      have hno : ∀ i p, ¬ Has W ∅ i p := by rintro i p ⟨z, hz, _⟩; cases hz
      have I0 : Inv W true { (init true : St V) with size := (∅ : Finset Nat).card } ∅ (fun _ => none) := init_inv W true
      obtain ⟨s1, us1, e1, I1, hus1⟩ := push_ok (us := fun _ => 0) (x := x) (h := 0) I0 hx (fun z hz => absurd hz (Finset.notMem_empty z)) ⟨Nat.zero_le _, Or.inl rfl, fun j _ _ => hno j _⟩ hW
        (fun i hi => by have : i = 0 := by omega
                        subst this; exact (pre_zero hx).symm) (jv := some (some x)) (by
          refine ⟨fun b hb a1 a2 => ⟨x, rfl, Finset.mem_insert_self _ _, rfl, fun z hz _ => ?_⟩, fun _ _ e => absurd rfl e, fun e => absurd e insert_ne_empty⟩
          rcases Finset.mem_insert.1 hz with rfl | hz
          · exact ⟨fun _ => le_refl _, fun _ => le_refl _⟩
          · exact absurd hz (Finset.notMem_empty z)) v
      rw [List.map_cons, List.pairwise_cons] at c
      obtain ⟨s2, K2, e2, I2⟩ := pushAll_ok hW l x us1 s1 _ _ (fun a ha => hl a (List.mem_cons_of_mem _ ha)) c.2 (fun a ha => c.1 _ (List.mem_map_of_mem ha)) (Finset.mem_insert_self _ _) (fun z hz => by
          rcases Finset.mem_insert.1 hz with rfl | hz
          · exact le_refl _
          · exact absurd hz (Finset.notMem_empty z)) hus1 I1
      refine ⟨{ s2 with size := K2.card }, K2, ?_, I2⟩
      have h1 : (insert x (∅ : Finset Nat)).card = 1 := by rw [Finset.card_insert_of_notMem (Finset.notMem_empty x)]; rfl
      rw [h1] at e2
      have := congrArg (fun o : Option (St V × (Nat → Nat)) => o.bind (fun a => (pushAll W l x a.2 1 a.1).map (fun b => { b.1 with size := b.2 }))) e1
      simp only [Option.bind_assoc, Option.bind_some, rejump, Nat.sub_zero] at this
      rw [this, e2]
      rfl
    · rw [if_neg c]
      exact addAll_ok hW xf _ _ _ _ hl (init_inv W true)

end Verif.Trie
