import Verif.Hld.View
/-!
`lca`.
-/
namespace Verif.Hld

variable {n r : Nat} {P : Nat → Option Nat} {o : Obj} {IN HD DP CL : Nat → Nat}

/-- `c` is the lowest common ancestor of `u` and `v`. -/
def IsLca (P : Nat → Option Nat) (u v c : Nat) : Prop := Anc P c u ∧ Anc P c v ∧ ∀ x, Anc P x u → Anc P x v → Anc P x c

/-- Every common ancestor of `u, v` is one of `u', v'`. -/
def Com (P : Nat → Option Nat) (u v u' v' : Nat) : Prop := ∀ x, Anc P x u → Anc P x v → Anc P x u' ∧ Anc P x v'

theorem Com.trans {u v u' v' u'' v'' : Nat} (a : Com P u v u' v') (b : Com P u' v' u'' v'') : Com P u v u'' v'' := fun x h1 h2 => b x (a x h1 h2).1 (a x h1 h2).2

theorem Com.symm {u v u' v' : Nat} (a : Com P u v u' v') : Com P v u v' u' := fun x h1 h2 => ⟨(a x h2 h1).2, (a x h2 h1).1⟩

theorem View.up_eq (V : View n r P o IN HD DP CL) (T : Tree n r P) {u p : Nat} (hu : u < n) (h : P (HD u) = some p) : up o u = some p := by
  unfold up
  rw [V.head u hu, Option.bind_some]
  unfold rdI
  rw [V.par _ (V.hd_lt T hu), h]
  rfl

/-- The deeper vertex goes up. -/
theorem View.up1 (V : View n r P o IN HD DP CL) (T : Tree n r P) {u v : Nat} (hu : u < n) (hv : v < n) (h : DP v < DP u) :
    ∃ p, up o u = some p ∧ p < n ∧ P (HD u) = some p ∧ DP u = DP p + 1 ∧ Com P u v p v := by
  rcases V.up_cases T hu with ⟨_, h0, _⟩ | ⟨p, hp, e, hd⟩
  · omega
  · refine ⟨p, V.up_eq T hu e, hp, e, hd, ?_⟩
    intro x a b
    refine ⟨V.above T hu a ?_ e, b⟩
    intro hh
    have hx := a.lt T hu
    have h1 := (V.hd T hx).2.2
    have h2 := (V.hd T hu).2.2
    rw [hh, h2] at h1
    have := (V.depth_le T hv b).1
    omega

/-- Both go up. -/
theorem View.up2 (V : View n r P o IN HD DP CL) (T : Tree n r P) {u v : Nat} (hu : u < n) (hv : v < n) (h : DP u = DP v) (hne : HD u ≠ HD v) :
    ∃ p q, up o u = some p ∧ up o v = some q ∧ p < n ∧ q < n ∧ P (HD u) = some p ∧ P (HD v) = some q ∧ DP u = DP p + 1 ∧ DP v = DP q + 1 ∧ Com P u v p v ∧ Com P u v p q := by
  have key : ∀ x, Anc P x u → Anc P x v → HD x ≠ HD u ∧ HD x ≠ HD v := by
    intro x a b
    have hx := a.lt T hu
    have h1 := (V.hd T hx).2.2
    have h2 := (V.hd T hu).2.2
    have h3 := (V.hd T hv).2.2
    constructor
    · intro e
      rw [e, h2] at h1
      exact hne (e.symm.trans ((V.depth_le T hv b).2 (by omega)))
    · intro e
      rw [e, h3] at h1
      exact hne (((V.depth_le T hu a).2 (by omega)).symm.trans e)
  rcases V.up_cases T hu with ⟨a1, a2, a3⟩ | ⟨p, hp, e, hd⟩
  · rcases V.up_cases T hv with ⟨b1, b2, b3⟩ | ⟨q, hq, e', hd'⟩
    · exact absurd (a1.trans b1.symm) hne
    · omega
  · rcases V.up_cases T hv with ⟨b1, b2, b3⟩ | ⟨q, hq, e', hd'⟩
    · omega
    · refine ⟨p, q, V.up_eq T hu e, V.up_eq T hv e', hp, hq, e, e', hd, hd', ?_, ?_⟩
      · exact fun x a b => ⟨V.above T hu a (key x a b).1 e, b⟩
      · exact fun x a b => ⟨V.above T hu a (key x a b).1 e, V.above T hv b (key x a b).2 e'⟩

theorem lift_ok (V : View n r P o IN HD DP CL) (T : Tree n r P) : ∀ (f a b : Nat), a < n → b < n → DP a ≤ DP b → DP b - DP a < f →
    ∃ b', lift o f a b = some b' ∧ b' < n ∧ DP b' = DP a ∧ Anc P b' b ∧ Com P a b a b' := by
  intro f
  induction f with
  | zero => intro a b _ _ _ h; omega
  | succ f ih =>
    intro a b ha hb hle hf
    rw [lift, V.depth a ha, Option.bind_some, V.depth b hb, Option.bind_some]
    by_cases h : DP a < DP b
    · rw [if_pos h]
      obtain ⟨p, e, hp, e', hd, c⟩ := V.up1 T hb ha h
      rw [e, Option.bind_some]
      obtain ⟨b', r1, r2, r3, r4, r5⟩ := ih a p ha hp (by omega) (by omega)
      exact ⟨b', r1, r2, r3, (r4.trans (Anc.step e' Anc.refl)).trans (V.hd T hb).1, (c.symm).trans r5⟩
    · rw [if_neg h]
      exact ⟨b, rfl, hb, by omega, Anc.refl, fun x h1 h2 => ⟨h1, h2⟩⟩

theorem lift2_ok (V : View n r P o IN HD DP CL) (T : Tree n r P) : ∀ (f a b : Nat), a < n → b < n → DP a = DP b → DP b < f →
    ∃ a' b', lift2 o f a b = some (a', b') ∧ a' < n ∧ b' < n ∧ HD a' = HD b' ∧ Anc P a' a ∧ Anc P b' b ∧ Com P a b a' b' := by
  intro f
  induction f with
  | zero => intro a b _ _ _ h; omega
  | succ f ih =>
    intro a b ha hb hle hf
    rw [lift2, V.head a ha, Option.bind_some, V.head b hb, Option.bind_some]
    by_cases h : HD a = HD b
    · rw [if_neg (by simpa using h)]
      exact ⟨a, b, rfl, ha, hb, h, Anc.refl, Anc.refl, fun x h1 h2 => ⟨h1, h2⟩⟩
    · rw [if_pos h]
      obtain ⟨p, q, e1, e2, hp, hq, e1', e2', d1, d2, _, c⟩ := V.up2 T ha hb hle h
      rw [e1, Option.bind_some, e2, Option.bind_some]
      obtain ⟨a', b', r1, r2, r3, r4, r5, r6, r7⟩ := ih p q hp hq (by omega) (by omega)
      exact ⟨a', b', r1, r2, r3, r4, (r5.trans (Anc.step e1' Anc.refl)).trans (V.hd T ha).1, (r6.trans (Anc.step e2' Anc.refl)).trans (V.hd T hb).1, c.trans r7⟩

theorem lca2_ok (V : View n r P o IN HD DP CL) (T : Tree n r P) {a b : Nat} (ha : a < n) (hb : b < n) (hle : DP a ≤ DP b) :
    ∃ c, lca2 o a b = some c ∧ c < n ∧ IsLca P a b c := by
  have h1 := V.dp_le T hb
  have h2 := V.lt hb
  unfold lca2
  rw [V.n_eq]
  obtain ⟨b', e1, hb', d1, a1, c1⟩ := lift_ok V T (n+1) a b ha hb hle (by omega)
  rw [e1, Option.bind_some]
  obtain ⟨x, y, e2, hx, hy, hh, a2, a3, c2⟩ := lift2_ok V T (n+1) a b' ha hb' d1.symm (by omega)
  rw [e2, Option.bind_some]
  dsimp only
  rw [V.inn x hx, Option.bind_some, V.inn y hy, Option.map_some]
  have c := c1.trans c2
  by_cases h : IN x < IN y
  · rw [if_pos h]
    have := V.chain T hx hy hh h.le
    exact ⟨x, rfl, hx, a2, (this.trans a3).trans a1, fun z h1 h2 => (c z h1 h2).1⟩
  · rw [if_neg h]
    have := V.chain T hy hx hh.symm (by omega)
    exact ⟨y, rfl, hy, this.trans a2, a3.trans a1, fun z h1 h2 => (c z h1 h2).2⟩

theorem lca_ok (V : View n r P o IN HD DP CL) (T : Tree n r P) {a b : Nat} (ha : a < n) (hb : b < n) :
    ∃ c, lca o a b = some c ∧ c < n ∧ IsLca P a b c := by
  unfold lca
  rw [V.depth a ha, Option.bind_some, V.depth b hb, Option.bind_some]
  by_cases h : DP a > DP b
  · rw [if_pos h]
    obtain ⟨c, e, hc, i1, i2, i3⟩ := lca2_ok V T hb ha h.le
    exact ⟨c, e, hc, i2, i1, fun x h1 h2 => i3 x h2 h1⟩
  · rw [if_neg h]
    exact lca2_ok V T ha hb (by omega)

end Verif.Hld
