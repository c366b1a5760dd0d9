import Verif.Rmq.Build
/-! The traversal writes the parentheses. -/
namespace Verif.Rmq
open Verif Verif.Succinct

def CT.sz : CT → Nat
  | .nil => 0
  | .node l _ r => l.sz + r.sz + 1

theorem bits_len : ∀ t : CT, (bits t).length = 2 * t.sz := by
  intro t
  induction t with
  | nil => rfl
  | node l v r ihl ihr => simp only [bits, CT.sz, List.length_cons, List.length_append]; omega

theorem cart_sz {a : Nat → Int} : ∀ (t : CT) {lo hi : Nat}, Cart a lo hi t → lo + t.sz = hi := by
  intro t
  induction t with
  | nil => intro lo hi h; exact h
  | node l v r ihl ihr =>
    intro lo hi ⟨_, _, hl, hr, _, _⟩
    have := ihl hl
    have := ihr hr
    simp only [CT.sz]; omega

def rootOf : CT → Option Nat
  | .nil => none
  | .node _ v _ => some v

theorem lk_root {ns : List Nd} {t : CT} {o : Option Nat} (h : Lk ns t o) : o = rootOf t := by
  cases t with
  | nil => exact h
  | node l v r => exact h.1

def spineL : CT → List Nat
  | .nil => []
  | .node _ v r => v :: spineL r

def itemsL : CT → List (Option Nat × Bool)
  | .nil => []
  | .node l _ r => (rootOf l, true) :: (none, false) :: itemsL r

theorem spine_ok {ns : List Nd} : ∀ (t : CT) {o : Option Nat} (fuel : Nat), Lk ns t o → t.sz ≤ fuel → spine ns fuel o = some (spineL t) := by
  intro t
  induction t with
  | nil => intro o fuel h _; simp only [Lk] at h; subst h; cases fuel <;> rfl
  | node l v r _ ih =>
    intro o fuel ⟨e, nd, hn, _, hr⟩ hf
    subst e
    simp only [CT.sz] at hf
    cases fuel with
    | zero => omega
    | succ fuel =>
      simp only [spine]
      rw [hn, Option.bind_some, ih fuel hr (by omega)]; rfl

theorem items_ok {ns : List Nd} : ∀ (t : CT) {o : Option Nat}, Lk ns t o → items ns (spineL t) = some (itemsL t) := by
  intro t
  induction t with
  | nil => intro o h; rfl
  | node l v r _ ih =>
    intro o ⟨e, nd, hn, hl, hr⟩
    simp only [spineL, items]
    rw [hn, Option.bind_some, ih hr, lk_root hl]; rfl

/-- `pre` has been written, the rest of the `N` bits are zero. -/
def W (b : Bm) (pre : List Bool) (N : Nat) : Prop := pre.length ≤ N ∧ Rel b (pre ++ List.replicate (N - pre.length) false) ∧ Clean b

theorem w_put {b : Bm} {pre : List Bool} {N : Nat} (h : W b pre N) (hn : pre.length < N) (x : Bool) :
    ∃ b', b.put pre.length x = some b' ∧ W b' (pre ++ [x]) N := by
  obtain ⟨h1, h2, h3⟩ := h
  have hs : b.sz = N := by have := h2.size; simp at this; omega
  obtain ⟨b', e, hb⟩ := put_ok h2 (i := pre.length) (by omega) x
  refine ⟨b', e, by simp; omega, ?_, clean_put h3 (by omega) e⟩
  rw [List.set_append_right (h := Nat.le_refl _), Nat.sub_self, show N - pre.length = (N - pre.length - 1) + 1 from by omega, List.replicate_succ, List.set_cons_zero] at hb
  simp only [List.append_assoc, List.length_append, List.length_cons, List.length_nil, List.singleton_append]
  rw [show N - (pre.length + (0+1)) = N - pre.length - 1 from by omega]
  exact hb

theorem trav_items {ns : List Nd} {N : Nat} : ∀ (t : CT) {o : Option Nat}, Lk ns t o → t.sz ≤ ns.length → ∀ (f : Nat) (rest : List (Option Nat × Bool)) (b : Bm) (pre : List Bool),
    W b pre N → pre.length + 2 * t.sz ≤ N →
    ∃ b', W b' (pre ++ bits t) N ∧ trav ns (f + 2 * t.sz) (itemsL t ++ rest) b pre.length = trav ns f rest b' (pre ++ bits t).length := by
  intro t
  induction t with
  | nil => intro o _ _ f rest b pre h _; exact ⟨b, by simpa [bits] using h, by simp [bits, itemsL, CT.sz]⟩
  | node l v r ihl ihr =>
    intro o ⟨e, nd, hn, hl, hr⟩ hsz f rest b pre hW hN
    simp only [CT.sz] at hsz hN
    obtain ⟨b1, e1, w1⟩ := w_put hW (by omega) true
    obtain ⟨b2, w2, e2⟩ := ihl hl (by omega) (f + 2 * r.sz + 1) ((none, false) :: (itemsL r ++ rest)) b1 (pre ++ [true]) w1 (by simp; omega)
    obtain ⟨b3, e3, w3⟩ := w_put w2 (by have := bits_len l; simp; omega) false
    obtain ⟨b4, w4, e4⟩ := ihr hr (by omega) f rest b3 _ w3 (by have := bits_len l; simp; omega)
    refine ⟨b4, ?_, ?_⟩
    · have : pre ++ bits (.node l v r) = pre ++ [true] ++ bits l ++ [false] ++ bits r := by simp [bits]
      rw [this]; exact w4
    · have hl' := lk_root hl
      rw [hl'] at hl
      have e0 : trav ns (f + 2 * (CT.node l v r).sz) (itemsL (.node l v r) ++ rest) b pre.length
          = trav ns (f + 2 * r.sz + 1 + 2 * l.sz) (itemsL l ++ (none, false) :: (itemsL r ++ rest)) b1 (pre.length + 1) := by
        rw [show f + 2 * (CT.node l v r).sz = (f + 2 * r.sz + 1 + 2 * l.sz) + 1 from by simp only [CT.sz]; omega]
        show trav ns (_ + 1) ((rootOf l, true) :: (none, false) :: (itemsL r ++ rest)) b pre.length = _
        simp only [trav]
        rw [spine_ok l ns.length hl (by omega), Option.bind_some, items_ok l hl, Option.bind_some, e1, Option.bind_some]
      rw [e0]
      rw [show pre.length + 1 = (pre ++ [true]).length from by simp, e2]
      simp only [trav]
      rw [e3, Option.bind_some]
      rw [show (pre ++ [true] ++ bits l).length + 1 = (pre ++ [true] ++ bits l ++ [false]).length from by simp [Nat.add_assoc], e4]
      congr 1
      simp [bits]

theorem rel_nil : Rel (⟨[], 0⟩ : Bm) [] := by
  constructor <;> simp [req]

theorem clean_nil : Clean (⟨[], 0⟩ : Bm) := by
  intro p _; simp [bitAt]

/-- The bits of the structure. -/
def par (t : CT) : List Bool := true :: (bits t ++ [false])

theorem parens_ok {t : Tree} {T : CT} (hl : Lk t.nodes T t.root) (hs : T.sz = t.nodes.length) :
    ∃ b, parens t = some b ∧ Rel b (par T) ∧ Clean b := by
  obtain ⟨b0, e0, r0⟩ := grow_ok rel_nil (n := 2 * (t.nodes.length + 1)) (by simp) false
  have c0 := clean_grow clean_nil rel_nil (n := 2 * (t.nodes.length + 1)) (by simp) (Or.inl rfl) e0
  have w0 : W b0 [] (2 * (t.nodes.length + 1)) := ⟨by simp, by simpa using r0, c0⟩
  obtain ⟨b1, e1, w1⟩ := w_put w0 (by simp) true
  obtain ⟨b2, w2, e2⟩ := trav_items T hl (by omega) 1 [(none, false)] b1 _ w1 (by simp; omega)
  have hb := bits_len T
  obtain ⟨b3, e3, w3⟩ := w_put w2 (by simp; omega) false
  refine ⟨b3, ?_, ?_, w3.2.2⟩
  · unfold parens
    rw [e0, Option.bind_some]
    have hl' := hl
    rw [show 2 * (t.nodes.length + 1) = (1 + 2 * T.sz) + 1 from by omega]
    simp only [trav]
    rw [spine_ok T t.nodes.length hl (by omega), Option.bind_some, items_ok T hl, Option.bind_some]
    have e1' : b0.put 0 true = some b1 := e1
    rw [e1', Option.bind_some]
    have e2' : trav t.nodes (1 + 2 * T.sz) (itemsL T ++ [(none, false)]) b1 (0+1) = _ := e2
    rw [e2']
    simp only [trav]
    rw [e3]; rfl
  · have := w3.2.1
    have hz : 2 * (t.nodes.length + 1) - ([] ++ [true] ++ bits T ++ [false]).length = 0 := by simp; omega
    rw [hz] at this
    simpa [par] using this

end Verif.Rmq
