import Verif.Splay.Tree
import Mathlib.Data.Nat.Log
/-!
The potential of a tree: the sum of the ranks (floor of the binary logarithm of the size) of all subtrees.
-/
namespace Verif.Splay
open Verif Verif.LazySegTree BT

variable {M A : Type} {S : Acts M A} {lct : Bool}

def sz (t : BT M A) : Nat := (nodes t).length

/-- The rank of a tree. -/
def rk (t : BT M A) : Nat := Nat.log 2 (sz t)

def phi : BT M A → Nat
  | nil => 0
  | node l i d r => phi l + phi r + rk (node l i d r)

theorem sz_nil : sz (nil : BT M A) = 0 := rfl
theorem phi_nil : phi (nil : BT M A) = 0 := rfl
theorem sz_node (l : BT M A) (i : Nat) (d : Dat M A) (r : BT M A) : sz (node l i d r) = sz l + sz r + 1 := by
  unfold sz; simp [nodes]
theorem sz_mk (b : Bool) (x : BT M A) (i : Nat) (d : Dat M A) (o : BT M A) : sz (mk b x i d o) = sz x + sz o + 1 := by
  unfold mk; cases b
  · rw [if_neg (by simp), sz_node]; omega
  · rw [if_pos rfl, sz_node]
theorem phi_node (l : BT M A) (i : Nat) (d : Dat M A) (r : BT M A) : phi (node l i d r) = phi l + phi r + Nat.log 2 (sz l + sz r + 1) := by
  rw [phi, rk, sz_node]
theorem phi_mk (b : Bool) (x : BT M A) (i : Nat) (d : Dat M A) (o : BT M A) : phi (mk b x i d o) = phi x + phi o + Nat.log 2 (sz x + sz o + 1) := by
  unfold mk; cases b
  · rw [if_neg (by simp), phi_node, Nat.add_comm (sz o)]; omega
  · rw [if_pos rfl, phi_node]
theorem sz_plug_congr : ∀ (c : List (Fr M A)) {t t' : BT M A}, sz t = sz t' → sz (plug c t) = sz (plug c t') := by
  intro c
  induction c with
  | nil => intro t t' h; exact h
  | cons z c ih => intro t t' h; rw [plug, plug]; exact ih (by rw [sz_mk, sz_mk, h])
theorem phi_plug_congr : ∀ (c : List (Fr M A)) {t t' : BT M A}, sz t = sz t' → phi (plug c t) + phi t' = phi (plug c t') + phi t := by
  intro c
  induction c with
  | nil => intro t t' _; rw [plug, plug]; omega
  | cons z c ih =>
    intro t t' h
    rw [plug, plug]
    have := ih (t := mk z.b t z.i z.d z.o) (t' := mk z.b t' z.i z.d z.o) (by rw [sz_mk, sz_mk, h])
    rw [phi_mk, phi_mk, h] at this
    omega

section
variable [Monoid M]

theorem sz_recv (d : Dat M A) (t : BT M A) : sz (recv S d t) = sz t := by unfold sz; rw [nodes_recv]
theorem sz_agg (t : BT M A) : sz (agg lct t) = sz t := by unfold sz; rw [nodes_agg]
theorem sz_prop (t : BT M A) : sz (prop S t) = sz t := (nodes_prop t).length_eq
theorem phi_recv (d : Dat M A) (t : BT M A) : phi (recv S d t) = phi t := by
  cases t with
  | nil => rfl
  | node l i e r => unfold recv; rw [phi_node, phi_node]
theorem phi_agg (t : BT M A) : phi (agg lct t) = phi t := by
  cases t with
  | nil => rfl
  | node l i e r => unfold agg; rw [phi_node, phi_node]
theorem phi_prop (t : BT M A) : phi (prop S t) = phi t := by
  cases t with
  | nil => rfl
  | node l i d r => unfold prop; rw [phi_mk, phi_node, phi_recv, phi_recv, sz_recv, sz_recv]

end

/-- Two disjoint parts cannot both have the rank of the whole. -/
theorem log_two {a b N : Nat} (h : a + b ≤ N) (ha : 0 < a) (hb : 0 < b) : Nat.log 2 a + Nat.log 2 b + 1 ≤ 2 * Nat.log 2 N := by
  have h1 : Nat.log 2 a ≤ Nat.log 2 N := Nat.log_mono_right (by omega)
  have h2 : Nat.log 2 b ≤ Nat.log 2 N := Nat.log_mono_right (by omega)
  have h3 : N < 2 ^ (Nat.log 2 N + 1) := Nat.lt_pow_succ_log_self (by decide) N
  have h4 : 2 ^ Nat.log 2 a ≤ a := Nat.pow_log_le_self 2 (by omega)
  have h5 : 2 ^ Nat.log 2 b ≤ b := Nat.pow_log_le_self 2 (by omega)
  by_contra hc
  have e1 : Nat.log 2 a = Nat.log 2 N := by omega
  have e2 : Nat.log 2 b = Nat.log 2 N := by omega
  rw [e1] at h4; rw [e2] at h5
  rw [Nat.pow_succ] at h3
  omega

theorem log_le {a b : Nat} (h : a ≤ b) : Nat.log 2 a ≤ Nat.log 2 b := Nat.log_mono_right h

/-- Two rotations in the same direction. -/
theorem zigzig_phi (x y a b : Nat) : Nat.log 2 (a + b + 1) + Nat.log 2 (a + b + 1 + y + 1) + 3 * Nat.log 2 (x + y + 1) + 1 ≤
    Nat.log 2 (x + y + 1) + Nat.log 2 (x + y + 1 + a + 1) + 3 * Nat.log 2 (x + y + 1 + a + 1 + b + 1) := by
  have h1 := log_two (a := a + b + 1) (b := x + y + 1) (N := x + y + 1 + a + 1 + b + 1) (by omega) (by omega) (by omega)
  have h2 := log_le (a := a + b + 1 + y + 1) (b := x + y + 1 + a + 1 + b + 1) (by omega)
  have h3 := log_le (a := x + y + 1) (b := x + y + 1 + a + 1) (by omega)
  omega

/-- Two rotations in different directions. -/
theorem zigzag_phi (x y a b : Nat) : Nat.log 2 (y + a + 1) + Nat.log 2 (x + b + 1) + 3 * Nat.log 2 (x + y + 1) + 1 ≤
    Nat.log 2 (x + y + 1) + Nat.log 2 (x + y + 1 + a + 1) + 3 * Nat.log 2 (x + y + 1 + a + 1 + b + 1) := by
  have h1 := log_two (a := y + a + 1) (b := x + b + 1) (N := x + y + 1 + a + 1 + b + 1) (by omega) (by omega) (by omega)
  have h2 := log_le (a := x + y + 1) (b := x + y + 1 + a + 1 + b + 1) (by omega)
  have h3 := log_le (a := x + y + 1) (b := x + y + 1 + a + 1) (by omega)
  omega

end Verif.Splay
