import Verif.Sps.Model
import Verif.SubsetConv.Props
/-!
Ranked functions `Z S d` whose Möbius transform vanishes below the size of the set and has a given value at the size of the set.
-/
namespace Verif.Sps
open Finset Verif.Bitwise Verif.SubsetConv

variable {T : Type}

/-- Möbius transform of dimension `n`. -/
abbrev mob [CommRing T] (n : Nat) (f : Nat → T) (x : Nat) : T := tr (fun a _ => a) (fun a b => b - a) n f x

theorem mob_low [CommRing T] {n : Nat} (f : Nat → T) {x : Nat} (hx : x < 2^n) : mob (n+1) f x = mob n f x := by
  show level _ _ n _ x = _
  unfold level
  rw [if_neg (by rw [testBit_of_lt hx (Nat.le_refl n)]; simp)]

theorem tr_shift {α : Type} {p q : α → α → α} : ∀ (n m : Nat) (f : Nat → α) (x : Nat), n ≤ m → x < 2^m →
    tr p q n f (2^m + x) = tr p q n (fun y => f (2^m + y)) x := by
  intro n
  induction n with
  | zero => intro m f x _ _; rfl
  | succ n ih =>
    intro m f x hnm hx
    have hb : (2^m + x).testBit n = x.testBit n := by
      rw [testBit_add_pow hx, show decide (m = n) = false by simp; omega, Bool.xor_false]
    have hlt : x ^^^ 2^n < 2^m := Nat.xor_lt_two_pow hx (Nat.pow_lt_pow_right (by omega) (by omega))
    have hx2 : (2^m + x) ^^^ 2^n = 2^m + (x ^^^ 2^n) := by
      apply Nat.eq_of_testBit_eq
      intro j
      rw [testBit_flip, testBit_add_pow hx, testBit_add_pow hlt, testBit_flip]
      cases x.testBit j <;> cases decide (m = j) <;> cases decide (n = j) <;> rfl
    show level p q n (tr p q n f) (2^m + x) = level p q n (tr p q n (fun y => f (2^m + y))) x
    unfold level
    rw [hb, hx2, ih m f x (by omega) hx, ih m f _ (by omega) hlt]

theorem mob_sub [CommRing T] : ∀ (n : Nat) (f g : Nat → T) (x : Nat), mob n (fun y => f y - g y) x = mob n f x - mob n g x := by
  intro n
  induction n with
  | zero => intro f g x; rfl
  | succ n ih =>
    intro f g x
    have h1 := ih f g x
    have h2 := ih f g (x ^^^ 2^n)
    unfold mob at h1 h2
    show level _ _ n _ x = level _ _ n _ x - level _ _ n _ x
    unfold level
    rw [h1, h2]
    split <;> ring

theorem mob_add [CommRing T] (n : Nat) (f g : Nat → T) (x : Nat) : mob n (fun y => f y + g y) x = mob n f x + mob n g x := by
  have h := mob_sub n (fun y => f y + g y) g x
  rw [show (fun y => f y + g y - g y) = f by funext y; ring] at h
  rw [h]; ring

theorem mob_zero [CommRing T] (n : Nat) (x : Nat) : mob n (fun _ => (0 : T)) x = 0 := by
  have h := mob_sub n (fun _ => (0 : T)) (fun _ => 0) x
  simp only [sub_self] at h
  exact h

theorem mob_high [CommRing T] {n : Nat} (f : Nat → T) {x : Nat} (hx : x < 2^n) :
    mob (n+1) f (2^n + x) = mob n (fun y => f (2^n + y) - f y) x := by
  rw [mob_sub]
  unfold mob
  rw [← tr_shift n n f x (Nat.le_refl n) hx]
  show level _ _ n _ _ = _
  unfold level
  have h : (2^n + x) ^^^ 2^n = x := by
    rw [Nat.add_comm, ← flip_unset (testBit_of_lt hx (Nat.le_refl n)), Bitwise.flip_flip]
  rw [if_pos (by rw [testBit_add_pow hx, testBit_of_lt hx (Nat.le_refl n)]; simp), h]

theorem mob_congr [CommRing T] {n : Nat} {f g : Nat → T} {x : Nat} (hx : x < 2^n) (h : ∀ y, y < 2^n → f y = g y) : mob n f x = mob n g x := by
  apply tr_congr
  intro y hy
  rw [Nat.div_eq_of_lt hx] at hy
  apply h
  rcases Nat.div_eq_zero_iff.1 hy with h | h
  · exact absurd h (Nat.ne_of_gt (Nat.two_pow_pos n))
  · exact h

/-- The function vanishes when its Möbius transform does. -/
theorem mob_inj [CommRing T] : ∀ (n : Nat) (f : Nat → T), (∀ x, x < 2^n → mob n f x = 0) → ∀ x, x < 2^n → f x = 0 := by
  intro n
  induction n with
  | zero => intro f h x hx; exact h x hx
  | succ n ih =>
    intro f h x hx
    have h1 : ∀ x, x < 2^n → f x = 0 := ih f (fun x hx => by rw [← mob_low f hx]; exact h x (by rw [Nat.pow_succ]; omega))
    by_cases hxn : x < 2^n
    · exact h1 x hxn
    · rw [Nat.pow_succ] at hx
      have h2 := ih (fun y => f (2^n + y) - f y) (fun y hy => by rw [← mob_high f hy]; exact h _ (by rw [Nat.pow_succ]; omega)) (x - 2^n) (by omega)
      rw [h1 (x - 2^n) (by omega), sub_zero, show 2^n + (x - 2^n) = x by omega] at h2
      exact h2

/-- Number of elements of a set given by a mask. -/
abbrev pc (x : Nat) : Nat := BitManip.ones 64 x

theorem ones_pow : ∀ m n, n < m → BitManip.ones m (2^n) = 1 := by
  intro m
  induction m with
  | zero => intro n h; omega
  | succ m ih =>
    intro n h
    cases n with
    | zero => rw [BitManip.ones]; norm_num [ones_zero]
    | succ n => rw [BitManip.ones, Nat.pow_succ, Nat.mul_mod_left, Nat.mul_div_cancel _ (by omega), ih n (by omega)]

theorem pc_high {n x : Nat} (hn : n < 64) (hx : x < 2^n) : pc (2^n + x) = pc x + 1 := by
  have h := ones_or_and 64 (2^n) x
  have h1 : 2^n ||| x = 2^n + x := by
    have := Nat.two_pow_add_eq_or_of_lt hx 1
    rw [Nat.mul_one] at this
    rw [this]
  have h2 : 2^n &&& x = 0 := by
    apply Nat.eq_of_testBit_eq
    intro k
    rw [Nat.testBit_and, Nat.testBit_two_pow, Nat.zero_testBit]
    by_cases hk : n = k
    · subst hk; rw [testBit_of_lt hx (Nat.le_refl n)]; simp
    · simp [hk]
  rw [h1, h2, ones_zero, ones_pow 64 n hn] at h
  show BitManip.ones 64 (2^n + x) = BitManip.ones 64 x + 1
  omega

theorem pc_le {n x : Nat} (hx : x < 2^n) : pc x ≤ n := ones_le_of_lt 64 n x hx

/-- `Z` represents `a` in dimension `n`, with ranks moved up by `e`. -/
def Cls [CommRing T] (n e : Nat) (a : Nat → T) (Z : Nat → Nat → T) : Prop :=
  ∀ x, x < 2^n → (∀ d, d < pc x + e → mob n (fun y => Z y d) x = 0) ∧ mob n (fun y => Z y (pc x + e)) x = a x

theorem Cls.congr [CommRing T] {n e : Nat} {a a' : Nat → T} {Z Z' : Nat → Nat → T} (h : Cls n e a Z) (ha : ∀ x, x < 2^n → a x = a' x)
    (hZ : ∀ x d, x < 2^n → d ≤ n + e → Z x d = Z' x d) : Cls n e a' Z' := by
  intro x hx
  obtain ⟨h1, h2⟩ := h x hx
  have hp := pc_le hx
  constructor
  · intro d hd
    rw [← h1 d hd]
    exact mob_congr hx (fun y hy => (hZ y d hy (by omega)).symm)
  · rw [← ha x hx, ← h2]
    exact mob_congr hx (fun y hy => (hZ y _ hy (by omega)).symm)

theorem Cls.add [CommRing T] {n e : Nat} {a b : Nat → T} {Z Y : Nat → Nat → T} (h : Cls n e a Z) (h' : Cls n e b Y) :
    Cls n e (fun x => a x + b x) (fun x d => Z x d + Y x d) := by
  intro x hx
  obtain ⟨h1, h2⟩ := h x hx
  obtain ⟨h3, h4⟩ := h' x hx
  constructor
  · intro d hd
    rw [mob_add, h1 d hd, h3 d hd, add_zero]
  · rw [mob_add, h2, h4]

theorem Cls.sub [CommRing T] {n e : Nat} {a b : Nat → T} {Z Y : Nat → Nat → T} (h : Cls n e a Z) (h' : Cls n e b Y) :
    Cls n e (fun x => a x - b x) (fun x d => Z x d - Y x d) := by
  intro x hx
  obtain ⟨h1, h2⟩ := h x hx
  obtain ⟨h3, h4⟩ := h' x hx
  constructor
  · intro d hd
    rw [mob_sub, h1 d hd, h3 d hd, sub_zero]
  · rw [mob_sub, h2, h4]

theorem Cls.weaken [CommRing T] {n e : Nat} {a : Nat → T} {Z : Nat → Nat → T} (h : Cls n (e+1) a Z) : Cls n e (fun _ => 0) Z := by
  intro x hx
  obtain ⟨h1, _⟩ := h x hx
  exact ⟨fun d hd => h1 d (by omega), h1 _ (by omega)⟩

theorem Cls.zero [CommRing T] (n e : Nat) : Cls n e (fun _ => (0 : T)) (fun _ _ => 0) :=
  fun x _ => ⟨fun _ _ => mob_zero n x, mob_zero n x⟩

/-- Splitting off the highest element. -/
theorem cls_succ [CommRing T] {n e : Nat} (hn : n < 64) {a : Nat → T} {Z : Nat → Nat → T} :
    Cls (n+1) e a Z ↔ Cls n e a Z ∧ Cls n (e+1) (fun x => a (2^n + x)) (fun x d => Z (2^n + x) d - Z x d) := by
  constructor
  · intro h
    refine ⟨fun x hx => ?_, fun x hx => ?_⟩
    · obtain ⟨h1, h2⟩ := h x (by rw [Nat.pow_succ]; omega)
      exact ⟨fun d hd => by rw [← mob_low _ hx]; exact h1 d hd, by rw [← mob_low _ hx]; exact h2⟩
    · obtain ⟨h1, h2⟩ := h (2^n + x) (by rw [Nat.pow_succ]; omega)
      rw [pc_high hn hx] at h1 h2
      refine ⟨fun d hd => ?_, ?_⟩
      · rw [← mob_high (fun y => Z y d) hx]; exact h1 d (by omega)
      · rw [← mob_high (fun y => Z y (pc x + (e+1))) hx, show pc x + (e+1) = pc x + 1 + e by omega]; exact h2
  · rintro ⟨h1, h2⟩ x hx
    rw [Nat.pow_succ] at hx
    by_cases hxn : x < 2^n
    · obtain ⟨h3, h4⟩ := h1 x hxn
      exact ⟨fun d hd => by rw [mob_low _ hxn]; exact h3 d hd, by rw [mob_low _ hxn]; exact h4⟩
    · obtain ⟨y, rfl⟩ : ∃ y, x = 2^n + y := ⟨x - 2^n, by omega⟩
      have hy : y < 2^n := by omega
      obtain ⟨h3, h4⟩ := h2 y hy
      rw [pc_high hn hy]
      refine ⟨fun d hd => ?_, ?_⟩
      · rw [mob_high _ hy]; exact h3 d (by omega)
      · rw [mob_high _ hy, show pc y + 1 + e = pc y + (e+1) by omega]; exact h4

/-- Product of ranked values. -/
def rmul [CommRing T] (u v : Nat → T) (d : Nat) : T := ∑ r ∈ range (d+1), u r * v (d-r)

/-- Subset convolution, splitting off the highest element. -/
def sp [CommRing T] : Nat → (Nat → T) → (Nat → T) → Nat → T
  | 0, a, b, x => a x * b x
  | n+1, a, b, x => if x < 2^n then sp n a b x else sp n a (fun y => b (2^n + y)) (x - 2^n) + sp n (fun y => a (2^n + y)) b (x - 2^n)

theorem cls_mul [CommRing T] : ∀ (n e f : Nat) (a b : Nat → T) (Z Y : Nat → Nat → T), n ≤ 64 → Cls n e a Z → Cls n f b Y →
    Cls n (e+f) (sp n a b) (fun x => rmul (Z x) (Y x)) := by
  intro n
  induction n with
  | zero =>
    intro e f a b Z Y _ hZ hY x hx
    obtain rfl : x = 0 := by simpa using hx
    obtain ⟨h1, h2⟩ := hZ 0 hx
    obtain ⟨h3, h4⟩ := hY 0 hx
    have h0 : pc 0 = 0 := ones_zero 64
    rw [h0, Nat.zero_add] at h1 h2 h3 h4 ⊢
    change ∀ d, d < e → Z 0 d = 0 at h1
    change Z 0 e = a 0 at h2
    change ∀ d, d < f → Y 0 d = 0 at h3
    change Y 0 f = b 0 at h4
    have key : ∀ d r, r ≤ d → (d < e + f ∨ r ≠ e ∧ d = e + f) → Z 0 r * Y 0 (d-r) = 0 := by
      intro d r hr hd
      by_cases hre : r < e
      · rw [h1 r hre, zero_mul]
      · rw [h3 (d-r) (by omega), mul_zero]
    constructor
    · intro d hd
      show rmul (Z 0) (Y 0) d = 0
      apply Finset.sum_eq_zero
      intro r hr
      rw [Finset.mem_range] at hr
      exact key d r (by omega) (Or.inl hd)
    · show rmul (Z 0) (Y 0) (e+f) = a 0 * b 0
      unfold rmul
      rw [Finset.sum_eq_single e]
      · rw [h2, Nat.add_sub_cancel_left, h4]
      · intro r hr hre
        rw [Finset.mem_range] at hr
        exact key _ r (by omega) (Or.inr ⟨hre, rfl⟩)
      · intro h; rw [Finset.mem_range] at h; omega
  | succ n ih =>
    intro e f a b Z Y hn hZ hY
    rw [cls_succ (by omega)] at hZ hY ⊢
    obtain ⟨hZ1, hZ2⟩ := hZ
    obtain ⟨hY1, hY2⟩ := hY
    constructor
    · exact (ih e f a b Z Y (by omega) hZ1 hY1).congr (fun x hx => by rw [sp, if_pos hx]) (fun _ _ _ _ => rfl)
    · have p1 := ih e (f+1) _ _ _ _ (by omega) hZ1 hY2
      have p2 := ih (e+1) f _ _ _ _ (by omega) hZ2 hY1
      have p3 := ih (e+1) (f+1) _ _ _ _ (by omega) hZ2 hY2
      rw [show e + (f+1) = e + f + 1 by omega] at p1
      rw [show e + 1 + f = e + f + 1 by omega] at p2
      rw [show e + 1 + (f + 1) = e + f + 1 + 1 by omega] at p3
      refine ((p1.add p2).add p3.weaken).congr ?_ ?_
      · intro x hx
        rw [sp, if_neg (by omega), Nat.add_sub_cancel_left, add_zero]
      · intro x d _ _
        unfold rmul
        rw [← Finset.sum_add_distrib, ← Finset.sum_add_distrib, ← Finset.sum_sub_distrib]
        apply Finset.sum_congr rfl
        intro r _
        ring

theorem sp_congr [CommRing T] : ∀ (n : Nat) {a a' b b' : Nat → T} {x : Nat}, (∀ y, y < 2^n → a y = a' y) → (∀ y, y < 2^n → b y = b' y) → x < 2^n →
    sp n a b x = sp n a' b' x := by
  intro n
  induction n with
  | zero => intro a a' b b' x ha hb hx; show a x * b x = a' x * b' x; rw [ha x hx, hb x hx]
  | succ n ih =>
    intro a a' b b' x ha hb hx
    rw [Nat.pow_succ] at hx ha hb
    have ha1 : ∀ y, y < 2^n → a y = a' y := fun y hy => ha y (by omega)
    have hb1 : ∀ y, y < 2^n → b y = b' y := fun y hy => hb y (by omega)
    have ha2 : ∀ y, y < 2^n → a (2^n+y) = a' (2^n+y) := fun y hy => ha _ (by omega)
    have hb2 : ∀ y, y < 2^n → b (2^n+y) = b' (2^n+y) := fun y hy => hb _ (by omega)
    rw [sp, sp]
    split
    · rename_i h; exact ih ha1 hb1 h
    · rw [ih ha1 hb2 (by omega), ih ha2 hb1 (by omega)]

/-- Merging (adding the highest element back). -/
theorem cls_merge [CommRing T] {n : Nat} (hn : n < 64) {a : Nat → T} {Z Y : Nat → Nat → T} (h1 : Cls n 0 a Z) (h2 : Cls n 0 (fun x => a (2^n + x)) Y)
    {W : Nat → Nat → T} (hW1 : ∀ x d, x < 2^n → d ≤ n + 1 → W x d = Z x d)
    (hW2 : ∀ x d, x < 2^n → d ≤ n + 1 → W (2^n + x) d = (if d = 0 then 0 else Y x (d-1)) + Z x d) : Cls (n+1) 0 a W := by
  rw [cls_succ hn]
  constructor
  · exact h1.congr (fun _ _ => rfl) (fun x d hx hd => (hW1 x d hx (by omega)).symm)
  · intro x hx
    obtain ⟨h3, h4⟩ := h2 x hx
    have hp := pc_le hx
    have key : ∀ d, d ≤ n + 1 → mob n (fun y => W (2^n + y) d - W y d) x = mob n (fun y => if d = 0 then 0 else Y y (d-1)) x := by
      intro d hd
      apply mob_congr hx
      intro y hy
      rw [hW1 y d hy hd, hW2 y d hy hd]; ring
    constructor
    · intro d hd
      rw [key d (by omega)]
      by_cases hd0 : d = 0
      · rw [mob_congr hx (g := fun _ => 0) (fun y _ => by rw [if_pos hd0]), mob_zero]
      · rw [mob_congr hx (g := fun y => Y y (d-1)) (fun y _ => by rw [if_neg hd0])]
        exact h3 _ (by omega)
    · rw [key _ (by omega), mob_congr hx (g := fun y => Y y (pc x + 0)) (fun y _ => by rw [if_neg (by omega), Nat.zero_add, Nat.add_sub_cancel, Nat.add_zero])]
      exact h4

/-- Splitting. -/
theorem cls_split [CommRing T] {n : Nat} (hn : n < 64) {a : Nat → T} {W : Nat → Nat → T} (h : Cls (n+1) 0 a W) {Z Y : Nat → Nat → T}
    (hZ : ∀ x d, x < 2^n → d ≤ n → Z x d = W x d) (hY : ∀ x d, x < 2^n → d ≤ n → Y x d = W (2^n + x) (d+1) - W x (d+1)) :
    Cls n 0 a Z ∧ Cls n 0 (fun x => a (2^n + x)) Y := by
  rw [cls_succ hn] at h
  refine ⟨h.1.congr (fun _ _ => rfl) (fun x d hx hd => (hZ x d hx hd).symm), ?_⟩
  intro x hx
  obtain ⟨h3, h4⟩ := h.2 x hx
  have hp := pc_le hx
  have key : ∀ d, d ≤ n → mob n (fun y => Y y d) x = mob n (fun y => W (2^n + y) (d+1) - W y (d+1)) x :=
    fun d hd => mob_congr hx (fun y hy => hY y d hy hd)
  exact ⟨fun d hd => by rw [key d (by omega)]; exact h3 _ (by omega), by rw [key _ (by omega)]; exact h4⟩

/-- The ranked zeta transform. -/
theorem cls_zeta [CommRing T] (n : Nat) (a : Nat → T) : Cls n 0 a (fun x d => subsetSum n (part a d) x) := by
  intro x hx
  have key : ∀ d, mob n (fun y => subsetSum n (part a d) y) x = part a d x := by
    intro d
    rw [mob_congr hx (g := tr (fun a _ => a) (fun a b => b + a) n (part a d)) (fun y hy => (tr_zeta_lt _ hy).symm)]
    exact congrFun (mobius_zeta n (part a d)) x
  constructor
  · intro d hd
    rw [key]
    unfold part
    unfold pc at hd
    rw [if_neg (by omega)]
  · rw [key]
    unfold part pc
    rw [if_pos (by omega)]

end Verif.Sps
