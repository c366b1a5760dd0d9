import Verif.Rmq.Trav
import Verif.SparseTable.Sparse
/-! Queries. -/
namespace Verif.Rmq
open Verif Verif.BitManip Verif.Succinct

/-! ### Excess, ranks and words -/

theorem ex_succ : ∀ (l : List Bool) (k : Nat), k < l.length → ex l (k+1) = if l.getD k false then ex l k + 1 else ex l k - 1 := by
  intro l
  induction l with
  | nil => intro k h; simp at h
  | cons b l ih =>
    intro k h
    cases k with
    | zero => cases b <;> simp [ex]
    | succ k =>
      simp only [List.length_cons] at h
      rw [ex, ih k (by omega), ex, List.getD_cons_succ]
      generalize l.getD k false = q
      cases q <;> simp <;> omega

theorem ex_rank : ∀ (l : List Bool) (k : Nat), k ≤ l.length → ex l k = 2 * (lrank l true k : Int) - k := by
  intro l
  induction l with
  | nil => intro k h; simp at h; subst h; simp [lrank]
  | cons b l ih =>
    intro k h
    cases k with
    | zero => simp [lrank]
    | succ k =>
      simp only [List.length_cons] at h
      rw [ex, ih k (by omega)]
      unfold lrank
      rw [List.take_succ_cons, List.count_cons]
      cases b <;> simp <;> omega

/-- Prefix sums of a word of the bitmap are differences of the excess. -/
theorem ps_word {l : List Bool} {b e : Nat} (he : e ≤ l.length) : ∀ j, b + j ≤ e → ps (toNum ((l.take e).drop b)) j = ex l (b + j) - ex l b := by
  intro j
  induction j with
  | zero => intro _; simp [ps, ones]
  | succ j ih =>
    intro h
    have hg : ((l.take e).drop b).getD j false = l.getD (b + j) false := by
      rw [List.getD_eq_getElem?_getD, List.getD_eq_getElem?_getD, List.getElem?_drop, List.getElem?_take_of_lt (by omega)]
    rw [ps_succ, ih (by omega), toNum_testBit, hg, show b + (j+1) = b + j + 1 from by omega, ex_succ l (b+j) (by omega)]
    split <;> omega

theorem ps_pad (x d : Nat) (hd : d < 64) : (∀ j, j ≤ d → ps (x ||| u64 ((2^(64-d) - 1) <<< d)) j = ps x j) ∧
    ∀ j, d ≤ j → j ≤ 64 → ps (x ||| u64 ((2^(64-d) - 1) <<< d)) j = ps (x ||| u64 ((2^(64-d) - 1) <<< d)) d + (j - d) := by
  have hu : u64 ((2^(64-d) - 1) <<< d) = (2^(64-d) - 1) <<< d := by
    unfold u64
    refine Nat.mod_eq_of_lt ?_
    rw [Nat.shiftLeft_eq]
    have h1 := Nat.two_pow_pos d
    have h2 : 2^(64-d) * 2^d = 2^64 := by rw [← Nat.pow_add]; congr 1; omega
    have h3 : (2^(64-d) - 1) * 2^d < 2^(64-d) * 2^d := Nat.mul_lt_mul_of_pos_right (by have := Nat.two_pow_pos (64-d); omega) h1
    omega
  rw [hu]
  have hb : ∀ i, i < 64 → (x ||| (2^(64-d) - 1) <<< d).testBit i = if i < d then x.testBit i else true := by
    intro i hi
    rw [Nat.testBit_or, Nat.testBit_shiftLeft, Nat.testBit_two_pow_sub_one]
    by_cases h : i < d
    · simp [h, show ¬ d ≤ i from by omega]
    · simp [h, show d ≤ i from by omega, show i - d < 64 - d from by omega]
  constructor
  · intro j
    induction j with
    | zero => intro _; simp [ps, ones]
    | succ j ih => intro hj; rw [ps_succ, ps_succ, ih (by omega), hb j (by omega)]; simp [show j < d from by omega]
  · intro j
    induction j with
    | zero => intro h1 h2; have : d = 0 := by omega
              subst this; simp
    | succ j ih =>
      intro h1 h2
      by_cases h : d = j + 1
      · subst h; simp
      · rw [ps_succ, ih (by omega) (by omega), hb j (by omega)]
        simp only [show ¬ j < d from by omega, if_false, if_true]
        push_cast; omega

/-! ### Queries within a word -/

/-- What the queries use of the bit vector. -/
structure Ctx (b : Bm) (bv : Bv) (l : List Bool) : Prop where
  rel : Rel b l
  r1 : ∀ i, i ≤ l.length → rank1 64 b.src bv i = some (lrank l true i)
  r0 : ∀ i, i ≤ l.length → rank0 64 b.src bv i = some (lrank l false i)
  sel : ∀ k, ∃ p, selectB 64 b.src bv false k = some p ∧ IsSelect l false k p
  nn : ∀ k, k ≤ l.length → 0 ≤ ex l k

theorem ctx_ok {b : Bm} {l : List Bool} (r : Rel b l) (c : Clean b) (nn : ∀ k, k ≤ l.length → 0 ≤ ex l k) :
    ∃ bv, Succinct.build 64 b.src = some bv ∧ Ctx b bv l := by
  obtain ⟨bv, e, h1, h2, h3⟩ := rankSelect_of (src_ok r c) (l := l) r.size (by
    intro p hp
    rw [sbit_bm, r.bits p (by rw [← r.size]; exact hp), List.getElem?_eq_getElem hp]; rfl)
  exact ⟨bv, e, r, fun i hi => (h1 i hi).1, fun i hi => (h1 i hi).2, h3 false, nn⟩

/-- The excess after position `i`. -/
def E (l : List Bool) (i : Nat) : Int := ex l (i+1)

theorem getE_ok {b : Bm} {bv : Bv} {l : List Bool} (h : Ctx b bv l) {i : Nat} (hi : i < l.length) : getE b bv i = some (E l i).toNat := by
  have h1 := h.nn (i+1) (by omega)
  have h2 := ex_rank l (i+1) (by omega)
  unfold getE E
  rw [h.r1 (i+1) (by omega), Option.bind_some, if_pos (by omega)]
  congr 1
  omega

theorem part_ok {b : Bm} {bv : Bv} {l : List Bool} (h : Ctx b bv l) {p q : Nat} (hp : p < q) (hq : q ≤ l.length) (hw : q - p ≤ 64) :
    ∃ m, part b bv p q = some (m, (E l m).toNat) ∧ IsLM (E l) p q m := by
  obtain ⟨w, e, ew⟩ := rangeGet_ok h.rel (b := p) (e := q) hq hw
  have hps := ps_word (l := l) (b := p) (e := q) hq
  rw [← ew] at hps
  -- the result for the padded word
  have key : ∀ w', (∀ j, j ≤ q - p → ps w' j = ps w.toNat j) → (∀ j, q - p ≤ j → j ≤ 64 → ps w' j = ps w' (q-p) + (j - (q-p : Nat))) →
      IsLM (E l) p q ((rmq64 w').1 + p) := by
    intro w' h1 h2
    have hr := (rmq64_ok w').1
    have hlt : (rmq64 w').1 < q - p := by
      by_contra hc
      have := hr.2.2.2 (q - p - 1) (by omega) (by omega)
      have h64 := hr.2.1
      have := h2 ((rmq64 w').1 + 1) (by omega) (by omega)
      simp only at *
      rw [show q - p - 1 + 1 = q - p from by omega] at *
      push_cast at *
      omega
    have hr' := isLM_left hr hw hlt
    have := isLM_shift (F := E l) (d := p) (c := - ex l p) (E := fun j => ps w' (j+1)) hr'
    have := isLM_shift (F := E l) (d := p) (c := ex l p) hr' (by
      intro j _ hj
      show ex l (p + j + 1) = _
      rw [h1 (j+1) (by omega), hps (j+1) (by omega), show p + (j+1) = p + j + 1 from by omega]; omega)
    rw [Nat.add_zero, show p + (q - p) = q from by omega, Nat.add_comm p] at this
    exact this
  unfold part
  rw [e, Option.bind_some, if_neg (by omega)]
  by_cases hd : q - p = 64
  · have hk := key w.toNat (fun j _ => rfl) (fun j h1 h2 => by
      have : j = q - p := by omega
      rw [this]; omega)
    refine ⟨(rmq64 w.toNat).1 + p, ?_, hk⟩
    have hlt := hk.2.1
    show ((if 64 - (q - p) = 0 then _ else _ : Option Nat)).bind _ = _
    rw [if_pos (by omega), Option.bind_some]
    show (getE b bv _).map _ = _
    rw [getE_ok h (by omega)]; rfl
  · obtain ⟨g1, g2⟩ := ps_pad w.toNat (q - p) (by omega)
    have hk := key _ g1 (fun j h1 h2 => by rw [g2 j h1 h2])
    refine ⟨_, ?_, hk⟩
    have hlt := hk.2.1
    show ((if 64 - (q - p) = 0 then _ else _ : Option Nat)).bind _ = _
    rw [if_neg (by omega), if_pos (by omega), Option.bind_some]
    show (getE b bv _).map _ = _
    rw [getE_ok h (by omega)]; rfl

theorem better_ok {l : List Bool} {p q r i j : Nat} (nn : ∀ k, k < r → 0 ≤ E l k) (hi : IsLM (E l) p q i) (hj : IsLM (E l) q r j) :
    ∃ m, better (i, (E l i).toNat) (j, (E l j).toNat) = (m, (E l m).toNat) ∧ IsLM (E l) p r m := by
  have h := isLM_merge hi hj
  have h1 := nn i (by have := hi.2.1; have := hj.1; have := hj.2.1; omega)
  have h2 := nn j hj.2.1
  unfold better
  by_cases c : E l j < E l i
  · rw [if_pos c] at h
    exact ⟨j, by rw [if_pos (by simp only; omega)], h⟩
  · rw [if_neg c] at h
    exact ⟨i, by rw [if_neg (by simp only; omega)], h⟩

/-! ### Blocks -/

theorem blocks_ok {b : Bm} {bv : Bv} {l : List Bool} (h : Ctx b bv l) {nb : Nat} (hnb : (l.length - 1) / 64 ≤ nb) :
    ∃ A, blocks b nb = some A ∧ A.length = nb ∧ ∀ k, k < (l.length - 1) / 64 → ∃ m, IsLM (E l) (64 * k) (64 * k + 64) m ∧ A[k]? = some (E l m) := by
  have hsz : b.sz = l.length := h.rel.size.symm
  obtain ⟨t, e, h1, h2, h3⟩ := forRange_inv (body := blockStep b) (s := (List.replicate nb 0, 0)) (a := 0) (b := (l.length - 1) / 64)
    (fun k t => t.1.length = nb ∧ t.2 = ex l (64 * k) ∧ ∀ j, j < k → ∃ m, IsLM (E l) (64 * j) (64 * j + 64) m ∧ t.1[j]? = some (E l m)) (Nat.zero_le _)
    ⟨by simp, by simp, by omega⟩ (by
      intro k t _ hk ⟨h1, h2, h3⟩
      obtain ⟨A, s⟩ := t
      simp only at h1 h2 h3
      have hin : 64 * k + 64 ≤ l.length := by omega
      obtain ⟨w, ew, hw⟩ := rangeGet_ok h.rel (b := 64 * k) (e := 64 * k + 64) hin (by omega)
      have hps := ps_word (l := l) (b := 64 * k) (e := 64 * k + 64) hin
      rw [← hw] at hps
      have hr := rmq64_ok w.toNat
      have hlm := isLM_shift (F := E l) (d := 64 * k) (c := ex l (64 * k)) hr.1 (by
        intro j _ hj
        show ex l (64 * k + j + 1) = _
        rw [hps (j+1) (by omega), show 64 * k + (j+1) = 64 * k + j + 1 from by omega]; omega)
      rw [Nat.add_zero] at hlm
      have hv : (rmq64 w.toNat).2 + s = E l (64 * k + (rmq64 w.toNat).1) := by
        have := hr.1.2.1
        rw [hr.2, h2, hps _ (by omega)]
        unfold E
        rw [show 64 * k + ((rmq64 w.toNat).1 + 1) = 64 * k + (rmq64 w.toNat).1 + 1 from by omega]; omega
      have hsum : s + ((popcnt w.toNat * 2 : Nat) : Int) - 64 = ex l (64 * (k+1)) := by
        have := hps 64 (by omega)
        rw [popcnt_eq, h2]
        unfold ps at this
        rw [show 64 * (k+1) = 64 * k + 64 from by omega]
        push_cast at *
        omega
      have n1 := h.nn (64 * k + (rmq64 w.toNat).1 + 1) (by have := hr.1.2.1; omega)
      have n2 := h.nn (64 * (k+1)) (by omega)
      refine ⟨(A.set k (E l (64 * k + (rmq64 w.toNat).1)), ex l (64 * (k+1))), ?_, by simp [h1], rfl, ?_⟩
      · unfold blockStep
        rw [ew, Option.bind_some]
        simp only
        rw [hv, hsum, if_pos ⟨n1, n2⟩, wr, if_pos (by omega)]; rfl
      · intro j hj
        by_cases hjk : k = j
        · subst hjk
          exact ⟨_, hlm, by simp only; rw [List.getElem?_set_self (by omega)]⟩
        · obtain ⟨m, g1, g2⟩ := h3 j (by omega)
          exact ⟨m, g1, by simp only; rw [List.getElem?_set_ne hjk]; exact g2⟩)
  refine ⟨t.1, ?_, h1, h3⟩
  unfold blocks
  rw [hsz, e]; rfl

/-- The least block, then the least position in it. -/
theorem mid_ok {F : Nat → Int} {A : Nat → Int} {i j k m : Nat} (hA : ∀ k, i ≤ k → k < j → ∃ m, IsLM F (64 * k) (64 * k + 64) m ∧ A k = F m)
    (hk : IsLM A i j k) (hm : IsLM F (64 * k) (64 * k + 64) m) : IsLM F (64 * i) (64 * j) m := by
  obtain ⟨k1, k2, k3, k4⟩ := hk
  obtain ⟨m', hm', ha⟩ := hA k k1 k2
  have := isLM_unique hm hm'
  subst this
  obtain ⟨m1, m2, m3, m4⟩ := hm
  refine ⟨by omega, by omega, ?_, ?_⟩
  · intro p h1 h2
    obtain ⟨mp, hp, hap⟩ := hA (p/64) (by omega) (by omega)
    have := hp.2.2.1 p (by omega) (by omega)
    have := k3 (p/64) (by omega) (by omega)
    omega
  · intro p h1 h2
    by_cases c : 64 * k ≤ p
    · exact m4 p c h2
    · obtain ⟨mp, hp, hap⟩ := hA (p/64) (by omega) (by omega)
      have := hp.2.2.1 p (by omega) (by omega)
      have := k4 (p/64) (by omega) (by omega)
      omega

theorem isLM_exists (F : Nat → Int) (a : Nat) : ∀ d, ∃ i, IsLM F a (a + d + 1) i := by
  intro d
  induction d with
  | zero => exact ⟨a, isLM_one F a⟩
  | succ d ih =>
    obtain ⟨i, hi⟩ := ih
    exact ⟨_, isLM_merge hi (isLM_one F (a + d + 1))⟩

/-! ### Objects -/

/-- What a query object for the values `xs` answers. -/
def Good (o : Obj) (xs : List Int) : Prop :=
  ∀ l r, l < r → r ≤ xs.length → ∃ i, rmq o l r = some i ∧ IsLM (fun i => xs.getD i 0) l r i

theorem fold1_snoc {T : Type} (op : T → T → T) (xs : List T) (y v : T) (h : fold1 op xs = some v) : fold1 op (xs ++ [y]) = some (op v y) := by
  cases xs with
  | nil => simp [fold1] at h
  | cons x xs => simp only [fold1, Option.some.injEq] at h; subst h; simp [fold1]

theorem mkSparse_ok {xs : List Int} (hx : xs ≠ []) : ∃ o, mkSparse xs = some o ∧ Good o xs := by
  have hassoc : ∀ x y z, pmin (pmin x y) z = pmin x (pmin y z) := by
    intro x y z
    unfold pmin
    split <;> split <;> (try split) <;> first | rfl | (exfalso; omega) | (apply Prod.ext <;> omega)
  have hid : ∀ x, pmin x x = x := by intro x; unfold pmin; split <;> rfl
  have hne : xs.zip (List.range xs.length) ≠ [] := by
    cases xs with
    | nil => exact absurd rfl hx
    | cons x xs => simp [List.range_succ_eq_map]
  obtain ⟨t, e, h⟩ := SparseTable.C09_query pmin hassoc hid (xs.zip (List.range xs.length)) hne
  refine ⟨.sparse t, by unfold mkSparse; rw [e]; rfl, ?_⟩
  intro l r hlr hr
  have hlen : (xs.zip (List.range xs.length)).length = xs.length := by simp
  have hel : ∀ i, i < xs.length → (xs.zip (List.range xs.length))[i]? = some (xs.getD i 0, i) := by
    intro i hi
    rw [List.getElem?_zip_eq_some, List.getElem?_range hi, List.getD_eq_getElem?_getD, List.getElem?_eq_getElem hi]
    simp
  obtain ⟨v, e1, e2⟩ := h l r hlr (by omega)
  have key : ∀ d, l + d + 1 ≤ xs.length → ∃ i, fold1 pmin (((xs.zip (List.range xs.length)).take (l+d+1)).drop l) = some (xs.getD i 0, i)
      ∧ IsLM (fun i => xs.getD i 0) l (l+d+1) i := by
    intro d
    induction d with
    | zero =>
      intro hd
      refine ⟨l, ?_, isLM_one _ l⟩
      rw [Nat.add_zero, List.take_succ, hel l (by omega), List.drop_append_of_le_length (by simp; omega), List.drop_of_length_le (by simp)]
      rfl
    | succ d ih =>
      intro hd
      obtain ⟨i, f1, f2⟩ := ih (by omega)
      have hm := isLM_merge f2 (isLM_one (fun i => xs.getD i 0) (l+d+1))
      refine ⟨_, ?_, hm⟩
      rw [show l + (d+1) + 1 = (l + d + 1) + 1 from by omega, List.take_succ, hel (l+d+1) (by omega), List.drop_append_of_le_length (by simp; omega)]
      rw [show (some (xs.getD (l+d+1) 0, l+d+1)).toList = [(xs.getD (l+d+1) 0, l+d+1)] from rfl, fold1_snoc _ _ _ _ f1]
      have := f2.2.1
      congr 1
      unfold pmin
      simp only
      by_cases c : xs.getD (l+d+1) 0 < xs.getD i 0
      · rw [if_pos (Or.inl c), if_pos c]
      · rw [if_neg (by omega), if_neg c]
  obtain ⟨i, f1, f2⟩ := key (r - l - 1) (by omega)
  rw [show l + (r - l - 1) + 1 = r from by omega] at f1 f2
  rw [f1] at e2
  refine ⟨i, ?_, f2⟩
  rw [rmq, if_neg (by omega), e1]
  cases e2
  rfl

/-- What is needed of the structure over the blocks. -/
def InnerOk (inner : Obj) (l : List Bool) : Prop :=
  ∀ i j, i + 2 ≤ j → 64 * j < l.length → ∃ k m, rmq inner i (j - 1) = some k ∧ i + 1 ≤ k + 1 ∧ k + 1 < j ∧ IsLM (E l) (64 * (k+1)) (64 * (k+1) + 64) m ∧
    IsLM (E l) (64 * (i+1)) (64 * j) m

theorem sel_unique {l : List Bool} {p q : Nat} (hp : l[p]? = some false) (hq : l[q]? = some false) (h : lrank l false p = lrank l false q) : p = q := by
  have key : ∀ p q, l[p]? = some false → p < q → lrank l false p < lrank l false q := by
    intro p q hp hpq
    have h1 : lrank l false (p+1) = lrank l false p + 1 := by
      unfold lrank
      rw [List.take_succ, hp, List.count_append]; rfl
    have h2 : lrank l false (p+1) ≤ lrank l false q := by
      unfold lrank
      exact (List.take_sublist_take_left (by omega)).count_le _
    omega
  rcases Nat.lt_trichotomy p q with c | c | c
  · have := key p q hp c; omega
  · exact c
  · have := key q p hq c; omega

theorem lca_ok {a : Nat → Int} {n : Nat} {T : CT} {b : Bm} {bv : Bv} {inner : Obj} (hT : Cart a 0 n T) (h : Ctx b bv (par T)) (hin : InnerOk inner (par T))
    {x y : Nat} (hxy : x ≤ y) (hy : y < n) : ∃ z, lca b bv (rmq inner) x y = some z ∧ IsLM a x (y+1) z := by
  by_cases hxe : x = y
  · subst hxe
    exact ⟨x, by rw [lca, if_pos rfl], isLM_one a x⟩
  have hlenb := bits_len T
  have hsz := cart_sz T hT
  have hlen : (par T).length = 2 * n + 2 := by simp [par]; omega
  -- places of the closing parentheses
  have hcl : ∀ x, x < n → (par T)[1 + cl T x]? = some false ∧ lrank (par T) false (1 + cl T x) = x ∧ 1 + cl T x < (par T).length := by
    intro x hx
    obtain ⟨g1, g2⟩ := cl_bit T hT x (Nat.zero_le _) hx
    have hlt := cl_lt T hT x (Nat.zero_le _) hx
    refine ⟨?_, ?_, by omega⟩
    · rw [Nat.add_comm, par, List.getElem?_cons_succ, List.getElem?_append_left hlt]; exact g1
    · rw [lrank, Nat.add_comm, par, List.take_succ_cons, List.take_append_of_le_length (by omega), List.count_cons, g2]; simp
  have hselx : ∀ x, x < n → selectB 64 b.src bv false x = some (1 + cl T x) := by
    intro x hx
    obtain ⟨p, e, hp⟩ := h.sel x
    obtain ⟨g1, g2, g3⟩ := hcl x hx
    obtain ⟨q1, q2, q3⟩ := hp.1 (by
      have : lrank (par T) false (1 + cl T x) < lrank (par T) false (1 + cl T x + 1) := by
        unfold lrank; rw [List.take_succ (i := 1 + cl T x), g1, List.count_append]; simp
      have h2 : lrank (par T) false (1 + cl T x + 1) ≤ (par T).count false := (List.take_sublist _ _).count_le _
      omega)
    rw [e, sel_unique q2 g1 (by rw [q3, g2])]
  -- the leftmost minimum
  obtain ⟨z, hz⟩ := isLM_exists a x (y - x)
  rw [show x + (y - x) + 1 = y + 1 from by omega] at hz
  have hmin := isLM_shift (F := E (par T)) (d := 1) (c := 1) (lca_min T hT x y z (Nat.zero_le _) hxy hy hz) (by
    intro j _ hj
    have := cl_lt T hT y (Nat.zero_le _) hy
    unfold E
    rw [show 1 + j + 1 = (j + 1) + 1 from by omega, par, ex, ex_app_left _ _ _ (by omega)]; rfl)
  have hmono := cl_mono T hT x y (Nat.zero_le _) (by omega) hy
  have hzn : z < n := by have := hz.2.1; omega
  have hylt := (hcl y hy).2.2
  have nn : ∀ k, k < (par T).length → 0 ≤ E (par T) k := fun k hk => h.nn (k+1) (by omega)
  -- the answer of the last step
  have hfin : ∀ m, IsLM (E (par T)) (1 + cl T x) (1 + cl T y + 1) m → (if m = 1 + cl T x then some x else rank0 64 b.src bv m) = some z := by
    intro m hm
    have e := isLM_unique hm hmin
    subst e
    obtain ⟨g1, g2, g3⟩ := hcl z hzn
    by_cases c : 1 + cl T z = 1 + cl T x
    · rw [if_pos c]
      rcases Nat.lt_trichotomy x z with d | d | d
      · have := cl_mono T hT x z (Nat.zero_le _) d hzn; omega
      · rw [d]
      · have := hz.1; omega
    · rw [if_neg c, h.r0 _ (by omega), g2]
  refine ⟨z, ?_, hz⟩
  rw [lca, if_neg hxe, hselx x (by omega), Option.bind_some, hselx y hy, Option.bind_some]
  simp only
  rw [Nat.min_eq_left (show 1 + cl T x ≤ 1 + cl T y by omega), Nat.max_eq_right (show 1 + cl T x ≤ 1 + cl T y by omega)]
  have hlt' : 1 + cl T x < 1 + cl T y := by omega
  generalize 1 + cl T x = xx at *
  generalize 1 + cl T y = yy at *
  obtain ⟨m0, e0, h0⟩ := part_ok h (p := xx) (q := min (yy+1) ((xx/64+1)*64)) (by omega) (by omega) (by omega)
  rw [e0, Option.bind_some]
  by_cases c1 : xx / 64 < yy / 64
  · rw [Nat.min_eq_right (by omega)] at h0
    obtain ⟨m2, e2, h2⟩ := part_ok h (p := yy/64*64) (q := yy+1) (by omega) (by omega) (by omega)
    have hmid : ∃ m1, (if xx / 64 + 2 ≤ yy / 64 then
        (rmq inner (xx / 64 + 1 - 1) (yy / 64 - 1)).bind fun k0 => (part b bv ((k0 + 1) * 64) ((k0 + 1 + 1) * 64)).map fun m1 => better (m0, (E (par T) m0).toNat) m1
        else some (m0, (E (par T) m0).toNat)) = some (m1, (E (par T) m1).toNat) ∧ IsLM (E (par T)) xx (yy/64*64) m1 := by
      by_cases c2 : xx / 64 + 2 ≤ yy / 64
      · obtain ⟨k, m, r1, r2, r3, r4, r5⟩ := hin (xx/64) (yy/64) c2 (by omega)
        obtain ⟨m1, e1, h1⟩ := part_ok h (p := (k+1)*64) (q := (k+1+1)*64) (by omega) (by omega) (by omega)
        have : m1 = m := isLM_unique h1 (by
          rw [show (k+1)*64 = 64*(k+1) from by omega, show (k+1+1)*64 = 64*(k+1)+64 from by omega]; exact r4)
        subst this
        rw [show (xx/64+1)*64 = 64*(xx/64+1) from by omega] at h0
        obtain ⟨m', f1, f2⟩ := better_ok (fun k hk => nn k (by omega)) h0 r5
        refine ⟨m', ?_, by rw [show yy/64*64 = 64*(yy/64) from by omega]; exact f2⟩
        rw [if_pos c2, Nat.add_sub_cancel, r1, Option.bind_some, e1, Option.map_some, f1]
      · rw [if_neg c2]
        refine ⟨m0, rfl, ?_⟩
        rw [show yy/64*64 = (xx/64+1)*64 from by omega]; exact h0
    obtain ⟨m1, e1, h1⟩ := hmid
    rw [e1, Option.bind_some, if_pos c1, e2]
    obtain ⟨m', f1, f2⟩ := better_ok (fun k hk => nn k (by omega)) h1 h2
    simp only [Option.map_some, Option.bind_some]
    rw [f1]
    exact hfin m' f2
  · rw [Nat.min_eq_left (by omega)] at h0
    rw [if_neg (by omega), Option.bind_some, if_neg c1, Option.bind_some]
    exact hfin m0 h0

theorem par_nn (T : CT) : ∀ k, k ≤ (par T).length → 0 ≤ ex (par T) k := by
  intro k hk
  have hl : (par T).length = (bits T).length + 2 := by simp [par]
  cases k with
  | zero => simp
  | succ k =>
    rw [par, ex]
    by_cases c : k ≤ (bits T).length
    · rw [ex_app_left _ _ _ c]; have := bits_nn T k c; simp; omega
    · rw [show k = (bits T).length + 1 from by omega, ex_app, bits_tot]; simp [ex]

/-- Construction at any recursion height. -/
theorem build_good : ∀ (h : Nat) (xs : List Int), xs ≠ [] → ∃ o, build h xs = some o ∧ Good o xs := by
  intro h
  induction h with
  | zero => intro xs hx; exact mkSparse_ok hx
  | succ h ih =>
    intro xs hx
    rw [build]
    by_cases hs : xs.length ≤ 8
    · rw [if_pos hs]; exact mkSparse_ok hx
    rw [if_neg hs]
    obtain ⟨t, T, e1, hn, hT, hl⟩ := cart_ok (xs := xs) (a := fun i => xs.getD i 0) (by
      intro i hi; rw [List.getD_eq_getElem?_getD, List.getElem?_eq_getElem hi]; rfl)
    have hsz := cart_sz T hT
    obtain ⟨b, e2, r, c⟩ := parens_ok hl (by omega)
    obtain ⟨bv, e3, ctx⟩ := ctx_ok r c (par_nn T)
    have hb : b.sz = (par T).length := r.size.symm
    have hlen : (par T).length = 2 * xs.length + 2 := by have := bits_len T; simp [par]; omega
    have hinner : ∃ inner, (if 3 ≤ (b.sz + 63) / 64 then (blocks b ((b.sz + 63) / 64)).bind fun a => build h ((a.drop 1).dropLast) else some Obj.none) = some inner
        ∧ InnerOk inner (par T) := by
      by_cases c3 : 3 ≤ (b.sz + 63) / 64
      · rw [if_pos c3]
        obtain ⟨A, a1, a2, a3⟩ := blocks_ok ctx (nb := (b.sz + 63) / 64) (by omega)
        have hl2 : ((A.drop 1).dropLast).length = (b.sz + 63) / 64 - 2 := by simp; omega
        obtain ⟨o, o1, o2⟩ := ih ((A.drop 1).dropLast) (by intro e; rw [e] at hl2; simp at hl2; omega)
        refine ⟨o, by rw [a1, Option.bind_some, o1], ?_⟩
        intro i j hij hj
        obtain ⟨k, k1, k2⟩ := o2 i (j-1) (by omega) (by omega)
        have hel : ∀ q, q + 2 < (b.sz + 63) / 64 → ∃ m, IsLM (E (par T)) (64 * (q+1)) (64 * (q+1) + 64) m ∧ ((A.drop 1).dropLast).getD q 0 = E (par T) m := by
          intro q hq
          obtain ⟨m, m1, m2⟩ := a3 (q+1) (by omega)
          refine ⟨m, m1, ?_⟩
          rw [List.getD_eq_getElem?_getD, List.getElem?_dropLast, if_pos (by simp; omega), List.getElem?_drop, Nat.add_comm 1 q, m2]; rfl
        have hk2 := k2.2.1
        obtain ⟨m, m1, m2⟩ := hel k (by omega)
        refine ⟨k, m, k1, by have := k2.1; omega, by omega, m1, ?_⟩
        refine mid_ok (A := fun q => ((A.drop 1).dropLast).getD (q-1) 0) (k := k+1) ?_ ?_ m1
        · intro q q1 q2
          obtain ⟨m', p1, p2⟩ := hel (q-1) (by omega)
          rw [show q - 1 + 1 = q from by omega] at p1
          exact ⟨m', p1, p2⟩
        · have := isLM_shift (F := fun q => ((A.drop 1).dropLast).getD (q-1) 0) (d := 1) (c := 0) k2 (by
            intro q _ _
            show List.getD _ (1 + q - 1) 0 = _
            rw [show 1 + q - 1 = q from by omega]; omega)
          rw [show 1 + (j-1) = j from by omega, Nat.add_comm 1 i, Nat.add_comm 1 k] at this
          exact this
      · rw [if_neg c3]
        refine ⟨.none, rfl, ?_⟩
        intro i j hij hj
        omega
    obtain ⟨inner, i1, i2⟩ := hinner
    refine ⟨.lca b bv inner, ?_, ?_⟩
    · rw [e1, Option.bind_some, e2, Option.bind_some, e3, Option.bind_some]
      simp only
      rw [i1]; rfl
    · intro l r hlr hr
      obtain ⟨z, z1, z2⟩ := lca_ok hT ctx i2 (x := l) (y := r-1) (by omega) (by omega)
      refine ⟨z, by rw [rmq, if_neg (by omega), z1], ?_⟩
      rw [show r - 1 + 1 = r from by omega] at z2
      exact z2

end Verif.Rmq
