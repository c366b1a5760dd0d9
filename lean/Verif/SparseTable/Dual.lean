import Verif.SparseTable.Model
import Verif.SparseTable.DualSpec
import Mathlib.Order.Lattice
import Mathlib.Order.BoundedOrder.Lattice
/-! C11, first half: DualSparseTable. -/
namespace Verif.SparseTable
open Verif

section lattice
variable {T : Type} [SemilatticeSup T] [OrderBot T]

/-- everything recorded at levels `≤ K` covering `i` is below `c`. -/
def Below (g : Nat → Nat → T) (K i : Nat) (c : T) : Prop := ∀ k j, k ≤ K → j ≤ i → i < j + 2^k → g k j ≤ c

/-- entries whose block sticks out are untouched. -/
def Out (g : Nat → Nat → T) (n K : Nat) : Prop := ∀ k j, k ≤ K → n < j + 2^k → g k j = ⊥

theorem uApply_spec {t : Table T} {n L : Nat} {g : Nat → Nat → T} (hn : t.size = n) (hn0 : n ≠ 0) (hL : t.logN = L)
    (hLn : L = Nat.log2 n) (hr : Rep2 t.table (L+1) n g) (ho : Out g n L) (o : Nat × Nat × T) (hv : DValid n o) :
    ∃ t' g', uApply (· ⊔ ·) t o.1 o.2.1 o.2.2 = some t' ∧ t'.size = n ∧ t'.logN = L ∧ Rep2 t'.table (L+1) n g' ∧ Out g' n L ∧
      ∀ i c, Below g' L i c ↔ Below g L i c ∧ (o.1 ≤ i ∧ i < o.2.1 → o.2.2 ≤ c) := by
  obtain ⟨l, r, a⟩ := o
  unfold uApply
  simp only
  by_cases hlr : l ≥ r
  · rw [if_pos hlr]
    exact ⟨t, g, rfl, hn, hL, hr, ho, fun i c => ⟨fun h => ⟨h, fun h' => by omega⟩, fun h => h.1⟩⟩
  · rw [if_neg hlr]
    have hrn : r ≤ n := hv (by simpa using hlr)
    have hne : r - l ≠ 0 := by omega
    have hp1 := Nat.log2_self_le hne
    have hp2 := @Nat.lt_log2_self (r - l)
    have hp3 : Nat.log2 (r - l) ≤ L := by
      rw [hLn]; exact (Nat.le_log2 hn0).2 (by omega)
    unfold msb
    rw [if_neg hne]
    generalize Nat.log2 (r - l) = d at *
    have hpos : 0 < 2^d := Nat.two_pow_pos d
    rw [Nat.pow_succ] at hp2
    obtain ⟨t1, e1, r1⟩ := hr.wr (i := d) (j := l) (by omega) (by omega) (g d l ⊔ a)
    obtain ⟨t2, e2, r2⟩ := r1.wr (i := d) (j := r - 2^d) (by omega) (by omega) (upd2 g d l (g d l ⊔ a) d (r - 2^d) ⊔ a)
    simp only [Option.bind_eq_bind, Option.bind_some, hr.rd (show d < L + 1 by omega) (show l < n by omega), e1,
      r1.rd (show d < L + 1 by omega) (show r - 2^d < n by omega), e2]
    refine ⟨_, _, rfl, hn, hL, r2, ?_, ?_⟩
    · intro k j hk hj
      have h1 : ¬ (k = d ∧ j = r - 2^d) := by rintro ⟨rfl, rfl⟩; omega
      have h2 : ¬ (k = d ∧ j = l) := by rintro ⟨rfl, rfl⟩; omega
      rw [upd2_ne _ _ h1, upd2_ne _ _ h2]
      exact ho k j hk hj
    · intro i c
      constructor
      · intro h
        have mono : ∀ k j, g k j ≤ upd2 (upd2 g d l (g d l ⊔ a)) d (r - 2^d) (upd2 g d l (g d l ⊔ a) d (r - 2^d) ⊔ a) k j := by
          intro k j
          have m1 : ∀ k j, g k j ≤ upd2 g d l (g d l ⊔ a) k j := by
            intro k j
            by_cases h2 : k = d ∧ j = l
            · obtain ⟨rfl, rfl⟩ := h2; rw [upd2_same]; exact le_sup_left
            · rw [upd2_ne _ _ h2]
          by_cases h1 : k = d ∧ j = r - 2^d
          · obtain ⟨rfl, rfl⟩ := h1; rw [upd2_same]; exact le_trans (m1 _ _) le_sup_left
          · rw [upd2_ne _ _ h1]; exact m1 k j
        refine ⟨fun k j h1 h2 h3 => le_trans (mono k j) (h k j h1 h2 h3), fun hi => ?_⟩
        by_cases hc : i < l + 2^d
        · have := h d l (by omega) hi.1 hc
          by_cases h1 : l = r - 2^d
          · rw [← h1, upd2_same] at this; exact le_trans le_sup_right this
          · rw [upd2_ne _ _ (by omega), upd2_same] at this; exact le_trans le_sup_right this
        · have := h d (r - 2^d) (by omega) (by omega) (by omega)
          rw [upd2_same] at this; exact le_trans le_sup_right this
      · rintro ⟨h, ha⟩ k j h1 h2 h3
        have m1 : ∀ k j, k ≤ L → j ≤ i → i < j + 2^k → upd2 g d l (g d l ⊔ a) k j ≤ c := by
          intro k j h1 h2 h3
          by_cases h4 : k = d ∧ j = l
          · obtain ⟨rfl, rfl⟩ := h4
            rw [upd2_same]
            exact sup_le (h _ _ h1 h2 h3) (ha ⟨h2, by omega⟩)
          · rw [upd2_ne _ _ h4]; exact h k j h1 h2 h3
        by_cases h4 : k = d ∧ j = r - 2^d
        · obtain ⟨rfl, rfl⟩ := h4
          rw [upd2_same]
          exact sup_le (m1 _ _ h1 h2 h3) (ha ⟨by omega, by omega⟩)
        · rw [upd2_ne _ _ h4]; exact m1 k j h1 h2 h3

/-- Levels `≤ K`, plus level `K+1` from `I` on. -/
def BelowMid (g : Nat → Nat → T) (K I i : Nat) (c : T) : Prop :=
  Below g K i c ∧ ∀ j, I ≤ j → j ≤ i → i < j + 2^(K+1) → g (K+1) j ≤ c

theorem uBuild_spec {t : Table T} {n L : Nat} {g : Nat → Nat → T} (hn : t.size = n) (hL : t.logN = L)
    (hLn : 2^L ≤ n) (hr : Rep2 t.table (L+1) n g) (ho : Out g n L) :
    ∃ t' g', uBuild (· ⊔ ·) t = some t' ∧ Rep2 t'.table (L+1) n g' ∧
      ∀ i c, Below g' 0 i c ↔ Below g L i c := by
  unfold uBuild
  rw [hn, hL]
  have main := forRangeDown_inv (fun K tb => ∃ g', Rep2 tb (L+1) n g' ∧ Out g' n K ∧
      ∀ i c, Below g' K i c ↔ Below g L i c)
    (body := fun k tb => forRange 0 (n - 2^k) (fun i tb => (rd2 tb k i).bind fun x => (rd2 tb (k+1) i).bind fun y =>
      (wr2 tb k i (x ⊔ y)).bind fun tb => (rd2 tb k (i + 2^k)).bind fun x => (rd2 tb (k+1) i).bind fun y =>
      wr2 tb k (i + 2^k) (x ⊔ y)) tb) (a := 0) (b := L) (s := t.table) (Nat.zero_le _)
      ⟨g, hr, ho, fun _ _ => Iff.rfl⟩ (by
    rintro K tb _ hK ⟨g1, r1, o1, b1⟩
    have hpos : 0 < 2^K := Nat.two_pow_pos K
    have hKn : 2^K ≤ n := Nat.le_trans (Nat.pow_le_pow_right (by omega) (by omega)) hLn
    have hps : 2^(K+1) = 2^K + 2^K := by rw [Nat.pow_succ]; omega
    obtain ⟨tb', e', g', r', o', f', b'⟩ := forRange_inv (fun I tb => ∃ g', Rep2 tb (L+1) n g' ∧ Out g' n K ∧
        (∀ j, g' (K+1) j = g1 (K+1) j) ∧ ∀ i c, BelowMid g' K I i c ↔ Below g1 (K+1) i c)
      (body := fun i tb => (rd2 tb K i).bind fun x => (rd2 tb (K+1) i).bind fun y =>
        (wr2 tb K i (x ⊔ y)).bind fun tb => (rd2 tb K (i + 2^K)).bind fun x => (rd2 tb (K+1) i).bind fun y =>
        wr2 tb K (i + 2^K) (x ⊔ y)) (a := 0) (b := n - 2^K) (s := tb) (Nat.zero_le _)
      ⟨g1, r1, fun k j h1 h2 => o1 k j (by omega) h2, fun _ => rfl, fun i c => by
        constructor
        · intro h k j h1 h2 h3
          rcases Nat.lt_or_ge K k with h4 | h4
          · have : k = K+1 := by omega
            subst this; exact h.2 j (by omega) h2 h3
          · exact h.1 k j h4 h2 h3
        · intro h
          exact ⟨fun k j h1 => h k j (by omega), fun j _ => h (K+1) j (by omega)⟩⟩ (by
      rintro I tb _ hI ⟨g2, r2, o2, f2, b2⟩
      obtain ⟨t1, e1, s1⟩ := r2.wr (i := K) (j := I) (by omega) (by omega) (g2 K I ⊔ g2 (K+1) I)
      obtain ⟨t2, e2, s2⟩ := s1.wr (i := K) (j := I + 2^K) (by omega) (by omega) (g2 K (I + 2^K) ⊔ g2 (K+1) I)
      have hx : upd2 g2 K I (g2 K I ⊔ g2 (K+1) I) K (I + 2^K) = g2 K (I + 2^K) := upd2_ne _ _ (by omega)
      have hy : upd2 g2 K I (g2 K I ⊔ g2 (K+1) I) (K+1) I = g2 (K+1) I := upd2_ne _ _ (by omega)
      refine ⟨t2, ?_, _, s2, ?_, ?_, ?_⟩
      · simp only [r2.rd (show K < L + 1 by omega) (show I < n by omega), r2.rd (show K + 1 < L + 1 by omega) (show I < n by omega),
          Option.bind_some, e1, s1.rd (show K < L + 1 by omega) (show I + 2^K < n by omega),
          s1.rd (show K + 1 < L + 1 by omega) (show I < n by omega), hx, hy, e2]
      · intro k j hk hj
        have hIb : n < I + 2^(K+1) → g2 (K+1) I = ⊥ := fun h => by rw [f2]; exact o1 (K+1) I (by omega) h
        by_cases h1 : k = K ∧ j = I + 2^K
        · obtain ⟨rfl, rfl⟩ := h1
          rw [upd2_same, hIb (by omega), o2 k _ hk hj]; simp
        · rw [upd2_ne _ _ h1]
          by_cases h2 : k = K ∧ j = I
          · obtain ⟨rfl, rfl⟩ := h2
            rw [upd2_same, hIb (by omega), o2 k _ hk hj]; simp
          · rw [upd2_ne _ _ h2]; exact o2 k j hk hj
      · intro j
        rw [upd2_ne _ _ (by omega), upd2_ne _ _ (by omega)]; exact f2 j
      · intro i c
        rw [← b2 i c]
        have hu : ∀ k j, upd2 (upd2 g2 K I (g2 K I ⊔ g2 (K+1) I)) K (I + 2^K) (g2 K (I + 2^K) ⊔ g2 (K+1) I) k j =
            if k = K ∧ (j = I ∨ j = I + 2^K) then g2 k j ⊔ g2 (K+1) I else g2 k j := by
          intro k j
          by_cases h1 : k = K ∧ j = I + 2^K
          · obtain ⟨rfl, rfl⟩ := h1; rw [upd2_same, if_pos ⟨rfl, Or.inr rfl⟩]
          · rw [upd2_ne _ _ h1]
            by_cases h2 : k = K ∧ j = I
            · obtain ⟨rfl, rfl⟩ := h2; rw [upd2_same, if_pos ⟨rfl, Or.inl rfl⟩]
            · rw [upd2_ne _ _ h2, if_neg (by omega)]
        constructor
        · rintro ⟨h1, h2⟩
          constructor
          · intro k j hk h3 h4
            have := h1 k j hk h3 h4
            rw [hu] at this
            split at this
            · exact le_trans le_sup_left this
            · exact this
          · intro j hj h3 h4
            by_cases hjI : j = I
            · subst hjI
              by_cases hc : i < j + 2^K
              · have := h1 K j (by omega) h3 hc
                rw [hu, if_pos ⟨rfl, Or.inl rfl⟩] at this
                exact le_trans le_sup_right this
              · have := h1 K (j + 2^K) (by omega) (by omega) (by omega)
                rw [hu, if_pos ⟨rfl, Or.inr rfl⟩] at this
                exact le_trans le_sup_right this
            · have := h2 j (by omega) h3 h4
              rwa [hu, if_neg (by omega)] at this
        · rintro ⟨h1, h2⟩
          constructor
          · intro k j hk h3 h4
            rw [hu]
            split
            · rename_i hc
              obtain ⟨rfl, hc⟩ := hc
              exact sup_le (h1 k j hk h3 h4) (h2 I (by omega) (by omega) (by omega))
            · exact h1 k j hk h3 h4
          · intro j hj h3 h4
            rw [hu, if_neg (by omega)]
            exact h2 j (by omega) h3 h4)
    refine ⟨tb', e', g', r', o', fun i c => ?_⟩
    rw [← b1 i c, ← b' i c]
    constructor
    · intro h
      refine ⟨h, fun j hj h1 h2 => ?_⟩
      rw [f', o1 (K+1) j (by omega) (by omega)]
      exact bot_le
    · exact fun h => h.1)
  obtain ⟨tb, e, g', r', o', b'⟩ := main
  simp only [Option.bind_eq_bind]
  rw [e]
  exact ⟨_, g', rfl, r', b'⟩

end lattice

variable {T : Type}

/-- Model: construct, apply everything, build. -/
def uApplyAll (op : T → T → T) : Table T → List (Nat × Nat × T) → Option (Table T)
  | t, [] => some t
  | t, o :: ops => (uApply op t o.1 o.2.1 o.2.2).bind (fun t => uApplyAll op t ops)

/-- Model: the two constructors. -/
def uStart (e : T) : DStart T → Option (Table T)
  | .size n => uInit e n
  | .range xs => uOfRange e xs

/-- Model of a whole use of the table. -/
def uRun (op : T → T → T) (e : T) (st : DStart T) (ops : List (Nat × Nat × T)) : Option (Table T) := do
  let t ← uStart e st
  let t ← uApplyAll op t ops
  uBuild op t

theorem uApplyAll_spec [SemilatticeSup T] [OrderBot T] {n L : Nat} (hn0 : n ≠ 0) (hLn : L = Nat.log2 n) :
    ∀ (ops : List (Nat × Nat × T)) (t : Table T) (g : Nat → Nat → T) (vs : List T), t.size = n → t.logN = L →
      Rep2 t.table (L+1) n g → Out g n L → vs.length = n → (∀ o ∈ ops, DValid n o) →
      (∀ i c, i < n → (Below g L i c ↔ vs.getD i ⊥ ≤ c)) →
      ∃ t' g', uApplyAll (· ⊔ ·) t ops = some t' ∧ t'.size = n ∧ t'.logN = L ∧ Rep2 t'.table (L+1) n g' ∧ Out g' n L ∧
        ∀ i c, i < n → (Below g' L i c ↔ (plainAll (· ⊔ ·) vs ops).getD i ⊥ ≤ c)
  | [], t, g, vs, h1, h2, h3, h4, _, _, h5 => ⟨t, g, rfl, h1, h2, h3, h4, h5⟩
  | o :: ops, t, g, vs, h1, h2, h3, h4, hl, hv, h5 => by
    obtain ⟨t', g', e', s', l', r', o', b'⟩ := uApply_spec h1 hn0 h2 hLn h3 h4 o (hv o (by simp))
    have := uApplyAll_spec hn0 hLn ops t' g' (plainApply (· ⊔ ·) vs o) s' l' r' o' (by simp [plainApply, hl])
      (fun o ho => hv o (by simp [ho])) (by
        intro i c hi
        rw [b' i c, h5 i c hi]
        unfold plainApply
        rw [List.getD_eq_getElem?_getD, List.getD_eq_getElem?_getD, List.getElem?_mapIdx, List.getElem?_eq_getElem (by omega)]
        simp only [Option.getD_some, Option.map_some]
        split
        · rename_i h; simp [h]
        · rename_i h; simp [h])
    obtain ⟨t'', g'', e'', rest⟩ := this
    exact ⟨t'', g'', by simp [uApplyAll, e', e''], rest⟩

theorem uRun_lattice [SemilatticeSup T] [OrderBot T] (st : DStart T) (ops : List (Nat × Nat × T))
    (hne : (st.values ⊥).length ≠ 0) (hv : ∀ o ∈ ops, DValid (st.values ⊥).length o) :
    ∃ t, uRun (· ⊔ ·) ⊥ st ops = some t ∧ ∀ i, i < (st.values ⊥).length →
      uGet t i = (plainAll (· ⊔ ·) (st.values ⊥) ops)[i]? := by
  generalize hn : (st.values ⊥).length = n at *
  have start : ∃ t g, uStart ⊥ st = some t ∧ t.size = n ∧
      t.logN = Nat.log2 n ∧ Rep2 t.table (Nat.log2 n+1) n g ∧ Out g n (Nat.log2 n) ∧
      ∀ i c, i < n → (Below g (Nat.log2 n) i c ↔ (st.values ⊥).getD i ⊥ ≤ c) := by
    cases st with
    | size m =>
      have hmn : m = n := by simpa [DStart.values] using hn
      subst hmn
      refine ⟨⟨m, Nat.log2 m, _⟩, fun _ _ => ⊥, ?_, rfl, rfl, Rep2.replicate _ _ _, fun _ _ _ _ => rfl, ?_⟩
      · simp only [uStart, uInit, msb, if_neg hne, Option.bind_eq_bind, Option.bind_some]
      · intro i c hi
        simp [DStart.values, Below, List.getD_eq_getElem?_getD, List.getElem?_replicate, hi]
    | range xs =>
      have hmn : xs.length = n := by simpa [DStart.values] using hn
      subst hmn
      refine ⟨⟨xs.length, Nat.log2 xs.length, (List.replicate (Nat.log2 xs.length + 1) (List.replicate xs.length ⊥)).set 0 xs⟩, fun k j => if k = 0 then (if j < xs.length then xs.getD j ⊥ else ⊥) else ⊥, ?_, rfl, rfl, ⟨?_, ?_⟩, ?_, ?_⟩
      · simp only [uStart, uOfRange, uInit, msb, if_neg hne, Option.bind_eq_bind, Option.bind_some, wr]
        rw [if_pos (by simp)]
        rfl
      · simp
      · intro i hi
        by_cases h0 : i = 0
        · subst h0
          refine ⟨xs, List.getElem?_set_self (by simp), ?_⟩
          exact (Rep.ofList xs ⊥).congr (fun j hj => by simp [hj])
        · refine ⟨List.replicate xs.length ⊥, ?_, ?_⟩
          · rw [List.getElem?_set_ne (Ne.symm h0)]; simp [hi]
          · simpa [h0] using Rep.replicate xs.length (⊥ : T)
      · intro k j _ hj
        by_cases h0 : k = 0
        · subst h0
          have : ¬ j < xs.length := by omega
          simp [this]
        · simp [h0]
      · intro i c hi
        unfold Below
        constructor
        · intro h
          have := h 0 i (by omega) (by omega) (by omega)
          simpa [hi, DStart.values] using this
        · intro h k j _ h2 h3
          by_cases h0 : k = 0
          · subst h0
            have : j = i := by omega
            subst this
            simpa [hi, DStart.values] using h
          · simp [h0]
  obtain ⟨t, g, e, h1, h2, h3, h4, h5⟩ := start
  obtain ⟨t', g', e', h1', h2', h3', h4', h5'⟩ := uApplyAll_spec hne rfl ops t g (st.values ⊥) h1 h2 h3 h4 hn hv h5
  obtain ⟨t'', g'', e'', r'', b''⟩ := uBuild_spec h1' h2' (Nat.log2_self_le hne) h3' h4'
  refine ⟨t'', ?_, fun i hi => ?_⟩
  · unfold uRun
    rw [e]
    simp only [Option.bind_eq_bind, Option.bind_some, e']
    exact e''
  · unfold uGet
    rw [r''.rd (by omega) hi]
    have hlen := plainAll_length (· ⊔ ·) ops (st.values (⊥ : T))
    rw [List.getElem?_eq_getElem (by omega)]
    congr 1
    have key : ∀ c, g'' 0 i ≤ c ↔ (plainAll (· ⊔ ·) (st.values ⊥) ops).getD i ⊥ ≤ c := by
      intro c
      rw [← h5' i c hi, ← b'' i c]
      unfold Below
      constructor
      · intro h k j h1 h2 h3
        have : k = 0 := by omega
        subst this
        have : j = i := by omega
        subst this; exact h
      · intro h; exact h 0 i (by omega) (by omega) (by omega)
    have := le_antisymm ((key _).2 le_rfl) ((key _).1 le_rfl)
    rw [this, List.getD_eq_getElem?_getD, List.getElem?_eq_getElem (by omega)]
    rfl

/-- C11 (DualSparseTable): for an associative, commutative, idempotent operation with identity, construction of a
non-empty table, any `apply` calls and `build` run without out-of-range access and `get(i)` is the value
obtained by applying every call to every element it covers. -/
theorem C11_dual_sparse (op : T → T → T) (e : T) (hassoc : ∀ x y z, op (op x y) z = op x (op y z))
    (hcomm : ∀ x y, op x y = op y x) (hid : ∀ x, op x x = x) (he : ∀ x, op e x = x)
    (st : DStart T) (ops : List (Nat × Nat × T)) (hne : st.values e ≠ []) (hv : ∀ o ∈ ops, DValid (st.values e).length o) :
    ∃ t, uRun op e st ops = some t ∧ ∀ i, i < (st.values e).length → uGet t i = (plainAll op (st.values e) ops)[i]? := by
  letI : Max T := ⟨op⟩
  letI : SemilatticeSup T := SemilatticeSup.mk' hcomm hassoc hid
  letI : OrderBot T := { bot := e, bot_le := fun x => he x }
  exact uRun_lattice st ops (fun h => hne (List.length_eq_zero_iff.1 h)) hv

example : ∀ o ∈ [(1, 5, 7), (0, 2, 3), (4, 4, (9 : Nat))], DValid ((DStart.size 6).values 0).length o := by
  simp [DValid, DStart.values]
example : (uRun Nat.max 0 (.size 6) [(1, 5, 7), (0, 2, 3)]).bind (fun t => uGet t 4) = some 7 := by decide

end Verif.SparseTable
