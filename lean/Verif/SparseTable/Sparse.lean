import Verif.SparseTable.Model
import Verif.Common.Fold
/-! C09: SparseTable. -/
namespace Verif.SparseTable
open Verif
variable {T : Type}

theorem log2_le {x : Nat} (h : x ≠ 0) : 2^(Nat.log2 x) ≤ x := Nat.log2_self_le h
theorem lt_log2 (x : Nat) : x < 2^(Nat.log2 x + 1) := Nat.lt_log2_self

/-- Content of the table: level `k < K` is complete; level `K` is complete below `I`. -/
def SDone (op : T → T → T) (a : Nat → T) (n K I : Nat) (g : Nat → Nat → T) : Prop :=
  (∀ k i, k < K → i + 2^k ≤ n → g k i = rng op a i (2^k - 1)) ∧
  (∀ i, i < I → i + 2^K ≤ n → g K i = rng op a i (2^K - 1))

theorem sBuild_spec [Inhabited T] {op : T → T → T} (hassoc : ∀ x y z, op (op x y) z = op x (op y z)) (xs : List T)
    (hx : xs ≠ []) {a : Nat → T} (ha : Rep xs xs.length a) :
    ∃ t g, sBuild op xs = some t ∧ t.logN = Nat.log2 xs.length ∧ Rep2 t.table (t.logN + 1) xs.length g ∧
      ∀ k i, k ≤ t.logN → i + 2^k ≤ xs.length → g k i = rng op a i (2^k - 1) := by
  have hn : xs.length ≠ 0 := by simpa using hx
  unfold sBuild msb
  rw [if_neg hn]
  simp only [Option.bind_eq_bind, Option.bind_some]
  generalize hL : Nat.log2 xs.length = L
  have h2L : 2^L ≤ xs.length := by rw [← hL]; exact log2_le hn
  -- row 0
  have hr0 : ∃ t0 g0, wr (List.replicate (L+1) (List.replicate xs.length (default : T))) 0 xs = some t0 ∧
      Rep2 t0 (L+1) xs.length g0 ∧ SDone op a xs.length 1 0 g0 := by
    refine ⟨_, fun i j => if i = 0 then a j else default, if_pos (by simp), ⟨by simp, ?_⟩, ?_⟩
    · intro i hi
      by_cases h0 : i = 0
      · subst h0
        exact ⟨xs, List.getElem?_set_self (by simp), by simpa using ha⟩
      · refine ⟨List.replicate xs.length default, ?_, ?_⟩
        · rw [List.getElem?_set_ne (Ne.symm h0)]; simp [hi]
        · simpa [h0] using Rep.replicate xs.length (default : T)
    · refine ⟨fun k i hk _ => ?_, fun i hi => by omega⟩
      have : k = 0 := by omega
      subst this; simp [rng]
  obtain ⟨t0, g0, e0, hrep0, hd0⟩ := hr0
  simp only [e0, Option.bind_some]
  have main := forRange_inv (fun k t => ∃ g, Rep2 t (L+1) xs.length g ∧ SDone op a xs.length k 0 g)
    (body := fun k t => sBuildRow op xs.length k t) (a := 1) (b := L+1) (s := t0) (by omega) ⟨g0, hrep0, hd0⟩ (by
      rintro K t h1 h2 ⟨g, hrep, hd⟩
      have hK : 2^K ≤ xs.length := Nat.le_trans (Nat.pow_le_pow_right (by omega) (by omega)) h2L
      have hpow : 2^K = 2^(K-1) + 2^(K-1) := by
        obtain ⟨q, rfl⟩ : ∃ q, K = q + 1 := ⟨K-1, by omega⟩
        rw [Nat.pow_succ]; simp; omega
      have hpp : 0 < 2^(K-1) := Nat.two_pow_pos _
      have row := forRange_inv (fun i t => ∃ g, Rep2 t (L+1) xs.length g ∧ SDone op a xs.length K i g)
        (body := fun i t => do
            let x ← rd2 t (K-1) i
            let y ← rd2 t (K-1) (i + 2^K/2)
            wr2 t K i (op x y)) (a := 0) (b := xs.length + 1 - 2^K) (s := t) (by omega) ⟨g, hrep, hd⟩ (by
          rintro i t _ hi ⟨g, hrep, hd⟩
          have hdiv : 2^K/2 = 2^(K-1) := by omega
          obtain ⟨t', e', hrep'⟩ := hrep.wr (i := K) (j := i) h2 (by omega) (op (g (K-1) i) (g (K-1) (i + 2^(K-1))))
          refine ⟨t', ?_, _, hrep', ?_, ?_⟩
          · simp only [hdiv, hrep.rd (show K - 1 < L + 1 by omega) (show i < xs.length by omega),
              hrep.rd (show K - 1 < L + 1 by omega) (show i + 2^(K-1) < xs.length by omega),
              Option.bind_eq_bind, Option.bind_some, e']
          · intro k j hk hj
            rw [upd2_ne _ _ (by omega)]
            exact hd.1 k j hk hj
          · intro j hj hjn
            by_cases hji : j = i
            · subst hji
              rw [upd2_same, hd.1 (K-1) j (by omega) (by omega), hd.1 (K-1) (j + 2^(K-1)) (by omega) (by omega)]
              exact rng_append' hassoc a (by omega) (by omega)
            · rw [upd2_ne _ _ (by omega)]
              exact hd.2 j (by omega) hjn)
      obtain ⟨t', e', g', hrep', hd'⟩ := row
      refine ⟨t', e', g', hrep', ?_, fun i hi => by omega⟩
      intro k i hk hi
      by_cases hkK : k = K
      · subst hkK; exact hd'.2 i (by omega) hi
      · exact hd'.1 k i (by omega) hi)
  obtain ⟨t, e, g, hrep, hd⟩ := main
  simp only [e, Option.bind_some]
  exact ⟨_, g, rfl, rfl, hrep, fun k i hk hi => hd.1 k i (by simp only at hk; omega) hi⟩

/-- C09: for an associative idempotent operation (commutativity is not needed), `query(l,r)` is the fold of
the elements `l..r-1`, for every non-empty input and every `l < r ≤ n`; no out-of-range access happens. -/
theorem C09_query [Inhabited T] (op : T → T → T) (hassoc : ∀ x y z, op (op x y) z = op x (op y z))
    (hid : ∀ x, op x x = x) (xs : List T) (hx : xs ≠ []) :
    ∃ t, sBuild op xs = some t ∧ ∀ l r, l < r → r ≤ xs.length →
      ∃ v, sQuery op t l r = some v ∧ fold1 op ((xs.take r).drop l) = some v := by
  have ha := Rep.ofList xs default
  obtain ⟨t, g, e, hL, hrep, hg⟩ := sBuild_spec hassoc xs hx ha
  have hn : xs.length ≠ 0 := by simpa using hx
  refine ⟨t, e, fun l r hlr hr => ?_⟩
  have hp1 := log2_le (x := r - l) (by omega)
  have hp2 := lt_log2 (r - l)
  have hp3 : Nat.log2 (r - l) ≤ t.logN := by
    rw [hL]
    exact (Nat.le_log2 hn).2 (by omega)
  generalize hp : Nat.log2 (r - l) = p at *
  rw [Nat.pow_succ] at hp2
  have hpos : 0 < 2^p := Nat.two_pow_pos p
  refine ⟨rng op (fun i => xs.getD i default) l (r - l - 1), ?_, ?_⟩
  · unfold sQuery msb
    rw [if_neg (by omega), hp]
    simp only [Option.bind_eq_bind, Option.bind_some]
    rw [hrep.rd (by omega) (by omega), hrep.rd (by omega) (by omega)]
    simp only [Option.bind_some]
    rw [hg p l hp3 (by omega), hg p (r - 2^p) hp3 (by omega)]
    rw [rng_overlap hassoc hid _ (n := r - l - 1) (by omega) (by omega) (by omega) (by omega)]
  · have := rng_eq_fold1 (op := op) ha.val (l := l) (r - l - 1) (by omega)
    rwa [show l + (r - l - 1) + 1 = r by omega] at this

example : ([3, 1, 4, 1, 5, 9, 2] : List Nat) ≠ [] := by decide
example : (sBuild Nat.max [3, 1, 4, 1, 5, 9, 2]).bind (fun t => sQuery Nat.max t 1 5) = some 5 := by decide

end Verif.SparseTable
