import Verif.Skew.Props
import Mathlib.Data.List.Basic
/-!
The operations of `PersistentSkewbinaryList` with counters of their loop rounds, for C136 (`/repo/include/mtl/skewbinary_list.hpp`).  `pushed` and `popped` have no loop.
-/
namespace Verif.Skew

variable {T : Type}

/-- `getTree` (lines 125-138): rounds of the loop. -/
def getTreeC : Tree T → Nat → Option (T × Nat)
  | .nil, _ => none
  | .node v d l r, j =>
      if j = 0 then some (v, 0)
      else if d > 1 && l.isNil then some (v, 1)
      else l.size.bind (fun sl => (if j - 1 < sl then getTreeC l (j-1) else getTreeC r (j - 1 - sl)).map (fun p => (p.1, p.2 + 1)))

/-- `getDs` (lines 118-139): rounds of both loops. -/
def getDsC : List (Tree T) → Nat → Option (T × Nat)
  | [], _ => none
  | c :: rest, j => c.size.bind (fun s => if s ≤ j then (getDsC rest (j - s)).map (fun p => (p.1, p.2 + 1)) else getTreeC c j)

/-- `lumpUpd` (lines 184-200). -/
def lumpUpdC (v x : T) : Nat → Nat → Nat → Option (Tree T × Nat)
  | 0, _, _ => none
  | D+1, s, j =>
      if j = 0 then some (.node x (D+1) (fresh v D) (fresh v D), 0)
      else if j - 1 < s then (lumpUpdC v x D (s/2) (j-1)).map (fun t => (.node v (D+1) t.1 (fresh v D), t.2 + 1))
      else (lumpUpdC v x D (s/2) (j-1-s)).map (fun t => (.node v (D+1) (fresh v D) t.1, t.2 + 1))

/-- `updTree` (lines 156-201). -/
def updTreeC (x : T) : Tree T → Nat → Option (Tree T × Nat)
  | .nil, _ => none
  | .node v d l r, j =>
      if d > 1 && l.isNil then lumpUpdC v x d ((2^d - 1) / 2) j
      else if j = 0 then some (.node x d l r, 0)
      else l.size.bind (fun sl => if j - 1 < sl then (updTreeC x l (j-1)).map (fun t => (.node v d t.1 r, t.2 + 1))
        else (updTreeC x r (j - 1 - sl)).map (fun t => (.node v d l t.1, t.2 + 1)))

/-- `updDs` (lines 141-203). -/
def updDsC (x : T) : List (Tree T) → Nat → Option (List (Tree T) × Nat)
  | [], _ => none
  | c :: rest, j => c.size.bind (fun s =>
      if s ≤ j then (updDsC x rest (j - s)).map (fun p => (c :: p.1, p.2 + 1)) else (updTreeC x c j).map (fun p => (p.1 :: rest, p.2)))

/-- `dropTree` (lines 215-226). -/
def dropTreeC : Tree T → Nat → List (Tree T) → Option (List (Tree T) × Nat)
  | .nil, _, _ => none
  | .node v d l r, j, dst =>
      if j = 0 then some (.node v d l r :: dst, 0)
      else l.size.bind (fun sl =>
        (if j - 1 < sl then r.size.bind (fun _ => dropTreeC l (j-1) (r :: dst)) else dropTreeC r (j - 1 - sl) dst).map (fun p => (p.1, p.2 + 1)))

/-- `dropDs` (lines 205-227). -/
def dropDsC : List (Tree T) → Nat → Option (List (Tree T) × Nat)
  | [], _ => some ([], 0)
  | c :: rest, j => c.size.bind (fun s => if s ≤ j then (dropDsC rest (j - s)).map (fun p => (p.1, p.2 + 1)) else dropTreeC c j rest)

/-- `ext1` (lines 238-253). -/
def ext1C (v : T) : Nat → List (Tree T) → Nat → Nat → Option ((List (Tree T) × Nat × Nat) × Nat)
  | 0, ds, sz, m => if m = 0 then some ((ds, sz, m), 0) else none
  | f+1, ds, sz, m =>
      if m = 0 then some ((ds, sz, m), 0) else
      (extRound v ds sz m).bind (fun r => match r with
        | none => some ((ds, sz, m), 1)
        | some (ds', sz', m') => (ext1C v f ds' sz' m').map (fun p => (p.1, p.2 + 1)))

/-- `ext2` (lines 254-260). -/
def ext2C (v : T) : Nat → List (Tree T) → Nat → Nat → Option ((List (Tree T) × Nat) × Nat)
  | 0, ds, sz, m => if m = 0 then some ((ds, sz), 0) else none
  | f+1, ds, sz, m =>
      if m = 0 then some ((ds, sz), 0) else
      if 2^(m+1).log2 - 1 ≤ m then
        (ext2C v f (fresh v (m+1).log2 :: ds) (sz + (2^(m+1).log2 - 1)) (m - (2^(m+1).log2 - 1))).map (fun p => (p.1, p.2 + 1))
      else none

/-- `get_at`, `updated_at`, `dropped`, `extended` with the rounds of their loops. -/
def getAtC (s : SL T) (i : Nat) : Option (T × Nat) := getDsC s.ds i
def updatedAtC (s : SL T) (i : Nat) (x : T) : Option (SL T × Nat) := (updDsC x s.ds i).map (fun p => (⟨p.1, s.size⟩, p.2))
def droppedC (s : SL T) (i : Nat) : Option (SL T × Nat) :=
  (dropDsC s.ds i).map (fun p => (if p.1.isEmpty then empty else ⟨p.1, s.size - i⟩, p.2))
def extendedC (s : SL T) (n : Nat) (v : T) : Option (SL T × Nat) :=
  (ext1C v n s.ds s.size n).bind (fun r => (ext2C v r.1.2.2 r.1.1 r.1.2.1 r.1.2.2).bind (fun q =>
    if q.1.2 = s.size + n then some (⟨q.1.1, q.1.2⟩, r.2 + q.2) else none))

/-! ### The counters do not change the results -/

theorem map_fst {A B : Type} (o : Option (A × Nat)) (f : A → B) (g : Nat → Nat) : (o.map (fun p => (f p.1, g p.2))).map (fun p => p.1) = (o.map (fun p => p.1)).map f := by
  cases o <;> rfl

theorem getTreeC_fst : ∀ (t : Tree T) (j : Nat), (getTreeC t j).map (fun p => p.1) = getTree t j
  | .nil, _ => rfl
  | .node v d l r, j => by
    rw [getTreeC, getTree]
    split_ifs with h1 h2
    · rfl
    · rfl
    · cases l.size with
      | none => rfl
      | some sl =>
        rw [Option.bind_some, Option.bind_some, map_fst _ (fun x => x) (fun c => c + 1)]
        by_cases h : j - 1 < sl
        · rw [if_pos h, if_pos h, getTreeC_fst l]; cases getTree l (j-1) <;> rfl
        · rw [if_neg h, if_neg h, getTreeC_fst r]; cases getTree r (j-1-sl) <;> rfl

theorem getDsC_fst : ∀ (ds : List (Tree T)) (j : Nat), (getDsC ds j).map (fun p => p.1) = getDs ds j
  | [], _ => rfl
  | c :: rest, j => by
    rw [getDsC, getDs]
    cases c.size with
    | none => rfl
    | some s =>
      rw [Option.bind_some, Option.bind_some]
      by_cases h : s ≤ j
      · rw [if_pos h, if_pos h, map_fst _ (fun x => x) (fun c => c + 1), getDsC_fst rest]; cases getDs rest (j-s) <;> rfl
      · rw [if_neg h, if_neg h, getTreeC_fst]

theorem lumpUpdC_fst (v x : T) : ∀ (D s j : Nat), (lumpUpdC v x D s j).map (fun p => p.1) = lumpUpd v x D s j
  | 0, _, _ => rfl
  | D+1, s, j => by
    rw [lumpUpdC, lumpUpd]
    split_ifs with h1 h2
    · rfl
    · rw [map_fst _ (fun t => Tree.node v (D+1) t (fresh v D)) (fun c => c + 1), lumpUpdC_fst v x D]
    · rw [map_fst _ (fun t => Tree.node v (D+1) (fresh v D) t) (fun c => c + 1), lumpUpdC_fst v x D]

theorem updTreeC_fst (x : T) : ∀ (t : Tree T) (j : Nat), (updTreeC x t j).map (fun p => p.1) = updTree x t j
  | .nil, _ => rfl
  | .node v d l r, j => by
    rw [updTreeC, updTree]
    split_ifs with h1 h2
    · exact lumpUpdC_fst ..
    · rfl
    · cases l.size with
      | none => rfl
      | some sl =>
        rw [Option.bind_some, Option.bind_some]
        by_cases h : j - 1 < sl
        · rw [if_pos h, if_pos h, map_fst _ (fun t => Tree.node v d t r) (fun c => c + 1), updTreeC_fst x l]
        · rw [if_neg h, if_neg h, map_fst _ (fun t => Tree.node v d l t) (fun c => c + 1), updTreeC_fst x r]

theorem updDsC_fst (x : T) : ∀ (ds : List (Tree T)) (j : Nat), (updDsC x ds j).map (fun p => p.1) = updDs x ds j
  | [], _ => rfl
  | c :: rest, j => by
    rw [updDsC, updDs]
    cases c.size with
    | none => rfl
    | some s =>
      rw [Option.bind_some, Option.bind_some]
      by_cases h : s ≤ j
      · rw [if_pos h, if_pos h, map_fst _ (fun l => c :: l) (fun c => c + 1), updDsC_fst x rest]
      · rw [if_neg h, if_neg h, map_fst _ (fun t => t :: rest) (fun c => c), updTreeC_fst]

theorem dropTreeC_fst : ∀ (t : Tree T) (j : Nat) (dst : List (Tree T)), (dropTreeC t j dst).map (fun p => p.1) = dropTree t j dst
  | .nil, _, _ => rfl
  | .node v d l r, j, dst => by
    rw [dropTreeC, dropTree]
    split_ifs with h1
    · rfl
    · cases l.size with
      | none => rfl
      | some sl =>
        rw [Option.bind_some, Option.bind_some, map_fst _ (fun x => x) (fun c => c + 1)]
        by_cases h : j - 1 < sl
        · rw [if_pos h, if_pos h]
          cases r.size with
          | none => rfl
          | some sr => rw [Option.bind_some, Option.bind_some, dropTreeC_fst l]; cases dropTree l (j-1) (r :: dst) <;> rfl
        · rw [if_neg h, if_neg h, dropTreeC_fst r]; cases dropTree r (j-1-sl) dst <;> rfl

theorem dropDsC_fst : ∀ (ds : List (Tree T)) (j : Nat), (dropDsC ds j).map (fun p => p.1) = dropDs ds j
  | [], _ => rfl
  | c :: rest, j => by
    rw [dropDsC, dropDs]
    cases c.size with
    | none => rfl
    | some s =>
      rw [Option.bind_some, Option.bind_some]
      by_cases h : s ≤ j
      · rw [if_pos h, if_pos h, map_fst _ (fun x => x) (fun c => c + 1), dropDsC_fst rest]; cases dropDs rest (j-s) <;> rfl
      · rw [if_neg h, if_neg h, dropTreeC_fst]

theorem ext1C_fst (v : T) : ∀ (f : Nat) (ds : List (Tree T)) (sz m : Nat), (ext1C v f ds sz m).map (fun p => p.1) = ext1 v f ds sz m
  | 0, ds, sz, m => by
    rw [ext1C, ext1]
    split_ifs <;> rfl
  | f+1, ds, sz, m => by
    rw [ext1C, ext1]
    split_ifs with h
    · rfl
    · cases extRound v ds sz m with
      | none => rfl
      | some r =>
        match r with
        | none => rfl
        | some (ds', sz', m') =>
          rw [Option.bind_some, Option.bind_some]
          dsimp only
          rw [map_fst _ (fun x => x) (fun c => c + 1), ext1C_fst v f]
          cases ext1 v f ds' sz' m' <;> rfl

theorem ext2C_fst (v : T) : ∀ (f : Nat) (ds : List (Tree T)) (sz m : Nat), (ext2C v f ds sz m).map (fun p => p.1) = ext2 v f ds sz m
  | 0, ds, sz, m => by
    rw [ext2C, ext2]
    split_ifs <;> rfl
  | f+1, ds, sz, m => by
    rw [ext2C, ext2]
    split_ifs with h1 h2
    · rfl
    · rw [map_fst _ (fun x => x) (fun c => c + 1), ext2C_fst v f]
      generalize ext2 v f _ _ _ = o
      cases o <;> rfl
    · rfl

theorem getAtC_fst (s : SL T) (i : Nat) : (getAtC s i).map (fun p => p.1) = getAt s i := getDsC_fst ..

theorem updatedAtC_fst (s : SL T) (i : Nat) (x : T) : (updatedAtC s i x).map (fun p => p.1) = updatedAt s i x := by
  unfold updatedAtC updatedAt
  rw [map_fst _ (fun d => (⟨d, s.size⟩ : SL T)) (fun c => c), updDsC_fst]

theorem droppedC_fst (s : SL T) (i : Nat) : (droppedC s i).map (fun p => p.1) = dropped s i := by
  unfold droppedC dropped
  rw [← dropDsC_fst]
  cases dropDsC s.ds i <;> rfl

theorem extendedC_fst (s : SL T) (n : Nat) (v : T) : (extendedC s n v).map (fun p => p.1) = extended s n v := by
  unfold extendedC extended
  rw [← ext1C_fst]
  cases ext1C v n s.ds s.size n with
  | none => rfl
  | some r =>
    rw [Option.bind_some, Option.map_some, Option.bind_some, ← ext2C_fst]
    cases ext2C v r.1.2.2 r.1.1 r.1.2.1 r.1.2.2 with
    | none => rfl
    | some q =>
      rw [Option.bind_some, Option.map_some, Option.bind_some]
      split_ifs <;> rfl

end Verif.Skew
