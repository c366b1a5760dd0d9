/-!
Model of `PersistentArray<T, M>`, `/repo/include/mtl/persistent_array.hpp`.

The memory shared by all versions is explicit: a heap of nodes, addressed by position, to which `make_shared`
appends.  (`shared_ptr` frees unreachable nodes; never reusing an address has no observable effect.)
`none` is a dangling pointer or out-of-range child index (undefined behaviour).
-/
namespace Verif.Persistent

variable {T : Type}

/-- persistent_array.hpp:12-18. -/
structure Node (T : Type) where
  v : T
  ch : List (Option Nat)

abbrev Heap (T : Type) := List (Node T)

/-- persistent_array.hpp:29-37.  The step budget is `i`: each round strictly decreases it. -/
def getF (M : Nat) (init : T) (h : Heap T) : Nat → Option Nat → Nat → Option T
  | _, none, _ => some init
  | 0, some p, i => if i = 0 then (h[p]?).map (·.v) else none
  | fuel+1, some p, i => (h[p]?).bind (fun nd => if i = 0 then some nd.v else
      (nd.ch[(i-1) % M]?).bind (fun c => getF M init h fuel c ((i-1) / M)))

/-- persistent_array.hpp:29-37. -/
def get (M : Nat) (init : T) (h : Heap T) (u : Option Nat) (i : Nat) : Option T := getF M init h i u i

/-- `u ? make_shared<Node>(*u) : make_shared<Node>(d)` without the allocation. -/
def copyOr (M : Nat) (h : Heap T) (u : Option Nat) (d : T) : Option (Node T) :=
  match u with
  | some p => h[p]?
  | none => some ⟨d, List.replicate M none⟩

/-- persistent_array.hpp:41-56.  Returns the heap and the address of the new node. -/
def setF (M : Nat) (init : T) (v : T) : Nat → Heap T → Option Nat → Nat → Option (Heap T × Nat)
  | fuel, h, u, id =>
    if id = 0 then (copyOr M h u v).bind (fun nd => some (h ++ [{ nd with v := v }], h.length))
    else match fuel with
      | 0 => none
      | fuel+1 => (copyOr M h u init).bind (fun nd =>
          (nd.ch[(id-1) % M]?).bind (fun c =>
            (setF M init v fuel (h ++ [nd]) c ((id-1) / M)).bind (fun r =>
              some (r.1.set h.length { nd with ch := nd.ch.set ((id-1) % M) (some r.2) }, h.length))))

/-- persistent_array.hpp:58-68. -/
def set (M : Nat) (init : T) (h : Heap T) (u : Option Nat) (i : Nat) (v : T) : Option (Heap T × Nat) :=
  setF M init v i h u i

/-! ### Invariants -/

/-- All pointers in the heap are valid. -/
def Closed (M : Nat) (h : Heap T) : Prop :=
  ∀ (p : Nat) (nd : Node T), h[p]? = some nd → nd.ch.length = M ∧ ∀ c, some c ∈ nd.ch → c < h.length

def ValidPtr (h : Heap T) (u : Option Nat) : Prop := ∀ p, u = some p → p < h.length

/-- No node points to `n`. -/
def Unref (h : Heap T) (n : Nat) : Prop := ∀ (p : Nat) (nd : Node T), h[p]? = some nd → some n ∉ nd.ch

theorem getF_fuel {M : Nat} {init : T} {h : Heap T} : ∀ (fuel i : Nat) (u : Option Nat), i ≤ fuel →
    getF M init h fuel u i = getF M init h i u i
  | fuel, i, none, _ => by cases fuel <;> cases i <;> rfl
  | 0, 0, some p, _ => rfl
  | fuel+1, 0, some p, _ => by simp [getF, Option.map_eq_bind]; rfl
  | 0, i+1, some p, hi => by omega
  | fuel+1, i+1, some p, hi => by
    simp only [getF]
    congr 1
    funext nd
    simp only [Nat.add_one_ne_zero, if_false, Nat.add_sub_cancel]
    congr 1
    funext c
    have h1 : i / M ≤ i := Nat.div_le_self _ _
    rw [getF_fuel fuel (i / M) c (by omega), getF_fuel i (i / M) c h1]

theorem get_none {M : Nat} {init : T} {h : Heap T} (i : Nat) : get M init h none i = some init := by
  unfold get; cases i <;> rfl

theorem get_zero {M : Nat} {init : T} {h : Heap T} {p : Nat} {nd : Node T} (hp : h[p]? = some nd) :
    get M init h (some p) 0 = some nd.v := by simp [get, getF, hp]

theorem get_succ {M : Nat} {init : T} {h : Heap T} {p : Nat} {nd : Node T} (hp : h[p]? = some nd) (i : Nat)
    {c : Option Nat} (hc : nd.ch[i % M]? = some c) :
    get M init h (some p) (i+1) = get M init h c (i / M) := by
  unfold get
  simp only [getF, hp, Option.bind_some, Nat.add_one_ne_zero, if_false, Nat.add_sub_cancel, hc]
  exact getF_fuel i (i / M) c (Nat.div_le_self _ _)

/-- Two heaps that agree on a set of addresses closed under child pointers give the same `get`. -/
theorem get_agree {M : Nat} (hM : 0 < M) {init : T} {h h' : Heap T} (S : Nat → Prop)
    (hag : ∀ p : Nat, S p → h[p]? = h'[p]? ∧ p < h.length)
    (hlen : ∀ (p : Nat) (nd : Node T), S p → h[p]? = some nd → nd.ch.length = M)
    (hcl : ∀ (p : Nat) (nd : Node T) (c : Nat), S p → h[p]? = some nd → some c ∈ nd.ch → S c) :
    ∀ i u, (∀ p, u = some p → S p) → get M init h u i = get M init h' u i := by
  intro i
  induction i using Nat.strongRecOn with
  | _ i ih =>
    intro u hu
    cases u with
    | none => rw [get_none, get_none]
    | some p =>
      obtain ⟨h1, h2⟩ := hag p (hu p rfl)
      have e := List.getElem?_eq_getElem h2
      cases i with
      | zero => rw [get_zero e, get_zero (h1.symm.trans e)]
      | succ i =>
        have hc : i % M < (h[p]).ch.length := by rw [hlen p _ (hu p rfl) e]; exact Nat.mod_lt _ hM
        have ec := List.getElem?_eq_getElem hc
        rw [get_succ e i ec, get_succ (h1.symm.trans e) i ec]
        apply ih (i / M) (by have := Nat.div_le_self i M; omega)
        intro q hq
        refine hcl p _ q (hu p rfl) e ?_
        rw [← hq]; exact List.getElem_mem hc

/-- Growing the heap does not change what a version answers. -/
theorem get_ext {M : Nat} (hM : 0 < M) {init : T} {h h' : Heap T} (hcl : Closed M h)
    (hpre : ∀ p : Nat, p < h.length → h'[p]? = h[p]?) {u : Option Nat} (hu : ValidPtr h u) (i : Nat) :
    get M init h' u i = get M init h u i := by
  symm
  apply get_agree hM (fun p => p < h.length)
  · intro p hp; exact ⟨(hpre p hp).symm, hp⟩
  · intro p nd _ e; exact (hcl p nd e).1
  · intro p nd c _ e hc; exact (hcl p nd e).2 c hc
  · exact hu

/-- Changing a node nobody points to does not change what other pointers see. -/
theorem get_unref {M : Nat} (hM : 0 < M) {init : T} {h h' : Heap T} {n : Nat} (hcl : Closed M h) (hun : Unref h n)
    (hag : ∀ p : Nat, p ≠ n → h'[p]? = h[p]?) {u : Option Nat} (hu : ValidPtr h u) (hne : u ≠ some n) (i : Nat) :
    get M init h' u i = get M init h u i := by
  symm
  apply get_agree hM (fun p => p < h.length ∧ p ≠ n)
  · intro p hp; exact ⟨(hag p hp.2).symm, hp.1⟩
  · intro p nd _ e; exact (hcl p nd e).1
  · intro p nd c _ e hc
    refine ⟨(hcl p nd e).2 c hc, ?_⟩
    rintro rfl
    exact hun p nd e hc
  · intro p hp
    refine ⟨hu p hp, ?_⟩
    rintro rfl
    exact hne hp

theorem get_some {M : Nat} (hM : 0 < M) {init : T} {h : Heap T} (hcl : Closed M h) : ∀ i u, ValidPtr h u →
    ∃ x, get M init h u i = some x := by
  intro i
  induction i using Nat.strongRecOn with
  | _ i ih =>
    intro u hu
    cases u with
    | none => exact ⟨init, get_none i⟩
    | some p =>
      have e := List.getElem?_eq_getElem (hu p rfl)
      cases i with
      | zero => exact ⟨_, get_zero e⟩
      | succ i =>
        have hc : i % M < (h[p]'(hu p rfl)).ch.length := by rw [(hcl p _ e).1]; exact Nat.mod_lt _ hM
        rw [get_succ e i (List.getElem?_eq_getElem hc)]
        apply ih (i / M) (by have := Nat.div_le_self i M; omega)
        intro q hq
        exact (hcl p _ e).2 q (by rw [← hq]; exact List.getElem_mem hc)

theorem closed_append {M : Nat} {h : Heap T} (hcl : Closed M h) {nd : Node T} (hl : nd.ch.length = M)
    (hc : ∀ c, some c ∈ nd.ch → c < h.length) : Closed M (h ++ [nd]) := by
  intro p x hx
  rw [List.length_append, List.length_singleton]
  by_cases hp : p < h.length
  · rw [List.getElem?_append_left hp] at hx
    exact ⟨(hcl p x hx).1, fun c hc => Nat.lt_succ_of_lt ((hcl p x hx).2 c hc)⟩
  · rw [List.getElem?_append_right (by omega)] at hx
    have hmem := List.mem_of_getElem? hx
    rw [List.mem_singleton] at hmem
    subst hmem
    exact ⟨hl, fun c h => Nat.lt_succ_of_lt (hc c h)⟩

theorem unref_append {h : Heap T} {n : Nat} (hu : Unref h n) {nd : Node T} (hn : some n ∉ nd.ch) : Unref (h ++ [nd]) n := by
  intro p x hx
  by_cases hp : p < h.length
  · rw [List.getElem?_append_left hp] at hx
    exact hu p x hx
  · rw [List.getElem?_append_right (by omega)] at hx
    have hmem := List.mem_of_getElem? hx
    rw [List.mem_singleton] at hmem
    subst hmem
    exact hn

theorem copyOr_spec {M : Nat} {h : Heap T} (hcl : Closed M h) {u : Option Nat} (hu : ValidPtr h u) (d : T) :
    ∃ nd, copyOr M h u d = some nd ∧ nd.ch.length = M ∧ (∀ c, some c ∈ nd.ch → c < h.length) ∧
      (∀ n, Unref h n → some n ∉ nd.ch) ∧
      ((∃ p, u = some p ∧ h[p]? = some nd) ∨ (u = none ∧ nd = ⟨d, List.replicate M none⟩)) := by
  cases u with
  | none =>
    refine ⟨⟨d, List.replicate M none⟩, rfl, by simp, ?_, ?_, Or.inr ⟨rfl, rfl⟩⟩
    · intro c hc; exact absurd (List.eq_of_mem_replicate hc) (by simp)
    · intro n _ hc; exact absurd (List.eq_of_mem_replicate hc) (by simp)
  | some p =>
    have e := List.getElem?_eq_getElem (hu p rfl)
    exact ⟨_, e, (hcl p _ e).1, (hcl p _ e).2, fun n hn => hn p _ e, Or.inl ⟨p, rfl, e⟩⟩

/-- Looking below the copied node is looking below the original. -/
theorem copy_child {M : Nat} (hM : 0 < M) {init : T} {h : Heap T} {u : Option Nat} {nd : Node T} {d : T}
    (ho : (∃ p, u = some p ∧ h[p]? = some nd) ∨ (u = none ∧ nd = ⟨d, List.replicate M none⟩)) (i : Nat) {c : Option Nat}
    (hc : nd.ch[i % M]? = some c) : get M init h c (i / M) = get M init h u (i+1) := by
  rcases ho with ⟨p, rfl, hp⟩ | ⟨rfl, rfl⟩
  · rw [get_succ hp i hc]
  · simp only at hc
    rw [List.getElem?_replicate, if_pos (Nat.mod_lt _ hM)] at hc
    simp only [Option.some.injEq] at hc
    subst hc
    rw [get_none, get_none]

/-- Effect of `set_rec`. -/
theorem setF_spec {M : Nat} (hM : 0 < M) (init v : T) : ∀ (fuel id : Nat) (h : Heap T) (u : Option Nat), id ≤ fuel →
    Closed M h → ValidPtr h u →
    ∃ h' p, setF M init v fuel h u id = some (h', p) ∧ Closed M h' ∧ (∀ q : Nat, q < h.length → h'[q]? = h[q]?) ∧
      h.length ≤ p ∧ p < h'.length ∧ (∀ n, n < h.length → Unref h n → u ≠ some n → Unref h' n) ∧
      ∀ j, get M init h' (some p) j = if j = id then some v else get M init h u j
  | fuel, 0, h, u, _, hcl, hu => by
    obtain ⟨nd, e, hl, hc, hun, ho⟩ := copyOr_spec hcl hu v
    have hcl' : Closed M (h ++ [{ nd with v := v }]) := closed_append hcl hl hc
    have hpre : ∀ q : Nat, q < h.length → (h ++ [{ nd with v := v }])[q]? = h[q]? := fun q hq => List.getElem?_append_left hq
    refine ⟨h ++ [{ nd with v := v }], h.length, ?_, hcl', hpre, Nat.le_refl _, by simp, ?_, ?_⟩
    · rw [setF.eq_def]; simp [e]
    · intro n _ hn _; exact unref_append hn (hun n hn)
    · intro j
      have hnew : (h ++ [{ nd with v := v }])[h.length]? = some { nd with v := v } := by simp
      cases j with
      | zero => rw [get_zero hnew]; rfl
      | succ j =>
        have hj : j % M < nd.ch.length := by rw [hl]; exact Nat.mod_lt _ hM
        have ec := List.getElem?_eq_getElem hj
        rw [get_succ hnew j (c := nd.ch[j % M]) ec, if_neg (by omega), get_ext hM hcl hpre, copy_child hM ho j ec]
        intro q hq
        exact hc q (by rw [← hq]; exact List.getElem_mem hj)
  | 0, id+1, h, u, hf, _, _ => by omega
  | fuel+1, id+1, h, u, hf, hcl, hu => by
    obtain ⟨nd, e, hl, hc, hun, ho⟩ := copyOr_spec hcl hu init
    have hid : id % M < nd.ch.length := by rw [hl]; exact Nat.mod_lt _ hM
    have ec := List.getElem?_eq_getElem hid
    have hcl1 : Closed M (h ++ [nd]) := closed_append hcl hl hc
    have hpre1 : ∀ q : Nat, q < h.length → (h ++ [nd])[q]? = h[q]? := fun q hq => List.getElem?_append_left hq
    have hcv : ∀ (k : Nat) (hk : k < nd.ch.length), ValidPtr h nd.ch[k] := by
      intro k hk q hq
      exact hc q (by rw [← hq]; exact List.getElem_mem hk)
    have hlt1 : h.length < (h ++ [nd]).length := by simp
    have hcv1 : ValidPtr (h ++ [nd]) nd.ch[id % M] := fun q hq => Nat.lt_trans (hcv _ hid q hq) hlt1
    obtain ⟨h2, p2, e2, cl2, pre2, hp2, hp2', un2, g2⟩ := setF_spec hM init v fuel (id / M) (h ++ [nd]) nd.ch[id % M]
      (by have := Nat.div_le_self id M; omega) hcl1 hcv1
    have hself : Unref (h ++ [nd]) h.length := by
      apply unref_append
      · intro p x hx hm
        exact absurd ((hcl p x hx).2 _ hm) (by omega)
      · intro hm; exact absurd (hc _ hm) (by omega)
    have hun2 : Unref h2 h.length := un2 h.length hlt1 hself (fun h => by have := hcv _ hid _ h; omega)
    have hlen2 : h.length < h2.length := by omega
    generalize hnd' : ({ nd with ch := nd.ch.set (id % M) (some p2) } : Node T) = nd' at *
    have hch' : nd'.ch = nd.ch.set (id % M) (some p2) := by rw [← hnd']
    have hv' : nd'.v = nd.v := by rw [← hnd']
    have hoff : ∀ p, p ≠ h.length → (h2.set h.length nd')[p]? = h2[p]? := fun p hp => List.getElem?_set_ne (Ne.symm hp)
    have hon : (h2.set h.length nd')[h.length]? = some nd' := List.getElem?_set_self hlen2
    have hpre3 : ∀ q, q < h.length → (h2.set h.length nd')[q]? = h[q]? := by
      intro q hq
      rw [hoff q (by omega), pre2 q (by omega), hpre1 q hq]
    refine ⟨h2.set h.length nd', h.length, ?_, ?_, hpre3, Nat.le_refl _, by simpa using hlen2, ?_, ?_⟩
    · rw [setF.eq_def]
      simp only [Nat.add_one_ne_zero, if_false, e, Option.bind_some, Nat.add_sub_cancel, ec, e2, hnd']
    · intro p x hx
      rw [List.length_set]
      by_cases hp : p = h.length
      · subst hp
        rw [hon] at hx
        simp only [Option.some.injEq] at hx
        subst hx
        rw [hch']
        refine ⟨by simpa using hl, fun c hm => ?_⟩
        rcases List.mem_or_eq_of_mem_set hm with hm | hm
        · exact Nat.lt_trans (hc c hm) hlen2
        · simp only [Option.some.injEq] at hm; omega
      · rw [hoff p hp] at hx
        exact cl2 p x hx
    · intro n hn hnu hne p x hx
      by_cases hp : p = h.length
      · subst hp
        rw [hon] at hx
        simp only [Option.some.injEq] at hx
        subst hx
        rw [hch']
        intro hm
        rcases List.mem_or_eq_of_mem_set hm with hm | hm
        · exact hun n hnu hm
        · simp only [Option.some.injEq] at hm; omega
      · rw [hoff p hp] at hx
        refine un2 n (by omega) (unref_append hnu (hun n hnu)) ?_ p x hx
        intro h
        exact hun n hnu (by rw [← h]; exact List.getElem_mem hid)
    · intro j
      cases j with
      | zero =>
        rw [get_zero hon, if_neg (by omega), hv']
        rcases ho with ⟨p, rfl, hp⟩ | ⟨rfl, rfl⟩
        · rw [get_zero hp]
        · rw [get_none]
      | succ j =>
        have hj : j % M < nd.ch.length := by rw [hl]; exact Nat.mod_lt _ hM
        by_cases hjid : j % M = id % M
        · have ec' : nd'.ch[j % M]? = some (some p2) := by rw [hch', hjid]; exact List.getElem?_set_self hid
          rw [get_succ hon j ec', get_unref hM cl2 hun2 hoff (fun q hq => by simp only [Option.some.injEq] at hq; omega)
            (fun h => by simp only [Option.some.injEq] at h; simp at hp2; omega), g2]
          by_cases hd : j / M = id / M
          · have : j = id := by rw [← Nat.div_add_mod j M, ← Nat.div_add_mod id M, hd, hjid]
            rw [if_pos hd, if_pos (by omega)]
          · rw [if_neg hd, if_neg (by rintro h; exact hd (by rw [show j = id by omega])), get_ext hM hcl hpre1 (hcv _ hid)]
            exact copy_child hM ho j (by rw [hjid]; exact ec)
        · have ec0 := List.getElem?_eq_getElem hj
          have ec' : nd'.ch[j % M]? = some nd.ch[j % M] := by rw [hch', List.getElem?_set_ne (Ne.symm hjid)]; exact ec0
          rw [get_succ hon j ec', if_neg (by rintro h; exact hjid (by rw [show j = id by omega])),
            get_ext hM hcl hpre3 (hcv _ hj)]
          exact copy_child hM ho j ec0

/-- In heap `h`, the version with root `u` is the map `f`. -/
def Arr (M : Nat) (init : T) (h : Heap T) (u : Option Nat) (f : Nat → T) : Prop :=
  ValidPtr h u ∧ ∀ i, get M init h u i = some (f i)

theorem Arr.none {M : Nat} {init : T} {h : Heap T} : Arr M init h none (fun _ => init) :=
  ⟨by intro p hp; simp at hp, fun i => get_none i⟩

theorem Arr.ext {M : Nat} (hM : 0 < M) {init : T} {h h' : Heap T} (hcl : Closed M h) (hlen : h.length ≤ h'.length)
    (hpre : ∀ p : Nat, p < h.length → h'[p]? = h[p]?) {u : Option Nat} {f : Nat → T} (ha : Arr M init h u f) : Arr M init h' u f :=
  ⟨fun p hp => Nat.lt_of_lt_of_le (ha.1 p hp) hlen, fun i => by rw [get_ext hM hcl hpre ha.1]; exact ha.2 i⟩

/-- `set` on one version: a new version, the heap only grows. -/
theorem set_spec {M : Nat} (hM : 0 < M) {init : T} {h : Heap T} (hcl : Closed M h) {u : Option Nat} {f : Nat → T}
    (ha : Arr M init h u f) (i : Nat) (v : T) :
    ∃ h' p, set M init h u i v = some (h', p) ∧ Closed M h' ∧ h.length ≤ h'.length ∧ (∀ q : Nat, q < h.length → h'[q]? = h[q]?) ∧
      Arr M init h' (some p) (fun j => if j = i then v else f j) := by
  obtain ⟨h', p, e, cl, pre, hp, hp', _, g⟩ := setF_spec hM init v i i h u (Nat.le_refl _) hcl ha.1
  refine ⟨h', p, e, cl, by omega, pre, fun q hq => by simp only [Option.some.injEq] at hq; omega, fun j => ?_⟩
  rw [g j]
  by_cases hj : j = i
  · simp [hj]
  · simp [hj, ha.2 j]

/-! ### C12 -/

/-- All version objects of a program, and the shared heap. -/
structure World (T : Type) where
  heap : Heap T
  roots : List (Option Nat)

/-- `versions.push_back(versions[k].set(i, x))`. -/
def stepSet (M : Nat) (init : T) (w : World T) (o : Nat × Nat × T) : Option (World T) :=
  (w.roots[o.1]?).bind (fun u => (set M init w.heap u o.2.1 o.2.2).bind (fun r => some ⟨r.1, w.roots ++ [some r.2]⟩))

/-- A program: start from one empty array, then a branching history. -/
def runSet (M : Nat) (init : T) : World T → List (Nat × Nat × T) → Option (World T)
  | w, [] => some w
  | w, o :: ops => (stepSet M init w o).bind (fun w => runSet M init w ops)

/-- Specification: versions are plain functions. -/
def specSet (fs : List (Nat → T)) (o : Nat × Nat × T) : List (Nat → T) :=
  match fs[o.1]? with
  | some f => fs ++ [fun j => if j = o.2.1 then o.2.2 else f j]
  | none => fs

/-- Operation number `k` may use versions `0..k`. -/
def ValidHist : Nat → List (Nat × Nat × T) → Prop
  | _, [] => True
  | n, o :: ops => o.1 < n ∧ ValidHist (n+1) ops

structure WInv (M : Nat) (init : T) (w : World T) (fs : List (Nat → T)) : Prop where
  cl : Closed M w.heap
  len : w.roots.length = fs.length
  arr : ∀ (k : Nat) (u : Option Nat) (f : Nat → T), w.roots[k]? = some u → fs[k]? = some f → Arr M init w.heap u f

theorem runSet_spec {M : Nat} (hM : 0 < M) {init : T} : ∀ (ops : List (Nat × Nat × T)) (w : World T) (fs : List (Nat → T)),
    WInv M init w fs → ValidHist fs.length ops →
    ∃ w', runSet M init w ops = some w' ∧ WInv M init w' (ops.foldl specSet fs)
  | [], w, fs, h, _ => ⟨w, rfl, h⟩
  | o :: ops, w, fs, h, hv => by
    have hk : o.1 < w.roots.length := by rw [h.len]; exact hv.1
    have eu := List.getElem?_eq_getElem hk
    have hv1 : o.1 < fs.length := hv.1
    have ef := List.getElem?_eq_getElem hv1
    obtain ⟨h', p, e, cl, hlen, pre, ha⟩ := set_spec hM h.cl (h.arr o.1 _ _ eu ef) o.2.1 o.2.2
    have hs : specSet fs o = fs ++ [fun j => if j = o.2.1 then o.2.2 else fs[o.1] j] := by unfold specSet; rw [ef]
    have hinv : WInv M init ⟨h', w.roots ++ [some p]⟩ (specSet fs o) := by
      rw [hs]
      refine ⟨cl, by simp [h.len], ?_⟩
      intro k u f hu hf
      by_cases hkl : k < w.roots.length
      · rw [List.getElem?_append_left hkl] at hu
        rw [List.getElem?_append_left (by rw [← h.len]; exact hkl)] at hf
        exact (h.arr k u f hu hf).ext hM h.cl hlen pre
      · simp only at hu
        rw [List.getElem?_append_right (by omega)] at hu
        rw [List.getElem?_append_right (by rw [← h.len]; omega)] at hf
        have m1 := List.mem_of_getElem? hu
        have m2 := List.mem_of_getElem? hf
        rw [List.mem_singleton] at m1 m2
        subst m1; subst m2
        exact ha
    obtain ⟨w', e', hw'⟩ := runSet_spec hM ops _ _ hinv (by rw [hs]; simpa using hv.2)
    exact ⟨w', by simp [runSet, stepSet, eu, e, e'], hw'⟩

/-- C12: for every degree, every default value and every branching history of `set`, in the final memory every version
ever created answers `get(i)` exactly as its own map: the version it was made from with one index replaced. -/
theorem C12_versions (M : Nat) (hM : 0 < M) (init : T) (ops : List (Nat × Nat × T)) (hv : ValidHist 1 ops) :
    ∃ w, runSet M init ⟨[], [none]⟩ ops = some w ∧
      w.roots.length = (ops.foldl specSet [fun _ => init]).length ∧
      ∀ (k : Nat) (f : Nat → T), (ops.foldl specSet [fun _ => init])[k]? = some f →
        ∃ u, w.roots[k]? = some u ∧ ∀ i, get M init w.heap u i = some (f i) := by
  obtain ⟨w, e, h⟩ := runSet_spec hM ops ⟨[], [none]⟩ [fun _ => init]
    ⟨by intro p nd hp; simp at hp, rfl, by
      intro k u f hu hf
      have m1 := List.mem_of_getElem? hu
      have m2 := List.mem_of_getElem? hf
      rw [List.mem_singleton] at m1 m2
      subst m1; subst m2
      exact Arr.none⟩ hv
  refine ⟨w, e, h.len, fun k f hf => ?_⟩
  have hk : k < w.roots.length := by rw [h.len]; exact (List.getElem?_eq_some_iff.1 hf).1
  exact ⟨_, List.getElem?_eq_getElem hk, (h.arr k _ f (List.getElem?_eq_getElem hk) hf).2⟩

example : ValidHist 1 [(0, 5, 10), (1, 7, 20), (1, 5, 30)] := by simp [ValidHist]
example : (runSet 4 0 ⟨[], [none]⟩ [(0, 5, 10), (1, 7, 20), (1, 5, 30)]).bind (fun w => get 4 0 w.heap (w.roots.getD 2 none) 5) = some 10 := by
  decide

end Verif.Persistent
