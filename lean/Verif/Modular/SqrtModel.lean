import Verif.Modular.Model
/-!
Model of `is_square` and `sqrt` of `/repo/include/mtl/modular.hpp`.

The result of `sqrt` is `none` for undefined behaviour or a search that does not end within the budget, `some none` for the
exception, `some (some r)` for a returned value.
-/
namespace Verif.Modular

/-- modular.hpp:79-81 (`Modular::is_square`). -/
def isSquare (m a : Nat) : Option Bool := (pow m a ((m-1)/2)).map (fun v => v == ofInt m 1)

/-- modular.hpp:208-210 (`DynamicModular::is_square`). -/
def isSquareD (m a : Nat) : Option Bool := if a = 0 then some true else (pow m a ((m-1)/2)).map (fun v => v == ofInt m 1)

/-- modular.hpp:99-100 and 231-232: the first argument is the search budget. -/
def nonSquare (m : Nat) (isSq : Nat → Option Bool) : Nat → Nat → Option Nat
  | 0, _ => none
  | f+1, d => (isSq d).bind (fun b => if b then nonSquare m isSq f (add m d (ofInt m 1)) else some d)

/-- `bm::ctz` of a positive number (bit_manip.hpp:33-39), counted by halving; the first argument bounds the number of steps. -/
def ctz : Nat → Nat → Nat
  | 0, _ => 0
  | f+1, x => if x % 2 = 0 then ctz f (x/2) + 1 else 0

/-- modular.hpp:109-115: one round; the state is `(m, dt, du)`. -/
def tsStep (m a s i : Nat) (st : Nat × Nat × Nat) : Option (Nat × Nat × Nat) :=
  (mul m a st.2.1).bind (fun x => (pow m x (2^(s-1-i))).bind (fun v =>
    (if v = ofInt m (-1) then (mul m st.2.1 st.2.2).map (fun dt => (st.1 ||| 2^i, dt)) else some (st.1, st.2.1)).bind (fun q =>
      (mul m st.2.2 st.2.2).map (fun du => (q.1, q.2, du)))))

/-- modular.hpp:98-117 and 230-248. -/
def tonelli (m : Nat) (isSq : Nat → Option Bool) (x : Nat) : Option Nat :=
  (nonSquare m isSq m (ofInt m 2)).bind (fun d =>
    let s := ctz 32 (m-1)
    let t := (m-1) / 2^s
    (pow m x t).bind (fun a => (pow m d t).bind (fun D =>
      (forRange 0 s (tsStep m a s) (0, ofInt m 1, D)).bind (fun st =>
        (pow m x ((t+1)/2)).bind (fun u => (pow m D (st.1/2)).bind (fun w => mul m u w))))))

/-- modular.hpp:93-96 and 225-228. -/
def sqrt5 (m x : Nat) : Option Nat :=
  (pow m x ((m+3)/8)).bind (fun y => (mul m y y).bind (fun yy =>
    if yy = x then some y else (pow m (ofInt m 2) ((m-1)/4)).bind (fun z => mul m y z)))

/-- modular.hpp:89-117 and 221-249: the three cases. -/
def sqrtCases (m : Nat) (isSq : Nat → Option Bool) (x : Nat) : Option Nat :=
  if m % 8 = 3 ∨ m % 8 = 7 then pow m x ((m+1)/4)
  else if m % 8 = 5 then sqrt5 m x
  else tonelli m isSq x

/-- modular.hpp:86-118 (`Modular::sqrt`). -/
def sqrt (m x : Nat) : Option (Option Nat) :=
  (isSquare m x).bind (fun b => if b then (sqrtCases m (isSquare m) x).map some else some none)

/-- modular.hpp:215-250 (`DynamicModular::sqrt`). -/
def sqrtD (m x : Nat) : Option (Option Nat) :=
  (isSquareD m x).bind (fun b =>
    if b then (if x < 2 then some (some (ofNat m x)) else (sqrtCases m (isSquareD m) x).map some) else some none)

end Verif.Modular
