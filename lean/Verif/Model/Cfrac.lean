import Verif.Model.Factorization
import Verif.Model.Sieves
import Verif.Model.Dict

/-!
# Model of `cfrac` and `_cfrac_multiplier` (factorization/algorithms.py:436-567 and 810-857)

The smoothness bound of line 488, a float computation that may raise (`log(log(n))` for `n <= 2`), is a
parameter `bound`.  `smooth_factor`, `_z2_gaussian_elimination` and `_cfrac_aq_pairs` are modelled in
Model/Factorization.lean.  The outer `Option` of the results is for termination.
-/

namespace Rosemary.Factorization

open Rosemary Rosemary.Core

/-! ## _cfrac_multiplier -/

/-- `jacobi_symbol(a, p) >= 0`; the calls have odd `p`, for which the function does not raise. -/
def jacobiNonneg (a : Int) (p : Nat) : Bool :=
  match jacobiSymbol a p with
  | .ok v => decide (v ≥ 0)
  | .error _ => false

/-- algorithms.py:840. -/
def multiplierPrimes : List Nat := [3, 5, 7, 11, 13, 17, 19, 23, 29, 31]

/-- algorithms.py:847. -/
def multiplierCount (n k : Int) : Nat := (multiplierPrimes.filter (jacobiNonneg (k * n))).length

/-- algorithms.py:843-851, over the remaining values of `k`. -/
def multiplierChoices (n : Int) : List Nat → Dict Nat (List Nat) → Dict Nat (List Nat)
  | [], choices => choices
  | k :: ks, choices =>
    if jacobiNonneg (k * n) 3 ∧ jacobiNonneg (k * n) 5 then
      let count := multiplierCount n k
      match choices.get? count with
      | none => multiplierChoices n ks (choices.set count [k])
      | some l => multiplierChoices n ks (choices.set count (l ++ [k]))
    else multiplierChoices n ks choices

/-- algorithms.py:810-857 `_cfrac_multiplier`; `max` or `min` of nothing would raise. -/
def cfracMultiplier (n : Int) : Except PyErr Nat :=
  let choices := multiplierChoices n (List.range' 1 999) []
  match (Dict.keys choices).max? with
  | none => .error .valueError
  | some maxCount =>
    match choices.get? maxCount with
    | none => .error .keyError
    | some l =>
      match l.min? with
      | none => .error .valueError
      | some k => .ok k

/-! ## cfrac -/

/-- algorithms.py:499-501: trial division. -/
def cfracTrial (n : Int) (ps : List Nat) : Option Nat := ps.find? (fun p => n.fmod p = 0)

/-- algorithms.py:505-508: the factor base without its first member `-1`. -/
def cfracBase (kn : Int) (ps : List Nat) : List Nat := ps.filter (fun p => p = 2 || jacobiNonneg kn p)

/-- algorithms.py:523-524: `while 2**e < n: e *= 2`. -/
def cfracExponent (n e : Nat) (he : 1 ≤ e) : Nat :=
  if 2 ^ e < n then cfracExponent n (e * 2) (by omega) else e
termination_by n - 2 ^ e
decreasing_by
  have h1 : 2 ^ e < 2 ^ (e * 2) := Nat.pow_lt_pow_right (by omega) (by omega)
  omega

/-- algorithms.py:532-549, from index `i` of the generator on; `M` is `exponent_matrix` and `as` is
`a_list`.  The generator divides by `Q1` (796) before it yields. -/
def cfracCollect (kn g prod : Int) (e : Nat) (base : List Nat) (i : Nat) (M : List (List Nat))
    (as : List Int) : Option (Except PyErr (List (List Nat) × List Int)) :=
  if M.length ≤ base.length + 1 then
    let q := (aqPair kn g i).2.2
    if q = 0 then some (.error .zeroDivisionError)
    else if Core.gcd q ((prod ^ e).fmod q) ≠ q then cfracCollect kn g prod e base (i + 1) M as
    else
      let q := if i % 2 = 1 then q * -1 else q
      match smoothFactor q true base with
      | .error er => some (.error er)
      | .ok v => cfracCollect kn g prod e base (i + 1) (M ++ [v]) (as ++ [(aqPair kn g i).2.1])
  else some (.ok (M, as))
partial_fixpoint

/-- algorithms.py:554-557, the value of `y`; the rows of the kernel have the length of `a_list`. -/
def cfracY (n : Int) : List Nat → List Int → Int → Int
  | v :: vs, a :: as, y => cfracY n vs as (if v ≠ 0 then (a * y).fmod n else y)
  | _, _, y => y

/-- algorithms.py:555-559, the list `x2_exponents`. -/
def cfracExps : List Nat → List (List Nat) → List Nat → List Nat
  | v :: vs, r :: rs, es => cfracExps vs rs (if v ≠ 0 then List.zipWith (· + ·) es r else es)
  | _, _, es => es

/-- algorithms.py:561-563, the value of `x`. -/
def cfracX (base : List Nat) (es : List Nat) : Int :=
  ((((-1 : Int) :: List.map (fun p : Nat => (p : Int)) base).zip es).map (fun pe => pe.1 ^ (pe.2 / 2))).prod

/-- algorithms.py:553-563: the pair `(x, y)` of one kernel vector. -/
def cfracPair (n : Int) (base : List Nat) (M : List (List Nat)) (as : List Int) (v : List Nat) : Int × Int :=
  (cfracX base (cfracExps v M (List.replicate (base.length + 1) 0)), cfracY n v as 1)

/-- algorithms.py:552-567: the loop over the kernel; `none` is the result `None` at its end. -/
def cfracRows (n : Int) (base : List Nat) (M : List (List Nat)) (as : List Int) :
    List (List Nat) → Option Int
  | [] => none
  | v :: vs =>
    let p := cfracPair n base M as v
    let d1 := Core.gcd (p.1 - p.2) n
    let d2 := Core.gcd (p.1 + p.2) n
    if 1 < d1 ∧ d1 < n then some d1
    else if 1 < d2 ∧ d2 < n then some d2
    else cfracRows n base M as vs

/-- algorithms.py:505-567: after the trial division. -/
def cfracMain (n kn : Int) (ps : List Nat) : Option (Except PyErr (Option Int)) :=
  let base := cfracBase kn ps
  let prod := (base.map (fun p : Nat => (p : Int))).foldl (· * ·) (1 * -1)
  let e := cfracExponent n.toNat 1 (le_refl 1)
  match integerSqrt kn with
  | .error er => some (.error er)
  | .ok g =>
    if kn = 0 then some (.error .zeroDivisionError)
    else
      match cfracCollect kn g prod e base 1 [] [] with
      | none => none
      | some (.error er) => some (.error er)
      | some (.ok (M, as)) =>
        match z2Elimination M with
        | .error er => some (.error er)
        | .ok kernel => some (.ok (cfracRows n base M as kernel))

/-- algorithms.py:491-493. -/
def cfracChoose (n : Int) : Option Int → Except PyErr Int
  | some k => .ok k
  | none =>
    match cfracMultiplier n with
    | .error er => .error er
    | .ok k => .ok k

/-- algorithms.py:436-567 `cfrac`. -/
def cfrac (T : List Nat) (bound : Except PyErr Int) (n : Int) (k : Option Int) :
    Option (Except PyErr (Option Int)) :=
  match bound with
  | .error er => some (.error er)
  | .ok B =>
    match Sieves.primes T B with
    | .error er => some (.error er)
    | .ok ps =>
      match cfracChoose n k with
      | .error er => some (.error er)
      | .ok k =>
        match cfracTrial n ps with
        | some p => some (.ok (some p))
        | none => cfracMain n (k * n) ps

end Rosemary.Factorization
