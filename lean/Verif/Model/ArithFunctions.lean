import Verif.Model.Core

/-!
# Model of `arithmetic_functions/functions.py`

Arguments are factorizations (lists of (prime, exponent) pairs); an integer argument `n ≥ 2`
is replaced by `factor(n)` and `n = 1` by `[(1, 1)]` in `_validate_input` (functions.py:20-62).
-/

namespace Rosemary.ArithFunctions

open Rosemary.Core

/-- functions.py:20-62 `_validate_input` for an integer; `fac` is the value of `factor(n)`. -/
def validateInt (n : Int) (fac : List (Nat × Nat)) : Except PyErr (List (Nat × Nat)) :=
  if n = 1 then .ok [(1, 1)] else if n ≤ 0 then .error .valueError else .ok fac

/-- functions.py:134-140 `euler_phi`. -/
def eulerPhi (fac : List (Nat × Nat)) : Nat :=
  if fac = [(1, 1)] then 1
  else fac.foldl (fun prod pe => prod * (pe.1 ^ (pe.2 - 1) * (pe.1 - 1))) 1

/-- classification.py:230-272 `is_squarefree`. -/
def isSquarefree (fac : List (Nat × Nat)) : Bool := fac.all (fun pe => pe.2 == 1)

/-- functions.py:206-213 `moebius_mu`. -/
def moebiusMu (fac : List (Nat × Nat)) : Int :=
  if fac = [(1, 1)] then 1
  else if isSquarefree fac then (-1) ^ fac.length else 0

/-- functions.py:370-376 `divisor_tau`. -/
def divisorTau (fac : List (Nat × Nat)) : Nat :=
  if fac = [(1, 1)] then 1 else fac.foldl (fun prod pe => prod * (pe.2 + 1)) 1

/-- functions.py:286-300 `divisor_sigma`. -/
def divisorSigma (fac : List (Nat × Nat)) (k : Int) : Except PyErr Nat :=
  if k < 0 then .error .valueError
  else if k = 0 then .ok (divisorTau fac)
  else if fac = [(1, 1)] then .ok 1
  else .ok (fac.foldl (fun prod pe =>
    let pk := pe.1 ^ k.toNat
    prod * ((pk ^ (pe.2 + 1) - 1) / (pk - 1))) 1)

/-- functions.py:445-454, one term of `carmichael_lambda`. -/
def carmichaelTerm (pe : Nat × Nat) : Nat :=
  if pe.1 ≠ 2 then pe.1 ^ (pe.2 - 1) * (pe.1 - 1)
  else if pe.2 ≤ 2 then 1 <<< (pe.2 - 1) else 1 <<< (pe.2 - 2)

/-- functions.py:445-457 `carmichael_lambda` on a factorization. -/
def carmichaelLambda (fac : List (Nat × Nat)) : Except PyErr Int :=
  lcmList (fac.map (fun pe => (carmichaelTerm pe : Int)))

/-- functions.py:434-439 `carmichael_lambda` on an integer; `fac` is `factor(n)`. -/
def carmichaelLambdaInt (n : Int) (fac : List (Nat × Nat)) : Except PyErr Int :=
  if n = 1 then .ok 1 else if n ≤ 0 then .error .valueError else carmichaelLambda fac

/-! ## factorial (functions.py:460-505) -/

/-- functions.py:500-502, the product of `j = lower, lower + 2, ... < upper`. -/
def oddProd (lower upper : Nat) : Nat :=
  if _h : lower < upper then lower * oddProd (lower + 2) upper else 1
termination_by upper - lower
decreasing_by omega

/-- functions.py:494-503: the factor contributed by pass `k ≥ 1`. -/
def factorialPass (n k : Nat) : Nat :=
  let lower := (n >>> k) + 1
  let upper := (n >>> (k - 1)) + 1
  let lower := if lower % 2 = 0 then lower + 1 else lower
  oddProd lower upper ^ k

/-- functions.py:460-505 `factorial`. -/
def factorial (n : Int) : Except PyErr Nat :=
  if n < 0 then .error .valueError
  else if n = 0 ∨ n = 1 then .ok 1
  else
    let m := n.toNat
    let prod := (List.range' 1 (m.size - 1)).foldl (fun prod k => prod * factorialPass m k) 1
    .ok (prod <<< (m - bitCount n))

end Rosemary.ArithFunctions
