import Verif.Model.ZnArithmetic
import Verif.Model.ArithFunctions
import Verif.Model.Factorization

/-!
# Calls with an integer argument

The functions of `arithmetic_functions/functions.py`, `factorization/factorization.py` and
`zn_arithmetic.py` that need a factorization compute it with `factor` when they are given an integer.
The other model files take the factorization as a parameter; here the call of `factor` is included.
`T` is the table of primes, `fct` the splitting routine (with its random choices) used by `factor`;
`none` means that `factor` does not return.
-/

namespace Rosemary.IntegerCalls

open Rosemary.Core Rosemary.ArithFunctions Rosemary.Factorization Rosemary.Zn

/-- `factor(n)` for `n ≥ 0`, followed by `k`; the keys are then positive. -/
def withFactor {α : Type} (T : List Nat) (fct : Nat → Nat → Option Nat) (n : Nat)
    (k : List (Nat × Nat) → Option (Except PyErr α)) : Option (Except PyErr α) :=
  match factor T fct n with
  | none => none
  | some (.error e) => some (.error e)
  | some (.ok L) => k (L.map (fun pe => (pe.1.toNat, pe.2)))

/-- functions.py:20-62 `_validate_input(n)` for an integer, followed by `k`. -/
def withValidated {α : Type} (T : List Nat) (fct : Nat → Nat → Option Nat) (n : Int)
    (k : List (Nat × Nat) → Option (Except PyErr α)) : Option (Except PyErr α) :=
  if n = 1 then k [(1, 1)]
  else if n ≤ 0 then some (.error .valueError)
  else withFactor T fct n.toNat k

/-- functions.py:70-140 `euler_phi(n)`. -/
def eulerPhiCall (T : List Nat) (fct : Nat → Nat → Option Nat) (n : Int) : Option (Except PyErr Nat) :=
  withValidated T fct n fun fac => some (.ok (eulerPhi fac))

/-- functions.py:143-213 `moebius_mu(n)`. -/
def moebiusMuCall (T : List Nat) (fct : Nat → Nat → Option Nat) (n : Int) : Option (Except PyErr Int) :=
  withValidated T fct n fun fac => some (.ok (moebiusMu fac))

/-- functions.py:306-376 `divisor_tau(n)`. -/
def divisorTauCall (T : List Nat) (fct : Nat → Nat → Option Nat) (n : Int) : Option (Except PyErr Nat) :=
  withValidated T fct n fun fac => some (.ok (divisorTau fac))

/-- functions.py:216-300 `divisor_sigma(n, k)`: `k` is tested before `n`. -/
def divisorSigmaCall (T : List Nat) (fct : Nat → Nat → Option Nat) (n k : Int) :
    Option (Except PyErr Nat) :=
  if k < 0 then some (.error .valueError)
  else withValidated T fct n fun fac => some (divisorSigma fac k)

/-- functions.py:387-457 `carmichael_lambda(n)`. -/
def carmichaelCall (T : List Nat) (fct : Nat → Nat → Option Nat) (n : Int) : Option (Except PyErr Int) :=
  if n = 1 then some (.ok 1)
  else if n ≤ 0 then some (.error .valueError)
  else withFactor T fct n.toNat fun fac => some (carmichaelLambda fac)

/-- classification.py:230-272 `is_squarefree(n)`. -/
def isSquarefreeCall (T : List Nat) (fct : Nat → Nat → Option Nat) (n : Int) :
    Option (Except PyErr Bool) :=
  withValidated T fct n fun fac => some (.ok (isSquarefree fac))

/-- factorization.py:159-203 `divisors(n)`. -/
def divisorsCall (T : List Nat) (fct : Nat → Nat → Option Nat) (n : Int) :
    Option (Except PyErr (List Nat)) :=
  withFactor T fct n.natAbs fun fac => some (.ok (divisors fac))

/-- factorization.py:251-285 `prime_divisors(n)`. -/
def primeDivisorsCall (T : List Nat) (fct : Nat → Nat → Option Nat) (n : Int) :
    Option (Except PyErr (List Nat)) :=
  withFactor T fct n.natAbs fun fac => some (.ok (primeDivisors fac))

/-- factorization.py:328-348 `unitary_divisors(n)`, for `n ≥ 0`. -/
def unitaryDivisorsCall (T : List Nat) (fct : Nat → Nat → Option Nat) (n : Nat) :
    Option (Except PyErr (List Nat)) :=
  withFactor T fct n fun fac => some (.ok (unitaryDivisors n fac))

/-- factorization.py:337-348, the list computed by `unitary_divisors` from a factorization.  When `n`
is `None` the sort of line 347 compares `None` with an integer. -/
def unitaryBody (n : Option Int) (fac : List (Int × Nat)) : Except PyErr (List Int) :=
  match n with
  | none => .error .typeError
  | some n =>
    let pks := fac.map (fun pe => pe.1 ^ pe.2)
    let subs := (List.range' 1 (pks.length - 1)).flatMap (fun i => pks.sublistsLen i)
    .ok (pySort ([1, n] ++ subs.map (fun s : List Int => s.foldl (· * ·) 1)) (· ≤ ·))

/-- factorization.py:328-348 `unitary_divisors(n=None, factorization=None)` with all its arguments. -/
def unitaryDivisorsArgs (T : List Nat) (fct : Nat → Nat → Option Nat) (n : Option Int)
    (fac : Option (List (Int × Nat))) : Option (Except PyErr (List Int)) :=
  match n, fac with
  | none, none => some (.error .typeError)
  | some n, none =>
    match factor T fct (n.natAbs : Int) with
    | none => none
    | some (.error e) => some (.error e)
    | some (.ok L) => some (unitaryBody (some n) L)
  | _, some [] => some (.error .indexError)
  | n, some (pe :: L) => some (unitaryBody n (if pe.1 = -1 then L else pe :: L))

/-- zn_arithmetic.py:100-183 `primitive_root(n)`, for `n ≥ 0`; line 179 computes
`prime_divisors(phi)`.  (The tests of lines 166-173 come before the second factorization; they are
part of `primitiveRoot`, so that here the factorization of `phi` comes first.  This makes no
difference unless `factor(phi)` does not return.) -/
def primitiveRootCall (T : List Nat) (fct : Nat → Nat → Option Nat) (n : Nat) :
    Option (Except PyErr (Option Nat)) :=
  withFactor T fct n fun fac =>
    if fac = [] then some (primitiveRoot n fac [])
    else withFactor T fct (eulerPhi fac) fun phiFac => some (primitiveRoot n fac phiFac)

/-- zn_arithmetic.py:452-502 `sqrts_mod_n(a, n)`; `rnd` are the random choices. -/
def sqrtsModNCall (T : List Nat) (fct : Nat → Nat → Option Nat) (rnd : Nat → Nat → Int) (a : Int)
    (n : Nat) : Option (Except PyErr (List Int)) :=
  withFactor T fct n fun fac => sqrtsModN rnd a fac

end Rosemary.IntegerCalls
