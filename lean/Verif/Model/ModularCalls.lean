import Verif.Model.IntegerCalls
import Verif.Model.Enumeration

/-!
# Calls with numbers alone, continued

The functions of `zn_arithmetic.py` with optional arguments `phi`, `phi_divisors`, `n_factorization`, called without them, and
`necklaces`.  The other model files take the factorizations as parameters; here the calls of `factor` are included, in the
order in which they are made.  `T` is the table of primes, `fct` the splitting routine (with its random choices) used by
`factor`; `none` means that the call does not return.
-/

namespace Rosemary.ModularCalls

open Rosemary.Core Rosemary.ArithFunctions Rosemary.Factorization Rosemary.Zn Rosemary.IntegerCalls

/-- A call followed by `k`, which gets its result. -/
def andThen {α β : Type} (r : Option (Except PyErr α)) (k : α → Option (Except PyErr β)) : Option (Except PyErr β) :=
  match r with
  | none => none
  | some (.error e) => some (.error e)
  | some (.ok a) => k a

/-- zn_arithmetic.py:25-97 `is_primitive_root(a, n)`. -/
def isPrimitiveRootCall (T : List Nat) (fct : Nat → Nat → Option Nat) (a n : Int) : Option (Except PyErr Bool) :=
  if n ≤ 1 then some (.error .valueError)
  else if n > 4 ∧ n.fmod 4 = 0 then some (.ok false)
  else if gcd a n ≠ 1 then some (.ok false)
  else
    andThen (eulerPhiCall T fct n) fun phi =>
      andThen (primeDivisorsCall T fct phi) fun divs => some (.ok (noTrivialPower a n.toNat phi divs))

/-- zn_arithmetic.py:686-727 `multiplicative_order(a, n)`; `.ok none` is Python's `None`. -/
def multiplicativeOrderCall (T : List Nat) (fct : Nat → Nat → Option Nat) (a n : Int) :
    Option (Except PyErr (Option Nat)) :=
  if gcd a n ≠ 1 then some (.error .valueError)
  else
    andThen (eulerPhiCall T fct n) fun phi =>
      andThen (divisorsCall T fct phi) fun divs => some (.ok (divs.find? (fun d => pyPow a d n.toNat == 1)))

/-- zn_arithmetic.py:784-860 `quadratic_congruence([a, b, c], n)`; `n` is factored first (line 817), even when that
factorization is not used. -/
def quadraticCongruenceCall (T : List Nat) (fct : Nat → Nat → Option Nat) (rnd : Nat → Nat → Int) (a b c : Int) (n : Nat) :
    Option (Except PyErr (List Int)) :=
  withFactor T fct n fun fac =>
    let disc := b * b - 4 * a * c
    if gcd (2 * a) n = 1 then
      andThen (sqrtsModN rnd disc fac) fun ys =>
        andThen (some (inverseMod (2 * a) n)) fun inverse =>
          some (.ok (pySort (ys.map (fun y => ((y - b) * inverse).fmod n)) (· ≤ ·)))
    else
      match splitCoprime n 1 (4 * a) with
      | none => none
      | some (a1, _) =>
        andThen (sqrtsModNCall T fct rnd disc (a1 * n).toNat) fun ys =>
          andThen (some (linearAll a b (a1 * n) ys)) fun xs =>
            some (.ok (pySort (xs.map (fun x => x.fmod n)).dedup (· ≤ ·)))

/-- zn_arithmetic.py:186-228 `fibonacci_primitive_roots(p)`. -/
def fibonacciPrimitiveRootsCall (T : List Nat) (fct : Nat → Nat → Option Nat) (rnd : Nat → Int) (p : Nat) :
    Option (Except PyErr (List Int)) :=
  if p % 2 = 0 then some (.ok [])
  else if p = 5 then some (.ok [3])
  else if p < 5 then some (.ok [])
  else
    andThen (some (jacobiSymbol 5 p)) fun j =>
      if j ≠ 1 then some (.ok [])
      else
        andThen (sqrtsModP rnd 5 p) fun sqrts =>
          andThen (some (inverseMod 2 p)) fun inverse =>
            let quadRoots := sqrts.map (fun root => ((1 + root) * inverse).fmod p)
            andThen (primeDivisorsCall T fct (p - 1 : Nat)) fun divs =>
              some (.ok (pySort (quadRoots.filter (fun r => isPrimitiveRoot r p (p - 1) divs = .ok true)) (· ≤ ·)))

/-- enumeration.py:403-404. -/
def necklaceLoopCall (T : List Nat) (fct : Nat → Nat → Option Nat) (n k : Nat) : List Nat → Nat → Option (Except PyErr Nat)
  | [], ss => some (.ok ss)
  | d :: ds, ss => andThen (eulerPhiCall T fct d) fun phi => necklaceLoopCall T fct n k ds (ss + phi * k ^ (n / d))

/-- enumeration.py:360-405 `necklaces(n, k)` for `n ≥ 0`. -/
def necklacesCall (T : List Nat) (fct : Nat → Nat → Option Nat) (n k : Nat) : Option (Except PyErr Nat) :=
  withFactor T fct n fun fac => andThen (necklaceLoopCall T fct n k (xdivisors fac) 0) fun ss => some (.ok (ss / n))

end Rosemary.ModularCalls
