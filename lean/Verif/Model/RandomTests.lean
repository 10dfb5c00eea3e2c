import Verif.Model.Pollard

/-!
# Model of the calls of `primes/primality.py` that draw random numbers

`Model/Primality.lean` models the tests for a given base; here `a=None`, and the base is drawn by `randint`.
-/

namespace Rosemary.Primality

open Rosemary.Factorization

/-- primality.py:17-69 `solovay_strassen(n)`; `x` is the number drawn in line 64. -/
def solovayStrassenCall (n : Nat) (x : Int) : Except PyErr Bool :=
  match randintOf 2 ((n : Int) - 2) x with
  | .error e => .error e
  | .ok a => solovayStrassen n a

/-- primality.py:72-110 `miller_rabin(n)` for `n ≥ 2`; `x` is the number drawn in line 94. -/
def millerRabinCall (n : Nat) (x : Int) : Except PyErr Bool :=
  match randintOf 2 ((n : Int) - 2) x with
  | .error e => .error e
  | .ok a => .ok (millerRabin n a.toNat)

/-- primality.py:272-279 `random_prime(a, b)`; `rnd i` is the number drawn by the `i`-th call of `randint(a, b)`, which raises
ValueError on an empty interval. -/
def randomPrimeCall (T : List Nat) (a b : Int) (rnd : Nat → Int) : Option (Except PyErr Int) :=
  if b < a then some (.error .valueError) else randomPrimeLoop T rnd 0

end Rosemary.Primality
