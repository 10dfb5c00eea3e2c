import Verif.Model.Factorization
import Verif.Model.Sieves

/-!
# Model of the entry points of the Pollard methods (`factorization/algorithms.py`)

`Model/Factorization.lean` models the loops of `pollard_p_minus_1`, `pollard_rho` and
`pollard_rho_brent` for given prime powers and given random numbers.  This file adds what comes before
the loops: the list of prime powers, and the calls of `randint`.
-/

namespace Rosemary.Factorization

open Rosemary.Core Rosemary.Primality Rosemary.Sieves

/-- algorithms.py:266-270, the loop `while pk <= limit` for the prime `p`, from `pk`.  (For `p < 2` or
`pk = 0` the loop would not end; it is entered with primes only.) -/
def powersUpTo (p limit : Nat) (pk : Nat) : List (Nat × Nat) :=
  if _h : 2 ≤ p ∧ 0 < pk ∧ pk ≤ limit then (pk, p) :: powersUpTo p limit (pk * p) else []
termination_by limit + 1 - pk
decreasing_by
  have : pk * 2 ≤ pk * p := Nat.mul_le_mul le_rfl _h.1
  omega

/-- algorithms.py:218-282 `pollard_p_minus_1(n, limit)`, for `n ≥ 1`; `T` is the table of primes used by
`sieves.primes`. -/
def pollardPMinusOneCall (T : List Nat) (n limit : Nat) : Except PyErr Int :=
  match primes T limit with
  | .error e => .error e
  | .ok ps =>
    let powList := ps.flatMap (fun p => powersUpTo p limit p)
    .ok (pollardPMinusOne (pySort powList (fun a b => decide (a.1 < b.1 ∨ (a.1 = b.1 ∧ a.2 ≤ b.2)))) n)

/-- `random.randint(a, b)`: ValueError if the range is empty; otherwise the number `x` that is drawn. -/
def randintOf (a b x : Int) : Except PyErr Int :=
  if b < a then .error .valueError else .ok x

/-- algorithms.py:329-356 `pollard_rho(n, iterations)` with the calls of `randint`; `a`, `u` are the
numbers drawn.  `none` means divergence. -/
def pollardRhoCall (n : Int) (iterations : Option Nat) (a u : Int) : Except PyErr (Option Int) :=
  match randintOf 1 (n - 3) a with
  | .error e => .error e
  | .ok a =>
    match randintOf 0 (n - 1) u with
    | .error e => .error e
    | .ok u => .ok (pollardRho n a u iterations)

/-- algorithms.py:403-433 `pollard_rho_brent(n)` with the calls of `randint`. -/
def pollardRhoBrentCall (n : Int) (c y : Int) : Except PyErr (Option Int) :=
  match randintOf 1 (n - 3) c with
  | .error e => .error e
  | .ok c =>
    match randintOf 0 (n - 1) y with
    | .error e => .error e
    | .ok y => .ok (pollardRhoBrent n c y)

end Rosemary.Factorization
