import Verif.Model.MeisselLehmer
import Verif.Model.BitSieve

/-!
# Model of `lmo_bit` (primes/prime_counting.py:302-352)

The function computes its three roots with floats: `root = int(x**(2.0/3.0))` (303),
`t = x**(0.33333333333333)` (306) and `x**(0.5)` (309).  `t` and the square root are only compared with
integers (`bisect` in a list of integers, `n <= t`, `n > t`), so that only their integer parts matter.
The three integer parts are parameters `root`, `t`, `r`.  The argument `x` is a natural number.
-/

namespace Rosemary.PrimeCounting

open Rosemary.Core Rosemary.Sieves Rosemary.BitSieve

/-- prime_counting.py:346-350. -/
def lmoBitLeaves (s : SieveArray) : List (Nat × Int) → Int → Except PyErr Int
  | [], value => .ok value
  | (v, sign) :: rest, value =>
    match partialSumArray s v with
    | .error e => .error e
    | .ok k =>
      if sign > 0 then lmoBitLeaves s rest (value + k)
      else lmoBitLeaves s rest (value - k)

/-- prime_counting.py:341-350. -/
def lmoBitSieve (primes : List Nat) (special : Special) : List Nat → SieveArray → Int → Except PyErr Int
  | [], _, value => .ok value
  | a :: as, s, value =>
    match primes[a - 1]? with
    | none => .error .indexError
    | some p =>
      match markMultiplesArray s p with
      | .error e => .error e
      | .ok s =>
        match special.get? a with
        | none => .error .keyError
        | some leaves =>
          match lmoBitLeaves s (pySort leaves leLeaf) value with
          | .error e => .error e
          | .ok value => lmoBitSieve primes special as s value

/-- prime_counting.py:302-352 `lmo_bit`; lines 311-335 are word for word those of `lmo`. -/
def lmoBit (T : List Nat) (root t r x : Nat) : Except PyErr Int :=
  match primes T root with
  | .error e => .error e
  | .ok ps =>
    let c := bisectRight ps t
    let b := bisectRight ps r
    match lmoSum ps x (pyRange c b) ((((b : Int) + c - 2) * (b - c + 1)).fdiv 2) with
    | .error e => .error e
    | .ok value =>
      match lmoStack ps x t (2 ^ (c + 1)) [(1, c, 1)] value [] with
      | .error e => .error e
      | .ok (value, special) =>
        match initArray root with
        | .error e => .error e
        | .ok s => lmoBitSieve ps special (pySort (Rosemary.Dict.keys special) (· ≤ ·)) s value

end Rosemary.PrimeCounting
