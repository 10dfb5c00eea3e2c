import Verif.Model.Py
import Mathlib.Algebra.Field.Rat
import Mathlib.Algebra.Order.Ring.Int

/-!
# Model of `number_theory/misc.py`

`largest_divisor`, `maximize_divisors` and `bernoulli_list`. `fractions.Fraction` is the type of rational numbers.
-/

namespace Rosemary.NtMisc

/-! ## largest_divisor (misc.py:9-72) -/

/-- misc.py:9-72 `largest_divisor(n, b)`. Line 34 looks up `rosemary.number_theory.factorization.factor`;
`rosemary/number_theory/factorization/` is a package whose `__init__.py` is empty and which has no
submodule `factor`, so the lookup raises `AttributeError` and lines 35-72 are never executed. -/
def largestDivisor (n b : Int) : Except PyErr Int :=
  if b = 0 then .error .zeroDivisionError
  else if n.fmod b = 0 then .ok b
  else .error .attributeError

/-! ## maximize_divisors (misc.py:75-136) -/

/-- misc.py:101-108 `p_list`: the primes whose running product `pp` stays within `B`. -/
def primesWithin (B : Int) : List Nat → Nat → List Nat
  | [], _ => []
  | prime :: rest, pp =>
    if ((pp * prime : Nat) : Int) ≤ B then prime :: primesWithin B rest (pp * prime) else []

/-- misc.py:114-116: `max_tau` is replaced when `tau` is larger. -/
def record (st : Nat × Nat) (tau total : Nat) : Nat × Nat := if tau > st.1 then (tau, total) else st

/-- misc.py:120-130, the `while k <= last_e` loop; `fuel` is `last_e + 1 - k` and `rec k t_total t_tau` is the
recursive call. -/
def backtrackLoop (B : Int) (total tau nextP : Nat) (rec : Nat → Nat → Nat → Nat × Nat → Nat × Nat) :
    Nat → Nat → Nat → Nat × Nat → Nat × Nat
  | 0, _, _, st => st
  | fuel + 1, k, tpk, st =>
    if ((total * tpk : Nat) : Int) ≤ B then
      backtrackLoop B total tau nextP rec fuel (k + 1) (tpk * nextP) (rec k (total * tpk) (tau * (k + 1)) st)
    else st

/-- misc.py:113-130 `backtrack(last_i, last_e, total, tau)`; the list is `p_list[last_i + 1:]`. -/
def backtrack (B : Int) : List Nat → Nat → Nat → Nat → Nat × Nat → Nat × Nat
  | [], _, total, tau, st => record st tau total
  | nextP :: rest, lastE, total, tau, st =>
    backtrackLoop B total tau nextP (fun k t u s => backtrack B rest k t u s) lastE 1 nextP (record st tau total)

/-- misc.py:132-135, the loop `while 2**k <= B`. -/
def topLoop (B : Int) (ps : List Nat) (k : Nat) (st : Nat × Nat) : Nat × Nat :=
  if ((2 ^ k : Nat) : Int) ≤ B then topLoop B ps (k + 1) (backtrack B ps k (2 ^ k) (k + 1) st) else st
termination_by (B + 1 - ((2 ^ k : Nat) : Int)).toNat
decreasing_by
  have : 2 ^ k < 2 ^ (k + 1) := Nat.pow_lt_pow_right (by omega) (by omega)
  omega

/-- misc.py:75-136 `maximize_divisors(B)`; `T` is `_PRIME_LIST`. The first entry of `p_list` is never read: line 133
uses the literal 2. -/
def maximizeDivisors (T : List Nat) (B : Int) : Nat × Nat :=
  topLoop B ((primesWithin B T 1).drop 1) 1 (1, 1)

/-! ## bernoulli_list (misc.py:139-175) -/

/-- misc.py:169-173, the body of the loop over `k`: the state is `(binom, total)`. -/
def bernoulliInner (values : List ℚ) (m : Nat) (st : Int × ℚ) (k : Nat) : Int × ℚ :=
  let binom := (st.1 * ((m : Int) + 2 - k)).fdiv k
  let v := values[k]?.getD 0
  (binom, if v ≠ 0 then st.2 + binom * v else st.2)

/-- misc.py:165-174, the body of the loop over `m`. -/
def bernoulliStep (values : List ℚ) (m : Nat) : List ℚ :=
  let st := (List.range' 1 (m - 1)).foldl (bernoulliInner values m) (1, 1)
  values.set m (-st.2 / (m + 1))

/-- misc.py:161-175 `bernoulli_list(n)`; `values[1]` does not exist for `n = 0`, and `values` is empty for
`n < 0`. -/
def bernoulliList (n : Int) : Except PyErr (List ℚ) :=
  if n ≤ 0 then .error .indexError
  else
    let values := ((List.replicate (n.toNat + 1) (0 : ℚ)).set 0 1).set 1 (-1 / 2)
    .ok ((List.range' 2 (n.toNat / 2) 2).foldl bernoulliStep values)

end Rosemary.NtMisc
