import Verif.Model.Factorization
import Verif.Model.ZnArithmetic

/-!
# The passes of the loops of the deterministic factoring methods and of `discrete_log`

The functions of `factorization/algorithms.py` and `zn_arithmetic.py` once more with the branches of
`Verif/Model/Primality.lean`, `Verif/Model/Factorization.lean` and `Verif/Model/ZnArithmetic.lean`, now counting how often
the bodies of the loops are run.  Every pass does a bounded number of operations on integers not much larger than the
argument (square roots and greatest common divisors counting as operations).
-/

namespace Rosemary.Factorization

open Rosemary.Core Rosemary.Primality

/-- algorithms.py:90-95, the wheel loop with the numbers of divisions `n % d`. -/
def wheelPasses (n bound d : Nat) : Except PyErr Nat × Nat :=
  if _h : d ≤ bound then
    if n % d = 0 then (.ok d, 1)
    else
      match _ho : wheelOffset (d % 30) with
      | none => (.error .keyError, 1)
      | some o =>
        let r := wheelPasses n bound (d + o)
        (r.1, r.2 + 1)
  else (.ok n, 0)
termination_by bound + 1 - d
decreasing_by
  have := wheelOffset_pos _ho
  omega

/-- algorithms.py:78-88. -/
def trialTablePasses (n bound : Nat) (d : Nat) : List Nat → Except PyErr Nat × Nat
  | [] =>
    match wheelOffset (d % 30) with
    | none => (.error .keyError, 0)
    | some o => wheelPasses n bound (d + o)
  | p :: rest =>
    if p > bound then (.ok n, 0)
    else if n % p = 0 then (.ok p, 1)
    else
      let r := trialTablePasses n bound p rest
      (r.1, r.2 + 1)

/-- algorithms.py:74-95 `trial_division(n)` with the number of divisions. -/
def trialDivisionPasses (T : List Nat) (n : Nat) : Except PyErr Nat × Nat :=
  match integerSqrt n with
  | .error e => (.error e, 0)
  | .ok s => trialTablePasses n (s + 1) 0 T

/-- algorithms.py:140-146. -/
def fermatLoopPasses (n a : Nat) : Nat → Except PyErr Int × Nat
  | 0 => (.ok n, 0)
  | k + 1 =>
    let t : Int := a * a - n
    match integerSqrt t with
    | .error e => (.error e, 1)
    | .ok b =>
      if (b * b : Int) = t then (.ok (a - b), 1)
      else
        let r := fermatLoopPasses n (a + 1) k
        (r.1, r.2 + 1)

/-- algorithms.py:137-146 `fermat` with the passes of its loop. -/
def fermatPasses (n : Nat) : Except PyErr Int × Nat :=
  if n % 2 = 0 then (.ok 2, 0)
  else
    match integerSqrt n with
    | .error e => (.error e, 0)
    | .ok s => fermatLoopPasses n (s + 1) ((n + 9) / 6 + 1 - (s + 1))

/-- algorithms.py:206-207 with the number of increments. -/
def lehmanAlignPasses (m rm : Nat) : Nat → Nat → Nat × Nat
  | 0, a => (a, 0)
  | fuel + 1, a =>
    if a % m ≠ rm then
      let r := lehmanAlignPasses m rm fuel (a + 1)
      (r.1, r.2 + 1)
    else (a, 0)

/-- algorithms.py:209-214 with the number of candidates `a`. -/
def lehmanInnerPasses (n fkn ub m : Nat) (hm : 0 < m) (a : Nat) : Except PyErr (Option Int) × Nat :=
  if _h : fkn ≤ a * a ∧ a * a ≤ ub then
    let c := a * a - fkn
    match integerSqrt c with
    | .error e => (.error e, 1)
    | .ok b =>
      if b * b = c then (.ok (some (gcd (a + b) n)), 1)
      else
        let r := lehmanInnerPasses n fkn ub m hm (a + m)
        (r.1, r.2 + 1)
  else (.ok none, 0)
termination_by ub + 1 - a
decreasing_by
  have : a ≤ a * a := Nat.le_mul_self a
  omega

/-- algorithms.py:193-215 with the passes of the loop over `k` and of the loops in it. -/
def lehmanLoopPasses (n bound k : Nat) : Nat → Except PyErr Int × Nat
  | 0 => (.ok n, 0)
  | j + 1 =>
    let r := if k % 2 = 0 then 1 else k + n
    let m := if k % 2 = 0 then 2 else 4
    let fkn := 4 * k * n
    match integerSqrt fkn with
    | .error e => (.error e, 1)
    | .ok a =>
      let al := lehmanAlignPasses m (r % m) m a
      let inner := lehmanInnerPasses n fkn (fkn + bound ^ 2) m (by dsimp only [m]; split <;> omega) al.1
      match inner.1 with
      | .error e => (.error e, 1 + al.2 + inner.2)
      | .ok (some d) => (.ok d, 1 + al.2 + inner.2)
      | .ok none =>
        let rest := lehmanLoopPasses n bound (k + 1) j
        (rest.1, 1 + al.2 + inner.2 + rest.2)

/-- algorithms.py:187-215 `lehman` with the passes of all its loops and the divisions of `trial_division`. -/
def lehmanPasses (T : List Nat) (n : Nat) : Except PyErr Int × Nat :=
  match integerNthRoot 3 n with
  | .error e => (.error e, 0)
  | .ok bound =>
    let td := trialTablePasses n bound 0 T
    match td.1 with
    | .error e => (.error e, td.2)
    | .ok d =>
      if d < n then (.ok d, td.2)
      else
        let l := lehmanLoopPasses n bound 1 bound
        (l.1, td.2 + l.2)

end Rosemary.Factorization

namespace Rosemary.Zn

open Rosemary.Core

/-- zn_arithmetic.py:672-678 with the number of dictionary lookups. -/
def giantStepsPasses (a : Int) (p m : Nat) (cache : List (Int × Nat)) (k : Nat) : Nat → Int → Nat × Nat
  | 0, _ => (1, 0)
  | j + 1, val =>
    match cache.lookup val with
    | some i => (i * m - k, 1)
    | none =>
      let r := giantStepsPasses a p m cache (k + 1) j ((val * a).fmod p)
      (r.1, r.2 + 1)

/-- zn_arithmetic.py:661-683 `discrete_log` with the dictionary entries written and looked up. -/
def discreteLogPasses (a b : Int) (p : Nat) : Except PyErr Nat × Nat :=
  match integerSqrt p with
  | .error e => (.error e, 0)
  | .ok s =>
    let m := s + 1
    let am := pyPow a m p
    let cache := babySteps am p 1 m am []
    let x := giantStepsPasses a p m cache 0 (m + 1) b
    if pyPow a x.1 p = b.fmod p then (.ok x.1, cache.length + x.2) else (.error .valueError, cache.length + x.2)

end Rosemary.Zn
