import Verif.Model.Primality

/-!
# Model of `number_theory/continued_fractions.py` and of part of `diophantine_equations/pell.py`

The generators `partial_quotients` and `convergents` are infinite; they are modelled by the function that gives the
values in turn.
-/

namespace Rosemary.ContinuedFractions

open Rosemary.Core Rosemary.Classification

/-- The attributes of a `QuadraticIrrational` that the initializers set. -/
structure QuadIrr where
  periodLength : ℕ
  prePeriod : List ℤ
  fundamentalPeriod : List ℤ
  deriving DecidableEq, Repr

/-- continued_fractions.py:98-108: the loop of `_initialize_sqrt`.  `//` is floor division and raises for `Q = 0`. -/
def sqrtLoop (d r P Q : ℤ) (terms : List ℤ) : Option (Except PyErr (List ℤ)) :=
  if Q = 0 then some (.error .zeroDivisionError)
  else
    let q := (P + r).fdiv Q
    if q = 2 * r then some (.ok (terms ++ [q]))
    else
      let P' := q * Q - P
      sqrtLoop d r P' ((d - P' * P').fdiv Q) (terms ++ [q])
partial_fixpoint

/-- continued_fractions.py:87-112 `_initialize_sqrt`. -/
def initSqrt (d : ℤ) : Option (Except PyErr QuadIrr) :=
  match integerSqrt d with
  | .error e => some (.error e)
  | .ok r =>
    if (r : ℤ) * r = d then some (.error .valueError)
    else
      match sqrtLoop d r 0 1 [] with
      | none => none
      | some (.error e) => some (.error e)
      | some (.ok terms) => some (.ok ⟨terms.length - 1, [(r : ℤ)], terms.tail⟩)

/-- continued_fractions.py:68-81: the loop of `_initialize_quadratic`; the dictionary `pq_pairs` is a list of its items and
`i` is the counter.  The result is the list of partial quotients and the index `j`. -/
def quadLoop (D r P Q : ℤ) (pairs : List ((ℤ × ℤ) × ℕ)) (quotients : List ℤ) (i : ℕ) : Option (Except PyErr (List ℤ × ℕ)) :=
  if Q = 0 then some (.error .zeroDivisionError)
  else
    let a := (P + r).fdiv Q
    let P' := a * Q - P
    let Q' := (D - P' * P').fdiv Q
    match pairs.find? (fun e => e.1 = (P', Q')) with
    | some e => some (.ok (quotients ++ [a], e.2))
    | none => quadLoop D r P' Q' (pairs ++ [((P', Q'), i)]) (quotients ++ [a]) (i + 1)
partial_fixpoint

/-- continued_fractions.py:39-85 `_initialize_quadratic`. -/
def initQuadratic (d p q : ℤ) : Option (Except PyErr QuadIrr) :=
  match integerSqrt d with
  | .error e => some (.error e)
  | .ok r =>
    if (r : ℤ) * r = d then some (.error .valueError)
    else if q = 0 then some (.error .zeroDivisionError)
    else if (d - p * p).fmod q = 0 then finish (quadLoop d r p q [((p, q), 0)] [] 1)
    else
      match integerSqrt (q * q * d) with
      | .error e => some (.error e)
      | .ok r' => finish (quadLoop (q * q * d) r' (|q| * p) (|q| * q) [((p, q), 0)] [] 1)
where
  /-- continued_fractions.py:83-85: `k` is the number of quotients found. -/
  finish : Option (Except PyErr (List ℤ × ℕ)) → Option (Except PyErr QuadIrr)
    | none => none
    | some (.error e) => some (.error e)
    | some (.ok (quotients, j)) => some (.ok ⟨quotients.length - j, quotients.take j, quotients.drop j⟩)

/-- continued_fractions.py:11-21 `QuadraticIrrational(d, p, q)`. -/
def quadraticIrrational (d : ℤ) (p : ℤ := 0) (q : ℤ := 1) : Option (Except PyErr QuadIrr) :=
  if p = 0 ∧ q = 1 then initSqrt d else initQuadratic d p q

/-- continued_fractions.py:114-130: value number `n` of `partial_quotients`, for a nonempty period. -/
def partialQuotient (c : QuadIrr) (n : ℕ) : ℤ :=
  if n < c.prePeriod.length then c.prePeriod.getD n 0
  else c.fundamentalPeriod.getD ((n - c.prePeriod.length) % c.fundamentalPeriod.length) 0

/-- continued_fractions.py:149-156: the variables `a0, a1, b0, b1` after `n` iterations, for the partial quotients `a`. -/
def convergentState (a : ℕ → ℤ) : ℕ → ℤ × ℤ × ℤ × ℤ
  | 0 => (0, 1, 1, 0)
  | n + 1 =>
    let (a0, a1, b0, b1) := convergentState a n
    (a1, a n * a1 + a0, b1, a n * b1 + b0)

/-- continued_fractions.py:132-157: value number `n` of `convergents`. -/
def convergent (c : QuadIrr) (n : ℕ) : ℤ × ℤ :=
  let (_, a1, _, b1) := convergentState (partialQuotient c) (n + 1)
  (a1, b1)

/-- pell.py:162-164: the search through the convergents, from number `k` on. -/
def searchConvergents (c : QuadIrr) (D n : ℤ) (k : ℕ) : Option (ℤ × ℤ) :=
  let (x, y) := convergent c k
  if x * x - D * y * y = n then some (x, y) else searchConvergents c D n (k + 1)
partial_fixpoint

/-- pell.py:92-164 `pell_fundamental_solution`. -/
def pellFundamentalSolution (D : ℤ) (n : ℤ := 1) : Option (Except PyErr (ℤ × ℤ)) :=
  if D ≤ 0 then some (.error .valueError)
  else
    match isSquare D with
    | .error e => some (.error e)
    | .ok s =>
      if (match s with
        | none => false
        | some q => decide (q ≠ 0)) = true ∨ (n ≠ 1 ∧ n ≠ -1) then some (.error .valueError)
      else
        match quadraticIrrational D with
        | none => none
        | some (.error e) => some (.error e)
        | some (.ok c) =>
          if n = -1 ∧ c.periodLength % 2 = 0 then some (.error .valueError)
          else (searchConvergents c D n 0).map .ok

end Rosemary.ContinuedFractions
