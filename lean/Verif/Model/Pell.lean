import Verif.Model.ContinuedFractions
import Verif.Model.ZnArithmetic
import Verif.Model.Sort

/-!
# Model of the equation `x² - D y² = N` in `diophantine_equations/pell.py`

Parameters: `rnd` and `fac` are the random choices and the factorization of `D` that `sqrts_mod_n` uses, and `fb K` is the
value of `int((K / 2.0)**(0.5))`, which is computed with floating point numbers.
-/

namespace Rosemary.Pell

open Rosemary.Classification Rosemary.ContinuedFractions Rosemary.Zn

/-- `range(r, B, D)` for positive `D`. -/
def progression (r B D : ℤ) : List ℤ := (List.range ((B - r + D - 1) / D).toNat).map (fun i : ℕ => r + (i : ℤ) * D)

/-- pell.py:274-280: the pairs appended for one `x`. -/
def candidates (D N x : ℤ) : Except PyErr (List (ℤ × ℤ)) :=
  match isSquare ((x * x - N).fdiv D) with
  | .error e => .error e
  | .ok none => .ok []
  | .ok (some y) =>
    if y > 0 then
      if N = 0 then .error .zeroDivisionError
      else if (-x * x - D * y * y).fmod N = 0 ∧ (2 * x * y).fmod N = 0 then .ok [(x, (y : ℤ))]
      else .ok [(x, (y : ℤ)), (-x, (y : ℤ))]
    else .ok []

/-- pell.py:272-280: the list `fundamental_solutions`. -/
def fundamentalSolutions (D N : ℤ) : List ℤ → Except PyErr (List (ℤ × ℤ))
  | [] => .ok []
  | x :: xs =>
    match candidates D N x with
    | .error e => .error e
    | .ok l =>
      match fundamentalSolutions D N xs with
      | .error e => .error e
      | .ok m => .ok (l ++ m)

/-- pell.py:285-293. -/
def minimalOf (D N u v : ℤ) (s : ℤ × ℤ) : ℤ × ℤ :=
  if s.1 < 0 then
    let (p, q) := if N > 0 then (-s.1, -s.2) else s
    (p * u + q * v * D, p * v + q * u)
  else s

/-- The order of pairs. -/
def pairLe (a b : ℤ × ℤ) : Bool := a.1 < b.1 ∨ (a.1 = b.1 ∧ a.2 ≤ b.2)

/-- pell.py:208-297 `pell_minimal_positive_solutions`. -/
def minimalPositiveSolutions (rnd : ℕ → ℕ → ℤ) (fac : List (ℕ × ℕ)) (fb : ℤ → ℤ) (D N : ℤ) :
    Option (Except PyErr (List (ℤ × ℤ))) :=
  match pellFundamentalSolution D 1 with
  | none => none
  | some (.error e) => some (.error e)
  | some (.ok (u, v)) =>
    if N = 1 then some (.ok [(u, v)])
    else
      let B := if N > 0 then fb ((u + 1) * N) + 1 else fb ((u - 1) * (-N)) + 1
      match sqrtsModN rnd N fac with
      | none => none
      | some (.error e) => some (.error e)
      | some (.ok residues) =>
        match fundamentalSolutions D N (residues.flatMap (fun r => progression r B D)) with
        | .error e => some (.error e)
        | .ok sols => some (.ok (pySort (sols.map (minimalOf D N u v)) pairLe))

/-- pell.py:305-308: the pairs yielded from one minimal solution. -/
def chain (D u v B p q : ℤ) : Option (List (ℤ × ℤ)) :=
  if p ≤ B ∧ q ≤ B then do
    let l ← chain D u v B (p * u + q * v * D) (p * v + q * u)
    some ((p, q) :: l)
  else some []
partial_fixpoint

/-- pell.py:304-308. -/
def chains (D u v B : ℤ) : List (ℤ × ℤ) → Option (List (ℤ × ℤ))
  | [] => some []
  | s :: rest =>
    match chain D u v B s.1 s.2 with
    | none => none
    | some l =>
      match chains D u v B rest with
      | none => none
      | some m => some (l ++ m)

/-- pell.py:300-308 `pell_solution_generator`, as the list of the values. -/
def solutionGenerator (rnd : ℕ → ℕ → ℤ) (fac : List (ℕ × ℕ)) (fb : ℤ → ℤ) (D N B : ℤ) :
    Option (Except PyErr (List (ℤ × ℤ))) :=
  match pellFundamentalSolution D 1 with
  | none => none
  | some (.error e) => some (.error e)
  | some (.ok (u, v)) =>
    match minimalPositiveSolutions rnd fac fb D N with
    | none => none
    | some (.error e) => some (.error e)
    | some (.ok minimal) => (chains D u v B minimal).map .ok

end Rosemary.Pell
