import Verif.Model.Pell

/-!
# Model of `pell_small` and `_pell_small_minimal_positive_solutions` in `diophantine_equations/pell.py`

The line `print (x, y)` (pell.py:175) is not modelled.
-/

namespace Rosemary.PellSmall

open Rosemary.Classification Rosemary.ContinuedFractions Rosemary.Pell

/-- pell.py:168-171 and 181-184: the guard and the construction of the object. -/
def guarded (D N : ℤ) : Option (Except PyErr QuadIrr) :=
  if D ≤ 0 then some (.error .valueError)
  else
    match isSquare D with
    | .error e => some (.error e)
    | .ok s =>
      if (match s with
        | none => false
        | some q => decide (q ≠ 0)) = true ∨ D * D ≤ N then some (.error .valueError)
      else quadraticIrrational D

/-- `x*x - D*y*y` for convergent number `i`. -/
def normAt (c : QuadIrr) (D : ℤ) (i : ℕ) : ℤ := (convergent c i).1 * (convergent c i).1 - D * (convergent c i).2 * (convergent c i).2

/-- pell.py:174-177: the pairs yielded while the first `k` convergents are read. -/
def yields (c : QuadIrr) (D N : ℤ) : ℕ → List (ℤ × ℤ)
  | 0 => []
  | k + 1 => if normAt c D k = N then yields c D N k ++ [convergent c k] else yields c D N k

/-- pell.py:167-177 `pell_small`.  The generator never ends; the result is the list of the pairs yielded up to each number
of convergents. -/
def pellSmall (D N : ℤ) : Option (Except PyErr (ℕ → List (ℤ × ℤ))) :=
  match guarded D N with
  | none => none
  | some (.error e) => some (.error e)
  | some (.ok c) => some (.ok (yields c D N))

/-- pell.py:185-191: the list `terms`, from convergent number `k` on. -/
def collect (c : QuadIrr) (D : ℤ) (k : ℕ) : Option (List (ℤ × ℤ)) :=
  if normAt c D k = 1 then some []
  else do
    let l ← collect c D (k + 1)
    some (convergent c k :: l)
partial_fixpoint

/-- pell.py:193-202: the list `sols`. -/
def multiples (D N : ℤ) : List (ℤ × ℤ) → Except PyErr (List (ℤ × ℤ))
  | [] => .ok []
  | (x, y) :: rest =>
    let k := x * x - D * y * y
    if k = 0 then .error .zeroDivisionError
    else if N.fmod k ≠ 0 then multiples D N rest
    else
      match isSquare (N.fdiv k) with
      | .error e => .error e
      | .ok none => multiples D N rest
      | .ok (some f) =>
        match multiples D N rest with
        | .error e => .error e
        | .ok l => .ok ((f * x, f * y) :: l)

/-- pell.py:180-205 `_pell_small_minimal_positive_solutions`. -/
def pellSmallMinimal (D N : ℤ) : Option (Except PyErr (List (ℤ × ℤ))) :=
  match guarded D N with
  | none => none
  | some (.error e) => some (.error e)
  | some (.ok c) =>
    match collect c D 0 with
    | none => none
    | some terms =>
      match multiples D N terms with
      | .error e => some (.error e)
      | .ok sols => some (.ok (pySort sols pairLe))

end Rosemary.PellSmall
