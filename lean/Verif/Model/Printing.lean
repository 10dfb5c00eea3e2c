import Verif.Model.Polynomials
import Verif.Model.Matrices

/-!
# Printed forms

`__repr__` of polynomials, matrices and quadratic irrationals with integer entries.  A string is the list of its characters.
-/

namespace Rosemary.Printing

/-- `str(c)` of an integer. -/
def strOf (c : Int) : List Char := if c < 0 then '-' :: Nat.toDigits 10 c.natAbs else Nat.toDigits 10 c.natAbs

/-- polynomials.py:76-87 `print_term(deg, coeff)`. -/
def printTerm (name : List Char) (deg : Nat) (coeff : Int) : List Char :=
  if deg = 0 then strOf coeff
  else (if coeff ≠ 1 then strOf coeff ++ ['*'] else []) ++ name ++ (if deg > 1 then '^' :: strOf deg else [])

/-- polynomials.py:94-100. -/
def printTerms (name : List Char) (degree : Nat) : List (Nat × Int) → List Char
  | [] => []
  | (deg, coeff) :: terms =>
    (if deg < degree then (if coeff < 0 then " - ".toList else " + ".toList) else []) ++
      printTerm name deg |coeff| ++ printTerms name degree terms

/-- polynomials.py:66-102 `__repr__` of the polynomial with the given coefficients, whose last one is not zero unless it is the
only one; `name` is the variable.  The sorting of line 74 reverses the list, which is ordered by the exponents. -/
def reprPoly (name : List Char) (f : List Int) : List Char :=
  if f.length = 1 then strOf (f.getD 0 0)
  else
    let degree := f.length - 1
    let terms := (((List.range (degree + 1)).map (fun i => (i, f.getD i 0))).filter (fun t => t.2 ≠ 0)).reverse
    match terms with
    | [] => ['0']
    | t :: ts => (if t.2 < 0 then ['-'] else []) ++ printTerms name degree (t :: ts)

/-- `s.rjust(n)`. -/
def rjust (n : Nat) (s : List Char) : List Char := List.replicate (n - s.length) ' ' ++ s

/-- matrices.py:65-69: the items of one row, with a blank after all but the last one. -/
def rowItems (maxLen : Nat) : List Int → List Char
  | [] => []
  | [x] => rjust maxLen (strOf x)
  | x :: y :: row => rjust maxLen (strOf x) ++ ' ' :: rowItems maxLen (y :: row)

/-- matrices.py:63-72. -/
def matrixItems (maxLen : Nat) : List (List Int) → List Char
  | [] => []
  | [row] => '[' :: rowItems maxLen row ++ [']']
  | row :: row' :: m => '[' :: rowItems maxLen row ++ ']' :: '\n' :: matrixItems maxLen (row' :: m)

/-- matrices.py:45-74 `__repr__`; lines 55-60 read all the entries first, for the length of the longest one. -/
def reprMatrix (m : Matrices.Entries) : Except PyErr (List Char) := do
  let rows ← (List.range (Matrices.nrows m)).mapM (fun i => (List.range (Matrices.ncols m)).mapM (fun j => Matrices.get m i j))
  let maxLen := rows.flatten.foldl (fun n x => if (strOf x).length > n then (strOf x).length else n) 0
  .ok (matrixItems maxLen rows)

/-- continued_fractions.py:23-37 `__repr__`, without the words in front.  Line 33 prints `q` where `p` is meant. -/
def reprQuad (d p q : Int) : List Char :=
  if p = 0 then
    if q = 1 then "sqrt(".toList ++ strOf d ++ ")".toList
    else "sqrt(".toList ++ strOf d ++ ")/".toList ++ strOf q
  else if q = 1 then strOf q ++ " + sqrt(".toList ++ strOf d ++ ")".toList
  else "(".toList ++ strOf p ++ " + sqrt(".toList ++ strOf d ++ "))/".toList ++ strOf q

end Rosemary.Printing
