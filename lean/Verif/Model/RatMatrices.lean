import Verif.Model.Matrices
import Verif.Model.RatPolys

/-!
# Matrices with rational entries (`MatrixQQ`)

The code of `algebra/matrices/matrices.py` run on `fractions.Fraction`; the class `MatrixQQ`
(matrices.py:347-348) has no code of its own.  The definitions are those of `Model/Matrices.lean` over the rational
numbers, with Python's `//` of fractions.
-/

namespace Rosemary.RatMatrices

open Rosemary.Matrices (forRange)
open Rosemary.RatPolys (floorDiv)

/-- `self.__entries`. -/
abbrev Entries := List (List ℚ)

/-- `m[i][j]`. -/
def get (m : Entries) (i j : ℕ) : Except PyErr ℚ :=
  match m[i]? with
  | none => .error .indexError
  | some row => match row[j]? with
    | none => .error .indexError
    | some x => .ok x

/-- `m[i][j] = x`. -/
def put (m : Entries) (i j : ℕ) (x : ℚ) : Except PyErr Entries :=
  match m[i]? with
  | none => .error .indexError
  | some row => if j < row.length then .ok (m.set i (row.set j x)) else .error .indexError

/-- `[[0]*c for _ in range(r)]`. -/
def zeros (r c : ℕ) : Entries := List.replicate r (List.replicate c 0)

/-- matrices.py:33-43, for a list of rows; `(entries, nrows, ncols)`. -/
def init (entries : Entries) : Except PyErr (Entries × ℕ × ℕ) :=
  match entries with
  | [] => .error .indexError
  | row :: _ => .ok (entries, entries.length, row.length)

/-- `self.__nrows`. -/
def nrows (m : Entries) : ℕ := m.length

/-- `self.__ncols`. -/
def ncols (m : Entries) : ℕ := (m.headD []).length

/-- `parent_class(result)`. -/
def construct (m : Entries) : Except PyErr Entries := (init m).map (fun r => r.1)

/-- matrices.py:88-120 `__add__` of two matrices.  Lines 105-106 read the dimensions of `self` instead of `other`, so that
the test of line 108 never fails. -/
def add (A B : Entries) : Except PyErr Entries :=
  if ncols A ≠ ncols A ∨ nrows A ≠ nrows A then .error .valueError
  else do
    let result ← forRange 0 (nrows A) (fun i R => forRange 0 (ncols A) (fun j R => do
      let x ← get A i j
      let y ← get B i j
      put R i j (x + y)) R) (zeros (nrows A) (ncols A))
    construct result

/-- matrices.py:131-147 `__neg__`. -/
def neg (A : Entries) : Except PyErr Entries := do
  let result ← forRange 0 (nrows A) (fun i R => forRange 0 (ncols A) (fun j R => do
    let x ← get A i j
    put R i j (-x)) R) (zeros (nrows A) (ncols A))
  construct result

/-- matrices.py:149-174 `__sub__` of two matrices. -/
def sub (A B : Entries) : Except PyErr Entries := do
  let result ← forRange 0 (nrows A) (fun i R => forRange 0 (ncols A) (fun j R => do
    let x ← get A i j
    let y ← get B i j
    put R i j (x - y)) R) (zeros (nrows A) (ncols A))
  construct result

/-- matrices.py:193-201 `__mul__` by a number (and matrices.py:233-240 `__rmul__`); every exception becomes a ValueError. -/
def scale (A : Entries) (c : ℚ) : Except PyErr Entries :=
  match (do
    let result ← forRange 0 (nrows A) (fun i R => forRange 0 (ncols A) (fun j R => do
      let x ← get A i j
      put R i j (c * x)) R) (zeros (nrows A) (ncols A))
    construct result : Except PyErr Entries) with
  | .ok r => .ok r
  | .error _ => .error .valueError

/-- matrices.py:203-219 `__mul__` of two matrices.  Line 210 allocates `other_ncols` rows of length `nrows`. -/
def mul (A B : Entries) : Except PyErr Entries :=
  if ncols A ≠ nrows B then .error .valueError
  else do
    let result ← forRange 0 (nrows A) (fun i R => forRange 0 (ncols B) (fun j R => do
      let total ← forRange 0 (ncols A) (fun k t => do
        let x ← get A i k
        let y ← get B k j
        .ok (t + x * y)) 0
      put R i j total) R) (zeros (ncols B) (nrows A))
    construct result

/-! ### `determinant` -/

/-- matrices.py:322-324: the value of `i` after the loop over the indices; without a round `i` keeps its value. -/
def findRow (m : Entries) (k : ℕ) : List ℕ → Option ℕ → Except PyErr (Option ℕ)
  | [], i => .ok i
  | i :: is, _ => do
    let x ← get m i k
    if x ≠ 0 then .ok (some i) else findRow m k is (some i)

/-- matrices.py:331-332. -/
def exchange (n i k : ℕ) (m : Entries) : Except PyErr Entries :=
  forRange k n (fun j m => do
    let a ← get m k j
    let b ← get m i j
    let m ← put m i j a
    put m k j b) m

/-- matrices.py:335-338. -/
def eliminate (n k : ℕ) (pivot den : ℚ) (m : Entries) : Except PyErr Entries :=
  forRange (k + 1) n (fun i m => forRange (k + 1) n (fun j m => do
    let x ← get m i j
    let y ← get m i k
    let z ← get m k j
    if den = 0 then .error .zeroDivisionError
    else put m i j (floorDiv (pivot * x - y * z) den)) m) m

/-- The value of `i` after lines 335-338. -/
def afterLoop (n k : ℕ) (i : Option ℕ) : Option ℕ := if k + 1 < n then some (n - 1) else i

/-- matrices.py:318-340: the loop over `k` and the result; the first argument is the number of rounds left.  The changed
entries are returned as well, as they are those of the matrix. -/
def detLoop (n : ℕ) : ℕ → ℕ → Entries → ℚ → ℚ → Option ℕ → Except PyErr (ℚ × Entries)
  | 0, _, m, _, sign, _ => do
    let x ← get m (n - 1) (n - 1)
    .ok (sign * x, m)
  | rem + 1, k, m, den, sign, i => do
    let pivot ← get m k k
    if pivot = 0 then do
      let i ← findRow m k (List.range' (k + 1) (n - (k + 1))) i
      match i with
      | none => .error .unboundLocalError
      | some i =>
        if i = n - 1 then .ok (0, m)
        else do
          let m ← exchange n i k m
          let pivot ← get m k k
          let m ← eliminate n k pivot den m
          detLoop n rem (k + 1) m pivot (-sign) (afterLoop n k (some i))
    else do
      let m ← eliminate n k pivot den m
      detLoop n rem (k + 1) m pivot sign (afterLoop n k i)

/-- matrices.py:285-340 `determinant`: the value, and the entries of the matrix afterwards. -/
def determinant (m : Entries) : Except PyErr (ℚ × Entries) :=
  if nrows m ≠ ncols m then .error .valueError else detLoop (ncols m) (ncols m) 0 m 1 1 none

end Rosemary.RatMatrices
