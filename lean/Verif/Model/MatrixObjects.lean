import Verif.Model.Matrices
import Mathlib.Logic.Function.Basic
import Mathlib.Data.List.Range

/-!
# Matrices as objects (`algebra/matrices/matrices.py`)

`Model/Matrices.lean` treats a matrix as the list of its rows.  In Python the rows are list objects of
their own, and several matrices can contain the same row object.  Here the rows live in a store, and a
matrix is the list of the addresses of its rows.  Only rows of the store are changed in place; no method
of the class changes the outer list or the length of a row.
-/

namespace Rosemary.MatrixObjects

open Rosemary.Matrices

/-- The row objects: the entries of the row at an address, and the first address not in use. -/
structure Store where
  rows : ℕ → List ℤ
  next : ℕ

/-- What the matrix with the given row addresses looks like. -/
def Store.view (s : Store) (m : List ℕ) : Entries := m.map s.rows

/-- The addresses are in use. -/
def Store.Has (s : Store) (m : List ℕ) : Prop := ∀ a ∈ m, a < s.next

/-- `m[i][j]`. -/
def getObj (s : Store) (m : List ℕ) (i j : ℕ) : Except PyErr ℤ :=
  match m[i]? with
  | none => .error .indexError
  | some a => match (s.rows a)[j]? with
    | none => .error .indexError
    | some x => .ok x

/-- matrices.py:82-86 `m[i][j] = x` and `m[(i, j)] = x`: the row object is changed. -/
def putObj (s : Store) (m : List ℕ) (i j : ℕ) (x : ℤ) : Except PyErr Store :=
  match m[i]? with
  | none => .error .indexError
  | some a =>
    if j < (s.rows a).length then .ok { s with rows := Function.update s.rows a ((s.rows a).set j x) }
    else .error .indexError

/-- New row objects with the given contents. -/
def Store.alloc (s : Store) (L : Entries) : Store × List ℕ :=
  (⟨fun a => if s.next ≤ a ∧ a < s.next + L.length then L.getD (a - s.next) [] else s.rows a,
    s.next + L.length⟩, List.range' s.next L.length)

/-- `self.__ncols`. -/
def ncolsObj (s : Store) (m : List ℕ) : ℕ := ncols (s.view m)

/-- matrices.py:37, 41-43 `Matrix(m)`: `list(m)` is a new outer list with the same row objects. -/
def constructObj (s : Store) (m : List ℕ) : Except PyErr (Store × List ℕ) :=
  match m with
  | [] => .error .indexError
  | _ :: _ => .ok (s, m)

/-- The nested loops that fill a new matrix with `nr` rows of length `nc`, for `i < r` and `j < c`. -/
def fill (s : Store) (nr nc r c : ℕ) (f : Store → ℕ → ℕ → Except PyErr ℤ) : Except PyErr (Store × List ℕ) := do
  let sR := s.alloc (zeros nr nc)
  let s ← forRange 0 r (fun i s => forRange 0 c (fun j s => do
    let x ← f s i j
    putObj s sR.2 i j x) s) sR.1
  constructObj s sR.2

/-- matrices.py:88-120 `__add__`. -/
def addObj (s : Store) (A B : List ℕ) : Except PyErr (Store × List ℕ) :=
  fill s A.length (ncolsObj s A) A.length (ncolsObj s A) (fun s i j => do
    let x ← getObj s A i j
    let y ← getObj s B i j
    .ok (x + y))

/-- matrices.py:131-147 `__neg__`. -/
def negObj (s : Store) (A : List ℕ) : Except PyErr (Store × List ℕ) :=
  fill s A.length (ncolsObj s A) A.length (ncolsObj s A) (fun s i j => do
    let x ← getObj s A i j
    .ok (-x))

/-- matrices.py:149-174 `__sub__`; `list(self.__entries)` has the same row objects. -/
def subObj (s : Store) (A B : List ℕ) : Except PyErr (Store × List ℕ) :=
  fill s A.length (ncolsObj s A) A.length (ncolsObj s A) (fun s i j => do
    let x ← getObj s A i j
    let y ← getObj s B i j
    .ok (x - y))

/-- matrices.py:193-201 `__mul__` by a number. -/
def scaleObj (s : Store) (A : List ℕ) (c : ℤ) : Except PyErr (Store × List ℕ) :=
  match fill s A.length (ncolsObj s A) A.length (ncolsObj s A) (fun s i j => do
    let x ← getObj s A i j
    .ok (c * x)) with
  | .ok r => .ok r
  | .error _ => .error .valueError

/-- matrices.py:203-219 `__mul__` of two matrices. -/
def mulObj (s : Store) (A B : List ℕ) : Except PyErr (Store × List ℕ) :=
  if ncolsObj s A ≠ B.length then .error .valueError
  else fill s (ncolsObj s B) A.length A.length (ncolsObj s B) (fun s' i j =>
    forRange 0 (ncolsObj s A) (fun k t => do
      let x ← getObj s' A i k
      let y ← getObj s' B k j
      .ok (t + x * y)) 0)

/-- matrices.py:260-272 `delete_col`: the rows are new lists. -/
def deleteColObj (s : Store) (A : List ℕ) (idx : ℕ) : Except PyErr (Store × List ℕ) :=
  let sR := s.alloc ((s.view A).map (fun row => row.eraseIdx idx))
  constructObj sR.1 sR.2

/-- matrices.py:274-283 `delete_row`: the row objects themselves are appended (line 280). -/
def deleteRowObj (s : Store) (A : List ℕ) (idx : ℕ) : Except PyErr (Store × List ℕ) :=
  constructObj s (A.eraseIdx idx)

/-- matrices.py:322-324. -/
def findRowObj (s : Store) (m : List ℕ) (k : ℕ) : List ℕ → Option ℕ → Except PyErr (Option ℕ)
  | [], i => .ok i
  | i :: is, _ => do
    let x ← getObj s m i k
    if x ≠ 0 then .ok (some i) else findRowObj s m k is (some i)

/-- matrices.py:331-332. -/
def exchangeObj (m : List ℕ) (n i k : ℕ) (s : Store) : Except PyErr Store :=
  forRange k n (fun j s => do
    let a ← getObj s m k j
    let b ← getObj s m i j
    let s ← putObj s m i j a
    putObj s m k j b) s

/-- matrices.py:335-338. -/
def eliminateObj (m : List ℕ) (n k : ℕ) (pivot den : ℤ) (s : Store) : Except PyErr Store :=
  forRange (k + 1) n (fun i s => forRange (k + 1) n (fun j s => do
    let x ← getObj s m i j
    let y ← getObj s m i k
    let z ← getObj s m k j
    if den = 0 then .error .zeroDivisionError
    else putObj s m i j ((pivot * x - y * z).fdiv den)) s) s

/-- matrices.py:318-340. -/
def detLoopObj (m : List ℕ) (n : ℕ) : ℕ → ℕ → Store → ℤ → ℤ → Option ℕ → Except PyErr (ℤ × Store)
  | 0, _, s, _, sign, _ => do
    let x ← getObj s m (n - 1) (n - 1)
    .ok (sign * x, s)
  | rem + 1, k, s, den, sign, i => do
    let pivot ← getObj s m k k
    if pivot = 0 then do
      let i ← findRowObj s m k (List.range' (k + 1) (n - (k + 1))) i
      match i with
      | none => .error .unboundLocalError
      | some i =>
        if i = n - 1 then .ok (0, s)
        else do
          let s ← exchangeObj m n i k s
          let pivot ← getObj s m k k
          let s ← eliminateObj m n k pivot den s
          detLoopObj m n rem (k + 1) s pivot (-sign) (afterLoop n k (some i))
    else do
      let s ← eliminateObj m n k pivot den s
      detLoopObj m n rem (k + 1) s pivot sign (afterLoop n k i)

/-- matrices.py:285-340 `determinant`; line 316 works on the rows of the matrix itself. -/
def determinantObj (s : Store) (m : List ℕ) : Except PyErr (ℤ × Store) :=
  if m.length ≠ ncolsObj s m then .error .valueError
  else detLoopObj m (ncolsObj s m) (ncolsObj s m) 0 s 1 1 none

end Rosemary.MatrixObjects
