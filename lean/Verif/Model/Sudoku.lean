import Verif.Model.ExactCover

/-!
# Model of the Sudoku solver of `combinatorics/optimization/exact_cover.py`

A string is the list of its characters.  The set elements `"{}O{}".format(row, col)` and so on are strings of three
characters (two decimal digits with a letter between); here they are triples.  The order in which a Python set of them
is iterated is a parameter `ordK`.
-/

namespace Rosemary.Sudoku

open ExactCover

/-- The string of the first number, the letter and the second number. -/
abbrev Key := ℕ × Char × ℕ

/-- The entries of a list of rows. -/
abbrev Board := List (List ℕ)

/-- `M[r][c]` for a position on the board. -/
def cell (M : Board) (r c : ℕ) : ℕ := (M.getD r []).getD c 0

/-- `M[r][c] = v` for a position on the board. -/
def setCell (M : Board) (r c v : ℕ) : Board := M.set r ((M.getD r []).set c v)

/-- `int(d)` for one character; of the decimal digits of Unicode only those of ASCII. -/
def intOfChar (d : Char) : Except PyErr ℕ :=
  if '0' ≤ d ∧ d ≤ '9' then .ok (d.toNat - '0'.toNat) else .error .valueError

/-- exact_cover.py:14-15: the loop from index `i` on. -/
def parseLoop (M : Board) : ℕ → List Char → Except PyErr Board
  | _, [] => .ok M
  | i, d :: ds =>
    match intOfChar d with
    | .error e => .error e
    | .ok v => if i / 9 < M.length then parseLoop (setCell M (i / 9) (i % 9) v) (i + 1) ds else .error .indexError

/-- exact_cover.py:12-16 `parse`. -/
def parse (digits : List Char) : Except PyErr Board := parseLoop (List.replicate 9 (List.replicate 9 0)) 0 digits

/-- exact_cover.py:4-9 `to_string`, for a board of nine rows and nine columns. -/
def toStr (entries : Board) : List Char :=
  (List.range 9).flatMap (fun i => (List.range 9).flatMap (fun j => Nat.toDigits 10 (cell entries i j)))

/-- exact_cover.py:254-264. -/
def blockIdx : Dict (ℕ × ℕ) ℕ :=
  [((0, 0), 0), ((0, 3), 1), ((0, 6), 2), ((3, 0), 3), ((3, 3), 4), ((3, 6), 5), ((6, 0), 6), ((6, 3), 7), ((6, 6), 8)]

/-- exact_cover.py:274-281: the set for one digit in one cell. -/
def cellEntries (row col digit : ℕ) : Except PyErr (Finset Key) :=
  match blockIdx.get? (row - row % 3, col - col % 3) with
  | none => .error .keyError
  | some b => .ok {(row, 'O', col), (digit, 'R', row), (digit, 'C', col), (digit, 'B', b)}

/-- exact_cover.py:268-271. -/
def cellDigits (M : Board) (row col : ℕ) : List ℕ :=
  if cell M row col = 0 then List.range' 1 9 else [cell M row col]

/-- exact_cover.py:252-285 `sudoku_vectors`, for a board of nine rows and nine columns. -/
def sudokuVectors (M : Board) : Except PyErr (List (Finset Key)) :=
  ((List.range 9).flatMap (fun row => (List.range 9).flatMap (fun col =>
    (cellDigits M row col).map (fun digit => (row, col, digit))))).mapM (fun t => cellEntries t.1 t.2.1 t.2.2)

/-- exact_cover.py:298-304: the loop over the elements of one set; the local variables `r`, `c` and `d` keep the values
that they had before. -/
def scan (st : Option ℕ × Option ℕ × Option ℕ) : List Key → Option ℕ × Option ℕ × Option ℕ
  | [] => st
  | e :: es =>
    let st := if e.2.1 = 'O' then (some e.1, some e.2.2, st.2.2) else st
    let st := if e.2.1 = 'C' then (st.1, st.2.1, some e.1) else st
    scan st es

/-- exact_cover.py:297-306. -/
def fillLoop (st : Option ℕ × Option ℕ × Option ℕ) (M : Board) : List (List Key) → Except PyErr Board
  | [] => .ok M
  | entry :: es =>
    match scan st entry with
    | (some r, some c, some d) => fillLoop (some r, some c, some d) (setCell M r c d) es
    | _ => .error .unboundLocalError

/-- exact_cover.py:288-308 `sudoku_dlx`. -/
def sudokuDlx (ord : Finset ℕ → List ℕ) (ordK : Finset Key → List Key) (a : List Char) : Except PyErr (List Char) :=
  match parse a with
  | .error e => .error e
  | .ok M =>
    match sudokuVectors M with
    | .error e => .error e
    | .ok vecs =>
      let target := vecs.foldl (· ∪ ·) ∅
      match algorithmx ord (ordK target) (vecs.map ordK) with
      | .error e => .error e
      | .ok [] => .error .stopIteration
      | .ok (sol :: _) =>
        match fillLoop (none, none, none) M sol with
        | .error e => .error e
        | .ok M => .ok (toStr M)

end Rosemary.Sudoku
