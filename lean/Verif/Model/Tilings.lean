import Verif.Model.Py
import Mathlib.Data.Finset.Max
import Mathlib.Data.Finset.Lattice.Basic
import Mathlib.Data.Finset.Prod
import Mathlib.Data.Prod.Lex
import Mathlib.Data.Int.Order.Basic

/-!
# Model of the tiling counters of `combinatorics/enumeration/enumeration.py`

Python sets are `Finset`s.  The dictionaries `D` are lists of entries.  Their keys are tuples made from sets,
and the order of the elements in such a tuple is unspecified, so that an entry may or may not be found again;
`hit` decides this, as a function of the dictionary and the sets.  A recursion that runs out of `fuel` is
reported as a RuntimeError; the entry points supply more fuel than there are squares.
-/

namespace Rosemary.Tilings

variable {α : Type} [DecidableEq α]

/-- The dictionary `D`; a key consists of the covered and the uncovered squares. -/
abbrev Cache (α : Type) := List ((Finset α × Finset α) × Nat)

/-- enumeration.py:269-280, 286-297 and 343-349: the pieces are tried in order, each with the outcome of its
test; the first component of the result tells whether `return 1` was executed. -/
def tileLoop (rec : Finset α → Finset α → Cache α → Except PyErr (Nat × Cache α)) (covered uncovered : Finset α) :
    List (Finset α × Bool) → Nat → Cache α → Except PyErr (Bool × Nat × Cache α)
  | [], ss, D => .ok (false, ss, D)
  | (piece, fits) :: rest, ss, D =>
    if fits then
      let newUncovered := uncovered \ piece
      if newUncovered = ∅ then .ok (true, 1, D)
      else
        match rec (covered ∪ piece) newUncovered D with
        | .error e => .error e
        | .ok (v, D) => tileLoop rec covered uncovered rest (ss + v) D
    else tileLoop rec covered uncovered rest ss D

/-- enumeration.py:252-300 and 335-352 `backtrack`; `pieces` lists the pieces to try with their tests. -/
def backtrack [LinearOrder α] (pieces : Finset α → Finset α → α → List (Finset α × Bool))
    (hit : Cache α → Finset α × Finset α → Bool) :
    Nat → Finset α → Finset α → Cache α → Except PyErr (Nat × Cache α)
  | 0, _, _, _ => .error .runtimeError
  | fuel + 1, covered, uncovered, D =>
    match if hit D (covered, uncovered) then D.lookup (covered, uncovered) else none with
    | some v => .ok (v, D)
    | none =>
      match uncovered.min with
      | ⊤ => .error .valueError
      | (smallest : α) =>
        match tileLoop (backtrack pieces hit fuel) covered uncovered (pieces covered uncovered smallest) 0 D with
        | .error e => .error e
        | .ok (true, v, D) => .ok (v, D)
        | .ok (false, ss, D) => .ok (ss, ((covered, uncovered), ss) :: D)

/-- enumeration.py:264-297: the vertical and the horizontal piece. -/
def dominoPieces (m n : Nat) (covered _uncovered : Finset Nat) (smallest : Nat) : List (Finset Nat × Bool) :=
  [({smallest, smallest + n}, decide (smallest + n < m * n) && decide (covered ∩ {smallest, smallest + n} = ∅)),
   ({smallest, smallest + 1}, decide (smallest + 1 < m * n) && decide ((smallest + 1) % n ≠ 0) &&
     decide (covered ∩ {smallest, smallest + 1} = ∅))]

/-- enumeration.py:226-304 `number_of_domino_tilings`. -/
def numberOfDominoTilings (hit : Cache Nat → Finset Nat × Finset Nat → Bool) (m n : Nat) : Except PyErr Nat :=
  match backtrack (dominoPieces m n) hit (m * n + 1) ∅ (Finset.range (m * n)) [] with
  | .error e => .error e
  | .ok (v, _) => .ok v

/-- A square of the board of `triomino_tilings`, compared as a tuple. -/
abbrev Sq := Int ×ₗ Int

/-- The square `(i, j)`. -/
def sq (i j : Int) : Sq := toLex (i, j)

/-- enumeration.py:323-333 `next_pieces`. -/
def nextPieces (root : Sq) : List (Finset Sq) :=
  let i := (ofLex root).1
  let j := (ofLex root).2
  [{sq i j, sq i (j + 1), sq (i + 1) j},
   {sq i j, sq i (j + 1), sq (i + 1) (j + 1)},
   {sq i j, sq (i + 1) j, sq (i + 1) (j + 1)},
   {sq i j, sq (i + 1) j, sq (i + 1) (j - 1)},
   {sq i j, sq i (j + 1), sq i (j + 2)},
   {sq i j, sq (i + 1) j, sq (i + 2) j}]

/-- enumeration.py:343-344. -/
def triominoPieces (_covered uncovered : Finset Sq) (root : Sq) : List (Finset Sq × Bool) :=
  (nextPieces root).map (fun piece => (piece, decide (piece ⊆ uncovered)))

/-- enumeration.py:355. -/
def board (nrows ncols : Nat) : Finset Sq :=
  (Finset.range nrows ×ˢ Finset.range ncols).image (fun ij => sq ij.1 ij.2)

/-- enumeration.py:307-357 `triomino_tilings`; this function does not keep track of the covered squares, the
model does but ignores them.  The number of rows and columns are exchanged first if `nrows < ncols`. -/
def triominoTilings (hit : Cache Sq → Finset Sq × Finset Sq → Bool) (nrows ncols : Nat) : Except PyErr Nat :=
  let (nrows, ncols) := if nrows < ncols then (ncols, nrows) else (nrows, ncols)
  match backtrack triominoPieces hit (nrows * ncols + 1) ∅ (board nrows ncols) [] with
  | .error e => .error e
  | .ok (v, _) => .ok v

end Rosemary.Tilings
