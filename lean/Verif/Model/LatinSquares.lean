import Verif.Model.ExactCover

/-!
# Model of `latin_square_ints` in `combinatorics/optimization/exact_cover.py`
-/

namespace Rosemary.ExactCover

/-- exact_cover.py:236-237: `all_blocks[i][j]`, the `n` by `n` zero block with a one in row `j` and column `i`. -/
def latinBlock (n i j : ℕ) : List (List ℕ) :=
  (List.replicate n (List.replicate n 0)).set j ((List.replicate n 0).set i 1)

/-- exact_cover.py:243-247: the integer for the blocks number `i` and `j` of the symbol `p`. -/
def latinInt (n p i j : ℕ) : ℕ :=
  let t := (latinBlock n p i ++ latinBlock n p j).flatten
  let val := (((List.range (2 * n * n)).filter (fun k => t.getD k 0 ≠ 0)).map (fun k => 2 ^ (2 * n * n - k - 1))).sum
  (val <<< (n * n)) ||| (1 <<< (n * n - j * n - i - 1))

/-- exact_cover.py:230-249 `latin_square_ints`. -/
def latinSquareInts (n : ℕ) : List ℕ :=
  (List.range n).flatMap (fun p => (List.range n).flatMap (fun i => (List.range n).map (fun j => latinInt n p i j)))

end Rosemary.ExactCover
