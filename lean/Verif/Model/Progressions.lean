import Verif.Model.Dict
import Verif.Model.Sort
import Mathlib.Data.Int.Order.Basic
import Mathlib.Data.List.Lex

/-!
# Model of `number_theory/arithmetic_progressions.py`

All indices are in range, so that the list is read with a default value.
-/

namespace Rosemary.Progressions

/-- `A[i]`. -/
def at' (A : List ℤ) (i : ℕ) : ℤ := A.getD i 0

/-- arithmetic_progressions.py:32-41: the loop for the middle index `j`; the first argument is `i + 1`. -/
def apScan (A : List ℤ) (j : ℕ) : ℕ → ℕ → Option (ℕ × ℕ)
  | 0, _ => none
  | i + 1, k =>
    if k < A.length then
      if at' A i + at' A k < 2 * at' A j then apScan A j (i + 1) (k + 1)
      else if at' A i + at' A k > 2 * at' A j then apScan A j i k
      else some (i, k)
    else none
termination_by i k => i + (A.length - k)

/-- arithmetic_progressions.py:1-42 `has_three_term_ap(A, indices=True)`; `none` stands for `False`. -/
def hasThreeTermApIndices (A : List ℤ) : Option (ℕ × ℕ × ℕ) :=
  (List.range' 1 (A.length - 1)).findSome? (fun j => (apScan A j j (j + 1)).map (fun r => (r.1, j, r.2)))

/-- arithmetic_progressions.py:1-42 `has_three_term_ap(A)`. -/
def hasThreeTermAp (A : List ℤ) : Option (ℤ × ℤ × ℤ) :=
  (hasThreeTermApIndices A).map (fun r => (at' A r.1, at' A r.2.1, at' A r.2.2))

/-! ### `longest_ap` -/

/-- arithmetic_progressions.py:88-90. -/
def fill (j : ℕ) : ℕ → Dict (ℕ × ℕ) ℕ → Dict (ℕ × ℕ) ℕ
  | 0, L => L
  | i + 1, L => fill j i (Dict.set L (i, j) 2)

/-- arithmetic_progressions.py:77-90; the argument before `k` is `i + 1`. -/
def scan (A : List ℤ) (j : ℕ) (i1 k : ℕ) (L : Dict (ℕ × ℕ) ℕ) (longest : ℕ) : Dict (ℕ × ℕ) ℕ × ℕ :=
  match i1 with
  | 0 => (L, longest)
  | i + 1 =>
    if k ≤ A.length - 1 ∧ 1 ≤ A.length then
      if at' A i + at' A k < 2 * at' A j then scan A j (i + 1) (k + 1) L longest
      else if at' A i + at' A k > 2 * at' A j then scan A j i k (Dict.set L (i, j) 2) longest
      else
        scan A j i (k + 1) (Dict.set L (i, j) ((Dict.get? L (j, k)).getD 2 + 1))
          (max longest ((Dict.get? L (j, k)).getD 2 + 1))
    else (fill j (i + 1) L, longest)
termination_by i1 + (A.length - k)

/-- arithmetic_progressions.py:74-90. -/
def table (A : List ℤ) : List ℕ → Dict (ℕ × ℕ) ℕ → ℕ → Dict (ℕ × ℕ) ℕ × ℕ
  | [], L, longest => (L, longest)
  | j :: js, L, longest => table A js (scan A j j (j + 1) L longest).1 (scan A j j (j + 1) L longest).2

/-- arithmetic_progressions.py:95-96. -/
def prog (A : List ℤ) (i j m : ℕ) : List ℤ := (List.range m).map (fun k : ℕ => at' A i + (at' A j - at' A i) * (k : ℤ))

/-- arithmetic_progressions.py:45-99 `longest_ap`. -/
def longestAp (A : List ℤ) : List (List ℤ) :=
  pySort ((table A (List.range' 1 (A.length - 2)).reverse [] 2).1.filterMap (fun e =>
    if e.2 = (table A (List.range' 1 (A.length - 2)).reverse [] 2).2 then
      some (prog A e.1.1 e.1.2 (table A (List.range' 1 (A.length - 2)).reverse [] 2).2)
    else none)) (fun a b => decide (a ≤ b))

end Rosemary.Progressions
