import Verif.Model.Gen
import Verif.Model.Sort
import Mathlib.Order.Defs.LinearOrder

/-!
# Model of `combinatorics/generation/{combinations,tuples,permutations}.py`
-/

namespace Rosemary.Generation

open Rosemary.Gen

/-! ## combinations.py -/

/-- combinations.py:10-12: `while c[j] + 1 == c[j + 1]: c[j] = j - 1; j += 1`. -/
def combLoop (fuel : Nat) (c : List Int) (j : Nat) : Except PyErr (List Int × Nat) :=
  match fuel with
  | 0 => .error .indexError
  | fuel + 1 =>
    match c[j]?, c[j + 1]? with
    | some a, some b => if a + 1 = b then combLoop fuel (c.set j (j - 1)) (j + 1) else .ok (c, j)
    | _, _ => .error .indexError

/-- combinations.py:9-15.  The inner loop leaves the list after at most `len(c)` steps. -/
def combStep (t : Nat) (c : List Int) : Step (List Int) :=
  match combLoop c.length c 1 with
  | .error e => .raise e
  | .ok (c, j) => if j > t then .stop else .next (c.modify j (· + 1))

/-- combinations.py:5. -/
def combInit (n : Int) (t : Nat) : List Int := 0 :: ((List.range t).map (fun j : Nat => (j : Int)) ++ [n, 0])

/-- combinations.py:8: `c[t:0:-1]`. -/
def combOut (t : Nat) (c : List Int) : List Int := ((c.drop 1).take t).reverse

/-- combinations.py:1-15 `combinations`. -/
def combinations (n : Int) (t : Nat) : Option (List (List Int) × Option PyErr) :=
  run (combStep t) (combOut t) (combInit n t)

/-! ## tuples.py -/

/-- tuples.py:45-47: `while A[j] == M[j] - 1: A[j] = 0; j -= 1`, for `j >= 0`; past index 0 Python goes on
with `A[-1]`, which the model reports as `IndexError` (it needs `M[0] = 1`, and then the last element
of `A` has just been reset). -/
def tupleLoop (M : List Int) (A : List Int) : Nat → Except PyErr (List Int × Nat)
  | 0 =>
    match A[0]?, M[0]? with
    | some a, some m => if a = m - 1 then .error .indexError else .ok (A, 0)
    | _, _ => .error .indexError
  | j + 1 =>
    match A[j + 1]?, M[j + 1]? with
    | some a, some m => if a = m - 1 then tupleLoop M (A.set (j + 1) 0) j else .ok (A, j + 1)
    | _, _ => .error .indexError

/-- tuples.py:44-51. -/
def tupleStep (n : Nat) (M A : List Int) : Step (List Int) :=
  match tupleLoop M A n with
  | .error e => .raise e
  | .ok (A, j) => if j = 0 then .stop else .next (A.modify j (· + 1))

/-- The argument `M` of `n_tuples`: a list, a number, or `None`. -/
inductive Radix where
  | list (M : List Int)
  | int (m : Int)
  | none

/-- tuples.py:32-40. -/
def Radix.bounds (n : Nat) : Radix → List Int
  | .list M => if M.length = n then 2 :: M else M
  | .int m => 2 :: List.replicate n m
  | .none => 2 :: List.replicate n 2

/-- tuples.py:1-51 `n_tuples`. -/
def nTuples (n : Nat) (M : Radix) : Option (List (List Int) × Option PyErr) :=
  run (tupleStep n (M.bounds n)) (List.drop 1) (List.replicate (n + 1) 0)

/-! ## permutations.py

The elements come from a linear order; `get` reads an index that is in range. -/

variable {α : Type} [LinearOrder α] [Inhabited α]

/-- `entries[i]`. -/
def get (entries : List α) (i : Nat) : α := entries.getD i default

/-- `entries[i], entries[j] = entries[j], entries[i]`. -/
def swap (entries : List α) (i j : Nat) : List α :=
  (entries.set i (get entries j)).set j (get entries i)

/-- permutations.py:216-218, 311-313, 407-409: the largest `j` below the start with
`entries[j] < entries[j + 1]`; `none` stands for `j = -1`. -/
def findDesc (entries : List α) : Nat → Option Nat
  | 0 => none
  | j + 1 => if get entries j ≥ get entries (j + 1) then findDesc entries j else some j

/-- permutations.py:228-229, 323-324, 419-420: `while x >= entries[l]: l -= 1`. -/
def findGt (entries : List α) (x : α) : Nat → Nat
  | 0 => 0
  | l + 1 => if x ≥ get entries (l + 1) then findGt entries x l else l + 1

/-- permutations.py:238-241, 333-336, 401-404, 429-432, 142-145: reverse `entries[k..l]`. -/
def revLoop (entries : List α) (k l : Nat) : List α :=
  if k < l then revLoop (swap entries k l) (k + 1) (l - 1) else entries
termination_by l - k

/-- permutations.py:225-241: increase `entries[j]` and reverse the rest. -/
def increase (entries : List α) (j : Nat) : List α :=
  let n := entries.length - 1
  let l := findGt entries (get entries j) n
  revLoop (swap entries j l) (j + 1) n

/-- permutations.py:213-241, one step of `knuth_algorithm_l`. -/
def permStep (entries : List α) : Step (List α) :=
  match findDesc entries (entries.length - 1) with
  | none => .stop
  | some j => .next (increase entries j)

/-- permutations.py:148-241 `knuth_algorithm_l`. -/
def knuthL (elements : List α) : Option (List (List α) × Option PyErr) :=
  run permStep id (pySort elements (· ≤ ·))

/-- permutations.py:304-336: a state is `entries` and the current `j`; it yields `entries[:j + 1]`. -/
def varStep (s : List α × Nat) : Step (List α × Nat) :=
  if s.2 + 1 < s.1.length then .next (s.1, s.2 + 1)
  else
    match findDesc s.1 (s.1.length - 1) with
    | none => .stop
    | some j => .next (increase s.1 j, j)

/-- permutations.py:249-336 `knuth_algorithm_l_variations`. -/
def knuthLVariations (elements : List α) : Option (List (List α) × Option PyErr) :=
  if elements.length = 0 then some ([[]], none)
  else
    match run varStep (fun s => s.1.take (s.2 + 1)) (pySort elements (· ≤ ·), 0) with
    | none => none
    | some (L, e) => some ([] :: L, e)

/-- permutations.py:393-394: `while entries[j] <= entries[r]: j += 1`. -/
def findAbove (entries : List α) (x : α) (fuel j : Nat) : Nat :=
  match fuel with
  | 0 => j
  | fuel + 1 => if get entries j ≤ x then findAbove entries x fuel (j + 1) else j

/-- permutations.py:391-432, one step of `knuth_algorithm_l_rvariations`; `r` is the parameter after
line 381. -/
def rvarStep (r : Nat) (entries : List α) : Step (List α) :=
  let n := entries.length - 1
  if r ≥ entries.length then .raise .indexError
  else if get entries r < get entries n then
    .next (swap entries r (findAbove entries (get entries r) entries.length (r + 1)))
  else
    let entries := revLoop entries (r + 1) n
    match findDesc entries r with
    | none => .stop
    | some j => .next (increase entries j)

/-- permutations.py:339-432 `knuth_algorithm_l_rvariations` for `r >= 1`; for `r = 0` it yields the empty
list once and then compares `entries[-1]` with itself (or raises when there are no elements). -/
def knuthLRVariations (elements : List α) (r : Nat) : Option (List (List α) × Option PyErr) :=
  if r = 0 then
    if elements.length = 0 then some ([[]], some .indexError) else some ([[]], none)
  else run (rvarStep (r - 1)) (List.take r) (pySort elements (· ≤ ·))

/-- permutations.py:108-113: the search for `j` with `y = entries[j]`.  The result is `none` when `j` has
become negative: there Python reads `entries[-1]` (`y = z`, the last entry) and stops unless
`z >= x`, in which case it walks down to an `IndexError`. -/
def phillipsFind (entries : List α) (x : α) : Nat → Except PyErr (Option (Nat × α × α))
  | 0 =>
    -- j = -1
    if get entries (entries.length - 1) ≥ x then .error .indexError else .ok none
  | j + 1 =>
    let y := get entries j
    if y ≥ x then phillipsFind entries y j else .ok (some (j, x, y))

/-- permutations.py:86-145, one step of `phillips` for three or more entries. -/
def phillipsStep (entries : List α) : Step (List α) :=
  let n := entries.length - 1
  let y := get entries (n - 1)
  let z := get entries n
  if y < z then .next ((entries.set (n - 1) z).set n y)
  else
    let x := get entries (n - 2)
    if x < y then
      if x < z then .next (((entries.set (n - 2) z).set (n - 1) x).set n y)
      else .next (((entries.set (n - 2) y).set (n - 1) z).set n x)
    else
      match phillipsFind entries x (n - 2) with
      | .error e => .raise e
      | .ok none => .stop
      | .ok (some (j, x, y)) =>
        if y < z then
          .next (revLoop (((entries.set j z).set (j + 1) y).set n x) (j + 2) (n - 1))
        else
          let l := findGt entries y (n - 1)
          let entries := (entries.set j (get entries l)).set l y
          let entries := entries.set n (get entries (j + 1))
          .next (revLoop (entries.set (j + 1) z) (j + 2) (n - 1))

/-- permutations.py:6-145 `phillips`. -/
def phillips (elements : List α) : Option (List (List α) × Option PyErr) :=
  let entries := pySort elements (· ≤ ·)
  match entries with
  | [] => some ([[]], some .indexError)
  | [a] => some ([[a]], none)
  | [a, b] => some ([[a, b], [b, a]], none)
  | _ => run phillipsStep id entries

end Rosemary.Generation
