import Verif.Model.Py
import Verif.Model.Dict
import Mathlib.Data.Finset.Basic
import Mathlib.Data.Finset.Card
import Mathlib.Data.Nat.Size

/-!
# Model of `combinatorics/optimization/exact_cover.py`

The generators are modelled by the list of everything they yield.  The order in which a Python set is iterated
is unspecified; it is a parameter `ord`.
-/

namespace Rosemary.ExactCover

variable {κ : Type} [DecidableEq κ]

/-- exact_cover.py:26-29: `X[j].add(i)` for `j` in `Y[i]`. -/
def addRow (X : Dict κ (Finset ℕ)) (i : ℕ) : List κ → Except PyErr (Dict κ (Finset ℕ))
  | [] => .ok X
  | j :: js =>
    match X.get? j with
    | none => .error .keyError
    | some S => addRow (X.set j (insert i S)) i js

/-- exact_cover.py:27-29, the rows from number `i` on. -/
def addRows (X : Dict κ (Finset ℕ)) : ℕ → List (List κ) → Except PyErr (Dict κ (Finset ℕ))
  | _, [] => .ok X
  | i, y :: ys =>
    match addRow X i y with
    | .error e => .error e
    | .ok X => addRows X (i + 1) ys

/-- exact_cover.py:43-45: `X[k].remove(i)` for `k ≠ j` in `Y[i]`. -/
def removeRow (j : κ) (X : Dict κ (Finset ℕ)) (i : ℕ) : List κ → Except PyErr (Dict κ (Finset ℕ))
  | [] => .ok X
  | k :: ks =>
    if k ≠ j then
      match X.get? k with
      | none => .error .keyError
      | some S => if i ∈ S then removeRow j (X.set k (S.erase i)) i ks else .error .keyError
    else removeRow j X i ks

/-- exact_cover.py:42-45: all rows of `X[j]`. -/
def removeRows (Y : List (List κ)) (j : κ) (X : Dict κ (Finset ℕ)) : List ℕ → Except PyErr (Dict κ (Finset ℕ))
  | [] => .ok X
  | i :: is =>
    match removeRow j X i (Y.getD i []) with
    | .error e => .error e
    | .ok X => removeRows Y j X is

/-- exact_cover.py:40-46; the popped columns are collected with the last one first. -/
def select (ord : Finset ℕ → List ℕ) (Y : List (List κ)) (X : Dict κ (Finset ℕ)) (cols : List (Finset ℕ)) :
    List κ → Except PyErr (Dict κ (Finset ℕ) × List (Finset ℕ))
  | [] => .ok (X, cols)
  | j :: js =>
    match X.get? j with
    | none => .error .keyError
    | some S =>
      match removeRows Y j X (ord S) with
      | .error e => .error e
      | .ok X =>
        match X.get? j with
        | none => .error .keyError
        | some S => select ord Y (X.erase j) (S :: cols) js

/-- exact_cover.py:54-56: `X[k].add(i)` for `k ≠ j` in `Y[i]`. -/
def restoreRow (j : κ) (X : Dict κ (Finset ℕ)) (i : ℕ) : List κ → Except PyErr (Dict κ (Finset ℕ))
  | [] => .ok X
  | k :: ks =>
    if k ≠ j then
      match X.get? k with
      | none => .error .keyError
      | some S => restoreRow j (X.set k (insert i S)) i ks
    else restoreRow j X i ks

/-- exact_cover.py:53-56. -/
def restoreRows (Y : List (List κ)) (j : κ) (X : Dict κ (Finset ℕ)) : List ℕ → Except PyErr (Dict κ (Finset ℕ))
  | [] => .ok X
  | i :: is =>
    match restoreRow j X i (Y.getD i []) with
    | .error e => .error e
    | .ok X => restoreRows Y j X is

/-- exact_cover.py:51-56, for the reversed row. -/
def deselect (ord : Finset ℕ → List ℕ) (Y : List (List κ)) (X : Dict κ (Finset ℕ)) :
    List (Finset ℕ) → List κ → Except PyErr (Dict κ (Finset ℕ))
  | _, [] => .ok X
  | [], _ :: _ => .error .indexError
  | S :: cols, j :: js =>
    match restoreRows Y j (X.set j S) (ord S) with
    | .error e => .error e
    | .ok X => deselect ord Y X cols js

/-- exact_cover.py:35 `min(X, key=...)`: the first column with the least number of rows. -/
def minColumn : Dict κ (Finset ℕ) → Option (κ × Finset ℕ)
  | [] => none
  | e :: X =>
    match minColumn X with
    | none => some e
    | some e' => if e'.2.card < e.2.card then some e' else some e

/-- exact_cover.py:37-58: the loop over the rows of the chosen column; `rec` is `solve`. -/
def tryRows (rec : Dict κ (Finset ℕ) → List ℕ → Except PyErr (List (List ℕ) × Dict κ (Finset ℕ)))
    (ord : Finset ℕ → List ℕ) (Y : List (List κ)) (sol : List ℕ) :
    List ℕ → List (List ℕ) → Dict κ (Finset ℕ) → Except PyErr (List (List ℕ) × Dict κ (Finset ℕ))
  | [], out, X => .ok (out, X)
  | r :: rs, out, X =>
    match select ord Y X [] (Y.getD r []) with
    | .error e => .error e
    | .ok (X, cols) =>
      match rec X (sol ++ [r]) with
      | .error e => .error e
      | .ok (new, X) =>
        match deselect ord Y X cols (Y.getD r []).reverse with
        | .error e => .error e
        | .ok X => tryRows rec ord Y sol rs (out ++ new) X

/-- exact_cover.py:31-58 `solve`: the solutions as lists of row numbers, and `X` afterwards.  The recursion is at
most as deep as there are columns; running out of `fuel` is reported as RuntimeError. -/
def solve (ord : Finset ℕ → List ℕ) (Y : List (List κ)) :
    ℕ → Dict κ (Finset ℕ) → List ℕ → Except PyErr (List (List ℕ) × Dict κ (Finset ℕ))
  | 0, _, _ => .error .runtimeError
  | fuel + 1, X, sol =>
    match minColumn X with
    | none => .ok ([sol], X)
    | some (_, S) => tryRows (solve ord Y fuel) ord Y sol (ord S) [] X

/-- exact_cover.py:19-60 `algorithmx`, and exact_cover.py:63-104 `algorithm_dlx`, which has the same text. -/
def algorithmx (ord : Finset ℕ → List ℕ) (target : List κ) (sets : List (List κ)) : Except PyErr (List (List (List κ))) :=
  let X := target.foldl (fun X j => Dict.set X j ∅) ([] : Dict κ (Finset ℕ))
  match addRows X 0 sets with
  | .error e => .error e
  | .ok X =>
    match solve ord sets (X.length + 1) X [] with
    | .error e => .error e
    | .ok (out, _) => .ok (out.map (fun sol => sol.map (fun i => sets.getD i [])))

/-! ## `ExactCoverBinary` -/

/-- The attributes of `ExactCoverBinary`. -/
structure Binary where
  vectors : Dict ℕ (List ℕ)
  numBits : ℕ
  deriving DecidableEq

/-- The value of the least set bit, `n & (-n)` for `n ≥ 0`. -/
def leastSetBit : ℕ → ℕ
  | n => if n = 0 then 0 else if n % 2 = 1 then 1 else 2 * leastSetBit (n / 2)
decreasing_by omega

/-- exact_cover.py:136-146 `__init__`, for nonnegative integers. -/
def Binary.init (integers : List ℕ) : Binary :=
  integers.foldl (fun E n =>
    ⟨E.vectors.set (leastSetBit n) ((E.vectors.get? (leastSetBit n)).getD [] ++ [n]), max E.numBits n.size⟩) ⟨[], 0⟩

/-- `~c & (c + 1)`: the value of the least unset bit. -/
def leastUnsetBit : ℕ → ℕ
  | c => if c % 2 = 0 then 1 else 2 * leastUnsetBit (c / 2)
decreasing_by omega

/-- exact_cover.py:157-168 `backtrack` and its loop over the vectors.  A missing key of the default dictionary
gives the empty list (the entry that this creates is never visible). -/
def countLoop (rec : ℕ → Dict ℕ ℕ → Except PyErr (ℕ × Dict ℕ ℕ)) (covered : ℕ) :
    List ℕ → ℕ → Dict ℕ ℕ → Except PyErr (ℕ × Dict ℕ ℕ)
  | [], total, cache => .ok (total, cache)
  | v :: vs, total, cache =>
    if covered &&& v = 0 then
      match rec (covered ||| v) cache with
      | .error e => .error e
      | .ok (t, cache) => countLoop rec covered vs (total + t) cache
    else countLoop rec covered vs total cache

/-- exact_cover.py:157-168 `backtrack`. -/
def count (E : Binary) : ℕ → ℕ → Dict ℕ ℕ → Except PyErr (ℕ × Dict ℕ ℕ)
  | 0, _, _ => .error .runtimeError
  | fuel + 1, covered, cache =>
    match cache.get? covered with
    | some t => .ok (t, cache)
    | none =>
      match countLoop (count E fuel) covered ((E.vectors.get? (leastUnsetBit covered)).getD []) 0 cache with
      | .error e => .error e
      | .ok (total, cache) => .ok (total, cache.set covered total)

/-- exact_cover.py:148-171 `number_of_solutions`.  At every level at least one more bit is covered. -/
def Binary.numberOfSolutions (E : Binary) : Except PyErr ℕ :=
  match count E (E.numBits + 1) 0 [(2 ^ E.numBits - 1, 1)] with
  | .error e => .error e
  | .ok (total, _) => .ok total

/-- exact_cover.py:178-186: the loop of `solutions`; the top of the stack is the head of the list. -/
def solutionsLoop (E : Binary) (stack : List (ℕ × List ℕ)) : Option (List (List ℕ)) :=
  match stack with
  | [] => some []
  | (covered, used) :: stack =>
    if covered = 2 ^ E.numBits - 1 then do
      let rest ← solutionsLoop E stack
      some (used :: rest)
    else
      solutionsLoop E (((((E.vectors.get? (leastUnsetBit covered)).getD []).filter
        (fun v => covered &&& v = 0)).map (fun v => (covered ||| v, used ++ [v]))).reverse ++ stack)
partial_fixpoint

/-- exact_cover.py:173-186 `solutions`: everything it yields. -/
def Binary.solutions (E : Binary) : Option (List (List ℕ)) := solutionsLoop E [(0, [])]

/-- exact_cover.py:211-220 `domino_ints`. -/
def dominoInts (n : ℕ) : List ℕ :=
  (List.range (n * n)).flatMap (fun i =>
    (if i + n < n * n then [(1 <<< i) ||| (1 <<< (i + n))] else []) ++
    (if i + 1 < n * n ∧ (i + 1) % n ≠ 0 then [(1 <<< i) ||| (1 <<< (i + 1))] else []))

/-- exact_cover.py:223-227 `domino_tilings`. -/
def dominoTilings (n : ℕ) : Except PyErr ℕ := (Binary.init (dominoInts n)).numberOfSolutions

/-- exact_cover.py:195-200: the loop for one number; `l` and `r` decrease together. -/
def langfordLoop (c p : ℕ) : ℕ → List ℕ
  | l => if p + 1 ≤ l then (c ||| (1 <<< l) ||| (1 <<< (l - p - 1))) :: langfordLoop c p (l - 1) else []
decreasing_by omega

/-- exact_cover.py:189-201 `langford_ints`. -/
def langfordInts (n : ℕ) : List ℕ :=
  (List.range' 1 n).flatMap (fun p => langfordLoop (1 <<< (3 * n - p)) p (2 * n - 1))

/-- exact_cover.py:204-208 `langford_pairings`. -/
def langfordPairings (n : ℕ) : Except PyErr ℕ :=
  match (Binary.init (langfordInts n)).numberOfSolutions with
  | .error e => .error e
  | .ok t => .ok (t / 2)

end Rosemary.ExactCover
