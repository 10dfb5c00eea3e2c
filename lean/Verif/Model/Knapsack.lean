import Verif.Model.Py
import Verif.Model.Sort
import Mathlib.Algebra.Order.Ring.Rat

/-!
# Model of `combinatorics/optimization/knapsack.py`

Items are pairs `(value, weight)` of integers.  The list `best`, which the nested functions modify in place, is
threaded through as a state.
-/

namespace Rosemary.Knapsack

/-- An item `(v, w)`. -/
abbrev Item := Int × Int

/-- knapsack.py:50-59 `depth_first.backtrack`; `items[idx:]` is passed instead of `idx`. -/
def dfs (capacity : Int) : List Item → Int → Int → List Item → Int × List Item → Int × List Item
  | [], value, weight, used, best =>
    if weight ≤ capacity then (if value > best.1 then (value, used) else best) else best
  | (v, w) :: rest, value, weight, used, best =>
    if weight ≤ capacity then
      let best := dfs capacity rest (value + v) (weight + w) (used ++ [(v, w)]) best
      dfs capacity rest value weight used best
    else best

/-- knapsack.py:15-63 `depth_first`. -/
def depthFirst (items : List Item) (capacity : Int) : Int × List Item := dfs capacity items 0 0 [] (0, [])

/-- knapsack.py:73-81, one entry `M[k][i + 1]` and whether `(k, i + 1)` is added to `keep`.  `col` is the column
`M[·][i]`. -/
def dpEntry (col : List Int) (v w : Int) (k : Nat) : Except PyErr (Int × Bool) :=
  match col[k]? with
  | none => .error .indexError
  | some a =>
    if (k : Int) < w then .ok (a, false)
    else
      match col[((k : Int) - w).toNat]? with
      | none => .error .indexError
      | some b => if a > v + b then .ok (a, false) else .ok (v + b, true)

/-- knapsack.py:71-81: the columns of `M` one after the other.  `keep` is represented by one list of flags per
item, the last item first; for every `i` it says for which `k` the pair `(k, i)` is in the set. -/
def dpLoop (rows : Nat) : List Item → List Int → List (List Bool) → Except PyErr (List Int × List (List Bool))
  | [], col, keep => .ok (col, keep)
  | (v, w) :: rest, col, keep =>
    match (List.range rows).mapM (dpEntry col v w) with
    | .error e => .error e
    | .ok entries => dpLoop rows rest (entries.map Prod.fst) (entries.map Prod.snd :: keep)

/-- knapsack.py:83-88: `items` from the last to the first. -/
def dpUsed : List Item → List (List Bool) → Int → List Item → List Item
  | (v, x) :: items, flags :: keep, w, used =>
    if 0 ≤ w ∧ flags.getD w.toNat false then dpUsed items keep (w - x) (used ++ [(v, x)]) else dpUsed items keep w used
  | _, _, _, used => used

/-- Python's comparison of pairs. -/
def itemLe (a b : Item) : Bool := a.1 < b.1 || (a.1 == b.1 && a.2 ≤ b.2)

/-- knapsack.py:66-92 `dynamic_programming`.  For a negative capacity the table has no rows. -/
def dynamicProgramming (items : List Item) (capacity : Int) : Except PyErr (Int × List Item) :=
  let rows := (capacity + 1).toNat
  match dpLoop rows items (List.replicate rows 0) [] with
  | .error e => .error e
  | .ok (col, keep) =>
    let used := dpUsed items.reverse keep capacity []
    match if 0 ≤ capacity then col[capacity.toNat]? else none with
    | none => .error .indexError
    | some value => .ok (value, pySort used itemLe)

/-- An entry `(u, v, w, i)` of `unit_cost`. -/
structure Unit4 where
  u : ℚ
  v : Int
  w : Int
  i : Nat
  deriving DecidableEq

/-- Comparison of the tuples of `unit_cost`. -/
def Unit4.ge (a b : Unit4) : Bool :=
  b.u < a.u || (b.u == a.u && (b.v < a.v || (b.v == a.v && (b.w < a.w || (b.w == a.w && b.i ≤ a.i)))))

/-- The floating point operations of `branch_and_bound_depth_first`: the quotient of two integers, and
`value + u*(target - weight)`. -/
structure FloatOps where
  div : Int → Int → ℚ
  bound : Int → ℚ → Int → ℚ
  /-- the sum of the current value and the bound -/
  add : Int → ℚ → ℚ

/-- The operations without rounding. -/
def FloatOps.exact : FloatOps := ⟨fun a b => a / b, fun value u t => value + u * t, fun a b => a + b⟩

/-- knapsack.py:96: `float(v)/float(w)` raises ZeroDivisionError for `w = 0`. -/
def unitCosts (fl : FloatOps) : Nat → List Item → Except PyErr (List Unit4)
  | _, [] => .ok []
  | i, (v, w) :: rest =>
    if w = 0 then .error .zeroDivisionError
    else
      match unitCosts fl (i + 1) rest with
      | .error e => .error e
      | .ok l => .ok (⟨fl.div v w, v, w, i⟩ :: l)

/-- knapsack.py:107-112, the loop over the remaining items; `u` is the loop variable's last value. -/
def boundLoop (fl : FloatOps) (target : Int) : List Unit4 → Int → Int → ℚ → ℚ
  | [], value, weight, u => fl.bound value u (target - weight)
  | t :: rest, value, weight, _ =>
    if weight + t.w > target then fl.bound value t.u (target - weight)
    else boundLoop fl target rest (value + t.v) (weight + t.w) t.u

/-- knapsack.py:101-112 `optimistic_bound`; `unit_cost[idx:]` is passed instead of `idx`. -/
def optimisticBound (fl : FloatOps) (units : List Unit4) (target : Int) : ℚ :=
  if units = [] then 0 else boundLoop fl target units 0 0 0

/-- A used entry `(v, w, i)`. -/
abbrev Used := Int × Int × Nat

/-- knapsack.py:114-136 `backtrack`. -/
def bnb (fl : FloatOps) (capacity : Int) : List Unit4 → Int → Int → List Used → Int × List Used → Int × List Used
  | [], value, weight, used, best =>
    if weight ≤ capacity then (if value > best.1 then (value, used) else best) else best
  | t :: rest, value, weight, used, best =>
    if weight ≤ capacity then
      let best := if value > best.1 then (value, used) else best
      let bound := fl.add value (optimisticBound fl (t :: rest) (capacity - weight))
      if weight + t.w ≤ capacity then
        if bound ≤ best.1 then best
        else
          let best := bnb fl capacity rest (value + t.v) (weight + t.w) (used ++ [(t.v, t.w, t.i)]) best
          if bound ≤ best.1 then best else bnb fl capacity rest value weight used best
      else if bound ≤ best.1 then best
      else bnb fl capacity rest value weight used best
    else best

/-- knapsack.py:95-141 `branch_and_bound_depth_first`. -/
def branchAndBound (fl : FloatOps) (items : List Item) (capacity : Int) : Except PyErr (Int × List Used) :=
  match unitCosts fl 0 items with
  | .error e => .error e
  | .ok l => .ok (bnb fl capacity (pySort l Unit4.ge) 0 0 [] (0, []))

/-- knapsack.py:188-193 `P`; `X` is a list of flags. -/
def annealValue (items : List Item) (X : List Bool) : Int :=
  ((items.zip X).map (fun p => if p.2 then p.1.1 else 0)).sum

/-- The state of the loop of `simulated_annealing`. -/
structure Anneal where
  current : List Bool
  weight : Int
  bestItems : List Bool
  best : Int
  deriving DecidableEq

/-- knapsack.py:195-221, one round: `j` is the result of `randint`, `accept` the outcome of `r < math.exp(...)`. -/
def annealStep (items : List Item) (capacity : Int) (s : Anneal) (j : Nat) (accept : Bool) : Anneal :=
  let w := (items.getD j (0, 0)).2
  let new := !s.current.getD j false
  if new && decide (s.weight + w > capacity) then s
  else
    let neighbor := s.current.set j new
    if new then
      let value := annealValue items neighbor
      if value > s.best then ⟨neighbor, s.weight + w, neighbor, value⟩
      else ⟨neighbor, s.weight + w, s.bestItems, s.best⟩
    else if accept then ⟨neighbor, s.weight - w, s.bestItems, s.best⟩
    else s

/-- knapsack.py:144-223 `simulated_annealing`; `choices` are the random choices of the 100000 rounds.
`randint(0, -1)` raises ValueError. -/
def simulatedAnnealing (choices : List (Nat × Bool)) (items : List Item) (capacity : Int) :
    Except PyErr (Int × List Bool) :=
  if items = [] then .error .valueError
  else
    let none := List.replicate items.length false
    let s := choices.foldl (fun s c => annealStep items capacity s c.1 c.2) ⟨none, 0, none, 0⟩
    .ok (s.best, s.bestItems)

end Rosemary.Knapsack
