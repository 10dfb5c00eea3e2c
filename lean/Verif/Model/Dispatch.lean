import Verif.Model.Cliques
import Verif.Model.Primality
import Mathlib.Algebra.Order.Monoid.WithTop

/-!
# Entry points: `maximal_cliques`, `maximum_clique`, `euclidean_distance_matrix` and the class `PellEquation`
-/

namespace Rosemary.Dispatch

open Rosemary Graph Cliques

section CliqueSearch

variable {V W : Type} [LinearOrder V]

/-- graphs/algorithms/cliques.py:197-234 `maximal_cliques`.  The outer `Option` is for termination, the inner `none` is
Python's `None`; `pop` and `ord` are as for the functions called. -/
def maximalCliques (ord : Finset V → List V) (pop : List V → Finset V → V) (g : Graph V W) (algorithm : String) :
    Option (Option (List (List V))) :=
  if algorithm = "tomita" then (tomita ord g).map some
  else if algorithm = "bron_kerbosch" then some (some (bronKerbosch g pop))
  else if algorithm = "bron_kerbosch_binary" then some (some (bronKerboschBinary ord g))
  else some none

/-- graphs/algorithms/cliques.py:583-618 `maximum_clique`; `none` is Python's `None`. -/
def maximumClique (ord : Finset V → List V) (g : Graph V W) (algorithm : String) : Except PyErr (Option (ℕ × List V)) :=
  if algorithm = "ostergard" then (ostergard g).map some
  else if algorithm = "pardalos" then (pardalos ord g).map some
  else .ok none

end CliqueSearch

section Distances

variable {P R : Type}

/-- `matrix[i][j] = x`. -/
def setEntry (M : List (List (WithTop R))) (i j : ℕ) (x : WithTop R) : List (List (WithTop R)) :=
  M.set i ((M.getD i []).set j x)

/-- combinatorics/optimization/tsp.py:13-17: the loop over `j`. -/
def distanceRow (dist : P → P → R) (points : List P) (i : ℕ) (p : P) : List ℕ → List (List (WithTop R)) →
    Except PyErr (List (List (WithTop R)))
  | [], M => .ok M
  | j :: js, M =>
    match points[j]? with
    | none => .error .indexError
    | some q => distanceRow dist points i p js (setEntry (setEntry M i j (dist p q : R)) j i (dist p q : R))

/-- combinatorics/optimization/tsp.py:10-17: the loop over `i`. -/
def distanceRows (dist : P → P → R) (points : List P) : List ℕ → List (List (WithTop R)) →
    Except PyErr (List (List (WithTop R)))
  | [], M => .ok M
  | i :: is, M =>
    match points[i]? with
    | none => .error .indexError
    | some p =>
      match distanceRow dist points i p (List.range i) (setEntry M i i ⊤) with
      | .error e => .error e
      | .ok M => distanceRows dist points is M

/-- combinatorics/optimization/tsp.py:5-19 `euclidean_distance_matrix`; `dist p q` is the expression of line 15 for the
points `p = (x1, y1)` and `q = (x2, y2)`, and `⊤` is `float('inf')`. -/
def euclideanDistanceMatrix [Zero R] (dist : P → P → R) (points : List P) : Except PyErr (List (List (WithTop R))) :=
  distanceRows dist points (List.range points.length)
    (List.replicate points.length (List.replicate points.length ((0 : R) : WithTop R)))

end Distances

/-- number_theory/diophantine_equations/pell.py:7-12 `PellEquation(D, N)`: the attributes `D` and `N`.  The root 0 counts
as false, but `D = 0` is rejected before. -/
def pellEquation (D N : Int) : Except PyErr (Int × Int) :=
  if D ≤ 0 then .error .valueError
  else
    match Classification.isSquare D with
    | .error e => .error e
    | .ok (some r) => if r = 0 then .ok (D, N) else .error .valueError
    | .ok none => .ok (D, N)

end Rosemary.Dispatch
