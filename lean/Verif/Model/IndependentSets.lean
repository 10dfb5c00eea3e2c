import Verif.Model.Cliques

/-!
# Model of `graphs/algorithms/independent_sets.py`
-/

namespace Rosemary.IndependentSets

open Rosemary.Graph
open Rosemary.Cliques (nb scan leaf degreeOf)

variable {V W : Type}

section Sets

variable [DecidableEq V]

/-- independent_sets.py:51-61: the loop of `branch_and_bound`, with lines 44-48 of the recursive call in place.  The
first argument bounds the number of allowed vertices. -/
def bbLoop (g : Graph V W) (vs : List V) : ℕ → List V → ℕ → ℕ → Finset V → ℕ × List V → Except PyErr (ℕ × List V)
  | 0, _, _, _, _, best => .ok best
  | n + 1, used, size, last, allowed, best =>
    if allowed ≠ ∅ ∧ best.1 < size + allowed.card then
      match scan vs allowed last with
      | .error e => .error e
      | .ok (u, i) =>
        match bbLoop g vs n (used ++ [u]) (size + 1) i (allowed.erase u \ nb g u) (leaf best (size + 1) (used ++ [u])) with
        | .error e => .error e
        | .ok best => bbLoop g vs n used size (i + 1) (allowed.erase u) best
    else .ok best

/-- independent_sets.py:96-103: the minimum degree. -/
def minDegree (g : Graph V W) (S : Finset V) (l : List V) : ℕ :=
  l.foldl (fun m u => if degreeOf g u < m then degreeOf g u else m) S.card

/-- independent_sets.py:94-115: the loop of `greedy`; `pick acc l` is the vertex chosen by `random.choice(l)` after the
vertices `acc`.  The first argument bounds the number of vertices. -/
def greedyLoop (ord : Finset V → List V) (pick : List V → List V → V) : ℕ → List V → Graph V W → Except PyErr (List V)
  | 0, acc, _ => .ok acc
  | n + 1, acc, g =>
    if vertexSet g = ∅ then .ok acc
    else
      let c := (ord (vertexSet g)).filter (fun u => degreeOf g u = minDegree g (vertexSet g) (ord (vertexSet g)))
      if c = [] then .error .indexError
      else
        let v := pick acc c
        greedyLoop ord pick n (acc ++ [v]) (deleteVertices (deleteVertex g v) (ord (nb g v)))

/-- independent_sets.py:141-153 `cutoff`. -/
def cutoff (n : ℕ) : ℕ := if 500 ≤ n then 8 else if 200 ≤ n then 6 else if 10 ≤ n then 3 else 10

/-- independent_sets.py:165: the first and the last element are exchanged. -/
def swapEnds (l : List V) : List V :=
  match l.head?, l.getLast? with
  | some a, some b => (l.set 0 b).set (l.length - 1) a
  | _, _ => l

/-- independent_sets.py:168-180: the loop over the vertices; `sub v` is the result of lines 173 and 174. -/
def tryLoop (degree : V → ℕ) (sub : V → Except PyErr (ℕ × ℕ × List V)) :
    List V → ℕ × ℕ × List V → Except PyErr (ℕ × ℕ × List V)
  | [], best => .ok best
  | v :: vs, best =>
    match sub v with
    | .error e => .error e
    | .ok (newSize, newDeg, newSet) =>
      if best.2.1 < newDeg + degree v then tryLoop degree sub vs (newSize + 1, newDeg + degree v, newSet ++ [v])
      else tryLoop degree sub vs best

/-- independent_sets.py:155-182 `indset`.  The first argument bounds the number of vertices. -/
def indset (ord : Finset V → List V) (degree : V → ℕ) : ℕ → Graph V W → Except PyErr (ℕ × ℕ × List V)
  | 0, _ => .ok (0, 0, [])
  | n + 1, g =>
    if degreeOrder g = [] then .ok (0, 0, [])
    else
      tryLoop degree (fun v =>
        match removeClosedNeighborhood ord g v with
        | .error e => .error e
        | .ok h => indset ord degree n h)
        ((swapEnds (degreeOrder g)).take (cutoff (degreeOrder g).length)) (0, 0, [])

/-- independent_sets.py:122-189 `culberson`. -/
def culberson (ord : Finset V → List V) (g : Graph V W) : Except PyErr (ℕ × List V) :=
  match indset ord (degreeOf g) (numVertices g) g with
  | .error e => .error e
  | .ok (size, _, mis) => .ok (size, mis)

end Sets

section Ordered

variable [LinearOrder V]

/-- independent_sets.py:10-65 `branch_and_bound`. -/
def branchAndBound (g : Graph V W) : Except PyErr (ℕ × List V) :=
  let vs := pySort (vertices g) (fun a b => degreeOf g b ≤ degreeOf g a)
  bbLoop g vs vs.length [] 0 0 vs.toFinset (0, [])

/-- independent_sets.py:68-119 `greedy`. -/
def greedy (ord : Finset V → List V) (pick : List V → List V → V) (g : Graph V W) : Except PyErr (ℕ × List V) :=
  match greedyLoop ord pick (numVertices g) [] g with
  | .error e => .error e
  | .ok l => .ok (l.length, pySort l (fun a b => a ≤ b))

/-- independent_sets.py:192-217 `maximum_independent_set`; the edges of the complement have the weight `weight`. -/
def maximumIndependentSet (g : Graph V W) (weight : W) : Except PyErr (ℕ × List V) :=
  match complement g weight with
  | .error e => .error e
  | .ok h => Cliques.ostergard h

/-- independent_sets.py:225-246 `maximal_independent_sets`; the edges of the complement have the weight `weight`. -/
def maximalIndependentSets (ord : Finset V → List V) (g : Graph V W) (weight : W) :
    Option (Except PyErr (List (List V))) :=
  match complement g weight with
  | .error e => some (.error e)
  | .ok h => (Cliques.tomita ord h).map .ok

end Ordered

end Rosemary.IndependentSets
