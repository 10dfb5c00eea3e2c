import Verif.Model.Graph
import Verif.Model.Matrices
import Mathlib.Data.Rat.Defs

/-!
# Model of the matrices of a graph, of the density and of the copies, `graphs/graphs.py`

`enumerate(vertices)` is the range of the indices of the list.
-/

namespace Rosemary.Graph

open Rosemary.Matrices (Entries construct zeros forRange put)

variable {V W : Type} [LinearOrder V]

/-- graphs.py:866-875 `adjacency_matrix`. -/
def adjacencyMatrix (g : Graph V W) : Except PyErr Entries := do
  let vs := vertices g
  let mat ← construct (zeros vs.length vs.length)
  forRange 0 vs.length (fun i mat => forRange 0 vs.length (fun j mat =>
    match vs[i]?, vs[j]? with
    | some u, some v =>
      match Dict.get? g u with
      | none => .error .keyError
      | some N => if v ∈ Dict.keys N then put mat i j 1 else .ok mat
    | _, _ => .error .indexError) mat) mat

/-- graphs.py:901-907 `degree_matrix`. -/
def degreeMatrix (g : Graph V W) : Except PyErr Entries := do
  let vs := vertices g
  let mat ← construct (zeros vs.length vs.length)
  forRange 0 vs.length (fun i mat =>
    match vs[i]? with
    | none => .error .indexError
    | some v =>
      match Dict.get? g v with
      | none => .error .keyError
      | some N => put mat i i N.length) mat

/-- graphs.py:937-939 `laplacian_matrix`. -/
def laplacianMatrix (g : Graph V W) : Except PyErr Entries := do
  let degreeMat ← degreeMatrix g
  let adjacencyMat ← adjacencyMatrix g
  Matrices.sub degreeMat adjacencyMat

/-- graphs.py:420-424 `density`; the quotient before rounding. -/
def density (g : Graph V W) : Except PyErr ℚ :=
  let totalPossible : ℚ := (numVertices g * (numVertices g - 1) : ℤ) / 2
  if totalPossible = 0 then .error .zeroDivisionError else .ok (numEdges g / totalPossible)

omit [LinearOrder V] in
/-- graphs.py:37-43 `copy`: the object is a value here, so a copy is the same value. -/
def copy (g : Graph V W) : Graph V W := g

/-- graphs.py:757-778 `remove_edge`, for an edge given as two vertices. -/
def removeEdge (g : Graph V W) (u v : V) : Graph V W := deleteHalf (deleteHalf (copy g) v u) u v

end Rosemary.Graph
