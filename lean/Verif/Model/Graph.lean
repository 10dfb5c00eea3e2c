import Verif.Model.Py
import Verif.Model.Dict
import Verif.Model.Sort
import Mathlib.Data.Finset.Basic
import Mathlib.Data.Finset.Card
import Mathlib.Data.Finset.Max
import Mathlib.Order.Defs.LinearOrder

/-!
# Model of `graphs/graphs.py`

A graph is its attribute `graph_dict`: a dictionary from vertices to dictionaries from neighbours to weights.  The
methods that mutate the graph return the new dictionary; `copy` (`copy.deepcopy`) is the identity.  Python sets are
finite sets; where the iteration order of a set matters it is a parameter `ord`.
-/

namespace Rosemary

/-- `Graph.graph_dict`. -/
abbrev Graph (V W : Type) := Dict V (Dict V W)

namespace Graph

variable {V W : Type}

section Basic

variable [DecidableEq V]

/-- graphs.py:45-63 `num_vertices`. -/
def numVertices (g : Graph V W) : ℕ := g.length

/-- graphs.py:150-166 `vertex_set`. -/
def vertexSet (g : Graph V W) : Finset V := (Dict.keys g).toFinset

/-- graphs.py:347-368 `degree`. -/
def degree (g : Graph V W) (u : V) : Except PyErr ℕ :=
  match Dict.get? g u with
  | none => .error .keyError
  | some N => .ok N.length

/-- graphs.py:426-449 `neighbors`, `neighborhood`. -/
def neighbors (g : Graph V W) (u : V) : Except PyErr (Finset V) :=
  match Dict.get? g u with
  | none => .error .keyError
  | some N => .ok (Dict.keys N).toFinset

/-- graphs.py:451-473 `closed_neighborhood`. -/
def closedNeighborhood (g : Graph V W) (u : V) : Except PyErr (Finset V) :=
  match neighbors g u with
  | .error e => .error e
  | .ok N => .ok (insert u N)

/-- graphs.py:168-173 `leaves`. -/
def leaves (g : Graph V W) : Finset V := ((g.filter (fun e => e.2.length = 1)).map Prod.fst).toFinset

/-- graphs.py:479-498 `add_vertex`. -/
def addVertex (g : Graph V W) (u : V) : Graph V W :=
  match Dict.get? g u with
  | some _ => g
  | none => Dict.set g u []

/-- graphs.py:500-521 `add_vertices`. -/
def addVertices (g : Graph V W) : List V → Graph V W
  | [] => g
  | u :: us => addVertices (addVertex g u) us

/-- graphs.py:523-550 `delete_vertex`. -/
def deleteVertex (g : Graph V W) (u : V) : Graph V W :=
  match Dict.get? g u with
  | none => g
  | some _ => (Dict.erase g u).map (fun e => (e.1, match Dict.get? e.2 u with | some _ => Dict.erase e.2 u | none => e.2))

/-- graphs.py:552-578 `delete_vertices`. -/
def deleteVertices (g : Graph V W) : List V → Graph V W
  | [] => g
  | u :: us => deleteVertices (deleteVertex g u) us

/-- graphs.py:668-672: one of the two pairs of an edge. -/
def addHalf (g : Graph V W) (a b : V) (weight : W) : Graph V W :=
  match Dict.get? g a with
  | none => Dict.set g a [(b, weight)]
  | some N => Dict.set g a (Dict.set N b weight)

/-- graphs.py:635-672 `add_edge`, for two vertices and a weight (lines 660-664 unpack a tuple passed as `u`). -/
def addEdge (g : Graph V W) (u v : V) (weight : W) : Graph V W := addHalf (addHalf g u v weight) v u weight

/-- graphs.py:674-692 `add_edges`. -/
def addEdges (g : Graph V W) : List (V × V × W) → Graph V W
  | [] => g
  | (u, v, weight) :: es => addEdges (addEdge g u v weight) es

/-- graphs.py:727-729 and 731-733: one of the two pairs. -/
def deleteHalf (g : Graph V W) (a b : V) : Graph V W :=
  match Dict.get? g a with
  | none => g
  | some N =>
    match Dict.get? N b with
    | none => g
    | some _ => Dict.set g a (Dict.erase N b)

/-- graphs.py:694-733 `delete_edge` (and 735-778 `remove_edge`, on a copy), for two vertices. -/
def deleteEdge (g : Graph V W) (u v : V) : Graph V W := deleteHalf (deleteHalf g v u) u v

/-- graphs.py:580-606 `remove_vertex`. -/
def removeVertex (g : Graph V W) (u : V) : Graph V W := deleteVertex g u

/-- graphs.py:608-633 `remove_vertices`. -/
def removeVertices (g : Graph V W) (us : List V) : Graph V W := deleteVertices g us

/-- graphs.py:780-806 `remove_neighborhood`. -/
def removeNeighborhood (ord : Finset V → List V) (g : Graph V W) (u : V) : Except PyErr (Graph V W) :=
  match neighbors g u with
  | .error e => .error e
  | .ok N => .ok (removeVertices g (ord N))

/-- graphs.py:808-834 `remove_closed_neighborhood`. -/
def removeClosedNeighborhood (ord : Finset V → List V) (g : Graph V W) (u : V) : Except PyErr (Graph V W) :=
  match closedNeighborhood g u with
  | .error e => .error e
  | .ok N => .ok (removeVertices g (ord N))

/-- graphs.py:974-975: the loop over the common vertices. -/
def inducedInner (g : Graph V W) (u : V) : Graph V W → List V → Except PyErr (Graph V W)
  | h, [] => .ok h
  | h, v :: vs =>
    match (Dict.get? g u).bind (fun N => Dict.get? N v) with
    | none => .error .keyError
    | some weight => inducedInner g u (addEdge h u v weight) vs

/-- graphs.py:973-975. -/
def inducedOuter (ord : Finset V → List V) (g : Graph V W) (S : Finset V) :
    Graph V W → List V → Except PyErr (Graph V W)
  | h, [] => .ok h
  | h, u :: us =>
    match neighbors g u with
    | .error e => .error e
    | .ok N =>
      match inducedInner g u h (ord (S ∩ N)) with
      | .error e => .error e
      | .ok h => inducedOuter ord g S h us

/-- graphs.py:941-977 `induced_subgraph`. -/
def inducedSubgraph (ord : Finset V → List V) (g : Graph V W) (vertexList : List V) : Except PyErr (Graph V W) :=
  let S := vertexList.toFinset
  inducedOuter ord g S ((ord S).foldl (fun h v => Dict.set h v []) []) (ord S)

/-- graphs.py:264, 318, 395: the degrees of a list of vertices. -/
def degrees (g : Graph V W) : List V → Except PyErr (List ℕ)
  | [] => .ok []
  | u :: us =>
    match degree g u with
    | .error e => .error e
    | .ok d =>
      match degrees g us with
      | .error e => .error e
      | .ok ds => .ok (d :: ds)

/-- graphs.py:370-396 `total_degree`; without argument the list is that of the vertex set. -/
def totalDegree (g : Graph V W) (us : List V) : Except PyErr ℕ :=
  match degrees g us with
  | .error e => .error e
  | .ok ds => .ok ds.sum

/-- graphs.py:240-265 `maximum_degree`. -/
def maximumDegree (ord : Finset V → List V) (g : Graph V W) : Except PyErr ℕ :=
  if (vertexSet g).card = 0 then .error .valueError
  else
    match degrees g (ord (vertexSet g)) with
    | .error e => .error e
    | .ok [] => .error .valueError
    | .ok (d :: ds) => .ok (ds.foldl max d)

/-- graphs.py:294-319 `minimum_degree`. -/
def minimumDegree (ord : Finset V → List V) (g : Graph V W) : Except PyErr ℕ :=
  if (vertexSet g).card = 0 then .error .valueError
  else
    match degrees g (ord (vertexSet g)) with
    | .error e => .error e
    | .ok [] => .error .valueError
    | .ok (d :: ds) => .ok (ds.foldl min d)

/-- `max(l, key=degree)` after the first element: `best` has degree `d`. -/
def argMax (g : Graph V W) : List V → V → ℕ → Except PyErr V
  | [], best, _ => .ok best
  | u :: us, best, d =>
    match degree g u with
    | .error e => .error e
    | .ok d' => if d < d' then argMax g us u d' else argMax g us best d

/-- `min(l, key=degree)` after the first element. -/
def argMin (g : Graph V W) : List V → V → ℕ → Except PyErr V
  | [], best, _ => .ok best
  | u :: us, best, d =>
    match degree g u with
    | .error e => .error e
    | .ok d' => if d' < d then argMin g us u d' else argMin g us best d

/-- graphs.py:267-292 `maximum_degree_vertex`. -/
def maximumDegreeVertex (ord : Finset V → List V) (g : Graph V W) : Except PyErr V :=
  if (vertexSet g).card = 0 then .error .valueError
  else
    match ord (vertexSet g) with
    | [] => .error .valueError
    | u :: us =>
      match degree g u with
      | .error e => .error e
      | .ok d => argMax g us u d

/-- graphs.py:321-345 `minimum_degree_vertex`. -/
def minimumDegreeVertex (ord : Finset V → List V) (g : Graph V W) : Except PyErr V :=
  if (vertexSet g).card = 0 then .error .valueError
  else
    match ord (vertexSet g) with
    | [] => .error .valueError
    | u :: us =>
      match degree g u with
      | .error e => .error e
      | .ok d => argMin g us u d

/-- graphs.py:132-140 `vertices(order='induced')`: `k` vertices are still to be removed. -/
def inducedOrder (ord : Finset V → List V) : ℕ → Graph V W → Except PyErr (List V)
  | 0, _ => .ok []
  | k + 1, g =>
    match minimumDegreeVertex ord g with
    | .error e => .error e
    | .ok u =>
      match inducedOrder ord k (deleteVertex g u) with
      | .error e => .error e
      | .ok l => .ok (u :: l)

/-- graphs.py:130-131 `vertices(order='degree')`: a stable sort by degree. -/
def degreeOrder (g : Graph V W) : List V :=
  (pySort (g.map (fun e => (e.1, e.2.length))) (fun a b => a.2 ≤ b.2)).map Prod.fst

end Basic

/-! ## Methods that compare vertices -/

section Ordered

variable [LinearOrder V]

/-- graphs.py:83-148 `vertices` with the default order. -/
def vertices (g : Graph V W) : List V := pySort (Dict.keys g) (fun a b => a ≤ b)

/-- graphs.py:200-238 `edge_set` with weights. -/
def edgeSetWeights [DecidableEq W] (g : Graph V W) : Finset (V × V × W) :=
  (g.flatMap (fun e => (e.2.filter (fun f => ¬ f.1 < e.1)).map (fun f => (e.1, f.1, f.2)))).toFinset

/-- graphs.py:200-238 `edge_set` without weights. -/
def edgeSet (g : Graph V W) : Finset (V × V) :=
  (g.flatMap (fun e => (e.2.filter (fun f => ¬ f.1 < e.1)).map (fun f => (e.1, f.1)))).toFinset

/-- graphs.py:65-81 `num_edges`. -/
def numEdges (g : Graph V W) : ℕ := (edgeSet g).card

/-- graphs.py:1010-1013. -/
def complementInner (g : Graph V W) (weight : W) (u : V) : Graph V W → List V → Except PyErr (Graph V W)
  | h, [] => .ok h
  | h, v :: vs =>
    match Dict.get? g v with
    | none => .error .keyError
    | some N =>
      match Dict.get? N u with
      | some _ => complementInner g weight u h vs
      | none => complementInner g weight u (addEdge h u v weight) vs

/-- graphs.py:1009-1013: `before` are the vertices at smaller positions. -/
def complementOuter (g : Graph V W) (weight : W) : Graph V W → List V → List V → Except PyErr (Graph V W)
  | h, _, [] => .ok h
  | h, before, u :: us =>
    match complementInner g weight u h before with
    | .error e => .error e
    | .ok h => complementOuter g weight h (before ++ [u]) us

/-- graphs.py:979-1015 `complement`; all edges get the default weight 1, here `weight`. -/
def complement (g : Graph V W) (weight : W) : Except PyErr (Graph V W) :=
  complementOuter g weight (addVertices [] (vertices g)) [] (vertices g)

end Ordered

/-! ## Constructions -/

/-- graphs.py:1018-1048 `complete_graph`. -/
def completeGraph (n : ℕ) : Graph ℕ ℤ :=
  addEdges [] ((List.range n).flatMap (fun u => (List.range u).map (fun v => (u, v, 1))))

/-- graphs.py:1051-1070 `petersen_graph`. -/
def petersenGraph : Graph ℕ ℤ :=
  addEdges [] [(0, 1, 1), (0, 4, 1), (0, 5, 1), (1, 2, 1), (1, 6, 1), (2, 3, 1), (2, 7, 1), (3, 4, 1),
    (3, 8, 1), (4, 9, 1), (5, 7, 1), (5, 8, 1), (6, 8, 1), (6, 9, 1), (7, 9, 1)]

/-- graphs.py:1073-1106 `random_graph`: `draw i j` is the outcome of the comparison `r <= d` for the pair. -/
def randomGraph (n : ℕ) (draw : ℕ → ℕ → Bool) : Graph ℕ ℤ :=
  addEdges (addVertices [] (List.range n))
    ((List.range n).flatMap (fun i => ((List.range' (i + 1) (n - (i + 1))).filter (fun j => draw i j)).map (fun j => (i, j, 1))))

/-- graphs.py:1189-1193: the local `gcd`. -/
def gcdLoop : ℕ → ℕ → ℕ
  | x, 0 => x
  | x, y + 1 => gcdLoop (y + 1) (x % (y + 1))
decreasing_by exact Nat.mod_lt _ (Nat.succ_pos y)

/-- graphs.py:1172-1201 `coprime_pairs_graph`. -/
def coprimePairsGraph (n : ℕ) : Graph ℕ ℤ :=
  addEdges [] ((List.range' 1 n).flatMap (fun i => ((List.range' 1 (i - 1)).filter (fun j => gcdLoop i j = 1)).map
    (fun j => (i, j, 1))))

/-- graphs.py:1254-1265 `grid_graph`. -/
def gridGraph (n : ℕ) : Graph ℕ ℤ :=
  addEdges [] ((List.range n).flatMap (fun i => (List.range n).flatMap (fun j =>
    (if j < n - 1 then [(i * n + j, i * n + j + 1, (1 : ℤ))] else []) ++
    (if i * n + j + n < n * n then [(i * n + j, i * n + j + n, 1)] else []))))

end Graph
end Rosemary
