import Verif.Model.SpanningTrees

/-!
# Model of `graphs/algorithms/steiner_trees.py`

Weights, `inf` and `heapq` are modelled as in `Model/Paths.lean`; `none` stands for an endless loop.  The order of
iteration of Python sets is the parameter `ord`.
-/

namespace Rosemary.SteinerTrees

open Graph Paths SpanningTrees

variable {V W : Type} [LinearOrder V] [AddCommMonoid W] [LinearOrder W]

/-- graphs.py:175-198 `edges` and 200-238 `edge_set`, without weights: the sorted list of the set of edges. -/
def edges (g : Graph V W) : List (V × V) :=
  sortPairs (g.flatMap (fun e => (e.2.filter (fun f => ¬ f.1 < e.1)).map (fun f => (e.1, f.1)))).dedup

/-! ### The improvement procedure -/

/-- steiner_trees.py:270-273: the loop over the leaves; the result says if `changed` is true. -/
def prune (terminals : List V) : List V → Graph V W → Bool → Graph V W × Bool
  | [], tree, changed => (tree, changed)
  | leaf :: ls, tree, changed =>
    if leaf ∉ terminals then prune terminals ls (deleteVertex tree leaf) true else prune terminals ls tree changed

/-- steiner_trees.py:266-276. -/
def pruneLoop (ord : Finset V → List V) (terminals : List V) (tree : Graph V W) : Option (Graph V W) :=
  match prune terminals (ord (leaves tree)) tree false with
  | (tree, true) => pruneLoop ord terminals tree
  | (tree, false) => some tree
partial_fixpoint

/-- steiner_trees.py:235-278 `_delete_nonterminal_leaves`; `one` is the default weight of an edge. -/
def deleteNonterminalLeaves (ord : Finset V → List V) (one : W) (es : List (V × V)) (terminals : List V) :
    Option (List (V × V)) :=
  (pruneLoop ord terminals (es.foldl (fun tree e => addEdge tree e.1 e.2 one) ([] : Graph V W))).map edges

/-- steiner_trees.py:326: the sum of the weights. -/
def sumWeights (g : Graph V W) : List (V × V) → W → Except PyErr W
  | [], total => .ok total
  | (u, v) :: es, total =>
    match (Dict.get? g u).bind (fun N => Dict.get? N v) with
    | none => .error .keyError
    | some w => sumWeights g es (total + w)

/-- steiner_trees.py:281-328 `_improve`. -/
def improve (ord : Finset V → List V) (one : W) (g : Graph V W) (es : List (V × V)) (terminals : List V) :
    Option (Except PyErr (W × List (V × V))) :=
  match inducedSubgraph ord g (es.flatMap (fun e => [e.1, e.2])) with
  | .error e => some (.error e)
  | .ok induced =>
    match prim induced none with
    | none => none
    | some (.error e) => some (.error e)
    | some (.ok (_, mst)) =>
      match deleteNonterminalLeaves ord one mst terminals with
      | none => none
      | some improved =>
        match sumWeights g improved 0 with
        | .error e => some (.error e)
        | .ok weight => some (.ok (weight, improved))

/-! ### Shortest paths between terminals -/

/-- steiner_trees.py:88-91 and 184-187: `shortest_dist` and `shortest_prev`. -/
def shortest (g : Graph V W) : List V → Dict V (Dict V (WithTop W)) → Dict V (Dict V (Option V)) →
    Option (Except PyErr (Dict V (Dict V (WithTop W)) × Dict V (Dict V (Option V))))
  | [], D, P => some (.ok (D, P))
  | u :: us, D, P =>
    match dijkstra g u with
    | none => none
    | some (.error e) => some (.error e)
    | some (.ok (d, p)) => shortest g us (Dict.set D u d) (Dict.set P u p)

/-- `d[u][v]`. -/
def look {β : Type} (d : Dict V (Dict V β)) (u v : V) : Except PyErr β :=
  match (Dict.get? d u).bind (fun N => Dict.get? N v) with
  | none => .error .keyError
  | some x => .ok x

/-! ### `distance_network_heuristic` -/

/-- `itertools.combinations(l, 2)`. -/
def pairs : List V → List (V × V)
  | [] => []
  | u :: us => us.map (fun v => (u, v)) ++ pairs us

/-- steiner_trees.py:95: the distance network.  An edge of infinite weight never passes the test `weight < cost[v]` of
`prim` (spanning_trees.py:105); of such an edge the model only keeps the two vertices. -/
def network (D : Dict V (Dict V (WithTop W))) : List (V × V) → Graph V W → Except PyErr (Graph V W)
  | [], h => .ok h
  | (u, v) :: ps, h =>
    match look D u v with
    | .error e => .error e
    | .ok ⊤ => network D ps (addVertex (addVertex h u) v)
    | .ok (some w) => network D ps (addEdge h u v w)

/-- steiner_trees.py:105-107: the loop that adds the edges of a path. -/
def addPath (g : Graph V W) (P : Dict V (Dict V (Option V))) (u : V) (a : Option V) (b : V) (h : Graph V W) :
    Option (Except PyErr (Graph V W)) :=
  match a with
  | none => some (.ok h)
  | some a =>
    match (Dict.get? g a).bind (fun N => Dict.get? N b) with
    | none => some (.error .keyError)
    | some w =>
      match look P u a with
      | .error e => some (.error e)
      | .ok a' => addPath g P u a' a (addEdge h a b w)
partial_fixpoint

/-- steiner_trees.py:103-107. -/
def addPaths (g : Graph V W) (P : Dict V (Dict V (Option V))) : List (V × V) → Graph V W → Option (Except PyErr (Graph V W))
  | [], h => some (.ok h)
  | (u, v) :: es, h =>
    match look P u v with
    | .error e => some (.error e)
    | .ok a =>
      match addPath g P u a v h with
      | none => none
      | some (.error e) => some (.error e)
      | some (.ok h) => addPaths g P es h

/-- steiner_trees.py:16-113 `distance_network_heuristic`. -/
def distanceNetworkHeuristic (ord : Finset V → List V) (one : W) (g : Graph V W) (terminals : List V) :
    Option (Except PyErr (W × List (V × V))) :=
  match shortest g terminals [] [] with
  | none => none
  | some (.error e) => some (.error e)
  | some (.ok (D, P)) =>
    match network D (pairs terminals) [] with
    | .error e => some (.error e)
    | .ok h =>
      match prim h none with
      | none => none
      | some (.error e) => some (.error e)
      | some (.ok (_, mst)) =>
        match addPaths g P mst [] with
        | none => none
        | some (.error e) => some (.error e)
        | some (.ok sub) =>
          match prim sub none with
          | none => none
          | some (.error e) => some (.error e)
          | some (.ok (_, es)) => improve ord one g es terminals

/-! ### `minimum_cost_paths_heuristic` -/

/-- steiner_trees.py:204-207: the loop over the vertices of the tree; `min_dist` and `min_vertices`. -/
def closestInner (D : Dict V (Dict V (WithTop W))) (u : V) : List V → WithTop W → Option (V × V) →
    Except PyErr (WithTop W × Option (V × V))
  | [], d, m => .ok (d, m)
  | v :: vs, d, m =>
    match look D u v with
    | .error e => .error e
    | .ok x => if x < d then closestInner D u vs x (some (u, v)) else closestInner D u vs d m

/-- steiner_trees.py:203-207. -/
def closest (D : Dict V (Dict V (WithTop W))) (vs : List V) : List V → WithTop W → Option (V × V) →
    Except PyErr (WithTop W × Option (V × V))
  | [], d, m => .ok (d, m)
  | u :: us, d, m =>
    match closestInner D u vs d m with
    | .error e => .error e
    | .ok (d, m) => closest D vs us d m

/-- steiner_trees.py:216-223: the edges and vertices of the path. -/
def tracePath (P : Dict V (Dict V (Option V))) (u : V) (a : Option V) (b : V) (es : List (V × V)) (S : Finset V) :
    Option (Except PyErr (List (V × V) × Finset V)) :=
  match a with
  | none => some (.ok (es, S))
  | some a =>
    match look P u a with
    | .error e => some (.error e)
    | .ok a' => tracePath P u a' a (es ++ [if a < b then (a, b) else (b, a)]) (insert a S)
partial_fixpoint

/-- steiner_trees.py:199-223: the loop `while terminal_set`; `S` is `tree_vertices`, `R` is `terminal_set` and `m` is
`min_vertices`, which keeps its value when no pair is found. -/
def growLoop (ord : Finset V → List V) (D : Dict V (Dict V (WithTop W))) (P : Dict V (Dict V (Option V)))
    (es : List (V × V)) (S R : Finset V) (m : Option (V × V)) : Option (Except PyErr (List (V × V) × Option (V × V))) :=
  if R = ∅ then some (.ok (es, m))
  else
    match closest D (ord S) (ord (R \ S)) ⊤ m with
    | .error e => some (.error e)
    | .ok (_, none) => some (.error .unboundLocalError)
    | .ok (_, some (u, v)) =>
      match look P u v with
      | .error e => some (.error e)
      | .ok a =>
        match tracePath P u a v es (insert u S) with
        | none => none
        | some (.error e) => some (.error e)
        | some (.ok (es, S)) => growLoop ord D P es S (R.erase u) (some (u, v))
partial_fixpoint

/-- steiner_trees.py:191-230: the loop over the roots; `best` are `best_weight` and `best_edges`. -/
def rootsLoop (ord : Finset V → List V) (one : W) (g : Graph V W) (terminals : List V)
    (D : Dict V (Dict V (WithTop W))) (P : Dict V (Dict V (Option V))) :
    List V → Option (V × V) → Option (W × List (V × V)) → Option (Except PyErr (W × List (V × V)))
  | [], _, none => some (.error .unboundLocalError)
  | [], _, some best => some (.ok best)
  | root :: roots, m, best =>
    match growLoop ord D P [] {root} (terminals.toFinset.erase root) m with
    | none => none
    | some (.error e) => some (.error e)
    | some (.ok (es, m)) =>
      match improve ord one g es terminals with
      | none => none
      | some (.error e) => some (.error e)
      | some (.ok new) =>
        rootsLoop ord one g terminals D P roots m
          (match best with
            | none => some new
            | some best => if new.1 < best.1 then some new else some best)

/-- steiner_trees.py:116-232 `minimum_cost_paths_heuristic`. -/
def minimumCostPathsHeuristic (ord : Finset V → List V) (one : W) (g : Graph V W) (terminals : List V) :
    Option (Except PyErr (W × List (V × V))) :=
  match shortest g terminals [] [] with
  | none => none
  | some (.error e) => some (.error e)
  | some (.ok (D, P)) => rootsLoop ord one g terminals D P terminals none none

end Rosemary.SteinerTrees
