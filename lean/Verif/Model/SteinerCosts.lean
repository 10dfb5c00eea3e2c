import Verif.Model.SteinerTrees

/-!
# Costs in `graphs/algorithms/steiner_trees.py`

`minimum_cost_paths_heuristic` again, with the number of comparisons `shortest_dist[u][v] < min_dist` in line 205, and
`distance_network_heuristic` again, with the number of vertices that `tree.leaves()` (line 267, graphs.py:172) looks at.
-/

namespace Rosemary.SteinerTrees

open Graph Paths SpanningTrees

variable {V W : Type} [LinearOrder V] [AddCommMonoid W] [LinearOrder W]

/-- steiner_trees.py:199-223: the loop `while terminal_set` with the number of comparisons; in a round there is one for every
terminal outside the tree and every vertex of the tree.  (If a `KeyError` ends the round early, the whole round is counted.) -/
def growLoopC (ord : Finset V → List V) (D : Dict V (Dict V (WithTop W))) (P : Dict V (Dict V (Option V)))
    (es : List (V × V)) (S R : Finset V) (m : Option (V × V)) (k : ℕ) :
    Option (Except PyErr (List (V × V) × Option (V × V)) × ℕ) :=
  if R = ∅ then some (.ok (es, m), k)
  else
    let k := k + (ord (R \ S)).length * (ord S).length
    match closest D (ord S) (ord (R \ S)) ⊤ m with
    | .error e => some (.error e, k)
    | .ok (_, none) => some (.error .unboundLocalError, k)
    | .ok (_, some (u, v)) =>
      match look P u v with
      | .error e => some (.error e, k)
      | .ok a =>
        match tracePath P u a v es (insert u S) with
        | none => none
        | some (.error e) => some (.error e, k)
        | some (.ok (es, S)) => growLoopC ord D P es S (R.erase u) (some (u, v)) k
partial_fixpoint

/-- steiner_trees.py:191-230: the loop over the roots with the number of comparisons. -/
def rootsLoopC (ord : Finset V → List V) (one : W) (g : Graph V W) (terminals : List V)
    (D : Dict V (Dict V (WithTop W))) (P : Dict V (Dict V (Option V))) :
    List V → Option (V × V) → Option (W × List (V × V)) → ℕ → Option (Except PyErr (W × List (V × V)) × ℕ)
  | [], _, none, k => some (.error .unboundLocalError, k)
  | [], _, some best, k => some (.ok best, k)
  | root :: roots, m, best, k =>
    match growLoopC ord D P [] {root} (terminals.toFinset.erase root) m k with
    | none => none
    | some (.error e, k) => some (.error e, k)
    | some (.ok (es, m), k) =>
      match improve ord one g es terminals with
      | none => none
      | some (.error e) => some (.error e, k)
      | some (.ok new) =>
        rootsLoopC ord one g terminals D P roots m
          (match best with
            | none => some new
            | some best => if new.1 < best.1 then some new else some best) k

/-- steiner_trees.py:116-232 `minimum_cost_paths_heuristic` with the number of comparisons. -/
def minimumCostPathsC (ord : Finset V → List V) (one : W) (g : Graph V W) (terminals : List V) :
    Option (Except PyErr (W × List (V × V)) × ℕ) :=
  match shortest g terminals [] [] with
  | none => none
  | some (.error e) => some (.error e, 0)
  | some (.ok (D, P)) => rootsLoopC ord one g terminals D P terminals none none 0

/-! ### The search for leaves -/

/-- steiner_trees.py:266-276 with the number `k` of vertices that the calls of `leaves` look at. -/
def pruneLoopC (ord : Finset V → List V) (terminals : List V) (tree : Graph V W) (k : ℕ) : Option (Graph V W × ℕ) :=
  match prune terminals (ord (leaves tree)) tree false with
  | (tree', true) => pruneLoopC ord terminals tree' (k + numVertices tree)
  | (tree', false) => some (tree', k + numVertices tree)
partial_fixpoint

/-- steiner_trees.py:235-278 `_delete_nonterminal_leaves` with the number of vertices looked at. -/
def deleteNonterminalLeavesC (ord : Finset V → List V) (one : W) (es : List (V × V)) (terminals : List V) :
    Option (List (V × V) × ℕ) :=
  (pruneLoopC ord terminals (es.foldl (fun tree e => addEdge tree e.1 e.2 one) ([] : Graph V W)) 0).map
    (fun r => (edges r.1, r.2))

/-- steiner_trees.py:281-328 `_improve` with the number of vertices looked at. -/
def improveC (ord : Finset V → List V) (one : W) (g : Graph V W) (es : List (V × V)) (terminals : List V) :
    Option (Except PyErr (W × List (V × V)) × ℕ) :=
  match inducedSubgraph ord g (es.flatMap (fun e => [e.1, e.2])) with
  | .error e => some (.error e, 0)
  | .ok induced =>
    match prim induced none with
    | none => none
    | some (.error e) => some (.error e, 0)
    | some (.ok (_, mst)) =>
      match deleteNonterminalLeavesC ord one mst terminals with
      | none => none
      | some (improved, k) =>
        match sumWeights g improved 0 with
        | .error e => some (.error e, k)
        | .ok weight => some (.ok (weight, improved), k)

/-- steiner_trees.py:16-113 `distance_network_heuristic` with the number of vertices looked at. -/
def distanceNetworkC (ord : Finset V → List V) (one : W) (g : Graph V W) (terminals : List V) :
    Option (Except PyErr (W × List (V × V)) × ℕ) :=
  match shortest g terminals [] [] with
  | none => none
  | some (.error e) => some (.error e, 0)
  | some (.ok (D, P)) =>
    match network D (pairs terminals) [] with
    | .error e => some (.error e, 0)
    | .ok h =>
      match prim h none with
      | none => none
      | some (.error e) => some (.error e, 0)
      | some (.ok (_, mst)) =>
        match addPaths g P mst [] with
        | none => none
        | some (.error e) => some (.error e, 0)
        | some (.ok sub) =>
          match prim sub none with
          | none => none
          | some (.error e) => some (.error e, 0)
          | some (.ok (_, es)) => improveC ord one g es terminals

end Rosemary.SteinerTrees
