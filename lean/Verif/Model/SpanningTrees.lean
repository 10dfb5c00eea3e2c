import Verif.Model.Graph
import Verif.Model.Paths
import Verif.Model.UnionFind
import Verif.Model.LeftistHeap

/-!
# Model of `graphs/algorithms/spanning_trees.py`

Weights, `inf` and `heapq` are modelled as in `Model/Paths.lean`.
-/

namespace Rosemary.SpanningTrees

open Graph Paths UnionFind

variable {V W : Type} [LinearOrder V] [Add W] [Zero W] [LinearOrder W]

/-- `(min(u, v), max(u, v))`. -/
def pair (u v : V) : V × V := (min u v, max u v)

/-- `sorted` for pairs. -/
def sortPairs (l : List (V × V)) : List (V × V) := pySort l (fun a b => decide (toLex a ≤ toLex b))

/-! ### `prim` -/

/-- spanning_trees.py:104-108: the loop over the entries of `graph[u]`; `cost`, `previous`, `heap`. -/
def primRelax (u : V) (vis : Finset V) : Dict V W → Dict V (WithTop W) → Dict V (Option V) → List (W × V) →
    Except PyErr (Dict V (WithTop W) × Dict V (Option V) × List (W × V))
  | [], D, P, H => .ok (D, P, H)
  | (v, x) :: N, D, P, H =>
    if v ∈ vis then primRelax u vis N D P H
    else
      match Dict.get? D v with
      | none => .error .keyError
      | some c =>
        if (x : WithTop W) < c then primRelax u vis N (Dict.set D v (x : WithTop W)) (Dict.set P v (some u)) ((x, v) :: H)
        else primRelax u vis N D P H

/-- spanning_trees.py:97-108; the result is `previous`. -/
def primLoop (g : Graph V W) (D : Dict V (WithTop W)) (P : Dict V (Option V)) (H : List (W × V)) (vis : Finset V) :
    Option (Except PyErr (Dict V (Option V))) :=
  match popMin key2 H with
  | none => some (.ok P)
  | some ((_, u), H) =>
    if u ∈ vis then primLoop g D P H vis
    else
      match Dict.get? g u with
      | none => some (.error .keyError)
      | some N =>
        match primRelax u (insert u vis) N D P H with
        | .error e => some (.error e)
        | .ok (D, P, H) => primLoop g D P H (insert u vis)
partial_fixpoint

/-- spanning_trees.py:113-118: the loop over `previous`. -/
def collect (g : Graph V W) : Dict V (Option V) → W → List (V × V) → Except PyErr (W × List (V × V))
  | [], total, edges => .ok (total, edges)
  | (_, none) :: P, total, edges => collect g P total edges
  | (u, some v) :: P, total, edges =>
    match (Dict.get? g u).bind (fun N => Dict.get? N v) with
    | none => .error .keyError
    | some w => collect g P (total + w) (edges ++ [pair u v])

/-- spanning_trees.py:82-84: the root; `next(iter(graph.graph_dict))` without an argument. -/
def primRoot (g : Graph V W) : Option V → Except PyErr V
  | some root => .ok root
  | none =>
    match Dict.keys g with
    | [] => .error .stopIteration
    | u :: _ => .ok u

/-- spanning_trees.py:82-118 the weight, the list `edges` and `previous`. -/
def primCore (g : Graph V W) (root : Option V) : Option (Except PyErr (W × List (V × V) × Dict V (Option V))) :=
  match primRoot g root with
  | .error e => some (.error e)
  | .ok root =>
    match primLoop g (Dict.set (g.map (fun e => (e.1, ⊤))) root ((0 : W) : WithTop W)) (g.map (fun e => (e.1, none))) [(0, root)] ∅ with
    | none => none
    | some (.error e) => some (.error e)
    | some (.ok P) =>
      match collect g P 0 [] with
      | .error e => some (.error e)
      | .ok (total, edges) => some (.ok (total, edges, P))

/-- spanning_trees.py:16-121 `prim(graph, root)`. -/
def prim (g : Graph V W) (root : Option V) : Option (Except PyErr (W × List (V × V))) :=
  (primCore g root).map (fun r => r.map (fun x => (x.1, sortPairs x.2.1)))

/-- spanning_trees.py:123 `prim(graph, root, edge_list=False)`. -/
def primLinks (g : Graph V W) (root : Option V) : Option (Except PyErr (W × Dict V (Option V))) :=
  (primCore g root).map (fun r => r.map (fun x => (x.1, x.2.2)))

/-! ### `kruskal` -/

/-- The order of the tuples `(w, u, v)`. -/
def keyE (e : W × V × V) : W ×ₗ V ×ₗ V := toLex (e.1, toLex (e.2.1, e.2.2))

/-- spanning_trees.py:170 `edges`. -/
def edgeTuples (g : Graph V W) : List (W × V × V) := g.flatMap (fun e => e.2.map (fun f => (f.2, e.1, f.1)))

/-- spanning_trees.py:182-191: `n` is `num_vertices`. -/
def kruskalLoop (n : ℕ) (H : List (W × V × V)) (X : UF V) (total : W) (tree : List (V × V)) (num : ℕ) :
    Option (Except PyErr (W × List (V × V))) :=
  if num + 1 < n then
    match popMin keyE H with
    | none => some (.error .indexError)
    | some ((w, u, v), H) =>
      match X.find u with
      | none => none
      | some (.error e) => some (.error e)
      | some (.ok (a, X)) =>
        match X.find v with
        | none => none
        | some (.error e) => some (.error e)
        | some (.ok (b, X)) =>
          if a ≠ b then
            match X.union u v with
            | .error e => some (.error e)
            | .ok X => kruskalLoop n H X (total + w) (tree ++ [pair u v]) (num + 1)
          else kruskalLoop n H X total tree num
  else some (.ok (total, sortPairs tree))
partial_fixpoint

/-- spanning_trees.py:126-193 `kruskal`.  The order in which the set of the vertices is passed to `UnionFind` has no
effect. -/
def kruskal (g : Graph V W) : Option (Except PyErr (W × List (V × V))) :=
  kruskalLoop (vertexSet g).card (edgeTuples g) (UF.init (Dict.keys g)) 0 [] 0

/-! ### `cheriton_tarjan` -/

/-- A heap of the tuples `(weight, u, v)`. -/
abbrev EdgeHeap (V W : Type) := LeftistHeap.Heap (W ×ₗ V ×ₗ V)

/-- spanning_trees.py:244-249: the loop that makes `PQ`. -/
def ctQueues (g : Graph V W) : List V → Dict V (EdgeHeap V W) → Except PyErr (Dict V (EdgeHeap V W))
  | [], PQ => .ok PQ
  | u :: us, PQ =>
    match Dict.get? g u with
    | none => .error .keyError
    | some N =>
      match LeftistHeap.init (N.map (fun f => keyE (f.2, u, f.1))) with
      | .error e => .error e
      | .ok h => ctQueues g us (Dict.set PQ u h)

/-- spanning_trees.py:255-267: the loop `while True`; `h` is `PQ[Tu]`, the result is `x`, `y`, `Tv`, and the new heap and
`UnionFind`.  The value `None` of `delete_min` on an empty heap cannot be unpacked. -/
def ctInner (Tu : V) (h : EdgeHeap V W) (X : UF V) : Option (Except PyErr (V × V × V × EdgeHeap V W × UF V)) :=
  match h.deleteMin with
  | (none, _) => some (.error .typeError)
  | (some e, h) =>
    let x := (ofLex (ofLex e).2).1
    let y := (ofLex (ofLex e).2).2
    match X.find x with
    | none => none
    | some (.error e) => some (.error e)
    | some (.ok (Tx, X)) =>
      match X.find y with
      | none => none
      | some (.error e) => some (.error e)
      | some (.ok (Ty, X)) =>
        if Tx = Ty then ctInner Tu h X
        else some (.ok (x, y, if Tx = Tu then Ty else Tx, h, X))
partial_fixpoint

/-- spanning_trees.py:269-277: from `union(Tu, Tv)` to `del PQ[Tv]`; `h` is the heap of `Tu`. -/
def ctUnite (Tu Tv : V) (h : EdgeHeap V W) (PQ : Dict V (EdgeHeap V W)) (X : UF V) :
    Option (Except PyErr (Dict V (EdgeHeap V W) × UF V)) :=
  match X.union Tu Tv with
  | .error e => some (.error e)
  | .ok X =>
    match X.find Tu with
    | none => none
    | some (.error e) => some (.error e)
    | some (.ok (u, X)) =>
      let PQ := Dict.set PQ Tu h
      let a := if u ≠ Tu then u else Tu
      let b := if u ≠ Tu then Tu else Tv
      match Dict.get? PQ a, Dict.get? PQ b with
      | some ha, some hb => some (.ok (Dict.erase (Dict.set PQ a (ha.mergeWith hb)) b, X))
      | _, _ => some (.error .keyError)

/-- spanning_trees.py:251-280: the loop; `ch` is `choice` in the round with the given number, and `n` is `num_vertices`. -/
def ctLoop (ch : ℕ → List V → V) (n : ℕ) (PQ : Dict V (EdgeHeap V W)) (X : UF V) (tree : List (V × V)) (num : ℕ) :
    Option (Except PyErr (List (V × V))) :=
  if num + 1 < n then
    match Dict.keys PQ with
    | [] => some (.error .indexError)
    | k :: ks =>
      match X.find (ch num (k :: ks)) with
      | none => none
      | some (.error e) => some (.error e)
      | some (.ok (Tu, X)) =>
        match Dict.get? PQ Tu with
        | none => some (.error .keyError)
        | some h =>
          match ctInner Tu h X with
          | none => none
          | some (.error e) => some (.error e)
          | some (.ok (x, y, Tv, h, X)) =>
            match ctUnite Tu Tv h PQ X with
            | none => none
            | some (.error e) => some (.error e)
            | some (.ok (PQ, X)) => ctLoop ch n PQ X (tree ++ [pair x y]) (num + 1)
  else some (.ok tree)
partial_fixpoint

/-- spanning_trees.py:282-284: the sum of the weights. -/
def ctTotal (g : Graph V W) : List (V × V) → W → Except PyErr W
  | [], total => .ok total
  | e :: es, total =>
    match (Dict.get? g e.1).bind (fun N => Dict.get? N e.2) with
    | none => .error .keyError
    | some w => ctTotal g es (total + w)

/-- spanning_trees.py:196-286 `cheriton_tarjan`. -/
def cheritonTarjan (ch : ℕ → List V → V) (g : Graph V W) : Option (Except PyErr (W × List (V × V))) :=
  match ctQueues g (vertices g) [] with
  | .error e => some (.error e)
  | .ok PQ =>
    match ctLoop ch (vertices g).length PQ (UF.init (vertices g)) [] 0 with
    | none => none
    | some (.error e) => some (.error e)
    | some (.ok tree) =>
      match ctTotal g tree 0 with
      | .error e => some (.error e)
      | .ok total => some (.ok (total, sortPairs tree))

end Rosemary.SpanningTrees
