import Verif.Model.SpanningTrees

/-!
# Costs in `graphs/algorithms/spanning_trees.py`

`cheriton_tarjan` again, with the number of keys that `list(PQ.keys())` in line 252 copies.
-/

namespace Rosemary.SpanningTrees

open Graph Paths UnionFind

variable {V W : Type} [LinearOrder V] [Add W] [Zero W] [LinearOrder W]

/-- spanning_trees.py:251-280: the loop; `k` is the number of keys copied so far. -/
def ctLoopC (ch : ℕ → List V → V) (n : ℕ) (PQ : Dict V (EdgeHeap V W)) (X : UF V) (tree : List (V × V)) (num k : ℕ) :
    Option (Except PyErr (List (V × V)) × ℕ) :=
  if num + 1 < n then
    let k := k + (Dict.keys PQ).length
    match Dict.keys PQ with
    | [] => some (.error .indexError, k)
    | u :: us =>
      match X.find (ch num (u :: us)) with
      | none => none
      | some (.error e) => some (.error e, k)
      | some (.ok (Tu, X)) =>
        match Dict.get? PQ Tu with
        | none => some (.error .keyError, k)
        | some h =>
          match ctInner Tu h X with
          | none => none
          | some (.error e) => some (.error e, k)
          | some (.ok (x, y, Tv, h, X)) =>
            match ctUnite Tu Tv h PQ X with
            | none => none
            | some (.error e) => some (.error e, k)
            | some (.ok (PQ, X)) => ctLoopC ch n PQ X (tree ++ [pair x y]) (num + 1) k
  else some (.ok tree, k)
partial_fixpoint

/-- spanning_trees.py:196-286 `cheriton_tarjan` with the number of keys copied in line 252. -/
def cheritonTarjanC (ch : ℕ → List V → V) (g : Graph V W) : Option (Except PyErr (W × List (V × V)) × ℕ) :=
  match ctQueues g (vertices g) [] with
  | .error e => some (.error e, 0)
  | .ok PQ =>
    match ctLoopC ch (vertices g).length PQ (UF.init (vertices g)) [] 0 0 with
    | none => none
    | some (.error e, k) => some (.error e, k)
    | some (.ok tree, k) =>
      match ctTotal g tree 0 with
      | .error e => some (.error e, k)
      | .ok total => some (.ok (total, sortPairs tree), k)

end Rosemary.SpanningTrees
