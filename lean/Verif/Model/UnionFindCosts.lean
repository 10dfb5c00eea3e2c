import Verif.Model.UnionFind
import Verif.Model.SpanningTrees

/-!
# The work done by the disjoint set structures

The functions of `Model/UnionFind.lean` together with the number of pointers followed, that is the number of passes through
the `while` loops at unionfind.py:30-32 and unionfind.py:103-105.  The loop that resets the pointers (lines 34-35, 109-110)
makes the same number of passes.
-/

namespace Rosemary.UnionFind

variable {α : Type} [DecidableEq α]

/-- unionfind.py:103-105 with `k` passes made so far. -/
def walkC (parent : α → Option α) (x : α) (path : List α) (k : Nat) : Option (Except PyErr (α × List α × Nat)) :=
  match parent x with
  | none => some (.error .keyError)
  | some y => if x = y then some (.ok (x, path, k)) else walkC parent y (path ++ [x]) (k + 1)
partial_fixpoint

/-- unionfind.py:87-112 `UnionFind.find` with the number of passes. -/
def UF.findC (s : UF α) (x : α) : Option (Except PyErr (α × UF α × Nat)) :=
  match walkC s.parent x [] 0 with
  | none => none
  | some (.error e) => some (.error e)
  | some (.ok (r, path, k)) => some (.ok (r, { s with parent := putAll s.parent path r }, k))

/-- unionfind.py:30-32 with `k` passes made so far. -/
def nwalkC (father : α → Option (Option α)) (u : α) (path : List α) (k : Nat) :
    Option (Except PyErr (α × List α × Nat)) :=
  match father u with
  | none => some (.error .keyError)
  | some none => some (.ok (u, path, k))
  | some (some v) => nwalkC father v (path ++ [u]) (k + 1)
partial_fixpoint

/-- unionfind.py:22-37 `NamedUnionFind.find` with the number of passes. -/
def NUF.findC (s : NUF α) (u : α) : Option (Except PyErr (α × NUF α × Nat)) :=
  match nwalkC s.father u [] 0 with
  | none => none
  | some (.error e) => some (.error e)
  | some (.ok (r, path, k)) =>
    match s.name r with
    | none => some (.error .keyError)
    | some nm => some (.ok (nm, { s with father := putAll s.father path (some r) }, k))

end Rosemary.UnionFind

namespace Rosemary.SpanningTrees

open Graph Paths UnionFind

variable {V W : Type} [LinearOrder V] [AddCommMonoid W] [LinearOrder W]

/-- spanning_trees.py:182-191 with the number `k` of pointers followed so far, which is returned beside the result or the
exception. -/
def kruskalLoopC (n : ℕ) (H : List (W × V × V)) (X : UF V) (total : W) (tree : List (V × V)) (num : ℕ) (k : ℕ) :
    Option (Except PyErr (W × List (V × V)) × ℕ) :=
  if num + 1 < n then
    match popMin keyE H with
    | none => some (.error .indexError, k)
    | some ((w, u, v), H) =>
      match X.findC u with
      | none => none
      | some (.error e) => some (.error e, k)
      | some (.ok (a, X, k1)) =>
        match X.findC v with
        | none => none
        | some (.error e) => some (.error e, k + k1)
        | some (.ok (b, X, k2)) =>
          if a ≠ b then
            match X.union u v with
            | .error e => some (.error e, k + k1 + k2)
            | .ok X => kruskalLoopC n H X (total + w) (tree ++ [pair u v]) (num + 1) (k + k1 + k2)
          else kruskalLoopC n H X total tree num (k + k1 + k2)
  else some (.ok (total, sortPairs tree), k)
partial_fixpoint

/-- spanning_trees.py:126-193 `kruskal` with the number of pointers followed. -/
def kruskalC (g : Graph V W) : Option (Except PyErr (W × List (V × V)) × ℕ) :=
  kruskalLoopC (vertexSet g).card (edgeTuples g) (UF.init (Dict.keys g)) 0 [] 0 0

end Rosemary.SpanningTrees
