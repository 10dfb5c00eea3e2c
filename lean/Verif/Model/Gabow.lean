import Verif.Model.Heapq
import Verif.Model.SpanningTrees
import Verif.Model.Traversal
import Mathlib.Algebra.Order.Group.Defs
import Mathlib.Data.Prod.Lex

/-!
# Model of `gabow`, `graphs/algorithms/spanning_trees.py`

The values of `Py` are computations that may raise an exception or run forever (`none`).  The dictionary `weight` is
replaced by the lookup in the graph it is made from.  A predecessor may be `None`.
-/

namespace Rosemary.Gabow

open Graph UnionFind SpanningTrees Traversal Heapq

/-- Computations that may raise an exception, or run forever. -/
abbrev Py (α : Type) := ExceptT PyErr Option α

variable {V W : Type} [LinearOrder V] [AddCommGroup W] [LinearOrder W]

/-- The values of a predecessor dictionary are vertices or `None`. -/
abbrev Links (V : Type) := Dict V (Option V)

/-- An exception or a value. -/
def ofExcept {α : Type} (r : Except PyErr α) : Py α := ExceptT.mk (some r)

/-- `d[k]`. -/
def getKey {κ β : Type} [DecidableEq κ] (d : Dict κ β) (k : κ) : Py β :=
  match Dict.get? d k with
  | none => throw .keyError
  | some v => pure v

/-- `weight[u, v]`. -/
def weightOf (g : Graph V W) (u v : V) : Py W :=
  match (Dict.get? g u).bind (fun N => Dict.get? N v) with
  | none => throw .keyError
  | some w => pure w

/-- `X.find(v)`, where `v` may be `None`. -/
def findLink (X : NUF V) : Option V → Py (V × NUF V)
  | none => throw .keyError
  | some v => ExceptT.mk (X.find v)

/-- spanning_trees.py:302-307: the loop over `included`. -/
def contract (father : Links V) : List (V × V) → NUF V → Py (NUF V)
  | [], X => pure X
  | (x, y) :: es, X => do
    let fx ← getKey father x
    let r ← findLink X (some (if fx ≠ some y then x else y))
    let X ← ofExcept (r.2.union (if fx ≠ some y then y else x) r.1 r.1)
    contract father es X

/-- spanning_trees.py:319-322: the loop that collects `ancestors`, from `a`. -/
def ancestors (father : Links V) (X : NUF V) (a : V) (anc : Finset V) : Py (Finset V × NUF V) :=
  if a ∈ anc then pure (anc, X)
  else do
    let fa ← getKey father a
    let r ← findLink X fa
    ancestors father r.2 r.1 (insert a anc)
partial_fixpoint

/-- spanning_trees.py:325-326: the loop that finds the common ancestor, from `a`. -/
def meet (father : Links V) (anc : Finset V) (X : NUF V) (a : V) : Py (V × NUF V) :=
  if a ∈ anc then pure (a, X)
  else do
    let fa ← getKey father a
    let r ← findLink X fa
    meet father anc r.2 r.1
partial_fixpoint

/-- The variables `(min_weight, e, f)`. -/
abbrev Best (V W : Type) := WithTop W × Option (V × V) × Option (V × V)

/-- spanning_trees.py:330-339: the loop `while v != a`. -/
def raise (g : Graph V W) (father : Links V) (x y a : V) (X : NUF V) (best : Best V W) (v : V) : Py (NUF V × Best V W) :=
  if v = a then pure (X, best)
  else do
    let fv ← getKey father v
    let wxy ← weightOf g x y
    match fv with
    | none => throw .keyError
    | some fv =>
      let wv ← weightOf g v fv
      let best := if ((wxy - wv : W) : WithTop W) < best.1 then (((wxy - wv : W) : WithTop W), some (v, fv), some (x, y)) else best
      let r ← findLink X (some fv)
      let X ← ofExcept (r.2.union v r.1 r.1)
      raise g father x y a X best r.1
partial_fixpoint

/-- spanning_trees.py:318-339: the exchanges for an edge `(x, y)` that is not in the tree. -/
def improve (g : Graph V W) (father : Links V) (x y : V) (X : NUF V) (best : Best V W) : Py (NUF V × Best V W) := do
  let r ← findLink X (some x)
  let s ← ancestors father r.2 r.1 ∅
  let r ← findLink s.2 (some y)
  let a ← meet father s.1 r.2 r.1
  let r ← findLink a.2 (some x)
  let s ← raise g father x y a.1 r.2 best r.1
  let r ← findLink s.1 (some y)
  raise g father x y a.1 r.2 s.2 r.1

/-- spanning_trees.py:312-339: the loop over `edges`; the result is `(min_weight, e, f)` and `marked`. -/
def scanEdges (g : Graph V W) (father : Links V) : List (V × V) → Finset (V × V) → NUF V → Best V W → Py (Best V W × Finset (V × V))
  | [], marked, _, best => pure (best, marked)
  | (x, y) :: es, marked, X, best =>
    if (x, y) ∈ marked ∨ (y, x) ∈ marked then scanEdges g father es ((marked.erase (x, y)).erase (y, x)) X best
    else do
      let fx ← getKey father x
      if fx ≠ some y then do
        let fy ← getKey father y
        if fy ≠ some x then do
          let r ← improve g father x y X best
          scanEdges g father es marked r.1 r.2
        else scanEdges g father es marked X best
      else scanEdges g father es marked X best

/-- spanning_trees.py:295-341 `find_exchange`. -/
def findExchange (g : Graph V W) (edges : List (V × V)) (father : Links V) (included excluded : List (V × V))
    (marked : Finset (V × V)) : Py (Best V W × Finset (V × V)) := do
  let X ← contract father included (NUF.init (vertices g))
  scanEdges g father edges (marked ∪ excluded.toFinset) X (⊤, none, none)

/-- An entry of the heap. -/
structure Entry (V W : Type) where
  weight : WithTop W
  e : Option (V × V)
  f : Option (V × V)
  father : Links V
  included : List (V × V)
  excluded : List (V × V)

/-- spanning_trees.py:364 and 382: the pairs `(min(x, y), max(x, y))`; `min` of a vertex and `None` raises. -/
def treePairs : Links V → Except PyErr (List (V × V))
  | [] => .ok []
  | (_, none) :: _ => .error .typeError
  | (x, some y) :: d =>
    match treePairs d with
    | .error e => .error e
    | .ok l => .ok (if x ≠ y then pair x y :: l else l)

/-- spanning_trees.py:364 and 382: `tree_edges`. -/
def treeEdges (father : Links V) : Except PyErr (List (V × V)) :=
  match treePairs father with
  | .error e => .error e
  | .ok l => .ok (sortPairs l)

/-- spanning_trees.py:375: the arguments of `add_edges`, with the default weight 1; `None` as a vertex is not modelled,
for `treePairs` has raised before. -/
def linkTriples : Links V → List (V × V × ℤ)
  | [] => []
  | (_, none) :: d => linkTriples d
  | (x, some y) :: d => (x, y, 1) :: linkTriples d

/-- spanning_trees.py:374-377: `new_graph`. -/
def newGraph (father : Links V) (e f : V × V) : Graph V ℤ :=
  addEdge (deleteEdge (addEdges [] (linkTriples father)) e.1 e.2) f.1 f.2 1

/-- spanning_trees.py:379-380: `new_father`. -/
def newFather (father : Links V) (e f : V × V) (root : V) : Py (Links V) := do
  let d ← ExceptT.mk (breadthFirstSearchTree (newGraph father e f) root)
  pure (Dict.set d root (some root))

/-- spanning_trees.py:371-383: what happens between `heappop` and the `yield`: `none` for the `return`, otherwise the
yielded pair and `new_father`. -/
def nextTree (root : V) (entry : Entry V W) : Py (Option (W × (V × V) × (V × V) × List (V × V) × Links V)) :=
  match entry.weight, entry.e, entry.f with
  | ⊤, _, _ => pure none
  | (w : W), some e, some f => do
    let father ← newFather entry.father e f root
    let edges ← ofExcept (treeEdges father)
    pure (some (w, e, f, edges, father))
  | _, _, _ => throw .typeError

/-- spanning_trees.py:385-394: what happens after the `yield`: the new heap and `marked`. -/
def afterYield (lt : Entry V W → Entry V W → Except PyErr Bool) (g : Graph V W) (edges : List (V × V)) (entry : Entry V W)
    (w : W) (e f : V × V) (father : Links V) (heap : List (Entry V W)) (marked : Finset (V × V)) :
    Py (List (Entry V W) × Finset (V × V)) := do
  let wf ← weightOf g f.1 f.2
  let we ← weightOf g e.1 e.2
  let r ← findExchange g edges entry.father (entry.included ++ [e]) entry.excluded marked
  let heap ← ofExcept (heappush lt heap ⟨((w - wf + we : W) : WithTop W) + r.1.1, r.1.2.1, r.1.2.2, entry.father,
    entry.included ++ [e], entry.excluded⟩)
  let r ← findExchange g edges father entry.included (entry.excluded ++ [e]) r.2
  let heap ← ofExcept (heappush lt heap ⟨(w : WithTop W) + r.1.1, r.1.2.1, r.1.2.2, father, entry.included, entry.excluded ++ [e]⟩)
  pure (heap, r.2)

/-- spanning_trees.py:367-395: the loop; `k` is the number of trees still to be yielded (`None` for all).  The result
is the list of the yielded pairs and the exception that ends the generator, if any. -/
def gabowLoop (lt : Entry V W → Entry V W → Except PyErr Bool) (g : Graph V W) (edges : List (V × V)) (root : V)
    (k : Option ℕ) (heap : List (Entry V W)) (marked : Finset (V × V)) : Option (List (W × List (V × V)) × Option PyErr) :=
  if k = some 0 then some ([], none)
  else
    match heappop lt heap with
    | .error e => some ([], some e)
    | .ok (entry, heap) =>
      match (nextTree root entry).run with
      | none => none
      | some (.error e) => some ([], some e)
      | some (.ok none) => some ([], none)
      | some (.ok (some (w, e, f, tree, father))) =>
        match (afterYield lt g edges entry w e f father heap marked).run with
        | none => none
        | some (.error e) => some ([(w, tree)], some e)
        | some (.ok (heap, marked)) => do
          let r ← gabowLoop lt g edges root (k.map (· - 1)) heap marked
          some ((w, tree) :: r.1, r.2)
partial_fixpoint

/-! ### The comparison of the tuples in the heap, in Python 3 -/

/-- `a < b` for `e` and `f`: pairs of vertices, or `None`, which cannot be compared. -/
def optLt : Option (V × V) → Option (V × V) → Except PyErr Bool
  | some a, some b => .ok (decide (toLex a < toLex b))
  | _, _ => .error .typeError

/-- `a < b` for lists of pairs of vertices. -/
def listLt : List (V × V) → List (V × V) → Bool
  | [], [] => false
  | [], _ :: _ => true
  | _ :: _, [] => false
  | a :: l, b :: m => if a = b then listLt l m else decide (toLex a < toLex b)

/-- `a == b` for dictionaries. -/
def dictEq (a b : Links V) : Bool := decide (a.length = b.length) && a.all (fun e => decide (Dict.get? b e.1 = some e.2))

/-- spanning_trees.py:369 and 391-394: the comparison of the tuples by `heappop` and `heappush`.  Tuples are compared at the
first position where they differ; dictionaries cannot be compared. -/
def entryLt (a b : Entry V W) : Except PyErr Bool :=
  if a.weight ≠ b.weight then .ok (decide (a.weight < b.weight))
  else if a.e ≠ b.e then optLt a.e b.e
  else if a.f ≠ b.f then optLt a.f b.f
  else if dictEq a.father b.father = false then .error .typeError
  else if a.included ≠ b.included then .ok (listLt a.included b.included)
  else .ok (listLt a.excluded b.excluded)

/-- spanning_trees.py:353: `edges`; `ord` is the order of the set.  All pairs are edges, so the key exists. -/
def sortedEdges (ord : Finset (V × V) → List (V × V)) (g : Graph V W) : List (V × V) :=
  pySort (ord (edgeSet g)) (fun a b =>
    decide (((Dict.get? g a.1).bind (fun N => Dict.get? N a.2)).getD 0 ≤ ((Dict.get? g b.1).bind (fun N => Dict.get? N b.2)).getD 0))

/-- spanning_trees.py:343-364: what happens up to the first `yield`: the root, the heap, `marked`, and the pair. -/
def firstTree (g : Graph V W) (edges : List (V × V)) : Py (V × List (Entry V W) × Finset (V × V) × W × List (V × V)) := do
  match vertices g with
  | [] => throw .indexError
  | root :: _ =>
    let t ← ExceptT.mk (primLinks g (some root))
    let father := Dict.set t.2 root (some root)
    let r ← findExchange g edges father [] [] ∅
    let tree ← ofExcept (treeEdges father)
    pure (root, [⟨(t.1 : WithTop W) + r.1.1, r.1.2.1, r.1.2.2, father, [], []⟩], r.2, t.1, tree)

/-- spanning_trees.py:294-395 `gabow`.  `lt` is the comparison of the tuples in the heap. -/
def gabow (lt : Entry V W → Entry V W → Except PyErr Bool) (ord : Finset (V × V) → List (V × V)) (g : Graph V W) (k : Option ℤ) :
    Option (List (W × List (V × V)) × Option PyErr) :=
  match (firstTree g (sortedEdges ord g)).run with
  | none => none
  | some (.error e) => some ([], some e)
  | some (.ok (root, heap, marked, w, tree)) => do
    let r ← gabowLoop lt g (sortedEdges ord g) root (k.map (fun k => (k - 1).toNat)) heap marked
    some ((w, tree) :: r.1, r.2)

end Rosemary.Gabow
