import Verif.Model.LeftistHeap

/-!
# The calls of `_leftist_heap_merge`

How often `_leftist_heap_merge` of `data_structures/heaps.py` is called, with the same branches as in
`Verif/Model/LeftistHeap.lean`.  Every call does a bounded number of operations besides the recursive call, and the calls
are nested, so that the number is also the depth of the recursion.
-/

namespace Rosemary.LeftistHeap

variable {α : Type} [LT α] [DecidableLT α]

/-- heaps.py:34-71: the number of calls during `_leftist_heap_merge(nodeA, nodeB)`, itself included. -/
def mergeCalls : Tree α → Tree α → Nat
  | .leaf, _ => 1
  | _, .leaf => 1
  | .node x kx lx rx, .node y ky ly ry =>
    if x > y then
      (match ry with
        | .leaf => 0
        | .node u ku lu ru => mergeCalls (.node u ku lu ru) (.node x kx lx rx)) + 1
    else
      (match rx with
        | .leaf => 0
        | .node u ku lu ru => mergeCalls (.node u ku lu ru) (.node y ky ly ry)) + 1
termination_by a b => a.size + b.size
decreasing_by
  · simp only [Tree.size]; omega
  · simp only [Tree.size]; omega

/-- heaps.py:115-121: the number of calls in the loop of the constructor. -/
def buildCalls : Nat → List (Tree α) → Nat
  | numValues, nodes =>
    if _h : numValues > 1 then
      match nodes with
      | a :: b :: rest => mergeCalls a b + buildCalls (numValues - 1) (rest ++ [merge a b])
      | _ => 0
    else 0
termination_by numValues => numValues
decreasing_by omega

/-- heaps.py:95-124: the number of calls of the constructor. -/
def initCalls (values : List α) : Nat := buildCalls values.length (values.map Tree.single)

/-- heaps.py:151-157: the number of calls of `insert`. -/
def Heap.insertCalls (h : Heap α) (v : α) : Nat :=
  match h.root with
  | .leaf => 0
  | root => mergeCalls root (Tree.single v)

/-- heaps.py:185-190: the number of calls of `delete_min`. -/
def Heap.deleteMinCalls (h : Heap α) : Nat :=
  match h.root with
  | .leaf => 0
  | .node _ _ l r => mergeCalls l r

/-- heaps.py:210: the number of calls of `merge`. -/
def Heap.mergeWithCalls (h other : Heap α) : Nat := mergeCalls h.root other.root

end Rosemary.LeftistHeap
