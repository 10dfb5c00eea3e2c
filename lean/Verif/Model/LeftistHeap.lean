import Verif.Model.Py

/-!
# Model of the leftist heap of `data_structures/heaps.py` (lines 9-211)

Nodes are immutable trees: the code updates nodes in place, but every node has exactly one owner (a
parent's field or the `root` of a heap), except that `merge` leaves the argument `other` pointing at
nodes now owned by `self` (`other` must not be used afterwards).  Values are compared with `>`.
-/

namespace Rosemary.LeftistHeap

variable {α : Type} [LT α] [DecidableLT α]

/-- heaps.py:9-31 `_LeftistHeapNode`; `leaf` is `None`. -/
inductive Tree (α : Type)
  | leaf
  | node (value : α) (rank : Nat) (left right : Tree α)

/-- heaps.py:27-31, a new node. -/
def Tree.single (v : α) : Tree α := .node v 0 .leaf .leaf

/-- Number of nodes. -/
def Tree.size : Tree α → Nat
  | .leaf => 0
  | .node _ _ l r => l.size + r.size + 1

/-- The attribute `rank` of a node; only read on nodes. -/
def Tree.rank : Tree α → Nat
  | .leaf => 0
  | .node _ k _ _ => k

/-- heaps.py:57-71: put `nodeC` in the place of the right child of `nodeA`. -/
def attach (a : α) (left nodeC : Tree α) : Tree α :=
  match left with
  | .leaf => .node a 0 nodeC .leaf
  | left =>
    if nodeC.rank ≤ left.rank then .node a (nodeC.rank + 1) left nodeC
    else .node a (left.rank + 1) nodeC left

/-- heaps.py:34-71 `_leftist_heap_merge`. -/
def merge : Tree α → Tree α → Tree α
  | .leaf, b => b
  | a, .leaf => a
  | .node x kx lx rx, .node y ky ly ry =>
    if x > y then
      attach y ly (match ry with
        | .leaf => .node x kx lx rx
        | .node u ku lu ru => merge (.node u ku lu ru) (.node x kx lx rx))
    else
      attach x lx (match rx with
        | .leaf => .node y ky ly ry
        | .node u ku lu ru => merge (.node u ku lu ru) (.node y ky ly ry))
termination_by a b => a.size + b.size
decreasing_by
  · simp only [Tree.size]; omega
  · simp only [Tree.size]; omega

/-- heaps.py:74-93 `LeftistHeap`. -/
structure Heap (α : Type) where
  root : Tree α
  size : Nat

/-- heaps.py:115-121, merging pairs from the front of the queue; `last` is the variable `nodeA`. -/
def build : Nat → List (Tree α) → Nat → Option (Tree α) → Except PyErr (Option (Tree α) × Nat)
  | numValues, nodes, size, last =>
    if _h : numValues > 1 then
      match nodes with
      | a :: b :: rest =>
        let c := merge a b
        build (numValues - 1) (rest ++ [c]) (size + 1) (some c)
      | _ => .error .indexError
    else .ok (last, size)
termination_by numValues => numValues
decreasing_by omega

/-- heaps.py:95-124 `LeftistHeap.__init__`.  With fewer than two values `nodeA` is unbound. -/
def init (values : List α) : Except PyErr (Heap α) :=
  match build values.length (values.map Tree.single) 0 none with
  | .error e => .error e
  | .ok (none, _) => .error .unboundLocalError
  | .ok (some r, size) => .ok ⟨r, size + 1⟩

/-- heaps.py:139-157 `LeftistHeap.insert`. -/
def Heap.insert (h : Heap α) (v : α) : Heap α :=
  match h.root with
  | .leaf => ⟨Tree.single v, h.size + 1⟩
  | root => ⟨merge root (Tree.single v), h.size + 1⟩

/-- heaps.py:159-170 `LeftistHeap.find_min`. -/
def Heap.findMin (h : Heap α) : Except PyErr α :=
  match h.root with
  | .leaf => .error .attributeError
  | .node v _ _ _ => .ok v

/-- heaps.py:172-191 `LeftistHeap.delete_min`; `None` on an empty heap. -/
def Heap.deleteMin (h : Heap α) : Option α × Heap α :=
  match h.root with
  | .leaf => (none, h)
  | .node v _ l r => (some v, ⟨merge l r, h.size - 1⟩)

/-- heaps.py:193-211 `LeftistHeap.merge`. -/
def Heap.mergeWith (h other : Heap α) : Heap α := ⟨merge h.root other.root, h.size + other.size⟩

/-- heaps.py:132-137 `LeftistHeap.__iter__`, run to the end: the yielded values and the final heap. -/
def iterLoop : Nat → Heap α → List (Option α) × Heap α
  | 0, h => ([], h)
  | k + 1, h =>
    let (v, h) := h.deleteMin
    let (vs, h) := iterLoop k h
    (v :: vs, h)

/-- heaps.py:132-137. -/
def Heap.iter (h : Heap α) : List (Option α) × Heap α := iterLoop h.size h

end Rosemary.LeftistHeap
