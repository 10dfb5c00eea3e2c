import Verif.Model.LeftistHeap
import Mathlib.Logic.Function.Basic
import Mathlib.Data.Nat.Notation

/-!
# The leftist heap of `data_structures/heaps.py` with its nodes as objects

`Model/LeftistHeap.lean` treats the nodes as immutable trees.  Here they are objects in a store that are
changed in place, as in the code; a heap object holds the address of its root.
-/

namespace Rosemary.HeapNodes

variable {α : Type} [LT α] [DecidableLT α]

/-- heaps.py:9-31 `_LeftistHeapNode`. -/
structure Node (α : Type) where
  value : α
  rank : ℕ
  left : Option ℕ
  right : Option ℕ

/-- The nodes at all addresses. -/
abbrev Nodes (α : Type) := ℕ → Node α

/-- heaps.py:57-71: the assignments to `nodeA` at the end of `_leftist_heap_merge`. -/
def attachNode (m : Nodes α) (a c : ℕ) : Nodes α :=
  match (m a).left with
  | none => Function.update m a ⟨(m a).value, 0, some c, none⟩
  | some l =>
    if (m c).rank ≤ (m l).rank then Function.update m a ⟨(m a).value, (m c).rank + 1, some l, some c⟩
    else Function.update m a ⟨(m a).value, (m l).rank + 1, some c, some l⟩

/-- heaps.py:48: the node with the smaller value, and the other one. -/
def smaller (m : Nodes α) (a b : ℕ) : ℕ × ℕ := if (m a).value > (m b).value then (b, a) else (a, b)

/-- heaps.py:47-71 `_leftist_heap_merge` for two nodes; the recursive call of line 55 is made with two
nodes.  `none` means infinite recursion. -/
def mergeNodes (m : Nodes α) (a b : ℕ) : Option (Nodes α × ℕ) :=
  match (m (smaller m a b).1).right with
  | none => some (attachNode m (smaller m a b).1 (smaller m a b).2, (smaller m a b).1)
  | some r => do
    let q ← mergeNodes m r (smaller m a b).2
    some (attachNode q.1 (smaller m a b).1 q.2, (smaller m a b).1)
partial_fixpoint

/-- heaps.py:34-71 `_leftist_heap_merge`. -/
def mergeRoots (m : Nodes α) (a b : Option ℕ) : Option (Nodes α × Option ℕ) :=
  match a, b with
  | none, b => some (m, b)
  | some a, none => some (m, some a)
  | some a, some b => (mergeNodes m a b).map (fun r => (r.1, some r.2))

/-- The store: the nodes and the first free address. -/
structure World (α : Type) where
  nodes : Nodes α
  next : ℕ

/-- heaps.py:74-93, 95-124: a `LeftistHeap` object. -/
structure HeapObj where
  root : Option ℕ
  size : ℕ

/-- heaps.py:27-31: a new node. -/
def World.alloc (w : World α) (v : α) : World α × ℕ :=
  (⟨Function.update w.nodes w.next ⟨v, 0, none, none⟩, w.next + 1⟩, w.next)

/-- heaps.py:112: the nodes for all the values. -/
def World.allocAll (w : World α) : List α → World α × List ℕ
  | [] => (w, [])
  | v :: vs =>
    let r := (w.alloc v).1.allocAll vs
    (r.1, (w.alloc v).2 :: r.2)

/-- heaps.py:114-121. -/
def buildNodes : ℕ → Nodes α → List ℕ → ℕ → Option ℕ → Option (Except PyErr (Nodes α × Option ℕ × ℕ))
  | numValues, m, nodes, size, last =>
    if _h : numValues > 1 then
      match nodes with
      | a :: b :: rest =>
        match mergeNodes m a b with
        | none => none
        | some (m, c) => buildNodes (numValues - 1) m (rest ++ [c]) (size + 1) (some c)
      | _ => some (.error .indexError)
    else some (.ok (m, last, size))
termination_by numValues => numValues
decreasing_by omega

/-- heaps.py:95-124 `LeftistHeap(values)`. -/
def initObj (w : World α) (values : List α) : Option (Except PyErr (World α × HeapObj)) :=
  let r := w.allocAll values
  match buildNodes values.length r.1.nodes r.2 0 none with
  | none => none
  | some (.error e) => some (.error e)
  | some (.ok (_, none, _)) => some (.error .unboundLocalError)
  | some (.ok (m, some c, size)) => some (.ok (⟨m, r.1.next⟩, ⟨some c, size + 1⟩))

/-- heaps.py:139-157 `insert`. -/
def insertObj (w : World α) (h : HeapObj) (v : α) : Option (World α × HeapObj) :=
  let r := w.alloc v
  match h.root with
  | none => some (r.1, ⟨some r.2, h.size + 1⟩)
  | some a => (mergeNodes r.1.nodes a r.2).map (fun q => (⟨q.1, r.1.next⟩, ⟨some q.2, h.size + 1⟩))

/-- heaps.py:159-170 `find_min`. -/
def findMinObj (w : World α) (h : HeapObj) : Except PyErr α :=
  match h.root with
  | none => .error .attributeError
  | some a => .ok (w.nodes a).value

/-- heaps.py:172-191 `delete_min`. -/
def deleteMinObj (w : World α) (h : HeapObj) : Option (World α × HeapObj × Option α) :=
  match h.root with
  | none => some (w, h, none)
  | some a =>
    (mergeRoots w.nodes (w.nodes a).left (w.nodes a).right).map
      (fun q => (⟨q.1, w.next⟩, ⟨q.2, h.size - 1⟩, some (w.nodes a).value))

/-- heaps.py:193-211 `merge`; the object `other` keeps its attributes. -/
def mergeObj (w : World α) (h other : HeapObj) : Option (World α × HeapObj) :=
  (mergeRoots w.nodes h.root other.root).map (fun q => (⟨q.1, w.next⟩, ⟨q.2, h.size + other.size⟩))

/-- heaps.py:132-137 `__iter__`, run to the end. -/
def iterObj : ℕ → World α → HeapObj → Option (World α × HeapObj × List (Option α))
  | 0, w, h => some (w, h, [])
  | k + 1, w, h =>
    match deleteMinObj w h with
    | none => none
    | some (w, h, v) =>
      match iterObj k w h with
      | none => none
      | some (w, h, vs) => some (w, h, v :: vs)

/-! ### Programs that use several heaps -/

/-- A statement about the heaps in the variables `h0, h1, ...`. -/
inductive Op (α : Type)
  /-- `hi = LeftistHeap(vs)` -/
  | new (i : ℕ) (vs : List α)
  /-- `hi.insert(v)` -/
  | insert (i : ℕ) (v : α)
  /-- `hi.find_min()` -/
  | findMin (i : ℕ)
  /-- `hi.delete_min()` -/
  | deleteMin (i : ℕ)
  /-- `hi.merge(hj)` -/
  | merge (i j : ℕ)
  /-- `len(hi)` -/
  | len (i : ℕ)
  /-- `list(hi)` -/
  | list (i : ℕ)

/-- What a statement shows. -/
inductive Out (α : Type)
  | nothing
  | raised (e : PyErr)
  | value (v : Option α)
  | number (n : ℕ)
  | values (l : List (Option α))
deriving DecidableEq

/-- One statement; the variables hold heap objects. -/
def step (w : World α) (hs : ℕ → HeapObj) : Op α → Option ((World α × (ℕ → HeapObj)) × Out α)
  | .new i vs =>
    match initObj w vs with
    | none => none
    | some (.error e) => some ((w, hs), .raised e)
    | some (.ok (w, h)) => some ((w, Function.update hs i h), .nothing)
  | .insert i v => (insertObj w (hs i) v).map (fun r => ((r.1, Function.update hs i r.2), .nothing))
  | .findMin i =>
    match findMinObj w (hs i) with
    | .error e => some ((w, hs), .raised e)
    | .ok v => some ((w, hs), .value (some v))
  | .deleteMin i => (deleteMinObj w (hs i)).map (fun r => ((r.1, Function.update hs i r.2.1), .value r.2.2))
  | .merge i j => (mergeObj w (hs i) (hs j)).map (fun r => ((r.1, Function.update hs i r.2), .nothing))
  | .len i => some ((w, hs), .number (hs i).size)
  | .list i => (iterObj (hs i).size w (hs i)).map (fun r => ((r.1, Function.update hs i r.2.1), .values r.2.2))

/-- A program: all it shows; `none` if it does not end. -/
def run (w : World α) (hs : ℕ → HeapObj) : List (Op α) → Option (List (Out α))
  | [] => some []
  | op :: ops =>
    match step w hs op with
    | none => none
    | some (s, o) => (run s.1 s.2 ops).map (fun os => o :: os)

end Rosemary.HeapNodes
