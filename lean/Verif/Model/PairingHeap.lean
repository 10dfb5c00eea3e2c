import Verif.Model.Py
import Verif.Model.Dict
import Mathlib.Logic.Function.Basic
import Mathlib.Order.Defs.LinearOrder

/-!
# Model of `PairingHeap` in `data_structures/heaps.py`

The nodes live in a memory that is addressed by natural numbers; the attributes `nextSibling`, `leftChild` and `prev` are
addresses or `None`, and every assignment to an attribute is a step of its own.  A node that is not allocated holds default
values.  The outer `Option` is for the loop over the siblings, which would not end on a cyclic list.  The state of a heap
after an exception is not modelled.
-/

namespace Rosemary.PairingHeap

/-- heaps.py:214-222 `_PairingHeapNode`. -/
structure Node (κ ν : Type) where
  key : κ
  value : ν
  nextSibling : Option ℕ
  leftChild : Option ℕ
  prev : Option ℕ

instance {κ ν : Type} [Inhabited κ] [Inhabited ν] : Inhabited (Node κ ν) := ⟨⟨default, default, none, none, none⟩⟩

/-- The memory. -/
abbrev Mem (κ ν : Type) := ℕ → Node κ ν

section Attributes

variable {κ ν : Type}

/-- `node.key = k` -/
def setKey (m : Mem κ ν) (i : ℕ) (k : κ) : Mem κ ν := Function.update m i { m i with key := k }

/-- `node.nextSibling = o` -/
def setNext (m : Mem κ ν) (i : ℕ) (o : Option ℕ) : Mem κ ν := Function.update m i { m i with nextSibling := o }

/-- `node.leftChild = o` -/
def setLeft (m : Mem κ ν) (i : ℕ) (o : Option ℕ) : Mem κ ν := Function.update m i { m i with leftChild := o }

/-- `node.prev = o` -/
def setPrev (m : Mem κ ν) (i : ℕ) (o : Option ℕ) : Mem κ ν := Function.update m i { m i with prev := o }

/-- `if node is not None: node.prev = o` -/
def setPrev? (m : Mem κ ν) (node : Option ℕ) (o : Option ℕ) : Mem κ ν :=
  match node with
  | none => m
  | some i => setPrev m i o

end Attributes

variable {κ ν : Type} [LinearOrder κ] [DecidableEq ν]

/-- heaps.py:231-257: `_link_nodes` for two nodes. -/
def link (m : Mem κ ν) (a b : ℕ) : Mem κ ν × ℕ :=
  if (m b).key < (m a).key then
    let m := setPrev m b (m a).prev
    let m := setPrev m a (some b)
    let m := setNext m a (m b).leftChild
    let m := setPrev? m (m a).nextSibling (some a)
    let m := setLeft m b (some a)
    (m, b)
  else
    let m := setPrev m b (some a)
    let m := setNext m a (m b).nextSibling
    let m := setPrev? m (m a).nextSibling (some a)
    let m := setNext m b (m a).leftChild
    let m := setPrev? m (m b).nextSibling (some b)
    let m := setLeft m a (some b)
    (m, a)

/-- heaps.py:225-257 `_link_nodes`. -/
def linkNodes (m : Mem κ ν) : Option ℕ → Option ℕ → Mem κ ν × Option ℕ
  | none, b => (m, b)
  | some a, none => (m, some a)
  | some a, some b => ((link m a b).1, some (link m a b).2)

/-- heaps.py:264-271: the loop that collects the siblings in `treeArray`; the list is kept with its last element first. -/
def collect (m : Mem κ ν) (node : Option ℕ) (treeArray : List ℕ) : Option (Except PyErr (Mem κ ν × List ℕ)) :=
  match node with
  | none => some (.ok (m, treeArray))
  | some i =>
    match (m i).prev with
    | none => some (.error .attributeError)
    | some p => collect (setNext m p none) (setNext m p none i).nextSibling (i :: treeArray)
partial_fixpoint

/-- heaps.py:273-277: what is left of `treeArray`, and `paired`, both with the last element first. -/
def pairUp (m : Mem κ ν) : List ℕ → List ℕ → Mem κ ν × List ℕ × List ℕ
  | first :: second :: treeArray, paired => pairUp (link m first second).1 treeArray ((link m first second).2 :: paired)
  | treeArray, paired => (m, treeArray, paired)

/-- heaps.py:284-287. -/
def linkAll (m : Mem κ ν) (last : ℕ) : List ℕ → Mem κ ν × ℕ
  | [] => (m, last)
  | tree :: l => linkAll (link m last tree).1 (link m last tree).2 l

/-- heaps.py:260-287 `_combine_siblings`. -/
def combineSiblings (m : Mem κ ν) (firstSibling : ℕ) : Option (Except PyErr (Mem κ ν × ℕ)) :=
  if (m firstSibling).nextSibling = none then some (.ok (m, firstSibling))
  else do
    match ← collect m (some firstSibling) [] with
    | .error e => some (.error e)
    | .ok (m, treeArray) =>
      match pairUp m treeArray [] with
      | (m, last :: _, paired) => some (.ok (linkAll m last paired))
      | (m, [], last :: paired) => some (.ok (linkAll m last paired))
      | (_, [], []) => some (.error .indexError)

/-- heaps.py:290-295: a heap; `size` is the number of nodes allocated so far. -/
structure Heap (κ ν : Type) where
  mem : Mem κ ν
  size : ℕ
  root : Option ℕ
  lookup : Dict ν ℕ

/-- heaps.py:293-295 `PairingHeap()`. -/
def new [Inhabited κ] [Inhabited ν] : Heap κ ν := ⟨fun _ => default, 0, none, []⟩

/-- heaps.py:297-306 `insert` with `insert_node`. -/
def insert (h : Heap κ ν) (key : κ) (value : ν) : Heap κ ν :=
  let m := Function.update h.mem h.size ⟨key, value, none, none, none⟩
  match h.root with
  | none => ⟨m, h.size + 1, some h.size, Dict.set h.lookup value h.size⟩
  | some r =>
    ⟨(linkNodes m (some r) (some h.size)).1, h.size + 1, (linkNodes m (some r) (some h.size)).2,
      Dict.set h.lookup value h.size⟩

/-- heaps.py:308-310 `insert_values`. -/
def insertValues (h : Heap κ ν) : List (κ × ν) → Heap κ ν
  | [] => h
  | (key, value) :: l => insertValues (insert h key value) l

/-- heaps.py:312-327 `decrease_key`. -/
def decreaseKey (h : Heap κ ν) (value : ν) (key : κ) : Except PyErr (Heap κ ν) :=
  match Dict.get? h.lookup value with
  | none => .error .keyError
  | some i =>
    let m := setKey h.mem i key
    if some i ≠ h.root then
      let m := setPrev? m (m i).nextSibling (m i).prev
      match (m i).prev with
      | none => .error .attributeError
      | some p =>
        let m := if (m p).leftChild = some i then setLeft m p (m i).nextSibling else setNext m p (m i).nextSibling
        let m := setNext m i none
        .ok { h with mem := (linkNodes m h.root (some i)).1, root := (linkNodes m h.root (some i)).2 }
    else .ok { h with mem := m }

/-- heaps.py:329-341 `delete_min`; of the node that is returned only `key` and `value`. -/
def deleteMin (h : Heap κ ν) : Option (Except PyErr (Heap κ ν × Option (κ × ν))) :=
  match h.root with
  | none => some (.ok (h, none))
  | some r => do
    match ← (match (h.mem r).leftChild with
        | none => some (.ok (h.mem, none))
        | some c => do
          match ← combineSiblings h.mem c with
          | .error e => some (.error e)
          | .ok (m, c) => some (.ok (m, some c)) : Option (Except PyErr (Mem κ ν × Option ℕ))) with
    | .error e => some (.error e)
    | .ok (m, root) =>
      if (m r).value ∈ Dict.keys h.lookup then
        some (.ok (⟨m, h.size, root, Dict.erase h.lookup (m r).value⟩, some ((m r).key, (m r).value)))
      else some (.error .keyError)

/-- heaps.py:343-349 `list_elements`. -/
def listElements (h : Heap κ ν) : List (κ × ν) := h.lookup.map (fun e => ((h.mem e.2).key, e.1))

end Rosemary.PairingHeap
