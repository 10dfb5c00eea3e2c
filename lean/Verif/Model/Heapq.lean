import Verif.Model.Py
import Mathlib.Data.List.Basic

/-!
# Python's `heapq` with a comparison that may raise

The functions `heappush` and `heappop` of the standard library, on lists.  `lt a b` is the comparison `a < b` of two
entries; it may raise an exception, which leaves the heap function.
-/

namespace Rosemary.Heapq

variable {α : Type}

/-- heapq `_siftdown(heap, 0, pos)`; `newitem` is the item that was at `pos`. -/
def siftDown (lt : α → α → Except PyErr Bool) (heap : List α) (newitem : α) (pos : ℕ) : Except PyErr (List α) :=
  if h : pos = 0 then .ok (heap.set pos newitem)
  else
    match heap[(pos - 1) / 2]? with
    | none => .error .indexError
    | some parent =>
      match lt newitem parent with
      | .error e => .error e
      | .ok true => siftDown lt (heap.set pos parent) newitem ((pos - 1) / 2)
      | .ok false => .ok (heap.set pos newitem)
termination_by pos
decreasing_by omega

/-- heapq `_siftup(heap, pos)` of version 3 of Python; `newitem` is the item that was at position 0. -/
def siftUp (lt : α → α → Except PyErr Bool) (heap : List α) (newitem : α) (pos : ℕ) : Except PyErr (List α) :=
  if h : 2 * pos + 1 < heap.length then
    if h' : 2 * pos + 2 < heap.length then
      match lt heap[2 * pos + 1] heap[2 * pos + 2] with
      | .error e => .error e
      | .ok true => siftUp lt (heap.set pos heap[2 * pos + 1]) newitem (2 * pos + 1)
      | .ok false => siftUp lt (heap.set pos heap[2 * pos + 2]) newitem (2 * pos + 2)
    else siftUp lt (heap.set pos heap[2 * pos + 1]) newitem (2 * pos + 1)
  else siftDown lt heap newitem pos
termination_by heap.length - pos
decreasing_by all_goals rw [List.length_set]; omega

/-- heapq `heappush`. -/
def heappush (lt : α → α → Except PyErr Bool) (heap : List α) (item : α) : Except PyErr (List α) :=
  siftDown lt (heap ++ [item]) item heap.length

/-- heapq `heappop`: the item and the new heap. -/
def heappop (lt : α → α → Except PyErr Bool) (heap : List α) : Except PyErr (α × List α) :=
  match heap.getLast?, heap.dropLast with
  | none, _ => .error .indexError
  | some last, [] => .ok (last, [])
  | some last, first :: rest =>
    match siftUp lt (last :: rest) last 0 with
    | .error e => .error e
    | .ok heap => .ok (first, heap)

end Rosemary.Heapq
