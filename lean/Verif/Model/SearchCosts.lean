import Verif.Model.Paths
import Verif.Model.SpanningTrees
import Verif.Model.Traversal

/-!
# The work done by the graph searches

The functions of `Model/Traversal.lean`, `Model/Paths.lean` and `Model/SpanningTrees.lean` together with the number of elements
taken from the queue, heap or buckets and the number of adjacency entries looked at.  The inner loop over the dictionary
`graph_dict[u]` makes one pass per entry, so `N.length` passes if it is not ended by an exception.
-/

namespace Rosemary.Traversal

open Graph

variable {V W : Type} [DecidableEq V]

/-- traversal.py:39-47 with the number of elements taken from the queue and of adjacency entries looked at. -/
def bfsLoopC (g : Graph V W) (md : Option ℤ) (q : List (V × ℤ)) (vis : Finset V) :
    Option ((List V × Option PyErr) × ℕ × ℕ) :=
  match q with
  | [] => some (([], none), 0, 0)
  | (u, d) :: q =>
    if below md d = true then
      match Dict.get? g u with
      | none => some (([], some .keyError), 1, 0)
      | some N => do
        let s := bfsScan (Dict.keys N) vis
        let r ← bfsLoopC g md (q ++ s.1.map (fun v => (v, d + 1))) s.2
        some ((s.1 ++ r.1.1, r.1.2), r.2.1 + 1, r.2.2 + N.length)
    else do
      let r ← bfsLoopC g md q vis
      some (r.1, r.2.1 + 1, r.2.2)
partial_fixpoint

/-- traversal.py:4-47 `breadth_first_search` with the counts. -/
def breadthFirstSearchC (g : Graph V W) (start : V) (md : Option ℤ) : Option ((List V × Option PyErr) × ℕ × ℕ) := do
  let r ← bfsLoopC g md [(start, 0)] {start}
  some ((start :: r.1.1, r.1.2), r.2.1, r.2.2)

/-- connectivity.py:42-47 with the counts of all searches. -/
def componentsLoopC (g : Graph V W) : List V → Finset V → Option (Except PyErr (List (List V)) × ℕ × ℕ)
  | [], _ => some (.ok [], 0, 0)
  | u :: us, vis =>
    if u ∈ vis then componentsLoopC g us vis
    else
      match breadthFirstSearchC g u none with
      | none => none
      | some (r, p, k) =>
        match toList r with
        | .error e => some (.error e, p, k)
        | .ok c =>
          match componentsLoopC g us (vis ∪ c.toFinset) with
          | none => none
          | some (.error e, p', k') => some (.error e, p + p', k + k')
          | some (.ok cs, p', k') => some (.ok (c :: cs), p + p', k + k')

/-- connectivity.py:4-49 `connected_components` with the counts. -/
def connectedComponentsC (g : Graph V W) : Option (Except PyErr (List (List V)) × ℕ × ℕ) := componentsLoopC g (Dict.keys g) ∅

end Rosemary.Traversal

namespace Rosemary.Paths

open Graph

variable {V W : Type} [LinearOrder V] [AddCommMonoid W] [LinearOrder W]

/-- paths.py:94-110 with the number of elements taken from the heap and of adjacency entries looked at. -/
def dijkstraLoopC (g : Graph V W) (D : Dict V (WithTop W)) (P : Dict V (Option V)) (H : List (W × V)) (vis : Finset V)
    (pops scans : ℕ) : Option (Except PyErr (Dict V (WithTop W) × Dict V (Option V)) × ℕ × ℕ) :=
  match popMin key2 H with
  | none => some (.ok (D, P), pops, scans)
  | some ((w, u), H) =>
    if u ∈ vis then dijkstraLoopC g D P H vis (pops + 1) scans
    else
      match Dict.get? g u with
      | none => some (.error .keyError, pops + 1, scans)
      | some N =>
        match relax w u N D P H with
        | .error e => some (.error e, pops + 1, scans + N.length)
        | .ok (D, P, H) => dijkstraLoopC g D P H (insert u vis) (pops + 1) (scans + N.length)
partial_fixpoint

/-- paths.py:15-112 `dijkstra` with the counts. -/
def dijkstraC (g : Graph V W) (s : V) : Option (Except PyErr (Dict V (WithTop W) × Dict V (Option V)) × ℕ × ℕ) :=
  if s ∉ Dict.keys g then some (.error .valueError, 0, 0)
  else dijkstraLoopC g (Dict.set (g.map (fun e => (e.1, ⊤))) s ((0 : W) : WithTop W)) (g.map (fun e => (e.1, none))) [(0, s)] ∅ 0 0

/-- paths.py:285-288 with the number `k` of passes. -/
def findBucketC (B : Dict ℤ (List V)) (w : ℤ) (k : ℕ) : Option (ℤ × ℕ) :=
  if w ∈ Dict.keys B then some (w, k + 1) else findBucketC B (w + 1) (k + 1)
partial_fixpoint

/-- paths.py:290-305 with the number `pops` of passes and the number `scans` of adjacency entries looked at. -/
def visitBucketC (asInt : W → Option ℤ) (g : Graph V W) (w : ℤ) (i : ℕ) (D : Dict V (WithTop ℤ)) (P : Dict V (Option V))
    (B : Dict ℤ (List V)) (vis : Finset V) (pops scans : ℕ) :
    Option (Except PyErr (Dict V (WithTop ℤ) × Dict V (Option V) × Dict ℤ (List V) × Finset V) × ℕ × ℕ) :=
  match ((Dict.get? B w).getD [])[i]? with
  | none => some (.ok (D, P, B, vis), pops, scans)
  | some u =>
    if u ∈ vis then visitBucketC asInt g w (i + 1) D P B vis (pops + 1) scans
    else
      match Dict.get? g u with
      | none => some (.error .keyError, pops + 1, scans)
      | some N =>
        match relaxBuckets asInt w u N D P B with
        | .error e => some (.error e, pops + 1, scans + N.length)
        | .ok (D, P, B) => visitBucketC asInt g w (i + 1) D P B (insert u vis) (pops + 1) (scans + N.length)
partial_fixpoint

/-- paths.py:284-307 with the numbers of weights tried, of bucket entries and of adjacency entries looked at. -/
def bucketsLoopC (asInt : W → Option ℤ) (g : Graph V W) (minWeight : ℤ) (D : Dict V (WithTop ℤ)) (P : Dict V (Option V))
    (B : Dict ℤ (List V)) (vis : Finset V) (tries pops scans : ℕ) :
    Option (Except PyErr (Dict V (WithTop ℤ) × Dict V (Option V)) × ℕ × ℕ × ℕ) :=
  if B = [] then some (.ok (D, P), tries, pops, scans)
  else do
    let (w, tries) ← findBucketC B minWeight tries
    let r ← visitBucketC asInt g w 0 D P B vis pops scans
    match r with
    | (.error e, pops, scans) => some (.error e, tries, pops, scans)
    | (.ok (D, P, B, vis), pops, scans) => bucketsLoopC asInt g w D P (Dict.erase B w) vis tries pops scans
partial_fixpoint

/-- paths.py:202-309 `dijkstra_buckets` with the counts. -/
def dijkstraBucketsC (asInt : W → Option ℤ) (g : Graph V W) (s : V) :
    Option (Except PyErr (Dict V (WithTop ℤ) × Dict V (Option V)) × ℕ × ℕ × ℕ) :=
  if s ∉ Dict.keys g then some (.error .valueError, 0, 0, 0)
  else bucketsLoopC asInt g 0 (Dict.set (g.map (fun e => (e.1, ⊤))) s ((0 : ℤ) : WithTop ℤ)) [(s, none)] [(0, [s])] ∅ 0 0 0

/-- paths.py:498-514 with the number of elements taken from the queue and of adjacency entries looked at. -/
def bfLoopC (g : Graph V W) (n : ℕ) (count : Dict V ℕ) (C : Dict V (WithTop W)) (P : Dict V (Option V)) (q : List V)
    (S : Finset V) (pops scans : ℕ) : Option (Except PyErr (Dict V (WithTop W) × Dict V (Option V)) × ℕ × ℕ) :=
  match q with
  | [] => some (.ok (C, P), pops, scans)
  | u :: q =>
    match Dict.get? count u, Dict.get? g u with
    | some k, some N =>
      if n + 1 ≤ k + 1 then some (.error .valueError, pops + 1, scans)
      else
        match bfRelax u N C P q (S.erase u) with
        | .error e => some (.error e, pops + 1, scans + N.length)
        | .ok (C, P, q, S) => bfLoopC g n (Dict.set count u (k + 1)) C P q S (pops + 1) (scans + N.length)
    | _, _ => some (.error .keyError, pops + 1, scans)
partial_fixpoint

/-- paths.py:415-516 `bellman_ford` with the counts. -/
def bellmanFordC (g : Graph V W) (s : V) : Option (Except PyErr (Dict V (WithTop W) × Dict V (Option V)) × ℕ × ℕ) :=
  if s ∉ Dict.keys g then some (.error .valueError, 0, 0)
  else bfLoopC g g.length (g.map (fun e => (e.1, 0))) (Dict.set (g.map (fun e => (e.1, ⊤))) s ((0 : W) : WithTop W))
    (g.map (fun e => (e.1, none))) [s] {s} 0 0

end Rosemary.Paths

namespace Rosemary.SpanningTrees

open Graph Paths

variable {V W : Type} [LinearOrder V] [AddCommMonoid W] [LinearOrder W]

/-- spanning_trees.py:97-108 with the number of elements taken from the heap and of adjacency entries looked at. -/
def primLoopC (g : Graph V W) (D : Dict V (WithTop W)) (P : Dict V (Option V)) (H : List (W × V)) (vis : Finset V)
    (pops scans : ℕ) : Option (Except PyErr (Dict V (Option V)) × ℕ × ℕ) :=
  match popMin key2 H with
  | none => some (.ok P, pops, scans)
  | some ((_, u), H) =>
    if u ∈ vis then primLoopC g D P H vis (pops + 1) scans
    else
      match Dict.get? g u with
      | none => some (.error .keyError, pops + 1, scans)
      | some N =>
        match primRelax u (insert u vis) N D P H with
        | .error e => some (.error e, pops + 1, scans + N.length)
        | .ok (D, P, H) => primLoopC g D P H (insert u vis) (pops + 1) (scans + N.length)
partial_fixpoint

/-- spanning_trees.py:82-118 with the counts of the loop at lines 97-108. -/
def primCoreC (g : Graph V W) (root : Option V) : Option (Except PyErr (W × List (V × V) × Dict V (Option V)) × ℕ × ℕ) :=
  match primRoot g root with
  | .error e => some (.error e, 0, 0)
  | .ok root =>
    match primLoopC g (Dict.set (g.map (fun e => (e.1, ⊤))) root ((0 : W) : WithTop W)) (g.map (fun e => (e.1, none))) [(0, root)] ∅ 0 0 with
    | none => none
    | some (.error e, p, k) => some (.error e, p, k)
    | some (.ok P, p, k) =>
      match collect g P 0 [] with
      | .error e => some (.error e, p, k)
      | .ok (total, edges) => some (.ok (total, edges, P), p, k)

end Rosemary.SpanningTrees
