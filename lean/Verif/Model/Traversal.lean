import Verif.Model.Graph

/-!
# Model of `graphs/algorithms/traversal.py` and `graphs/algorithms/connectivity.py`

The value of a generator is the list of what it yields and the exception that ends it, if any; `none` stands for an
endless loop.
-/

namespace Rosemary.Traversal

open Graph

variable {V W : Type} [DecidableEq V]

/-- traversal.py:41, 131: `max_depth is None or depth < max_depth`. -/
def below (md : Option ℤ) (d : ℤ) : Bool :=
  match md with
  | none => true
  | some m => decide (d < m)

/-- traversal.py:42-47: the vertices appended and yielded, and the new set of visited vertices. -/
def bfsScan : List V → Finset V → List V × Finset V
  | [], vis => ([], vis)
  | v :: vs, vis =>
    if v ∈ vis then bfsScan vs vis
    else
      let r := bfsScan vs (insert v vis)
      (v :: r.1, r.2)

/-- traversal.py:39-47. -/
def bfsLoop (g : Graph V W) (md : Option ℤ) (q : List (V × ℤ)) (vis : Finset V) : Option (List V × Option PyErr) :=
  match q with
  | [] => some ([], none)
  | (u, d) :: q =>
    if below md d = true then
      match Dict.get? g u with
      | none => some ([], some .keyError)
      | some N => do
        let s := bfsScan (Dict.keys N) vis
        let r ← bfsLoop g md (q ++ s.1.map (fun v => (v, d + 1))) s.2
        some (s.1 ++ r.1, r.2)
    else bfsLoop g md q vis
partial_fixpoint

/-- traversal.py:4-47 `breadth_first_search`. -/
def breadthFirstSearch (g : Graph V W) (start : V) (md : Option ℤ) : Option (List V × Option PyErr) := do
  let r ← bfsLoop g md [(start, 0)] {start}
  some (start :: r.1, r.2)

/-- traversal.py:82-86: the vertices appended to the queue, and `previous`. -/
def treeScan (u : V) : List V → Dict V (Option V) → List V × Dict V (Option V)
  | [], prev => ([], prev)
  | v :: vs, prev =>
    if v ∈ Dict.keys prev then treeScan u vs prev
    else
      let r := treeScan u vs (Dict.set prev v (some u))
      (v :: r.1, r.2)

/-- traversal.py:80-86. -/
def treeLoop (g : Graph V W) (q : List V) (prev : Dict V (Option V)) : Option (Except PyErr (Dict V (Option V))) :=
  match q with
  | [] => some (.ok prev)
  | u :: q =>
    match Dict.get? g u with
    | none => some (.error .keyError)
    | some N =>
      let s := treeScan u (Dict.keys N) prev
      treeLoop g (q ++ s.1) s.2
partial_fixpoint

/-- traversal.py:50-88 `breadth_first_search_tree`. -/
def breadthFirstSearchTree (g : Graph V W) (start : V) : Option (Except PyErr (Dict V (Option V))) :=
  treeLoop g [start] [(start, none)]

/-- traversal.py:132-134; the top of the stack is the head of the list. -/
def dfsPush (d : ℤ) (vis : Finset V) : List V → List (V × ℤ) → List (V × ℤ)
  | [], st => st
  | v :: vs, st => dfsPush d vis vs (if v ∈ vis then st else (v, d + 1) :: st)

/-- traversal.py:124-134. -/
def dfsLoop (g : Graph V W) (md : Option ℤ) (st : List (V × ℤ)) (vis : Finset V) : Option (List V × Option PyErr) :=
  match st with
  | [] => some ([], none)
  | (u, d) :: st =>
    if u ∈ vis then dfsLoop g md st vis
    else if below md d = true then
      match Dict.get? g u with
      | none => some ([u], some .keyError)
      | some N => do
        let r ← dfsLoop g md (dfsPush d (insert u vis) (Dict.keys N) st) (insert u vis)
        some (u :: r.1, r.2)
    else do
      let r ← dfsLoop g md st (insert u vis)
      some (u :: r.1, r.2)
partial_fixpoint

/-- traversal.py:91-134 `depth_first_search`. -/
def depthFirstSearch (g : Graph V W) (start : V) (md : Option ℤ) : Option (List V × Option PyErr) :=
  dfsLoop g md [(start, 0)] ∅

/-- traversal.py:174-175. -/
def dfsTreePush (v : V) : List V → List (Option V × V) → List (Option V × V)
  | [], st => st
  | w :: ws, st => dfsTreePush v ws ((some v, w) :: st)

/-- traversal.py:167-175. -/
def dfsTreeLoop (g : Graph V W) (st : List (Option V × V)) (prev : Dict V (Option V)) :
    Option (Except PyErr (Dict V (Option V))) :=
  match st with
  | [] => some (.ok prev)
  | (u, v) :: st =>
    if v ∈ Dict.keys prev then dfsTreeLoop g st prev
    else
      match Dict.get? g v with
      | none => some (.error .keyError)
      | some N => dfsTreeLoop g (dfsTreePush v (Dict.keys N) st) (Dict.set prev v u)
partial_fixpoint

/-- traversal.py:137-177 `depth_first_search_tree`. -/
def depthFirstSearchTree (g : Graph V W) (start : V) : Option (Except PyErr (Dict V (Option V))) :=
  dfsTreeLoop g [(none, start)] []

/-- `list(generator)`: an exception propagates. -/
def toList (r : List V × Option PyErr) : Except PyErr (List V) :=
  match r.2 with
  | none => .ok r.1
  | some e => .error e

/-- connectivity.py:42-47. -/
def componentsLoop (g : Graph V W) : List V → Finset V → Option (Except PyErr (List (List V)))
  | [], _ => some (.ok [])
  | u :: us, vis =>
    if u ∈ vis then componentsLoop g us vis
    else
      match breadthFirstSearch g u none with
      | none => none
      | some r =>
        match toList r with
        | .error e => some (.error e)
        | .ok c =>
          match componentsLoop g us (vis ∪ c.toFinset) with
          | none => none
          | some (.error e) => some (.error e)
          | some (.ok cs) => some (.ok (c :: cs))

/-- connectivity.py:4-49 `connected_components`. -/
def connectedComponents (g : Graph V W) : Option (Except PyErr (List (List V))) := componentsLoop g (Dict.keys g) ∅

/-- connectivity.py:52-84 `connected_component`. -/
def connectedComponent (g : Graph V W) (u : V) : Option (Except PyErr (List V)) :=
  match breadthFirstSearch g u none with
  | none => none
  | some r => some (toList r)

/-- connectivity.py:87-97 `is_connected`; `ord` is the iteration order of sets. -/
def isConnected (ord : Finset V → List V) (g : Graph V W) : Option (Except PyErr Bool) :=
  if (vertexSet g).card = 0 then some (.ok true)
  else
    match ord (vertexSet g) with
    | [] => some (.error .indexError)
    | u :: _ =>
      match breadthFirstSearch g u none with
      | none => none
      | some r =>
        match toList r with
        | .error e => some (.error e)
        | .ok c => some (.ok (decide (c.toFinset = vertexSet g)))

end Rosemary.Traversal
