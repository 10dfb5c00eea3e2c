import Verif.Model.Graph
import Verif.Model.PairingHeap
import Mathlib.Order.WithBot
import Mathlib.Algebra.Order.Monoid.WithTop
import Mathlib.Data.Prod.Lex
import Mathlib.Data.List.Lex

/-!
# Model of `graphs/algorithms/paths.py`

Weights are elements of a linearly ordered type with 0 and an addition, about which nothing else is said here: Python
integers and fractions are ordered commutative monoids, for floats see `Model/FloatWeights.lean`.  `inf` is the top
element of `WithTop W`.  The module `heapq` is modelled by a list from which the entry with
the least tuple is taken.  `none` stands for an endless loop.
-/

namespace Rosemary.Paths

open Graph

variable {V W : Type} [LinearOrder V] [Add W] [Zero W] [LinearOrder W]

/-- `heappop`: the entry with the least key and the other entries; `none` for the empty heap. -/
def popMin {α β : Type} [LinearOrder β] (key : α → β) : List α → Option (α × List α)
  | [] => none
  | a :: l =>
    match popMin key l with
    | none => some (a, [])
    | some (b, r) => if key b < key a then some (b, a :: r) else some (a, l)

/-- The order of the tuples `(w, u)`. -/
def key2 (e : W × V) : W ×ₗ V := toLex e

/-- The order of the tuples `(w, u, path)`. -/
def key3 (e : W × V × List V) : W ×ₗ V ×ₗ List V := toLex (e.1, toLex (e.2.1, e.2.2))

/-! ### `dijkstra` -/

/-- paths.py:101-110: the inner loop over the entries of `graph_dict[u]`; `distance`, `previous`, `to_visit`. -/
def relax (w : W) (u : V) : Dict V W → Dict V (WithTop W) → Dict V (Option V) → List (W × V) →
    Except PyErr (Dict V (WithTop W) × Dict V (Option V) × List (W × V))
  | [], D, P, H => .ok (D, P, H)
  | (v, x) :: N, D, P, H =>
    match Dict.get? D v with
    | none => .error .keyError
    | some dv =>
      if ((w + x : W) : WithTop W) < dv then
        relax w u N (Dict.set D v ((w + x : W) : WithTop W)) (Dict.set P v (some u)) ((w + x, v) :: H)
      else relax w u N D P H

/-- paths.py:94-110. -/
def dijkstraLoop (g : Graph V W) (D : Dict V (WithTop W)) (P : Dict V (Option V)) (H : List (W × V)) (vis : Finset V) :
    Option (Except PyErr (Dict V (WithTop W) × Dict V (Option V))) :=
  match popMin key2 H with
  | none => some (.ok (D, P))
  | some ((w, u), H) =>
    if u ∈ vis then dijkstraLoop g D P H vis
    else
      match Dict.get? g u with
      | none => some (.error .keyError)
      | some N =>
        match relax w u N D P H with
        | .error e => some (.error e)
        | .ok (D, P, H) => dijkstraLoop g D P H (insert u vis)
partial_fixpoint

/-- paths.py:15-112 `dijkstra`. -/
def dijkstra (g : Graph V W) (s : V) : Option (Except PyErr (Dict V (WithTop W) × Dict V (Option V))) :=
  if s ∉ Dict.keys g then some (.error .valueError)
  else dijkstraLoop g (Dict.set (g.map (fun e => (e.1, ⊤))) s ((0 : W) : WithTop W)) (g.map (fun e => (e.1, none))) [(0, s)] ∅

/-! ### `dijkstra_iterator` -/

/-- paths.py:195-199. -/
def relaxPath (w : W) (path : List V) : Dict V W → Dict V (WithTop W) → List (W × V × List V) →
    Except PyErr (Dict V (WithTop W) × List (W × V × List V))
  | [], D, H => .ok (D, H)
  | (v, x) :: N, D, H =>
    match Dict.get? D v with
    | none => .error .keyError
    | some dv =>
      if ((w + x : W) : WithTop W) < dv then
        relaxPath w path N (Dict.set D v ((w + x : W) : WithTop W)) ((w + x, v, path ++ [v]) :: H)
      else relaxPath w path N D H

/-- paths.py:186-199: the tuples yielded. -/
def iteratorLoop (g : Graph V W) (D : Dict V (WithTop W)) (H : List (W × V × List V)) (vis : Finset V) :
    Option (Except PyErr (List (V × W × List V))) :=
  match popMin key3 H with
  | none => some (.ok [])
  | some ((w, u, path), H) =>
    if u ∈ vis then iteratorLoop g D H vis
    else
      match Dict.get? g u with
      | none => some (.error .keyError)
      | some N =>
        match relaxPath w path N D H with
        | .error e => some (.error e)
        | .ok (D, H) => do
          let r ← iteratorLoop g D H (insert u vis)
          match r with
          | .error e => some (.error e)
          | .ok l => some (.ok ((u, w, path) :: l))
partial_fixpoint

/-- paths.py:115-199 `dijkstra_iterator`: the list of what the generator yields. -/
def dijkstraIterator (g : Graph V W) (s : V) : Option (Except PyErr (List (V × W × List V))) :=
  if s ∉ Dict.keys g then some (.error .valueError)
  else iteratorLoop g (Dict.set (g.map (fun e => (e.1, ⊤))) s ((0 : W) : WithTop W)) [(0, s, [s])] ∅

/-! ### `dijkstra_buckets` -/

/-- paths.py:297-305: the inner loop over the entries of `graph_dict[u]`.  `asInt x` is the value of the weight `x` if it is
an `int`. -/
def relaxBuckets (asInt : W → Option ℤ) (w : ℤ) (u : V) : Dict V W → Dict V (WithTop ℤ) → Dict V (Option V) →
    Dict ℤ (List V) → Except PyErr (Dict V (WithTop ℤ) × Dict V (Option V) × Dict ℤ (List V))
  | [], D, P, B => .ok (D, P, B)
  | (v, x) :: N, D, P, B =>
    match asInt x with
    | none => .error .valueError
    | some x =>
      match Dict.get? D v with
      | none => .error .keyError
      | some dv =>
        if ((w + x : ℤ) : WithTop ℤ) < dv then
          relaxBuckets asInt w u N (Dict.set D v ((w + x : ℤ) : WithTop ℤ)) (Dict.set P v (some u))
            (Dict.set B (w + x) ((Dict.get? B (w + x)).getD [] ++ [v]))
        else relaxBuckets asInt w u N D P B

/-- paths.py:285-288: the loop over `itertools.count(min_weight)`. -/
def findBucket (B : Dict ℤ (List V)) (w : ℤ) : Option ℤ :=
  if w ∈ Dict.keys B then some w else findBucket B (w + 1)
partial_fixpoint

/-- paths.py:290-305: the loop over `vertices`, which is the list `buckets[w]` and can grow; `i` is the position. -/
def visitBucket (asInt : W → Option ℤ) (g : Graph V W) (w : ℤ) (i : ℕ) (D : Dict V (WithTop ℤ)) (P : Dict V (Option V))
    (B : Dict ℤ (List V)) (vis : Finset V) :
    Option (Except PyErr (Dict V (WithTop ℤ) × Dict V (Option V) × Dict ℤ (List V) × Finset V)) :=
  match ((Dict.get? B w).getD [])[i]? with
  | none => some (.ok (D, P, B, vis))
  | some u =>
    if u ∈ vis then visitBucket asInt g w (i + 1) D P B vis
    else
      match Dict.get? g u with
      | none => some (.error .keyError)
      | some N =>
        match relaxBuckets asInt w u N D P B with
        | .error e => some (.error e)
        | .ok (D, P, B) => visitBucket asInt g w (i + 1) D P B (insert u vis)
partial_fixpoint

/-- paths.py:284-307. -/
def bucketsLoop (asInt : W → Option ℤ) (g : Graph V W) (minWeight : ℤ) (D : Dict V (WithTop ℤ)) (P : Dict V (Option V))
    (B : Dict ℤ (List V)) (vis : Finset V) : Option (Except PyErr (Dict V (WithTop ℤ) × Dict V (Option V))) :=
  if B = [] then some (.ok (D, P))
  else do
    let w ← findBucket B minWeight
    let r ← visitBucket asInt g w 0 D P B vis
    match r with
    | .error e => some (.error e)
    | .ok (D, P, B, vis) => bucketsLoop asInt g w D P (Dict.erase B w) vis
partial_fixpoint

/-- paths.py:202-309 `dijkstra_buckets`. -/
def dijkstraBuckets (asInt : W → Option ℤ) (g : Graph V W) (s : V) :
    Option (Except PyErr (Dict V (WithTop ℤ) × Dict V (Option V))) :=
  if s ∉ Dict.keys g then some (.error .valueError)
  else bucketsLoop asInt g 0 (Dict.set (g.map (fun e => (e.1, ⊤))) s ((0 : ℤ) : WithTop ℤ)) [(s, none)] [(0, [s])] ∅

/-! ### `dijkstra_pairing_heap` -/

/-- paths.py:402-410: the inner loop over the entries of `graph_dict[u]`. -/
def relaxHeap (w : W) (u : V) : Dict V W → Dict V (WithTop W) → Dict V (Option V) → PairingHeap.Heap W V →
    Except PyErr (Dict V (WithTop W) × Dict V (Option V) × PairingHeap.Heap W V)
  | [], D, P, H => .ok (D, P, H)
  | (v, x) :: N, D, P, H =>
    match Dict.get? D v with
    | none => .error .keyError
    | some dv =>
      if ((w + x : W) : WithTop W) < dv then
        if v ∈ Dict.keys H.lookup then
          match PairingHeap.decreaseKey H v (w + x) with
          | .error e => .error e
          | .ok H => relaxHeap w u N (Dict.set D v ((w + x : W) : WithTop W)) (Dict.set P v (some u)) H
        else relaxHeap w u N (Dict.set D v ((w + x : W) : WithTop W)) (Dict.set P v (some u)) (PairingHeap.insert H (w + x) v)
      else relaxHeap w u N D P H

/-- paths.py:394-410. -/
def heapLoop (g : Graph V W) (D : Dict V (WithTop W)) (P : Dict V (Option V)) (H : PairingHeap.Heap W V) :
    Option (Except PyErr (Dict V (WithTop W) × Dict V (Option V))) := do
  let r ← PairingHeap.deleteMin H
  match r with
  | .error e => some (.error e)
  | .ok (_, none) => some (.ok (D, P))
  | .ok (H, some (w, u)) =>
    match Dict.get? g u with
    | none => some (.error .keyError)
    | some N =>
      match relaxHeap w u N D P H with
      | .error e => some (.error e)
      | .ok (D, P, H) => heapLoop g D P H
partial_fixpoint

/-- paths.py:312-412 `dijkstra_pairing_heap`. -/
def dijkstraPairingHeap (g : Graph V W) (s : V) : Option (Except PyErr (Dict V (WithTop W) × Dict V (Option V))) :=
  if s ∉ Dict.keys g then some (.error .valueError)
  else
    heapLoop g (Dict.set (g.map (fun e => (e.1, ⊤))) s ((0 : W) : WithTop W)) [(s, none)]
      (PairingHeap.insert (@PairingHeap.new W V ⟨0⟩ ⟨s⟩) 0 s)

/-! ### `dijkstra_bidirectional` -/

/-- What `dijkstra_bidirectional` returns: the bare `inf`, or a length and a path. -/
inductive Bi (V W : Type) where
  | bareInf
  | pair (len : WithTop W) (path : List V)
  deriving DecidableEq

/-- paths.py:597-604: `fwd` and `bwd` are what the two generators will yield, `F` and `B` the entries (estimate and
path) recorded so far; `none` when a generator is exhausted.  The first argument tells whether it is the turn of the
forward search. -/
def meet : Bool → List (V × W × List V) → List (V × W × List V) → Dict V (W × List V) → Dict V (W × List V) →
    Option (Dict V (W × List V) × Dict V (W × List V))
  | true, [], _, _, _ => none
  | true, (v, d, p) :: fwd, bwd, F, B =>
    if v ∈ Dict.keys B then some (Dict.set F v (d, p), B) else meet false fwd bwd (Dict.set F v (d, p)) B
  | false, _, [], _, _ => none
  | false, fwd, (v, d, p) :: bwd, F, B =>
    if v ∈ Dict.keys F then some (F, Dict.set B v (d, p)) else meet true fwd bwd F (Dict.set B v (d, p))
termination_by _ fwd bwd => fwd.length + bwd.length

/-- paths.py:613-620. -/
def bestInner (t : V) (e : W × List V) (B : Dict V (W × List V)) : Dict V W → WithTop W × List V → WithTop W × List V
  | [], best => best
  | (v, x) :: N, best =>
    match Dict.get? B v with
    | none => bestInner t e B N best
    | some b =>
      if ((e.1 + x + b.1 : W) : WithTop W) < best.1 then
        bestInner t e B N (((e.1 + x + b.1 : W) : WithTop W), e.2 ++ (b.2.drop 1).reverse ++ [t])
      else bestInner t e B N best

/-- paths.py:612-620. -/
def bestOuter (g : Graph V W) (t : V) (B : Dict V (W × List V)) : Dict V (W × List V) → WithTop W × List V →
    Except PyErr (WithTop W × List V)
  | [], best => .ok best
  | (u, e) :: F, best =>
    match Dict.get? g u with
    | none => .error .keyError
    | some N => bestOuter g t B F (bestInner t e B N best)

/-- paths.py:524-622 `dijkstra_bidirectional`. -/
def dijkstraBidirectional (g : Graph V W) (s t : V) : Option (Except PyErr (Bi V W)) :=
  if s ∉ Dict.keys g then some (.error .valueError)
  else if t ∉ Dict.keys g then some (.error .valueError)
  else do
    let fwd ← dijkstraIterator g s
    let bwd ← dijkstraIterator g t
    match fwd, bwd with
    | .error e, _ => some (.error e)
    | _, .error e => some (.error e)
    | .ok fwd, .ok bwd =>
      match meet true fwd bwd [] [] with
      | none => some (.ok .bareInf)
      | some (F, B) =>
        match bestOuter g t B F (⊤, []) with
        | .error e => some (.error e)
        | .ok best => some (.ok (.pair best.1 best.2))

/-! ### `bellman_ford` -/

/-- paths.py:508-514: `cost`, `previous`, the queue and the set of its elements. -/
def bfRelax (u : V) : Dict V W → Dict V (WithTop W) → Dict V (Option V) → List V → Finset V →
    Except PyErr (Dict V (WithTop W) × Dict V (Option V) × List V × Finset V)
  | [], C, P, q, S => .ok (C, P, q, S)
  | (v, x) :: N, C, P, q, S =>
    match Dict.get? C u, Dict.get? C v with
    | some cu, some cv =>
      if cu + (x : WithTop W) < cv then
        if v ∈ S then bfRelax u N (Dict.set C v (cu + (x : WithTop W))) (Dict.set P v (some u)) q S
        else bfRelax u N (Dict.set C v (cu + (x : WithTop W))) (Dict.set P v (some u)) (q ++ [v]) (insert v S)
      else bfRelax u N C P q S
    | _, _ => .error .keyError

/-- paths.py:498-514. -/
def bfLoop (g : Graph V W) (n : ℕ) (count : Dict V ℕ) (C : Dict V (WithTop W)) (P : Dict V (Option V)) (q : List V)
    (S : Finset V) : Option (Except PyErr (Dict V (WithTop W) × Dict V (Option V))) :=
  match q with
  | [] => some (.ok (C, P))
  | u :: q =>
    match Dict.get? count u, Dict.get? g u with
    | some k, some N =>
      if n + 1 ≤ k + 1 then some (.error .valueError)
      else
        match bfRelax u N C P q (S.erase u) with
        | .error e => some (.error e)
        | .ok (C, P, q, S) => bfLoop g n (Dict.set count u (k + 1)) C P q S
    | _, _ => some (.error .keyError)
partial_fixpoint

/-- paths.py:415-516 `bellman_ford`. -/
def bellmanFord (g : Graph V W) (s : V) : Option (Except PyErr (Dict V (WithTop W) × Dict V (Option V))) :=
  if s ∉ Dict.keys g then some (.error .valueError)
  else bfLoop g g.length (g.map (fun e => (e.1, 0))) (Dict.set (g.map (fun e => (e.1, ⊤))) s ((0 : W) : WithTop W))
    (g.map (fun e => (e.1, none))) [s] {s}

/-! ### `floyd_warshall` -/

/-- paths.py:713-720: `dist[u, v]` and `pred[u, v]`. -/
def fwInit (u v : V) (N : Dict V W) : WithTop W × Option V :=
  if u = v then (((0 : W) : WithTop W), none)
  else
    match Dict.get? N v with
    | some x => (((x : W) : WithTop W), some u)
    | none => (⊤, none)

/-- paths.py:711-720; the two dictionaries as one with pairs as values. -/
def fwStart (g : Graph V W) : Dict (V × V) (WithTop W × Option V) :=
  g.flatMap (fun e => (Dict.keys g).map (fun v => ((e.1, v), fwInit e.1 v e.2)))

/-- paths.py:729-731. -/
def fwCell (u v w : V) (D : Dict (V × V) (WithTop W × Option V)) : Except PyErr (Dict (V × V) (WithTop W × Option V)) :=
  match Dict.get? D (v, w), Dict.get? D (v, u), Dict.get? D (u, w) with
  | some a, some b, some c => if b.1 + c.1 < a.1 then .ok (Dict.set D (v, w) (b.1 + c.1, c.2)) else .ok D
  | _, _, _ => .error .keyError

/-- paths.py:728-731. -/
def fwInner (u v : V) : List V → Dict (V × V) (WithTop W × Option V) → Except PyErr (Dict (V × V) (WithTop W × Option V))
  | [], D => .ok D
  | w :: ws, D =>
    match fwCell u v w D with
    | .error e => .error e
    | .ok D => fwInner u v ws D

/-- paths.py:727-731. -/
def fwMiddle (u : V) (vs : List V) : List V → Dict (V × V) (WithTop W × Option V) →
    Except PyErr (Dict (V × V) (WithTop W × Option V))
  | [], D => .ok D
  | v :: vs', D =>
    match fwInner u v vs D with
    | .error e => .error e
    | .ok D => fwMiddle u vs vs' D

/-- paths.py:723-731. -/
def fwOuter (vs : List V) : List V → Dict (V × V) (WithTop W × Option V) →
    Except PyErr (Dict (V × V) (WithTop W × Option V))
  | [], D => .ok D
  | u :: us, D =>
    match Dict.get? D (u, u) with
    | none => .error .keyError
    | some d =>
      if d.1 < ((0 : W) : WithTop W) then .error .valueError
      else
        match fwMiddle u vs vs D with
        | .error e => .error e
        | .ok D => fwOuter vs us D

/-- paths.py:630-733 `floyd_warshall`. -/
def floydWarshall (g : Graph V W) : Except PyErr (Dict (V × V) (WithTop W × Option V)) :=
  fwOuter (Dict.keys g) (Dict.keys g) (fwStart g)

end Rosemary.Paths
