import Verif.Model.Graph
import Verif.Model.ExactCover
import Verif.Model.Coloring
import Mathlib.Data.Nat.Digits.Defs
import Mathlib.Algebra.BigOperators.Group.Finset.Basic

/-!
# Model of `graphs/algorithms/cliques.py`

The dictionary `neighbors` is the function `nb`; it is only read at vertices of the graph.  Generators are lists.
-/

namespace Rosemary.Cliques

open Rosemary.Graph

variable {V W : Type}

section Sets

variable [DecidableEq V]

/-- cliques.py:40-42, 169-171, 274-276, 412-414: `neighbors[u]` for a vertex. -/
def nb (g : Graph V W) (u : V) : Finset V :=
  match neighbors g u with
  | .ok N => N
  | .error _ => ∅

/-! ## Maximal cliques -/

/-- cliques.py:44-54: the loop `while allowed`, with the test of lines 45-46 of the recursive call in place.  The first
argument bounds the size of `allowed`.  `pop used allowed` is the element removed by `allowed.pop()`; the two arguments
determine the moment of the execution. -/
def bkLoop (g : Graph V W) (pop : List V → Finset V → V) : ℕ → List V → Finset V → Finset V → List (List V)
  | 0, _, _, _ => []
  | n + 1, used, allowed, forbidden =>
    if allowed = ∅ then []
    else
      let u := pop used allowed
      let allowed := allowed.erase u
      let newAllowed := allowed ∩ nb g u
      let newForbidden := forbidden ∩ nb g u
      (if newAllowed = ∅ ∧ newForbidden = ∅ then [used ++ [u]] else bkLoop g pop n (used ++ [u]) newAllowed newForbidden) ++
        bkLoop g pop n used allowed (insert u forbidden)

/-- cliques.py:11-56 `bron_kerbosch`. -/
def bronKerbosch (g : Graph V W) (pop : List V → Finset V → V) : List (List V) :=
  if vertexSet g = ∅ then [[]] else bkLoop g pop (vertexSet g).card [] (vertexSet g) ∅

/-- cliques.py:184-189: the vertex `u` adjacent to the most candidates, after `best`. -/
def pivotLoop (g : Graph V W) (candidates : Finset V) : List V → V → ℕ → V
  | [], best, _ => best
  | v :: vs, best, maxDeg =>
    if maxDeg < (nb g v ∩ candidates).card then pivotLoop g candidates vs v (nb g v ∩ candidates).card
    else pivotLoop g candidates vs best maxDeg

/-- cliques.py:191-194: the entries pushed for a list of candidates, in order. -/
def children (g : Graph V W) (subgraph : Finset V) (used : List V) : Finset V → List V → List (Finset V × Finset V × List V)
  | _, [] => []
  | candidates, q :: qs =>
    (subgraph ∩ nb g q, candidates ∩ nb g q, used ++ [q]) :: children g subgraph used (candidates.erase q) qs

/-- cliques.py:177-194: the loop over the stack, whose top is the head of the list. -/
def tomitaLoop (ord : Finset V → List V) (g : Graph V W) (stack : List (Finset V × Finset V × List V)) :
    Option (List (List V)) :=
  match stack with
  | [] => some []
  | (subgraph, candidates, used) :: stack =>
    match ord subgraph with
    | [] => do
      let l ← tomitaLoop ord g stack
      return used :: l
    | v :: vs =>
      let u := pivotLoop g candidates vs v (nb g v ∩ candidates).card
      tomitaLoop ord g ((children g subgraph used candidates (ord (candidates \ nb g u))).reverse ++ stack)
partial_fixpoint

/-- cliques.py:138-194 `tomita`. -/
def tomita (ord : Finset V → List V) (g : Graph V W) : Option (List (List V)) :=
  tomitaLoop ord g [(vertexSet g, vertexSet g, [])]

end Sets

/-! ## Bit masks -/

/-- cliques.py:116, 124 and the like: the value of the least set bit, `n & (-n)` for `n ≥ 0`. -/
def lowBit (n : ℕ) : ℕ := n - (n &&& (n - 1))

/-- cliques.py:96-103 and 113-119: the vertices of a mask.  The dictionary `int_to_vertex_map`, whose keys are the powers
of two, is the list `vl`.  The first argument bounds the number of set bits. -/
def decodeLoop (vl : List V) : ℕ → ℕ → List V
  | 0, _ => []
  | k + 1, used =>
    if used = 0 then [] else (vl[Nat.log2 (lowBit used)]?).toList ++ decodeLoop vl k (used &&& (used - 1))

section Masks

variable [DecidableEq V]

/-- cliques.py:105-110, 348-353, 521-526: `neighbors[b]` for a power of two `b`. -/
def neighborMask (ord : Finset V → List V) (g : Graph V W) (vl : List V) (b : ℕ) : ℕ :=
  match vl[Nat.log2 b]? with
  | none => 0
  | some v => (ord (nb g v)).foldl (fun m w => m ||| 2 ^ (vl.idxOf w)) 0

/-- cliques.py:122-133: the loop `while allowed`, with the test of line 112 of the recursive call in place.  The first
argument bounds the number of set bits of `allowed`. -/
def bkMaskLoop (ord : Finset V → List V) (g : Graph V W) (vl : List V) : ℕ → ℕ → ℕ → ℕ → List (List V)
  | 0, _, _, _ => []
  | n + 1, used, allowed, forbidden =>
    if allowed = 0 then []
    else
      let u := lowBit allowed
      let allowed := allowed &&& (allowed - 1)
      let newAllowed := allowed &&& neighborMask ord g vl u
      let newForbidden := forbidden &&& neighborMask ord g vl u
      (if newAllowed = 0 ∧ newForbidden = 0 then [decodeLoop vl vl.length (used ||| u)]
        else bkMaskLoop ord g vl n (used ||| u) newAllowed newForbidden) ++
        bkMaskLoop ord g vl n used allowed (forbidden ||| u)

end Masks

/-- cliques.py:59-135 `bron_kerbosch_binary`. -/
def bronKerboschBinary [LinearOrder V] (ord : Finset V → List V) (g : Graph V W) : List (List V) :=
  let vl := vertices g
  if 2 ^ vl.length - 1 = 0 then [[]] else bkMaskLoop ord g vl vl.length 0 (2 ^ vl.length - 1) 0

/-! ## Maximum cliques -/

section Maximum

variable [DecidableEq V]

/-- cliques.py:292-296, 443-447, 689-693: the first vertex of the list, from the position `last` on, that is a
candidate, with its position.  If there is none, the code goes on with the values of an earlier iteration; the model
raises an error. -/
def scan (vs : List V) (c : Finset V) (last : ℕ) : Except PyErr (V × ℕ) :=
  match ((vs.drop last).zipIdx last).find? (fun p => p.1 ∈ c) with
  | none => .error .unboundLocalError
  | some p => .ok p

/-- cliques.py:283-287, 432-437, 675-679: a clique that cannot be extended by candidates. -/
def leaf {α β : Type} [LT α] [DecidableLT α] (best : α × β) (size : α) (used : β) : α × β :=
  if best.1 < size then (size, used) else best

/-- cliques.py:291-302: the loop of `pardalos`, with the test of line 283 of the recursive call in place.  The first
argument bounds the number of candidates; `num_candidates` is their number throughout. -/
def pardalosLoop (g : Graph V W) (vs : List V) :
    ℕ → List V → ℕ → ℕ → Finset V → ℕ × List V → Except PyErr (ℕ × List V)
  | 0, _, _, _, _, best => .ok best
  | n + 1, used, size, last, c, best =>
    if c ≠ ∅ ∧ best.1 < size + c.card then
      match scan vs c last with
      | .error e => .error e
      | .ok (u, i) =>
        match (if c.erase u ∩ nb g u = ∅ then .ok (leaf best (size + 1) (used ++ [u]))
          else pardalosLoop g vs n (used ++ [u]) (size + 1) 0 (c.erase u ∩ nb g u) best) with
        | .error e => .error e
        | .ok best => pardalosLoop g vs n used size (i + 1) (c.erase u) best
    else .ok best

/-- cliques.py:242-305 `pardalos`, `ord` being the order of iteration of sets. -/
def pardalos (ord : Finset V → List V) (g : Graph V W) : Except PyErr (ℕ × List V) := do
  let vs ← inducedOrder ord (numVertices g) g
  pardalosLoop g vs vs.length [] 0 0 vs.toFinset (0, [])

/-- cliques.py:367-371: the loop of `pardalos_binary`, with the test of line 360 of the recursive call in place. -/
def pardalosMaskLoop (ord : Finset V → List V) (g : Graph V W) (vs : List V) : ℕ → ℕ → ℕ → ℕ → ℕ → ℕ × ℕ → ℕ × ℕ
  | 0, _, _, _, _, best => best
  | n + 1, used, size, num, c, best =>
    if c ≠ 0 ∧ best.1 < size + num then
      let u := lowBit c
      let c := c &&& (c - 1)
      let c' := c &&& neighborMask ord g vs u
      let best := if c' = 0 then leaf best (size + 1) (used ||| u)
        else pardalosMaskLoop ord g vs n (used ||| u) (size + 1) ((Nat.digits 2 c').count 1) c' best
      pardalosMaskLoop ord g vs n used size (num - 1) c best
    else best

/-- cliques.py:376-379, 575-578: the vertices of a mask. -/
def unmask (vs : List V) (bits : ℕ) : List V :=
  (List.range vs.length).filterMap (fun i => if bits &&& (1 <<< i) ≠ 0 then vs[i]? else none)

/-- cliques.py:308-381 `pardalos_binary`. -/
def pardalosBinary (ord : Finset V → List V) (g : Graph V W) : Except PyErr (ℕ × List V) := do
  let vs ← inducedOrder ord (numVertices g) g
  let all := 2 ^ vs.length - 1
  let best := pardalosMaskLoop ord g vs vs.length 0 0 ((Nat.digits 2 all).count 1) all (0, 0)
  pure (best.1, unmask vs best.2)

/-- cliques.py:441-459: the loop of `ostergard`, with the test of line 432 of the recursive call in place.  The last
argument and the result contain `max_clique` and `found[0]`. -/
def ostergardLoop (g : Graph V W) (vs : List V) (largest : List ℕ) :
    ℕ → List V → ℕ → ℕ → Finset V → (ℕ × List V) × Bool → Except PyErr ((ℕ × List V) × Bool)
  | 0, _, _, _, _, st => .ok st
  | n + 1, used, size, last, c, st =>
    if c ≠ ∅ ∧ st.1.1 < size + c.card then
      match scan vs c last with
      | .error e => .error e
      | .ok (u, i) =>
        match largest[i]? with
        | none => .error .indexError
        | some m =>
          if size + m ≤ st.1.1 then .ok st
          else
            match (if c.erase u ∩ nb g u = ∅ then
                .ok (leaf st.1 (size + 1) (used ++ [u]), st.2 || decide (st.1.1 < size + 1))
              else ostergardLoop g vs largest n (used ++ [u]) (size + 1) 0 (c.erase u ∩ nb g u) st) with
            | .error e => .error e
            | .ok st => if st.2 then .ok st else ostergardLoop g vs largest n used size (i + 1) (c.erase u) st
    else .ok st

/-- cliques.py:469-475: the loop over the positions. -/
def ostergardOuter (g : Graph V W) (vs : List V) : List ℕ → List ℕ → ℕ × List V → Except PyErr (ℕ × List V)
  | [], _, best => .ok best
  | i :: is, largest, best =>
    match vs[i]? with
    | none => .error .indexError
    | some u =>
      match (if (vs.drop i).toFinset ∩ nb g u = ∅ then .ok (leaf best 1 [u], decide (best.1 < 1))
        else ostergardLoop g vs largest vs.length [u] 1 0 ((vs.drop i).toFinset ∩ nb g u) (best, false)) with
      | .error e => .error e
      | .ok st => ostergardOuter g vs is (largest.set i st.1.1) st.1

/-- `graph.degree(u)` for a vertex. -/
def degreeOf (g : Graph V W) (u : V) : ℕ :=
  match degree g u with
  | .ok d => d
  | .error _ => 0

/-- cliques.py:416-423, 508-515: the vertices by color classes, each sorted by decreasing degree, in reversed order. -/
def classOrder (g : Graph V W) : Except PyErr (List V) :=
  match Coloring.greedySequential g none 1 true with
  | .error e => .error e
  | .ok (_, .classes cl) =>
    .ok (cl.flatMap (fun l => pySort l (fun a b => degreeOf g b ≤ degreeOf g a))).reverse
  | .ok (_, .colorMap _) => .error .typeError

/-- cliques.py:384-477 `ostergard`. -/
def ostergard (g : Graph V W) : Except PyErr (ℕ × List V) := do
  let vs ← classOrder g
  ostergardOuter g vs (List.range vs.length).reverse (List.replicate vs.length 0) (0, [])

/-- cliques.py:547-558: the loop of `ostergard_binary`; `largest` is a default dictionary. -/
def ostergardMaskLoop (ord : Finset V → List V) (g : Graph V W) (vs : List V) (largest : Dict ℕ ℕ) :
    ℕ → ℕ → ℕ → ℕ → ℕ → (ℕ × ℕ) × Bool → (ℕ × ℕ) × Bool
  | 0, _, _, _, _, st => st
  | n + 1, used, size, num, c, st =>
    if c ≠ 0 ∧ st.1.1 < size + num then
      let u := lowBit c
      if size + (Dict.get? largest u).getD 0 ≤ st.1.1 then st
      else
        let c := c &&& (c - 1)
        let c' := c &&& neighborMask ord g vs u
        let st := if c' = 0 then (leaf st.1 (size + 1) (used ||| u), st.2 || decide (st.1.1 < size + 1))
          else ostergardMaskLoop ord g vs largest n (used ||| u) (size + 1) ((Nat.digits 2 c').count 1) c' st
        if st.2 then st else ostergardMaskLoop ord g vs largest n used size (num - 1) c st
    else st

/-- cliques.py:568-572: the loop over the positions. -/
def ostergardMaskOuter (ord : Finset V → List V) (g : Graph V W) (vs : List V) : List ℕ → Dict ℕ ℕ → ℕ × ℕ → ℕ × ℕ
  | [], _, best => best
  | i :: is, largest, best =>
    let u := 1 <<< i
    let c := (((2 ^ vs.length - 1) >>> i) <<< i) &&& neighborMask ord g vs u
    let st := if c = 0 then (leaf best 1 u, decide (best.1 < 1))
      else ostergardMaskLoop ord g vs largest vs.length u 1 ((Nat.digits 2 c).count 1) c (best, false)
    ostergardMaskOuter ord g vs is (Dict.set largest u st.1.1) st.1

/-- cliques.py:480-580 `ostergard_binary`. -/
def ostergardBinary (ord : Finset V → List V) (g : Graph V W) : Except PyErr (ℕ × List V) := do
  let vs ← classOrder g
  let best := ostergardMaskOuter ord g vs (List.range vs.length).reverse [] (0, 0)
  pure (best.1, unmask vs best.2)

/-! ## Maximum weight cliques -/

/-- cliques.py:684-703: the loop of `maximum_weight_clique`, with the test of line 675 of the recursive call in place.
`cw` is `candidates_weight`. -/
def weightLoop (g : Graph V W) (wt : V → ℤ) (vs : List V) (largest : List ℤ) :
    ℕ → List V → ℤ → ℕ → ℤ → Finset V → ℤ × List V → Except PyErr (ℤ × List V)
  | 0, _, _, _, _, _, best => .ok best
  | n + 1, used, weight, last, cw, c, best =>
    if c = ∅ then .ok best
    else if weight + cw ≤ best.1 then .ok best
    else
      match scan vs c last with
      | .error e => .error e
      | .ok (u, i) =>
        match largest[i]? with
        | none => .error .indexError
        | some m =>
          if weight + m ≤ best.1 then .ok best
          else
            match (if c.erase u ∩ nb g u = ∅ then .ok (leaf best (weight + wt u) (used ++ [u]))
              else weightLoop g wt vs largest n (used ++ [u]) (weight + wt u) 0 (∑ v ∈ c.erase u ∩ nb g u, wt v)
                (c.erase u ∩ nb g u) best) with
            | .error e => .error e
            | .ok best => weightLoop g wt vs largest n used weight (i + 1) (cw - wt u) (c.erase u) best

/-- cliques.py:713-716: the loop over the positions. -/
def weightOuter (g : Graph V W) (wt : V → ℤ) (vs : List V) : List ℕ → List ℤ → ℤ × List V → Except PyErr (ℤ × List V)
  | [], _, best => .ok best
  | i :: is, largest, best =>
    match vs[i]? with
    | none => .error .indexError
    | some u =>
      match (if (vs.drop i).toFinset ∩ nb g u = ∅ then .ok (leaf best (wt u) [u])
        else weightLoop g wt vs largest vs.length [u] (wt u) 0 (∑ v ∈ (vs.drop i).toFinset ∩ nb g u, wt v)
          ((vs.drop i).toFinset ∩ nb g u) best) with
      | .error e => .error e
      | .ok best => weightOuter g wt vs is (largest.set i best.1) best

/-- cliques.py:626-718 `maximum_weight_clique` for a map with integer weights of all vertices. -/
def maximumWeightClique (ord : Finset V → List V) (g : Graph V W) (wt : V → ℤ) : Except PyErr (ℤ × List V) :=
  let vs := pySort (ord (vertexSet g)) (fun a b => ∑ v ∈ nb g a, wt v ≤ ∑ v ∈ nb g b, wt v)
  weightOuter g wt vs (List.range vs.length).reverse (List.replicate vs.length 0) (0, [])

end Maximum

end Rosemary.Cliques
