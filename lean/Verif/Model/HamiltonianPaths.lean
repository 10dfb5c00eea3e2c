import Verif.Model.Cliques
import Mathlib.Data.Nat.Bitwise
import Mathlib.Data.List.Sublists

/-!
# Model of `graphs/algorithms/hamiltonian_paths.py`

Generators are lists.  The functions only ask for the neighbors of vertices of the graph, which are given by `nb`.
-/

namespace Rosemary.HamiltonianPaths

open Rosemary.Graph
open Rosemary.Cliques (nb lowBit neighborMask)

variable {V W : Type}

section Sets

variable [DecidableEq V]

/-! ## Connectivity of a set of vertices -/

/-- hamiltonian_paths.py:308-318: the loop of `is_connected2`.  The iterations that only pop a visited vertex are the
`dropWhile`.  The first argument bounds the number of vertices that are not yet visited; the head of the list is the top of
the stack. -/
def conLoop (ord : Finset V → List V) (g : Graph V W) (allowed : Finset V) : ℕ → List V → Finset V → Finset V
  | 0, _, visited => visited
  | n + 1, stack, visited =>
    match stack.dropWhile (· ∈ visited) with
    | [] => visited
    | u :: stack =>
      conLoop ord g allowed n (((ord (nb g u ∩ allowed)).filter (· ∉ visited)).reverse ++ stack) (insert u visited)

/-- hamiltonian_paths.py:300-320 `is_connected2`. -/
def isConnected2 (ord : Finset V → List V) (g : Graph V W) (allowed : Finset V) : Bool :=
  match ord allowed with
  | [] => true
  | u :: _ => conLoop ord g allowed allowed.card [u] ∅ = allowed

/-! ## Enumeration -/

/-- hamiltonian_paths.py:58-70: `extend` in `hamiltonian_paths`; `ord used S` is the order of iteration of the set `S`
when the list `used` has been built.  The first argument is the number of unused vertices. -/
def extend (ord : List V → Finset V → List V) (g : Graph V W) : ℕ → List V → V → Finset V → List (List V)
  | 0, used, _, unused => if unused = ∅ then [used] else []
  | n + 1, used, last, unused =>
    if unused = ∅ then [used]
    else (ord used (nb g last ∩ unused)).flatMap (fun v => extend ord g n (used ++ [v]) v (unused.erase v))

/-- hamiltonian_paths.py:48-82 `hamiltonian_paths`. -/
def hamiltonianPaths (ord : List V → Finset V → List V) (g : Graph V W) : List (List V) :=
  (ord [] (vertexSet g)).flatMap (fun v => extend ord g (numVertices g) [v] v ((vertexSet g).erase v))

/-- hamiltonian_paths.py:20-33: `extend` in `hamiltonian_paths_con`. -/
def extendCon (ord : List V → Finset V → List V) (g : Graph V W) : ℕ → List V → V → Finset V → List (List V)
  | 0, used, _, unused => if unused = ∅ then [used] else []
  | n + 1, used, last, unused =>
    if unused = ∅ then [used]
    else if isConnected2 (ord used) g unused then
      (ord used (nb g last ∩ unused)).flatMap (fun v => extendCon ord g n (used ++ [v]) v (unused.erase v))
    else []

/-- hamiltonian_paths.py:10-45 `hamiltonian_paths_con`. -/
def hamiltonianPathsCon (ord : List V → Finset V → List V) (g : Graph V W) : List (List V) :=
  (ord [] (vertexSet g)).flatMap (fun v => extendCon ord g (numVertices g) [v] v ((vertexSet g).erase v))

/-! ## Counting -/

/-- hamiltonian_paths.py:92-99: `extend` in `number_of_hamiltonian_paths`.  The first argument bounds the size of
`left`. -/
def count (ord : Finset V → List V) (g : Graph V W) : ℕ → V → Finset V → ℕ
  | 0, _, left => if left = ∅ then 1 else 0
  | n + 1, last, left =>
    if left = ∅ then 1
    else (ord (nb g last ∩ left)).foldl (fun total u => total + count ord g n u (left.erase u)) 0

/-- hamiltonian_paths.py:85-105 `number_of_hamiltonian_paths`. -/
def numberOfHamiltonianPaths (ord : Finset V → List V) (g : Graph V W) : ℕ :=
  (ord (vertexSet g)).foldl (fun ss v => ss + count ord g (numVertices g) v ((vertexSet g).erase v)) 0

/-- hamiltonian_paths.py:141-144, 216-219: the loop over the candidates; `ext` is the recursive call, which changes the
cache.  The first argument bounds the number of candidates. -/
def candLoop (ext : ℕ → Dict ℕ ℕ → ℕ × Dict ℕ ℕ) (n remaining : ℕ) : ℕ → ℕ → ℕ → Dict ℕ ℕ → ℕ × Dict ℕ ℕ
  | 0, _, total, cache => (total, cache)
  | k + 1, candidates, total, cache =>
    if candidates = 0 then (total, cache)
    else
      let u := lowBit candidates
      let r := ext ((u <<< n) + (remaining - u)) cache
      candLoop ext n remaining k (candidates - u) (total + r.1) r.2

/-- hamiltonian_paths.py:130-148: `extend` in `number_of_hamiltonian_paths_bits`; `vs` is the shuffled list of vertices.
The first argument bounds the number of remaining vertices. -/
def extendBits (ord : Finset V → List V) (g : Graph V W) (vs : List V) : ℕ → ℕ → Dict ℕ ℕ → ℕ × Dict ℕ ℕ
  | 0, _, cache => (1, cache)
  | k + 1, bits, cache =>
    let n := vs.length
    match Dict.get? cache bits with
    | some t => (t, cache)
    | none =>
      let remaining := bits % 2 ^ n
      if remaining = 0 then (1, cache)
      else
        let last := bits >>> n
        let r := candLoop (extendBits ord g vs k) n remaining n (remaining &&& neighborMask ord g vs last) 0 cache
        (r.1, Dict.set r.2 ((last <<< n) + remaining) r.1)

/-- hamiltonian_paths.py:150-153, 225-228: the sum over the first vertices. -/
def sumBits (ext : ℕ → Dict ℕ ℕ → ℕ × Dict ℕ ℕ) (n : ℕ) : List ℕ → ℕ → Dict ℕ ℕ → ℕ
  | [], total, _ => total
  | i :: is, total, cache =>
    let r := ext (2 ^ (n + i) + (2 ^ n - 1 - 2 ^ i)) cache
    sumBits ext n is (total + r.1) r.2

/-- hamiltonian_paths.py:108-153 `number_of_hamiltonian_paths_bits`; `vs` is the list of vertices after
`random.shuffle`. -/
def numberBits (ord : Finset V → List V) (g : Graph V W) (vs : List V) : ℕ :=
  sumBits (extendBits ord g vs vs.length) vs.length (List.range vs.length) 0 []

/-- hamiltonian_paths.py:202-205: the bits of `unvisited` are put on the stack. -/
def pushLoop : ℕ → ℕ → ℕ → ℕ
  | 0, _, stack => stack
  | k + 1, unvisited, stack =>
    if unvisited = 0 then stack
    else
      let v := lowBit unvisited
      pushLoop k (unvisited - v) (stack ||| v)

/-- hamiltonian_paths.py:193-205: the search from the least remaining bit.  The first argument bounds the number of
vertices that are not visited.  `a & ~b` is `Nat.ldiff`. -/
def visitLoop (ord : Finset V → List V) (g : Graph V W) (vs : List V) (remaining : ℕ) : ℕ → ℕ → ℕ → ℕ
  | 0, _, visited => visited
  | k + 1, stack, visited =>
    if stack = 0 then visited
    else
      let u := lowBit stack
      let stack := stack - u
      let visited := visited ||| u
      let unvisited := Nat.ldiff (neighborMask ord g vs u &&& remaining) visited
      visitLoop ord g vs remaining k (pushLoop vs.length unvisited stack) visited

/-- hamiltonian_paths.py:179-223: `extend` in `number_of_hamiltonian_paths_bits_con`. -/
def extendBitsCon (ord : Finset V → List V) (g : Graph V W) (vs : List V) : ℕ → ℕ → Dict ℕ ℕ → ℕ × Dict ℕ ℕ
  | 0, _, cache => (1, cache)
  | k + 1, bits, cache =>
    let n := vs.length
    match Dict.get? cache bits with
    | some t => (t, cache)
    | none =>
      let remaining := bits % 2 ^ n
      if remaining = 0 then (1, cache)
      else if visitLoop ord g vs remaining n (lowBit remaining) 0 ≠ remaining then (0, cache)
      else
        let last := bits >>> n
        let r := candLoop (extendBitsCon ord g vs k) n remaining n (remaining &&& neighborMask ord g vs last) 0 cache
        (r.1, Dict.set r.2 ((last <<< n) + remaining) r.1)

/-- hamiltonian_paths.py:156-228 `number_of_hamiltonian_paths_bits_con`. -/
def numberBitsCon (ord : Finset V → List V) (g : Graph V W) (vs : List V) : ℕ :=
  sumBits (extendBitsCon ord g vs vs.length) vs.length (List.range vs.length) 0 []

/-! ## Inclusion and exclusion -/

/-- hamiltonian_paths.py:242-247: the loop of `walks`; the dictionaries with the keys `allowed` are functions. -/
def walksLoop (g : Graph V W) (allowed : Finset V) : ℕ → (V → ℕ) → V → ℕ
  | 0, f => f
  | k + 1, f => walksLoop g allowed k (fun u => ∑ v ∈ nb g u ∩ allowed, f v)

/-- hamiltonian_paths.py:231-249 `walks`, for `a` in `allowed`. -/
def walks (g : Graph V W) (a : V) (n : ℕ) (allowed : Finset V) : V → ℕ :=
  walksLoop g allowed (n - 1) (fun u => if u ∈ nb g a ∩ allowed then 1 else 0)

/-- hamiltonian_paths.py:265-268, 292-295: what the tuple `allowed` contributes to the total. -/
def term (g : Graph V W) (n : ℕ) (allowed : List V) : ℤ :=
  (allowed.map (fun a => (allowed.map (fun u =>
    (-1) ^ (n - allowed.length) * (walks g a (n - 1) allowed.toFinset u : ℤ))).sum)).sum

/-- hamiltonian_paths.py:252-269 `number_of_hamiltonian_paths5`.  The combinations of `s` elements are taken in the
order of `List.sublistsLen`. -/
def number5 (ord : Finset V → List V) (g : Graph V W) : ℤ :=
  let vs := ord (vertexSet g)
  ((List.range (vs.length + 1)).map (fun s => ((List.sublistsLen s vs).map (term g vs.length)).sum)).sum

/-- hamiltonian_paths.py:282-288: `extend` in `number_of_hamiltonian_paths5_con`; the list contains `vertices[idx:]`. -/
def extend5 (ord : Finset V → List V) (g : Graph V W) : ℕ → List V → List V → List (List V)
  | 0, _, _ => []
  | k + 1, part, rest =>
    if isConnected2 ord g (vertexSet g \ part.toFinset) then
      part :: (List.range rest.length).flatMap (fun i =>
        match rest[i]? with
        | none => []
        | some v => extend5 ord g k (part ++ [v]) (rest.drop (i + 1)))
    else []

end Sets

/-- hamiltonian_paths.py:272-297 `number_of_hamiltonian_paths5_con`. -/
def number5Con [LinearOrder V] (ord : Finset V → List V) (g : Graph V W) : ℤ :=
  ((extend5 ord g ((vertices g).length + 1) [] (vertices g)).map (term g (vertices g).length)).sum

end Rosemary.HamiltonianPaths
