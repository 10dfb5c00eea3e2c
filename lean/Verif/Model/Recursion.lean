import Verif.Model.Sums
import Verif.Model.MeisselLehmer
import Verif.Model.Polynomials
import Verif.Model.LeftistHeap
import Verif.Model.Knapsack
import Verif.Model.Tsp

/-!
# Recursive functions under a limit of the depth of the recursion

Python raises RecursionError, a RuntimeError, when calls are nested deeper than its limit allows (1000 by default).  Here `lim`
is the number of nested calls of the recursive function that are possible when the function is called; a call that exceeds it
is the error `runtimeError`.  Frames of other functions are not counted; in `euler_phi_weighted_sum` the generator expression
of sums.py:123 takes one more frame for every call of `T`.
-/

namespace Rosemary.Recursion

open Rosemary.Sieves Rosemary.Tables Rosemary.Sums Rosemary.PrimeCounting Rosemary.Core Rosemary.Polys

/-- sums.py:8-72 `euler_phi_sum` with room for `lim` nested calls of `S`. -/
def eulerPhiSumLim (lim : Nat) (T : List Nat) (sq : Nat → Nat) (n : Int) : Except PyErr Int :=
  if n ≤ 0 then .error .valueError
  else
    let N := n.toNat
    match eulerPhiList T (sq N) with
    | .error e => .error e
    | .ok table =>
      match prefixCache table (fun _ => 1) (pyRange 2 (sq N + 1)) [(1, 1)] with
      | .error e => .error e
      | .ok cache =>
        match phiS sq table lim N cache with
        | .error e => .error e
        | .ok (v, _) => .ok v

/-- sums.py:78-129 `euler_phi_weighted_sum` with room for `lim` nested calls of `T`. -/
def eulerPhiWeightedSumLim (lim : Nat) (T : List Nat) (sq : Nat → Nat) (n : Int) : Except PyErr Int :=
  if n ≤ 0 then .error .valueError
  else
    let N := n.toNat
    match eulerPhiList T (sq N) with
    | .error e => .error e
    | .ok table =>
      match prefixCache table (fun i => i) (pyRange 2 (sq N + 1)) [(1, 1)] with
      | .error e => .error e
      | .ok cache =>
        match weightedT sq table lim N cache with
        | .error e => .error e
        | .ok (v, _) => .ok v

/-- sums.py:132-189 `moebius_sum` with room for `lim` nested calls of `M`. -/
def moebiusSumLim (lim : Nat) (T : List Nat) (sq : Nat → Nat) (n : Int) : Except PyErr Int :=
  if n ≤ 0 then .error .valueError
  else
    let N := n.toNat
    match moebiusList T sq (sq N) with
    | .error e => .error e
    | .ok table =>
      match prefixCache table (fun _ => 1) (pyRange 2 (sq N + 1)) [(1, 1)] with
      | .error e => .error e
      | .ok cache =>
        match moebiusM sq table lim N cache with
        | .error e => .error e
        | .ok (v, _) => .ok v

/-- prime_counting.py:15-63 `legendre` with room for `lim` nested calls of `phi`. -/
def legendreLim (lim : Nat) (T : List Nat) (n : Int) : Except PyErr Int :=
  if n ≤ 1 then .ok 0
  else
    match T.getLast? with
    | none => .error .indexError
    | some l =>
      if n ≤ l then .ok (bisectRight T n : Nat)
      else
        match integerSqrt n with
        | .error e => .error e
        | .ok root =>
          match primes T root with
          | .error e => .error e
          | .ok ps =>
            match legendrePhi ps lim n.toNat ps.length [] with
            | .error e => .error e
            | .ok (v, _) => .ok (v + ps.length - 1)

/-- prime_counting.py:360-396 `prime_sum2` with room for `lim` nested calls of `phi`. -/
def primeSum2Lim (lim : Nat) (T : List Nat) (n : Int) : Except PyErr Int :=
  match integerSqrt n with
  | .error e => .error e
  | .ok root =>
    match primes T root with
    | .error e => .error e
    | .ok ps =>
      match sumTable (ps.zip (accumulate 0 ps)) (List.replicate (root + 1) 0) with
      | .error e => .error e
      | .ok table =>
        match fillTable (pyRange 2 (root + 1)) table with
        | .error e => .error e
        | .ok _ =>
          match sumPhi ps lim n.toNat ps.length [] with
          | .error e => .error e
          | .ok (v, _) => .ok (v + ps.sum - 1)

/-- algorithms.py:42-102 `mul_karatsuba` with room for `lim` nested calls. -/
def mulKaratsubaLim : Nat → List Int → List Int → Except PyErr (List Int)
  | 0, _, _ => .error .runtimeError
  | lim + 1, M, N =>
    if M.length < 30 ∨ N.length < 30 then .ok (mulClassical M N)
    else
      let k := max M.length N.length / 2
      let f0 := M.take k
      let f1 := M.drop k
      let g0 := N.take k
      let g1 := N.drop k
      match mulKaratsubaLim lim f0 g0 with
      | .error e => .error e
      | .ok z0 =>
        match mulKaratsubaLim lim f1 g1 with
        | .error e => .error e
        | .ok z2 =>
          match mulKaratsubaLim lim (listAdd f1 f0) (listAdd g1 g0) with
          | .error e => .error e
          | .ok xxyy =>
            let z1 := listSubtract (listSubtract xxyy z2) z0
            let t2 := List.replicate (2 * k) 0 ++ z2
            let t1 := List.replicate k 0 ++ z1
            .ok (listAdd (listAdd t2 t1) z0)

section Heap

open Rosemary.LeftistHeap

variable {α : Type} [LT α] [DecidableLT α]

/-- heaps.py:34-71 `_leftist_heap_merge` with room for `lim` nested calls. -/
def mergeLim : Nat → LeftistHeap.Tree α → LeftistHeap.Tree α → Except PyErr (LeftistHeap.Tree α)
  | 0, _, _ => .error .runtimeError
  | lim + 1, a, b =>
    match a, b with
    | .leaf, b => .ok b
    | a, .leaf => .ok a
    | .node x kx lx rx, .node y ky ly ry =>
      if x > y then
        match ry with
        | .leaf => .ok (attach y ly (.node x kx lx rx))
        | .node u ku lu ru =>
          match mergeLim lim (.node u ku lu ru) (.node x kx lx rx) with
          | .error e => .error e
          | .ok c => .ok (attach y ly c)
      else
        match rx with
        | .leaf => .ok (attach x lx (.node y ky ly ry))
        | .node u ku lu ru =>
          match mergeLim lim (.node u ku lu ru) (.node y ky ly ry) with
          | .error e => .error e
          | .ok c => .ok (attach x lx c)

end Heap

section Knapsack

open Rosemary.Knapsack

/-- knapsack.py:50-59 `depth_first.backtrack` with room for `lim` nested calls. -/
def dfsLim (capacity : Int) : Nat → List Item → Int → Int → List Item → Int × List Item → Except PyErr (Int × List Item)
  | 0, _, _, _, _, _ => .error .runtimeError
  | _ + 1, [], value, weight, used, best =>
    if weight ≤ capacity then .ok (if value > best.1 then (value, used) else best) else .ok best
  | lim + 1, (v, w) :: rest, value, weight, used, best =>
    if weight ≤ capacity then
      match dfsLim capacity lim rest (value + v) (weight + w) (used ++ [(v, w)]) best with
      | .error e => .error e
      | .ok best => dfsLim capacity lim rest value weight used best
    else .ok best

/-- knapsack.py:15-63 `depth_first` with room for `lim` nested calls. -/
def knapsackLim (lim : Nat) (items : List Item) (capacity : Int) : Except PyErr (Int × List Item) :=
  dfsLim capacity lim items 0 0 [] (0, [])

end Knapsack

section Tsp

open Rosemary.Tsp

variable {R : Type} [Add R] [LinearOrder R]

/-- tsp.py:36-51 `depth_first.backtrack` with room for `lim` nested calls. -/
def backtrackLim (D : ℕ → ℕ → WithTop R) (n : ℕ) : ℕ → List ℕ → ℕ → List ℕ → WithTop R × List ℕ →
    Except PyErr (WithTop R × List ℕ)
  | 0, _, _, _, _ => .error .runtimeError
  | lim + 1, path, l, last, best =>
    if l = n then leaf D n path best
    else (choices n path l last).foldlM
      (fun best c => backtrackLim D n lim (path ++ [c]) (l + 1) (choices n path l last) best) best

/-- tsp.py:29-54 `depth_first` with room for `lim` nested calls. -/
def tspLim (lim : ℕ) (D : ℕ → ℕ → WithTop R) (n : ℕ) : Except PyErr (WithTop R × List ℕ) :=
  backtrackLim D n lim [] 0 [] (⊤, [])

end Tsp

end Rosemary.Recursion
