import Verif.Model.BitSieve
import Verif.Model.Core
import Verif.Model.Graph
import Verif.Model.Matrices
import Verif.Model.Sieves

/-!
# Models of single functions from several modules

`is_power2`, `primorial`, `odd_graph`, `load_graph`, `load_dimacs_graph`, `BITSieve.update`, and the
reflected operators and the item access of matrices.
-/

namespace Rosemary.Misc

open Rosemary Rosemary.Core

/-! ## classification.py -/

/-- classification.py:111-116, from exponent `k` on. -/
def isPower2Loop (n : Int) (k : Nat) : Except PyErr (Option (Nat × Nat)) :=
  if _h : (2 : Int) ^ k ≤ n then
    match integerNthRoot k n with
    | .error e => .error e
    | .ok r => if (r : Int) ^ k = n then .ok (some (r, k)) else isPower2Loop n (k + 1)
  else .ok none
termination_by n.toNat + 1 - 2 ^ k
decreasing_by
  have h1 : (2 : Nat) ^ k < 2 ^ (k + 1) := Nat.pow_lt_pow_right (by omega) (by omega)
  have h2 : 2 ^ k ≤ n.toNat := by
    have : ((2 ^ k : Nat) : Int) ≤ n := by exact_mod_cast _h
    omega
  omega

/-- classification.py:109-116 `is_power2`; `False` is `none`. -/
def isPower2 (n : Int) : Except PyErr (Option (Nat × Nat)) := isPower2Loop n 2

/-! ## functions.py -/

/-- functions.py:508-547 `primorial`; `bound` is the float estimate of `primes_first_n`. -/
def primorial (T : List Nat) (bound : Nat → Int) (n : Int) : Except PyErr Nat :=
  if n ≤ 0 then .error .valueError
  else
    match Sieves.primesFirstN T bound n with
    | .error e => .error e
    | .ok ps => .ok (ps.foldl (· * ·) 1)

/-! ## graphs.py -/

/-- `itertools.combinations(l, r)`, in its order. -/
def itCombinations {α : Type} : Nat → List α → List (List α)
  | 0, _ => [[]]
  | _ + 1, [] => []
  | r + 1, x :: xs => (itCombinations r xs).map (x :: ·) ++ itCombinations (r + 1) xs

/-- The pairs of `itertools.combinations(l, 2)`. -/
def itPairs {α : Type} : List α → List (α × α)
  | [] => []
  | x :: xs => xs.map (fun y => (x, y)) ++ itPairs xs

/-- graphs.py:1240: `''.join(map(str, range(2*k - 1)))`. -/
def oddDigits (k : Nat) : List Char := (List.range (2 * k - 1)).flatMap (fun i => Nat.toDigits 10 i)

/-- graphs.py:1204-1251 `odd_graph`; the vertices, strings, are lists of characters. -/
def oddGraph (k : Int) : Except PyErr (Graph (List Char) ℤ) :=
  if k ≤ 0 then .error .valueError
  else
    let g : Graph (List Char) ℤ := Graph.addVertices [] (itCombinations (k.toNat - 1) (oddDigits k.toNat))
    .ok (Graph.addEdges g (((itPairs (Dict.keys g)).filter (fun p => p.1.all (fun c => decide (c ∉ p.2)))).map
      (fun p => (p.1, p.2, 1))))

/-- `[int(e) for e in tokens]`; `int` is the parameter `toInt`, `none` where it raises ValueError. -/
def parseAll (toInt : String → Option Int) : List String → Except PyErr (List Int)
  | [] => .ok []
  | t :: ts =>
    match toInt t with
    | none => .error .valueError
    | some i =>
      match parseAll toInt ts with
      | .error e => .error e
      | .ok is => .ok (i :: is)

/-- graphs.py:1165-1167, over the remaining lines; each line comes as the list `line.split(' ')`. -/
def loadLines (toInt : String → Option Int) : List (List String) → Graph Int ℤ → Except PyErr (Graph Int ℤ)
  | [], g => .ok g
  | l :: ls, g =>
    match parseAll toInt l with
    | .error e => .error e
    | .ok [u, v] => loadLines toInt ls (Graph.addEdge g u v 1)
    | .ok _ => .error .valueError

/-- graphs.py:1141-1169 `load_graph`; a missing file is not modelled. -/
def loadGraph (toInt : String → Option Int) (lines : List (List String)) : Except PyErr (Graph Int ℤ) :=
  loadLines toInt lines []

/-- graphs.py:1109-1138 `load_dimacs_graph`: the lines that start with `e`, without the first token. -/
def loadDimacsGraph (toInt : String → Option Int) (lines : List (List String)) : Except PyErr (Graph Int ℤ) :=
  loadLines toInt ((lines.filter (fun l => (l.headD "").toList.head? = some 'e')).map List.tail) []

/-! ## bit_sieve.py -/

open BitSieve in
/-- bit_sieve.py:33-34, one level. -/
def updateLevel (i : Nat) : List Nat → Table → Except PyErr Table
  | [], A => .ok A
  | j :: js, A =>
    match A (i - 1, 2 * j - 1), A (i - 1, 2 * j) with
    | some a, some b => updateLevel i js (put A (i, j) (a + b))
    | _, _ => .error .keyError

open BitSieve in
/-- bit_sieve.py:31-35, all levels. -/
def updateLevels (n i : Nat) (A : Table) : Except PyErr Table :=
  if _h : n >>> i ≠ 0 then
    match updateLevel i (Sieves.pyRange 1 (n >>> i + 1)) A with
    | .error e => .error e
    | .ok A => updateLevels n (i + 1) A
  else .ok A
termination_by n + 1 - i
decreasing_by
  have : i < n := by
    by_contra hc
    have h1 : n < 2 ^ i := lt_of_lt_of_le Nat.lt_two_pow_self (Nat.pow_le_pow_right (by omega) (by omega))
    rw [Nat.shiftRight_eq_div_pow, Nat.div_eq_of_lt h1] at _h
    exact _h rfl
  omega

open BitSieve in
/-- bit_sieve.py:28-35 `BITSieve.update`. -/
def update (s : Sieve) : Except PyErr Sieve :=
  match updateLevels s.n 1 s.A with
  | .error e => .error e
  | .ok A => .ok ⟨A, s.n, s.parent⟩

/-! ## matrices.py -/

open Matrices in
/-- matrices.py:122-129 `__radd__`, of a matrix. -/
def radd (A B : Entries) : Except PyErr Entries := add A B

open Matrices in
/-- matrices.py:176-182 `__rsub__`, of a matrix: `-self + other`. -/
def rsub (A B : Entries) : Except PyErr Entries :=
  match neg A with
  | .error e => .error e
  | .ok N => add N B

open Matrices in
/-- matrices.py:242-258 `__rmul__`, of a matrix. -/
def rmul (A B : Entries) : Except PyErr Entries :=
  if ncols B ≠ nrows A then .error .valueError
  else do
    let result ← forRange 0 (nrows B) (fun i R => forRange 0 (ncols A) (fun j R => do
      let total ← forRange 0 (ncols B) (fun k t => do
        let x ← get A i k
        let y ← get B k j
        .ok (t + x * y)) 0
      put R i j total) R) (zeros (nrows A) (ncols B))
    construct result

/-- The position meant by a Python index of a list of length `len`. -/
def pyPos (len : Nat) (i : Int) : Except PyErr Nat :=
  if 0 ≤ i then (if i < len then .ok i.toNat else .error .indexError)
  else if 0 ≤ i + len then .ok (i + len).toNat else .error .indexError

open Matrices in
/-- matrices.py:79-80 `__getitem__` with a pair. -/
def getItem (m : Entries) (i j : Int) : Except PyErr ℤ :=
  match pyPos m.length i with
  | .error e => .error e
  | .ok a =>
    match pyPos (m.getD a []).length j with
    | .error e => .error e
    | .ok b => .ok ((m.getD a []).getD b 0)

open Matrices in
/-- matrices.py:85-86 `__setitem__` with a pair. -/
def setItem (m : Entries) (i j : Int) (x : ℤ) : Except PyErr Entries :=
  match pyPos m.length i with
  | .error e => .error e
  | .ok a =>
    match pyPos (m.getD a []).length j with
    | .error e => .error e
    | .ok b => .ok (m.set a ((m.getD a []).set b x))

end Rosemary.Misc
