import Verif.Model.Py
import Verif.Model.Sort
import Mathlib.Algebra.Order.Monoid.WithTop
import Mathlib.Algebra.Order.Group.Defs

/-!
# Model of `combinatorics/optimization/genetic_tsp.py`

The points enter only through their distances `((xi - xj)**2 + (yi - yj)**2)**(0.5)`, which are a function
`D` on pairs of indices below the number of points `n`, with values in an ordered group `R`: arithmetic
is exact, where Python rounds.  `eps` is the constant `0.000001` of line 90.  The random numbers are
parameters.  The outer `Option` of the results is for termination; the `print` calls are not modelled.
-/

namespace Rosemary.GeneticTsp

variable {R : Type} [AddCommGroup R] [LinearOrder R]

/-- The order of the pairs `(dist, j)` as Python tuples. -/
def leNear (p q : R × ℕ) : Bool := p.1 < q.1 ∨ (p.1 = q.1 ∧ p.2 ≤ q.2)

/-- genetic_tsp.py:13, 16-26: the entry of `nearest_neighbors` for point `i`. -/
def nearest (D : ℕ → ℕ → R) (n i : ℕ) : List (R × ℕ) :=
  (pySort (((List.range n).filter (fun j => i ≠ j)).map (fun j => (D i j, j))) leNear).take (min n 20)

/-- `points[path[i]]`: the index of the point. -/
def point (n : ℕ) (path : List ℕ) (i : ℕ) : Except PyErr ℕ :=
  match path[i]? with
  | none => .error .indexError
  | some x => if x < n then .ok x else .error .indexError

/-- genetic_tsp.py:33-36. -/
def costLoop (D : ℕ → ℕ → R) (n : ℕ) (path : List ℕ) : List ℕ → R → Except PyErr R
  | [], total => .ok total
  | i :: is, total =>
    match point n path i, point n path (i + 1) with
    | .ok a, .ok b => costLoop D n path is (total + D a b)
    | _, _ => .error .indexError

/-- genetic_tsp.py:28-37 `cost`. -/
def cost (D : ℕ → ℕ → R) (n : ℕ) (path : List ℕ) : Except PyErr R :=
  match point n path 0, point n path (path.length - 1) with
  | .ok a, .ok b => costLoop D n path (List.range (n - 1)) (D a b)
  | _, _ => .error .indexError

/-- genetic_tsp.py:46-53: the list `idxs`. -/
def circle (n j k : ℕ) (idxs : List ℕ) : Option (List ℕ) :=
  if (k + 1) % n = j then some (idxs ++ [k] ++ [(k + 1) % n])
  else circle n j ((k + 1) % n) (idxs ++ [k])
partial_fixpoint

/-- genetic_tsp.py:58-59: `r[idxs[i]] = rvals[i]` for all `i`. -/
def assign : List ℕ → List ℕ → List ℕ → List ℕ
  | p :: ps, v :: vs, r => assign ps vs (r.set p v)
  | _, _, r => r

/-- genetic_tsp.py:40-61 `rev`; the indices are below the length of `path`. -/
def rev (path : List ℕ) (i j : ℕ) : Option (List ℕ) :=
  if i < j then some (path.take i ++ ((path.take (j + 1)).drop i).reverse ++ path.drop (j + 1))
  else if j < i then
    match circle path.length j i [] with
    | none => none
    | some idxs => some (assign idxs (idxs.map (fun l => path.getD l 0)).reverse path)
  else some path

/-- genetic_tsp.py:75-100: the loop over the neighbours `(djk, xk)`; the result is the changed path, if any. -/
def scan (D : ℕ → ℕ → R) (eps : R) (n : ℕ) (path : List ℕ) (i xi : ℕ) (dij : R) :
    List (R × ℕ) → Option (Except PyErr (Option (List ℕ)))
  | [] => some (.ok none)
  | (djk, xk) :: rest =>
    if dij ≤ djk then some (.ok none)
    else if xk ∉ path then some (.error .valueError)
    else
      let k := path.idxOf xk
      match point n path ((k + n - 1) % n) with
      | .error e => some (.error e)
      | .ok xl =>
        if eps < dij + D xl xk - djk - D xi xl then
          match rev path k i with
          | none => none
          | some path => some (.ok (some path))
        else scan D eps n path i xi dij rest

/-- genetic_tsp.py:66-104: the main loop of `two_opt`. -/
def twoOptLoop (D : ℕ → ℕ → R) (eps : R) (n : ℕ) (path : List ℕ) (i : ℕ) : Option (Except PyErr (R × List ℕ)) :=
  if i < n then
    match point n path i, point n path ((i + 1) % n) with
    | .ok xi, .ok xj =>
      match scan D eps n path i xi (D xi xj) (nearest D n xj) with
      | none => none
      | some (.error e) => some (.error e)
      | some (.ok none) => twoOptLoop D eps n path (i + 1)
      | some (.ok (some path)) => twoOptLoop D eps n path 0
    | _, _ => some (.error .indexError)
  else
    match cost D n path with
    | .error e => some (.error e)
    | .ok c => some (.ok (c, path))
partial_fixpoint

/-- genetic_tsp.py:39-104 `two_opt`. -/
def twoOpt (D : ℕ → ℕ → R) (eps : R) (n : ℕ) (path : List ℕ) : Option (Except PyErr (R × List ℕ)) :=
  twoOptLoop D eps n path 0

/-- A member of the population: its cost, possibly `float('inf')`, and its path. -/
abbrev Member (R : Type) := WithTop R × List ℕ

/-- genetic_tsp.py:106-117 `select`; `shuffled i` is the result of the `i`-th `random.shuffle`. -/
def select (D : ℕ → ℕ → R) (eps : R) (n : ℕ) (shuffled : ℕ → List ℕ) :
    List ℕ → Option (Except PyErr (List (Member R)))
  | [] => some (.ok [])
  | i :: is =>
    match twoOpt D eps n (shuffled i) with
    | none => none
    | some (.error e) => some (.error e)
    | some (.ok (c, p)) =>
      match select D eps n shuffled is with
      | none => none
      | some (.error e) => some (.error e)
      | some (.ok population) => some (.ok (((c : WithTop R), p) :: population))

/-- genetic_tsp.py:129-131: `C` and `T` after the loop. -/
def crossHead (n j : ℕ) (P1 : List ℕ) : List ℕ → List ℕ → List ℕ → Except PyErr (List ℕ × List ℕ)
  | [], C, T => .ok (C, T)
  | i :: is, C, T =>
    match P1[(i + j) % n]? with
    | none => .error .indexError
    | some x => crossHead n j P1 is (C.set i x) (x :: T)

/-- genetic_tsp.py:134-140. -/
def crossTail (n : ℕ) (T : List ℕ) : List ℕ → List ℕ → ℕ → Except PyErr (List ℕ)
  | [], C, _ => .ok C
  | p :: ps, C, i =>
    if p ∈ T then crossTail n T ps C i
    else if C.length ≤ i then .error .indexError
    else if n ≤ i + 1 then .ok (C.set i p)
    else crossTail n T ps (C.set i p) (i + 1)

/-- genetic_tsp.py:125-140: the child `C`. -/
def crossover (n h j : ℕ) (P1 P2 : List ℕ) : Except PyErr (List ℕ) :=
  match crossHead n j P1 (List.range h) (List.replicate n 0) [] with
  | .error e => .error e
  | .ok (C, T) => crossTail n T P2 C h

/-- genetic_tsp.py:119-144 `mgkrec`.  The draw is the triple of `h` and the two values of `j`;
`random.randint(10, n//2)` raises if the range is empty. -/
def mgkrec (D : ℕ → ℕ → R) (eps : R) (n : ℕ) (draw : ℕ × ℕ × ℕ) (A B : List ℕ) :
    Option (Except PyErr ((R × List ℕ) × (R × List ℕ))) :=
  if n / 2 < 10 then some (.error .valueError)
  else
    match crossover n draw.1 draw.2.1 B A with
    | .error e => some (.error e)
    | .ok C =>
      match twoOpt D eps n C with
      | none => none
      | some (.error e) => some (.error e)
      | some (.ok first) =>
        match crossover n draw.1 draw.2.2 A B with
        | .error e => some (.error e)
        | .ok C =>
          match twoOpt D eps n C with
          | none => none
          | some (.error e) => some (.error e)
          | some (.ok second) => some (.ok (first, second))

/-- The order of the pairs `(cost, path)` as Python tuples; lists are compared lexicographically. -/
def leMember (p q : Member R) : Bool := p.1 < q.1 ∨ (p.1 = q.1 ∧ p.2 ≤ q.2)

/-- genetic_tsp.py:157-163: the loop over the pairs of parents. -/
def breed (D : ℕ → ℕ → R) (eps : R) (n popsize : ℕ) (draws : ℕ → ℕ × ℕ × ℕ) :
    List ℕ → List (Member R) → Option (Except PyErr (List (Member R)))
  | [], population => some (.ok population)
  | i :: is, population =>
    match population[2 * i]?, population[2 * i + 1]? with
    | some p, some q =>
      match mgkrec D eps n (draws i) p.2 q.2 with
      | none => none
      | some (.error e) => some (.error e)
      | some (.ok (a, b)) =>
        if popsize + 2 * i + 1 < population.length then
          breed D eps n popsize draws is ((population.set (popsize + 2 * i) ((a.1 : WithTop R), a.2)).set
            (popsize + 2 * i + 1) ((b.1 : WithTop R), b.2))
        else some (.error .indexError)
    | _, _ => some (.error .indexError)

/-- The value of `Xbest`: a path, or the list `[cost, path]` made at line 169. -/
inductive XBest (R : Type) where
  | path (p : List ℕ)
  | costAndPath (c : WithTop R) (p : List ℕ)

/-- genetic_tsp.py:156-173: the generations. -/
def generations (D : ℕ → ℕ → R) (eps : R) (n popsize : ℕ) (draws : ℕ → ℕ → ℕ × ℕ × ℕ) :
    List ℕ → List (Member R) → WithTop R → XBest R → Option (Except PyErr (WithTop R × XBest R))
  | [], _, best, X => some (.ok (best, X))
  | c :: cs, population, best, X =>
    match breed D eps n popsize (draws c) (List.range (popsize / 2)) population with
    | none => none
    | some (.error e) => some (.error e)
    | some (.ok population) =>
      match (pySort population leMember)[0]? with
      | none => some (.error .indexError)
      | some p0 =>
        if p0.1 < best then
          match (pySort population leMember)[1]? with
          | none => some (.error .indexError)
          | some p1 => generations D eps n popsize draws cs (pySort population leMember) p0.1 (.costAndPath p1.1 p1.2)
        else generations D eps n popsize draws cs (pySort population leMember) best X

/-- genetic_tsp.py:146-173 `solve`. -/
def solve (D : ℕ → ℕ → R) (eps : R) (n : ℕ) (shuffled : ℕ → List ℕ) (draws : ℕ → ℕ → ℕ × ℕ × ℕ) (popsize cmax : ℕ) :
    Option (Except PyErr (WithTop R × XBest R)) :=
  match select D eps n shuffled (List.range popsize) with
  | none => none
  | some (.error e) => some (.error e)
  | some (.ok population) =>
    let population := pySort (population ++ List.replicate popsize (⊤, [])) leMember
    match population[0]? with
    | none => some (.error .indexError)
    | some p0 => generations D eps n popsize draws (List.range cmax) population p0.1 (.path p0.2)

end Rosemary.GeneticTsp
