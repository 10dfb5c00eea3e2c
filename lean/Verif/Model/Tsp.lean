import Verif.Model.Py
import Verif.Model.Sort
import Mathlib.Algebra.Order.Monoid.WithTop
import Mathlib.Algebra.Order.Group.Defs

/-!
# Model of `combinatorics/optimization/tsp.py`

A distance matrix is a function `D` on pairs of indices below the number of points; `float('inf')`, which
`euclidean_distance_matrix` puts on the diagonal, is `⊤`.  Arithmetic on finite distances is exact, in an ordered
group `R`: for integer matrices this is what Python computes.
-/

namespace Rosemary.Tsp

variable {R : Type}

/-- tsp.py:22-26 `cost`. -/
def cost {A : Type} [Add A] (D : ℕ → ℕ → A) (path : List ℕ) (n : ℕ) : Except PyErr A :=
  match path.getLast?, path.head? with
  | some last, some first =>
    (List.range (n - 1)).foldlM (fun total i =>
      match path[i]?, path[i + 1]? with
      | some a, some b => .ok (total + D a b)
      | _, _ => .error .indexError) (D last first)
  | _, _ => .error .indexError

/-- tsp.py:43-48: the choices in `backtrack`. -/
def choices (n : ℕ) (path : List ℕ) (l : ℕ) (last : List ℕ) : List ℕ :=
  if l = 0 then [0] else if l = 1 then List.range' 1 (n - 1) else last.filter (fun e => path.getLast? ≠ some e)

section Search

variable [Add R] [LinearOrder R]

/-- tsp.py:38-41: the comparison of a full path with `best`. -/
def leaf (D : ℕ → ℕ → WithTop R) (n : ℕ) (path : List ℕ) (best : WithTop R × List ℕ) :
    Except PyErr (WithTop R × List ℕ) :=
  match cost D path n with
  | .error e => .error e
  | .ok total => if total < best.1 then .ok (total, path) else .ok best

/-- tsp.py:36-51: `backtrack` in `depth_first`.  The first argument bounds the depth of the recursion. -/
def backtrack (D : ℕ → ℕ → WithTop R) (n : ℕ) : ℕ → List ℕ → ℕ → List ℕ → WithTop R × List ℕ →
    Except PyErr (WithTop R × List ℕ)
  | 0, _, _, _, best => .ok best
  | k + 1, path, l, last, best =>
    if l = n then leaf D n path best
    else (choices n path l last).foldlM
      (fun best c => backtrack D n k (path ++ [c]) (l + 1) (choices n path l last) best) best

/-- tsp.py:29-54 `depth_first`, for `n` points. -/
def depthFirst (D : ℕ → ℕ → WithTop R) (n : ℕ) : Except PyErr (WithTop R × List ℕ) :=
  backtrack D n (n + 1) [] 0 [] (⊤, [])

end Search

section Bound

variable [AddCommGroup R] [LinearOrder R]

/-- tsp.py:71, 77-80: the minimum of the entries `f 0, …, f (d - 1)`. -/
def least (f : ℕ → WithTop R) (d : ℕ) : WithTop R := (List.range' 1 (d - 1)).foldl (fun m i => if f i < m then f i else m) (f 0)

/-- tsp.py:70-74: the loop over the rows.  The result `none` stands for a `nan`, from `inf - inf`. -/
def reduceRows (d : ℕ) : List ℕ → (ℕ → ℕ → WithTop R) → R → Option ((ℕ → ℕ → WithTop R) × R)
  | [], M, val => some (M, val)
  | i :: is, M, val =>
    match least (M i) d with
    | none => none
    | some m => reduceRows d is (fun a b => if a = i then (M a b).map (· - m) else M a b) (val + m)

/-- tsp.py:76-83: the loop over the columns. -/
def reduceCols (d : ℕ) : List ℕ → (ℕ → ℕ → WithTop R) → R → Option R
  | [], _, val => some val
  | j :: js, M, val =>
    match least (fun i => M i j) d with
    | none => none
    | some m => reduceCols d js (fun a b => if b = j then (M a b).map (· - m) else M a b) (val + m)

/-- tsp.py:66-85 `reduce_matrix`. -/
def reduceMatrix (M : ℕ → ℕ → WithTop R) (d : ℕ) : Option R :=
  match reduceRows d (List.range d) M 0 with
  | none => none
  | some (M, val) => reduceCols d (List.range d) M val

/-- tsp.py:92-114: the matrix `MM` for a path from `first` to `last` and the other vertices `other`. -/
def subMatrix (D : ℕ → ℕ → WithTop R) (first last : ℕ) (other : List ℕ) (i j : ℕ) : WithTop R :=
  if i = 0 ∧ j = 0 then ⊤
  else D (if i = 0 then last else other.getD (i - 1) 0) (if j = 0 then first else other.getD (j - 1) 0)

/-- tsp.py:87-120 `reduce_bound`; `none` stands for a `nan`. -/
def reduceBound (D : ℕ → ℕ → WithTop R) (n : ℕ) (X : List ℕ) : Option (Except PyErr (WithTop R)) :=
  if X.length = n then some (cost D X n)
  else
    match X.head?, X.getLast? with
    | some first, some last =>
      let other := (List.range n).filter (· ∉ X)
      match reduceMatrix (subMatrix D first last other) (other.length + 1) with
      | none => none
      | some val => some (.ok ((List.range' 1 (X.length - 1)).foldl
          (fun ans i => ans + D (X.getD (i - 1) 0) (X.getD i 0)) (val : WithTop R)))
    | _, _ => some (.error .indexError)

/-- tsp.py:136-140: the list of the choices with their bounds. -/
def bounds (D : ℕ → ℕ → WithTop R) (n : ℕ) (path : List ℕ) : List ℕ → Option (Except PyErr (List (WithTop R × ℕ)))
  | [] => some (.ok [])
  | x :: xs =>
    match reduceBound D n (path ++ [x]) with
    | none => none
    | some (.error e) => some (.error e)
    | some (.ok b) =>
      match bounds D n path xs with
      | none => none
      | some (.error e) => some (.error e)
      | some (.ok L) => some (.ok ((b, x) :: L))

/-- The order of pairs as Python tuples. -/
def leTuple (p q : WithTop R × ℕ) : Bool := p.1 < q.1 ∨ (p.1 = q.1 ∧ p.2 ≤ q.2)

/-- tsp.py:143-146: the loop over the sorted list; `rec` is the recursive call. -/
def branchLoop (visit : ℕ → WithTop R × List ℕ → Option (Except PyErr (WithTop R × List ℕ))) :
    List (WithTop R × ℕ) → WithTop R × List ℕ → Option (Except PyErr (WithTop R × List ℕ))
  | [], best => some (.ok best)
  | (bound, choice) :: L, best =>
    if best.1 ≤ bound then some (.ok best)
    else
      match visit choice best with
      | none => none
      | some (.error e) => some (.error e)
      | some (.ok best) => branchLoop visit L best

/-- tsp.py:122-146: `backtrack` in `branch_and_bound`. -/
def branch (D : ℕ → ℕ → WithTop R) (n : ℕ) : ℕ → List ℕ → ℕ → List ℕ → WithTop R × List ℕ →
    Option (Except PyErr (WithTop R × List ℕ))
  | 0, _, _, _, best => some (.ok best)
  | k + 1, path, l, last, best =>
    if l = n then some (leaf D n path best)
    else
      match bounds D n path (choices n path l last) with
      | none => none
      | some (.error e) => some (.error e)
      | some (.ok L) =>
        branchLoop (fun c best => branch D n k (path ++ [c]) (l + 1) (choices n path l last) best)
          (pySort L leTuple) best

/-- tsp.py:57-149 `branch_and_bound`, for `n` points. -/
def branchAndBound (D : ℕ → ℕ → WithTop R) (n : ℕ) : Option (Except PyErr (WithTop R × List ℕ)) :=
  branch D n (n + 1) [] 0 [] (⊤, [])

/-! ## Heuristics

The functions below never read the diagonal of the matrix when there are at least two points, so that distances are
elements of `R` here. -/

/-- tsp.py:173: the largest pair `(dist[v], v)`; the set `left` is a list, whose order is irrelevant. -/
def farthest (dist : ℕ → R) : List ℕ → Option ℕ
  | [] => none
  | v :: vs =>
    match farthest dist vs with
    | none => some v
    | some w => if dist v < dist w ∨ (dist v = dist w ∧ v < w) then some w else some v

/-- tsp.py:175-178: the cost of an insertion of `f` in the edge `e`. -/
def insertionCost (D : ℕ → ℕ → R) (f : ℕ) (e : ℕ × ℕ) : R :=
  let c := D e.1 f + D f e.2
  if e ≠ (0, 0) then c - D e.1 e.2 else c

/-- tsp.py:180: the least tuple `(c[u, v], (u, v))`. -/
def cheapest (c : ℕ × ℕ → R) : List (ℕ × ℕ) → Option (ℕ × ℕ)
  | [] => none
  | e :: es =>
    match cheapest c es with
    | none => some e
    | some e' =>
      if c e' < c e ∨ (c e' = c e ∧ (e'.1 < e.1 ∨ (e'.1 = e.1 ∧ e'.2 < e.2))) then some e' else some e

/-- tsp.py:172-189: the loop of `farthest_insertion`.  The set of edges is a list without repetitions.  The first argument
is the number of iterations left, the size of `left`. -/
def insertLoop (D : ℕ → ℕ → R) : ℕ → (ℕ → R) → List ℕ → List (ℕ × ℕ) → R → Except PyErr (List (ℕ × ℕ) × R)
  | 0, _, _, edges, tweight => .ok (edges, tweight)
  | k + 1, dist, left, edges, tweight =>
    match farthest dist left with
    | none => .ok (edges, tweight)
    | some f =>
      match cheapest (insertionCost D f) edges with
      | none => .error .valueError
      | some (t, h) =>
        insertLoop D k (fun x => if D f x < dist x then D f x else dist x) (left.erase f)
          (((edges.insert (t, f)).insert (f, h)).erase (t, h)) (tweight + insertionCost D f (t, h))

/-- tsp.py:152-189: `farthest_insertion(points, edges=…)`, which returns the set of edges, and the total weight. -/
def farthestEdges (D : ℕ → ℕ → R) (n : ℕ) : Except PyErr (List (ℕ × ℕ) × R) :=
  insertLoop D (n - 1) (fun v => D 0 v) (List.range' 1 (n - 1)) [(0, 0)] 0

/-- tsp.py:194: `next_node[u]` for `next_node = dict(edges)`. -/
def nextNode (edges : List (ℕ × ℕ)) (u : ℕ) : Except PyErr ℕ :=
  match edges.reverse.find? (fun e => e.1 = u) with
  | none => .error .keyError
  | some e => .ok e.2

/-- tsp.py:197-199: the loop that reads off the path, which may fail to end for other edge sets. -/
def follow (edges : List (ℕ × ℕ)) (path : List ℕ) (next : ℕ) : Option (Except PyErr (List ℕ)) :=
  if next = 0 then some (.ok path)
  else
    match nextNode edges next with
    | .error e => some (.error e)
    | .ok v => follow edges (path ++ [next]) v
partial_fixpoint

/-- tsp.py:152-201 `farthest_insertion`, without `edges`. -/
def farthestInsertion (D : ℕ → ℕ → R) (n : ℕ) : Option (Except PyErr (R × List ℕ)) :=
  match farthestEdges D n with
  | .error e => some (.error e)
  | .ok (edges, tweight) =>
    match nextNode edges 0 with
    | .error e => some (.error e)
    | .ok v =>
      match follow edges [0] v with
      | none => none
      | some (.error e) => some (.error e)
      | some (.ok path) => some (.ok (tweight, path))

/-- tsp.py:232-242: `G` in `steepest_ascent_two_opt`. -/
def gainSteep (D : ℕ → ℕ → R) (n : ℕ) (X : List ℕ) (i j : ℕ) : R :=
  let xi := X.getD i 0
  let xii := if i + 1 < n then X.getD (i + 1) 0 else X.getD 0 0
  let xj := X.getD j 0
  let xjj := if j + 1 < n then X.getD (j + 1) 0 else X.getD 0 0
  D xi xii + D xj xjj - D xii xjj - D xi xj

/-- tsp.py:284-295: the gain in `two_opt`. -/
def gainTwo (D : ℕ → ℕ → R) (n : ℕ) (X : List ℕ) (i j : ℕ) : R :=
  let xi := X.getD i 0
  let xii := X.getD ((i + 1) % n) 0
  let xj := X.getD j 0
  let xjj := X.getD ((j + 1) % n) 0
  D xi xii + D xj xjj - D xii xjj - D xi xj

/-- tsp.py:248-253, 283-300: the search for the best pair; the state is `g0` and the pair `(i0, j0)`. -/
def bestPair (gain : ℕ → ℕ → R) (n : ℕ) : R × ℕ × ℕ :=
  (List.range n).foldl (fun s i => (List.range' (i + 2) (n - (i + 2))).foldl
    (fun s j => if s.1 < gain i j then (gain i j, i, j) else s) s) (0, 0, 0)

/-- tsp.py:255-261: the path with the stretch from `i0 + 1` to `j0` reversed, in `steepest_ascent_two_opt`. -/
def moveSteep (n : ℕ) (X : List ℕ) (i j : ℕ) : List ℕ :=
  (List.range (i + 1)).map (fun a => X.getD a 0) ++ ((List.range' (i + 1) (j - i)).reverse.map (fun a => X.getD a 0)) ++
    (List.range' (j + 1) (n - (j + 1))).map (fun a => X.getD a 0)

/-- tsp.py:303: the slice assignment in `two_opt`. -/
def moveTwo (X : List ℕ) (i j : ℕ) : List ℕ :=
  X.take (i + 1) ++ ((X.take (j + 1)).drop (i + 1)).reverse ++ X.drop (j + 1)

/-- tsp.py:244-266, 280-305: the main loop of both functions; `eps` is the constant `0.0000001`. -/
def optLoop (gain : List ℕ → ℕ → ℕ → R) (move : List ℕ → ℕ → ℕ → List ℕ) (n : ℕ) (eps : R) (best : R) (X : List ℕ) :
    Option (R × List ℕ) :=
  if eps < (bestPair (gain X) n).1 then
    optLoop gain move n eps (best - (bestPair (gain X) n).1) (move X (bestPair (gain X) n).2.1 (bestPair (gain X) n).2.2)
  else some (best, X)
partial_fixpoint

/-- tsp.py:271-307 `two_opt`. -/
def twoOpt (D : ℕ → ℕ → R) (eps : R) (n : ℕ) : Option (Except PyErr (R × List ℕ)) :=
  match cost D (List.range n) n with
  | .error e => some (.error e)
  | .ok c => (optLoop (gainTwo D n) moveTwo n eps c (List.range n)).map .ok

/-- tsp.py:225-268 `steepest_ascent_two_opt`.  The call of `farthest_insertion` does not pass the distance matrix on:
`euclid` is the matrix of Euclidean distances of the points, `D` the distance matrix. -/
def steepestAscentTwoOpt (euclid D : ℕ → ℕ → R) (eps : R) (n : ℕ) : Option (Except PyErr (R × List ℕ)) :=
  match farthestInsertion euclid n with
  | none => none
  | some (.error e) => some (.error e)
  | some (.ok (c, X)) => (optLoop (gainSteep D n) (moveSteep n) n eps c X).map .ok

/-- tsp.py:203-222 `random_two_opt`: `a` and the stream `bs` are the results of `random.randint(0, num_points - 1)`. The
loop ends at the first acceptable `b`. -/
def randomTwoOpt (path : List ℕ) (a : ℕ) (bs : ℕ → ℕ) (k : ℕ) : Option (List ℕ) :=
  let n := path.length
  let b := bs k
  if a = b ∨ a + 1 = b ∨ b + 1 = a then randomTwoOpt path a bs (k + 1)
  else if (a = 0 ∧ b + 1 = n) ∨ (a + 1 = n ∧ b = 0) then randomTwoOpt path a bs (k + 1)
  else
    let lo := if b < a then b else a
    let hi := if b < a then a else b
    some (path.take lo ++ ((path.take (hi + 1)).drop lo).reverse ++ path.drop (hi + 1))
partial_fixpoint

/-- tsp.py:341-361: one iteration of the inner loop of `simulated_annealing_two_opt`.  The state is `best_value`,
`best_sol`, `sol`; `k`, `j` are the random indices and `acc` is the outcome of the test `math.log(r) < diff/temp`. -/
def annealStep (D : ℕ → ℕ → R) (n : ℕ) (s : R × List ℕ × List ℕ) (k j : ℕ) (acc : Bool) :
    Except PyErr (R × List ℕ × List ℕ) :=
  let new := s.2.2.take j ++ ((s.2.2.take (k + 1)).drop j).reverse ++ s.2.2.drop (k + 1)
  match cost D new n, cost D s.2.2 n with
  | .ok costNew, .ok costOld =>
    if costNew < costOld then
      if costNew < s.1 then .ok (costNew, new, new) else .ok (s.1, s.2.1, new)
    else if acc then .ok (s.1, s.2.1, new)
    else .ok s
  | .error e, _ => .error e
  | _, .error e => .error e

/-- tsp.py:338-363: the inner loop, over the random draws of its iterations.  The number of iterations, at most 10000, is
that of the powers of `alpha` above `0.0001/1000`.  `random.randint(2, num_vertices - 1)` raises for fewer than three
points. -/
def annealInner (D : ℕ → ℕ → R) (n : ℕ) (draws : List (ℕ × ℕ × Bool)) (s : R × List ℕ × List ℕ) :
    Except PyErr (R × List ℕ × List ℕ) :=
  draws.foldlM (fun s d => if n < 3 then .error .valueError else annealStep D n s d.1 d.2.1 d.2.2) s

/-- tsp.py:322-363: the outer loop.  `old` is `none` for `inf`, `tol` is `0.000001`, and `draws t` are the random draws of
iteration `t`. -/
def annealLoop (D : ℕ → ℕ → R) (n : ℕ) (tol : R) (draws : ℕ → List (ℕ × ℕ × Bool)) (t count : ℕ) (old : Option R)
    (best : R) (sol : List ℕ) : Option (Except PyErr (R × List ℕ)) :=
  let close := match old with
    | none => false
    | some o => decide (best - o < tol ∧ o - best < tol)
  if close = true ∧ count + 1 = 1000 then some (.ok (best, sol))
  else
    match annealInner D n (draws t) (best, sol, sol) with
    | .error e => some (.error e)
    | .ok (best', sol', _) =>
      annealLoop D n tol draws (t + 1) (if close then count + 1 else 0) (if close then old else some best) best' sol'
partial_fixpoint

/-- tsp.py:310-364 `simulated_annealing_two_opt`; `start` is the shuffled list of the vertices. -/
def annealing (D : ℕ → ℕ → R) (n : ℕ) (tol : R) (draws : ℕ → List (ℕ × ℕ × Bool)) (start : List ℕ) :
    Option (Except PyErr (R × List ℕ)) :=
  match cost D start n with
  | .error e => some (.error e)
  | .ok c => annealLoop D n tol draws 0 0 none c start

end Bound

end Rosemary.Tsp
