import Verif.Model.Graph

/-!
# Model of `graphs/algorithms/coloring.py`: `dsatur`, `greedy_sequential`, `branch_and_bound`

A color map is a dictionary in insertion order.  `korman` and `exact_coloring` are in `Model/Korman.lean`, `maxis` is in
`Model/Maxis.lean`.
-/

namespace Rosemary.Coloring

open Rosemary.Graph

variable {V W : Type}

/-- The second component of the results: color classes or a color map. -/
inductive Result (V : Type)
  | classes (l : List (List V))
  | colorMap (m : Dict V ℕ)

section Basic

variable [DecidableEq V]

/-- coloring.py:171-174, 68-72, 392: the colors of the colored vertices of a list. -/
def colorsOf (cm : Dict V ℕ) : List V → Finset ℕ
  | [] => ∅
  | v :: vs =>
    match Dict.get? cm v with
    | some c => insert c (colorsOf cm vs)
    | none => colorsOf cm vs

/-- coloring.py:73-74, 426-427: the number of uncolored vertices of a list. -/
def uncoloredIn (cm : Dict V ℕ) : List V → ℕ
  | [] => 0
  | v :: vs =>
    match Dict.get? cm v with
    | some _ => uncoloredIn cm vs
    | none => uncoloredIn cm vs + 1

/-- coloring.py:84-89, 176-181: give `u` the first color of `range(num_colors + 1)` that is not in `used`. -/
def paint (cm : Dict V ℕ) (numColors : ℕ) (u : V) (used : Finset ℕ) : Dict V ℕ × ℕ :=
  match (List.range (numColors + 1)).find? (fun c => c ∉ used) with
  | none => (cm, numColors)
  | some c => (Dict.set cm u c, if c = numColors then numColors + 1 else numColors)

/-- coloring.py:95-96, 185-186: `color_classes[color].append(u)` for all items of the color map. -/
def fillClasses : List (V × ℕ) → List (List V) → Except PyErr (List (List V))
  | [], cl => .ok cl
  | (u, c) :: m, cl =>
    match cl[c]? with
    | none => .error .indexError
    | some l => fillClasses m (cl.set c (l ++ [u]))

/-- coloring.py:94-96, 184-186. -/
def classesOf (numColors : ℕ) (cm : Dict V ℕ) : Except PyErr (List (List V)) :=
  fillClasses cm (List.replicate numColors [])

/-! ## `greedy_sequential` -/

/-- coloring.py:169-181: the loop over the vertices after the first. -/
def greedyLoop (g : Graph V W) : List V → Dict V ℕ → ℕ → Except PyErr (Dict V ℕ × ℕ)
  | [], cm, numColors => .ok (cm, numColors)
  | v :: vs, cm, numColors =>
    match Dict.get? g v with
    | none => .error .keyError
    | some N =>
      let r := paint cm numColors v (colorsOf cm (Dict.keys N))
      greedyLoop g vs r.1 r.2

/-- coloring.py:164-181. -/
def greedyMap (g : Graph V W) : List V → Except PyErr (Dict V ℕ × ℕ)
  | [] => .error .indexError
  | v :: vs => greedyLoop g vs [(v, 0)] 1

/-- coloring.py:101-199 with `passes=1` and a list of vertices. -/
def greedyOnce (g : Graph V W) (vertices : List V) (classes : Bool) : Except PyErr (ℕ × Result V) :=
  match greedyMap g vertices with
  | .error e => .error e
  | .ok (cm, numColors) =>
    if classes then
      match classesOf numColors cm with
      | .error e => .error e
      | .ok cl => .ok (numColors, .classes cl)
    else .ok (numColors, .colorMap cm)

/-- coloring.py:101-199 `greedy_sequential`. -/
def greedySequential (g : Graph V W) (vertices : Option (List V)) (passes : ℤ) (classes : Bool) :
    Except PyErr (ℕ × Result V) :=
  match greedyMap g (match vertices with | none => (degreeOrder g).reverse | some l => l) with
  | .error e => .error e
  | .ok (cm, numColors) =>
    if classes ∨ 1 < passes then
      match classesOf numColors cm with
      | .error e => .error e
      | .ok cl =>
        if classes ∧ passes = 1 then .ok (numColors, .classes cl)
        else if 1 < passes then greedyOnce g cl.reverse.flatten classes
        else .ok (numColors, .colorMap cm)
    else .ok (numColors, .colorMap cm)

end Basic

variable [LinearOrder V]

/-! ## `dsatur` -/

/-- coloring.py:65-76, 418-429: the triples (number of different colors of the neighbors, number of uncolored
neighbors, vertex) of a list of vertices. -/
def triples (g : Graph V W) (cm : Dict V ℕ) : List V → Except PyErr (List (ℕ × ℕ × V))
  | [] => .ok []
  | u :: us =>
    match Dict.get? g u with
    | none => .error .keyError
    | some N =>
      match triples g cm us with
      | .error e => .error e
      | .ok l => .ok (((colorsOf cm (Dict.keys N)).card, uncoloredIn cm (Dict.keys N), u) :: l)

/-- The comparison of triples. -/
def tripleLt (a b : ℕ × ℕ × V) : Prop := a.1 < b.1 ∨ a.1 = b.1 ∧ (a.2.1 < b.2.1 ∨ a.2.1 = b.2.1 ∧ a.2.2 < b.2.2)

instance (a b : ℕ × ℕ × V) : Decidable (tripleLt a b) := by unfold tripleLt; infer_instance

/-- `max` of a list of triples. -/
def maxTriple : List (ℕ × ℕ × V) → Except PyErr (ℕ × ℕ × V)
  | [] => .error .valueError
  | a :: l => .ok (l.foldl (fun m b => if tripleLt m b then b else m) a)

/-- coloring.py:61-89: `k` is the number of uncolored vertices. -/
def dsaturLoop (ord : Finset V → List V) (g : Graph V W) : ℕ → Finset V → Dict V ℕ → ℕ → Except PyErr (Dict V ℕ × ℕ)
  | 0, _, cm, numColors => .ok (cm, numColors)
  | k + 1, uncolored, cm, numColors =>
    match triples g cm (ord uncolored) with
    | .error e => .error e
    | .ok l =>
      match maxTriple l with
      | .error e => .error e
      | .ok (_, _, u) =>
        match Dict.get? g u with
        | none => .error .keyError
        | some N =>
          let r := paint cm numColors u (colorsOf cm (Dict.keys N))
          dsaturLoop ord g k (uncolored.erase u) r.1 r.2

/-- coloring.py:10-98 `dsatur`. -/
def dsatur (ord : Finset V → List V) (g : Graph V W) (classes : Bool) : Except PyErr (ℕ × Result V) :=
  match maximumDegreeVertex ord g with
  | .error e => .error e
  | .ok u =>
    let uncolored := (vertexSet g).erase u
    match dsaturLoop ord g uncolored.card uncolored [(u, 0)] 1 with
    | .error e => .error e
    | .ok (cm, numColors) =>
      if classes then
        match classesOf numColors cm with
        | .error e => .error e
        | .ok cl => .ok (numColors, .classes cl)
      else .ok (numColors, .colorMap cm)

/-! ## `branch_and_bound` -/

/-- coloring.py:391-413: the last uncolored vertex `u`; the result is the return value and the list `best`. -/
def bbLast (cm : Dict V ℕ) (used : Finset ℕ) (u : V) (bestNumber numColors : ℕ) (best : ℕ × Dict V ℕ) :
    ℕ × ℕ × Dict V ℕ :=
  match (List.range' 1 numColors).find? (fun j => j ∉ used) with
  | some j => (numColors, if numColors < best.1 then (numColors, Dict.set cm u j) else best)
  | none =>
    if numColors + 1 < bestNumber then
      (numColors + 1, if numColors + 1 < best.1 then (numColors + 1, Dict.set cm u (numColors + 1)) else best)
    else (bestNumber, best)

/-- coloring.py:438-444: the loop over the old colors; `call` is the recursive call. -/
def bbTry (call : Dict V ℕ → ℕ → ℕ × Dict V ℕ → Except PyErr (ℕ × ℕ × Dict V ℕ)) (cm : Dict V ℕ) (u : V)
    (used : Finset ℕ) : List ℕ → ℕ → ℕ × Dict V ℕ → Except PyErr (ℕ × ℕ × Dict V ℕ)
  | [], bestNumber, best => .ok (bestNumber, best)
  | j :: js, bestNumber, best =>
    if j ∈ used then bbTry call cm u used js bestNumber best
    else
      match call (Dict.set cm u j) bestNumber best with
      | .error e => .error e
      | .ok (bestNumber, best) => bbTry call cm u used js bestNumber best

/-- coloring.py:389-453 `color`.  The first argument bounds the depth of the recursion; the color map and the set of
uncolored vertices, which the code changes and restores, are arguments. -/
def bbColor (ord : Finset V → List V) (g : Graph V W) :
    ℕ → Finset V → ℕ → Dict V ℕ → ℕ → ℕ × Dict V ℕ → Except PyErr (ℕ × ℕ × Dict V ℕ)
  | 0, _, _, _, _, _ => .error .runtimeError
  | fuel + 1, uncolored, numColors, cm, bestNumber, best =>
    if uncolored.card = 1 then
      match ord uncolored with
      | [] => .error .indexError
      | u :: _ =>
        match neighbors g u with
        | .error e => .error e
        | .ok N => .ok (bbLast cm (colorsOf cm (ord N)) u bestNumber numColors best)
    else
      match triples g cm (ord uncolored) with
      | .error e => .error e
      | .ok l =>
        match maxTriple l with
        | .error e => .error e
        | .ok (_, _, u) =>
          match neighbors g u with
          | .error e => .error e
          | .ok N =>
            let used := colorsOf cm (ord N)
            if (used.card : ℤ) = bestNumber - 1 then .ok (bestNumber, best)
            else
              match bbTry (bbColor ord g fuel (uncolored.erase u) numColors) cm u used (List.range' 1 numColors)
                  bestNumber best with
              | .error e => .error e
              | .ok (bestNumber, best) =>
                if (numColors : ℤ) < bestNumber - 1 then
                  bbColor ord g fuel (uncolored.erase u) (numColors + 1) (Dict.set cm u (numColors + 1)) bestNumber best
                else .ok (bestNumber, best)

/-- coloring.py:344-483 `branch_and_bound`.  The initial `best[1]`, an empty list, is the empty map. -/
def branchAndBound (ord : Finset V → List V) (g : Graph V W) (classes : Bool) : Except PyErr (ℕ × Result V) :=
  let n := (vertices g).length
  match bbColor ord g (n + 1) (vertices g).toFinset 0 [] n (n, []) with
  | .error e => .error e
  | .ok (_, numColors, cm) =>
    if classes then
      match fillClasses (cm.map (fun e => (e.1, e.2 - 1))) (List.replicate numColors []) with
      | .error e => .error e
      | .ok cl => .ok (numColors, .classes cl)
    else .ok (numColors, .colorMap cm)

end Rosemary.Coloring
