import Verif.Model.Korman
import Verif.Model.IndependentSets

/-!
# Model of `maxis` in `graphs/algorithms/coloring.py`

`verbose` only prints and is left out.
-/

namespace Rosemary.Coloring

open Rosemary.Graph

variable {V W : Type} [LinearOrder V]

namespace Maxis

/-- coloring.py:296-309: the independent set of one round.  The choices of `greedy` are those of `pick`. -/
def extract (ord : Finset V → List V) (pick : List V → List V → V) (misLimit : ℤ) (useGreedy : Bool) (g : Graph V W)
    (n : ℤ) : Except PyErr (ℕ × List V) :=
  if misLimit < n then
    if useGreedy then IndependentSets.greedy ord pick g
    else IndependentSets.culberson ord g
  else IndependentSets.branchAndBound g

/-- coloring.py:295-316: the loop; `pick i` are the random choices of the round after `i` classes are found. -/
def loop (ord : Finset V → List V) (pick : ℕ → List V → List V → V) (colorLimit misLimit : ℤ) (useGreedy : Bool)
    (g : Graph V W) (n : ℤ) (cl : List (List V)) : Option (Except PyErr (Graph V W × ℤ × List (List V))) :=
  if colorLimit < n then
    match extract ord (pick cl.length) misLimit useGreedy g n with
    | .error e => some (.error e)
    | .ok (size, s) => loop ord pick colorLimit misLimit useGreedy (deleteVertices g s) (n - size) (cl ++ [s])
  else some (.ok (g, n, cl))
partial_fixpoint

/-- coloring.py:332-335: the color of every vertex, from the classes starting with number `i`. -/
def colorMap : List (List V) → ℕ → Dict V ℕ → Dict V ℕ
  | [], _, m => m
  | c :: cs, i, m => colorMap cs (i + 1) (c.foldl (fun m u => Dict.set m u i) m)

/-- coloring.py:329-336: the result. -/
def result (classes : Bool) (k : ℕ) (cl : List (List V)) : ℕ × Result V :=
  if classes then (k, .classes cl) else (k, .colorMap (colorMap cl 0 []))

end Maxis

open Maxis in
/-- coloring.py:202-336 `maxis`.  `none` means that a loop does not end. -/
def maxis (ord : Finset V → List V) (pick : ℕ → List V → List V → V) (g : Graph V W) (classes : Bool)
    (colorLimit misLimit : ℤ) (useGreedy : Bool) : Option (Except PyErr (ℕ × Result V)) :=
  match loop ord pick colorLimit misLimit useGreedy g (vertexSet g).card [] with
  | none => none
  | some (.error e) => some (.error e)
  | some (.ok (h, n, cl)) =>
    if n ≠ 0 then
      match exactColoring ord h true with
      | none => none
      | some (.error e) => some (.error e)
      | some (.ok (_, .colorMap _)) => some (.error .typeError)
      | some (.ok (num, .classes colors)) => some (.ok (result classes (cl.length + num) (cl ++ colors)))
    else some (.ok (result classes cl.length cl))

end Rosemary.Coloring
