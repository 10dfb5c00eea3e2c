import Verif.Model.Cliques

/-!
# Work of `tomita` in `graphs/algorithms/cliques.py`

The loop of `Verif.Model.Cliques` again, with three counts: the passes of the loop `while stack`, the elements handled by
the set operations, and the elements copied by `used + [q]`.
-/

namespace Rosemary.CliqueCosts

open Rosemary.Graph Rosemary.Cliques

variable {V W : Type} [DecidableEq V]

/-- The counts: `passes`, `sets` and `copies`. -/
structure Cost where
  passes : ℕ
  sets : ℕ
  copies : ℕ
  deriving DecidableEq, Repr

/-- The work of one pass before another. -/
def Cost.plus (a b : Cost) : Cost := ⟨a.passes + b.passes, a.sets + b.sets, a.copies + b.copies⟩

/-- The elements handled by the set operations of a pass: in cliques.py:184-185 for every vertex of `subgraph` an
intersection with `candidates`, in line 191 the difference, in line 193 for every `q` two intersections with sets not
larger than `subgraph` and `candidates`, and the vertices `v` and `q` themselves. -/
def passSets (subgraph candidates : Finset V) (branches : ℕ) : ℕ :=
  1 + subgraph.card * (1 + candidates.card) + candidates.card + branches * (2 + subgraph.card + candidates.card)

/-- cliques.py:177-194: the loop over the stack, with the costs. -/
def tomitaLoopC (ord : Finset V → List V) (g : Graph V W) (stack : List (Finset V × Finset V × List V)) :
    Option (List (List V) × Cost) :=
  match stack with
  | [] => some ([], ⟨0, 0, 0⟩)
  | (subgraph, candidates, used) :: stack =>
    match ord subgraph with
    | [] => do
      let r ← tomitaLoopC ord g stack
      return (used :: r.1, Cost.plus ⟨1, 1, 0⟩ r.2)
    | v :: vs => do
      let u := pivotLoop g candidates vs v (nb g v ∩ candidates).card
      let qs := ord (candidates \ nb g u)
      let r ← tomitaLoopC ord g ((children g subgraph used candidates qs).reverse ++ stack)
      return (r.1, Cost.plus ⟨1, passSets subgraph candidates qs.length, qs.length * (used.length + 1)⟩ r.2)
partial_fixpoint

/-- cliques.py:138-194 `tomita`, with the costs. -/
def tomitaC (ord : Finset V → List V) (g : Graph V W) : Option (List (List V) × Cost) :=
  tomitaLoopC ord g [(vertexSet g, vertexSet g, [])]

end Rosemary.CliqueCosts
