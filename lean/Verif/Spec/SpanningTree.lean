import Mathlib.Logic.Relation
import Mathlib.Data.Finset.Card
import Mathlib.Algebra.BigOperators.Group.Finset.Basic
import Mathlib.Algebra.Order.BigOperators.Group.Finset
import Mathlib.Algebra.Order.Monoid.Defs

/-!
# Minimum spanning trees

The edges of an undirected graph are pairs `(u, v)` with `u < v`; the weight function is partial.
-/

namespace Rosemary.Spec

open BigOperators

variable {V W : Type}

/-- `a` and `b` are joined by edges of `T`. -/
def Joined (T : Finset (V × V)) (a b : V) : Prop := Relation.EqvGen (fun x y => (x, y) ∈ T) a b

/-- `T` is a spanning tree of the vertices `C`: edges between vertices of `C` that join any two of them, one fewer than
there are vertices. -/
structure SpanningTree [LT V] (A : V → V → Option W) (C : Finset V) (T : Finset (V × V)) : Prop where
  edge : ∀ u v, (u, v) ∈ T → u < v ∧ u ∈ C ∧ v ∈ C ∧ ∃ w, A u v = some w
  joined : ∀ u ∈ C, ∀ v ∈ C, Joined T u v
  card : T.card + 1 = C.card

/-- The sum of the weights of the edges. -/
def totalWeight [AddCommMonoid W] (A : V → V → Option W) (T : Finset (V × V)) : W := ∑ e ∈ T, (A e.1 e.2).getD 0

/-- A spanning tree of least weight. -/
structure MinSpanningTree [LT V] [AddCommMonoid W] [LE W] (A : V → V → Option W) (C : Finset V) (T : Finset (V × V)) : Prop where
  tree : SpanningTree A C T
  min : ∀ T', SpanningTree A C T' → totalWeight A T ≤ totalWeight A T'

end Rosemary.Spec
