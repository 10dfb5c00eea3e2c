import Mathlib.Data.List.Chain
import Mathlib.Data.Set.Defs

/-!
# Hamiltonian paths
-/

namespace Rosemary.Spec

variable {V : Type}

/-- `l` is a path through all the vertices of `S`, each visited once; it has at least one vertex. -/
structure IsHamiltonianPath (S : Set V) (E : V → V → Prop) (l : List V) : Prop where
  ne_nil : l ≠ []
  nodup : l.Nodup
  verts : ∀ v, v ∈ l ↔ v ∈ S
  chain : l.IsChain E

end Rosemary.Spec
