import Mathlib.Data.Finset.Basic
import Mathlib.Data.Finset.Card

/-!
# Cliques and independent sets
-/

namespace Rosemary.Spec

variable {V : Type}

/-- Any two different members of `C` are adjacent vertices. -/
def IsClique (S : Set V) (E : V → V → Prop) (C : Finset V) : Prop :=
  (∀ v ∈ C, v ∈ S) ∧ ∀ u ∈ C, ∀ v ∈ C, u ≠ v → E u v

/-- A clique that is not contained in a larger one. -/
def IsMaximalClique (S : Set V) (E : V → V → Prop) (C : Finset V) : Prop :=
  IsClique S E C ∧ ∀ D, IsClique S E D → C ⊆ D → D = C

/-- A clique of the largest possible size. -/
def IsMaximumClique (S : Set V) (E : V → V → Prop) (C : Finset V) : Prop :=
  IsClique S E C ∧ ∀ D, IsClique S E D → D.card ≤ C.card

/-- No two different members of `C` are adjacent. -/
def IsIndependent (S : Set V) (E : V → V → Prop) (C : Finset V) : Prop :=
  (∀ v ∈ C, v ∈ S) ∧ ∀ u ∈ C, ∀ v ∈ C, u ≠ v → ¬ E u v

/-- An independent set that is not contained in a larger one. -/
def IsMaximalIndependent (S : Set V) (E : V → V → Prop) (C : Finset V) : Prop :=
  IsIndependent S E C ∧ ∀ D, IsIndependent S E D → C ⊆ D → D = C

/-- An independent set of the largest possible size. -/
def IsMaximumIndependent (S : Set V) (E : V → V → Prop) (C : Finset V) : Prop :=
  IsIndependent S E C ∧ ∀ D, IsIndependent S E D → D.card ≤ C.card

end Rosemary.Spec
