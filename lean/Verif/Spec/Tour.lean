import Mathlib.Algebra.BigOperators.Group.List.Basic
import Mathlib.Data.List.Rotate

/-!
# Round trips

A tour of `n` cities lists each of `0, …, n - 1` once; its length is the sum of the distances from each city to the next,
the last being followed by the first.
-/

namespace Rosemary.Spec

/-- `l` lists the cities `0, …, n - 1`, each once. -/
def IsTour (n : ℕ) (l : List ℕ) : Prop := l.Nodup ∧ ∀ i, i ∈ l ↔ i < n

/-- The length of the round trip `l`. -/
def tourLength {A : Type} [AddMonoid A] (D : ℕ → ℕ → A) (l : List ℕ) : A := (l.zipWith D (l.rotate 1)).sum

end Rosemary.Spec
