import Mathlib.Data.Set.Card
import Mathlib.Data.List.Nodup

/-!
# Vertex colorings
-/

namespace Rosemary.Spec

variable {V : Type}

/-- `m` lists every vertex of `S` once, with one of the colors `lo, ..., lo + k - 1`; all of them are used, and adjacent
vertices have different colors. -/
structure IsColoring (S : Set V) (E : V → V → Prop) (lo k : ℕ) (m : List (V × ℕ)) : Prop where
  nodup : (m.map Prod.fst).Nodup
  verts : ∀ v, v ∈ m.map Prod.fst ↔ v ∈ S
  range : ∀ v c, (v, c) ∈ m → lo ≤ c ∧ c < lo + k
  all : ∀ c, lo ≤ c → c < lo + k → ∃ v, (v, c) ∈ m
  proper : ∀ u c v d, (u, c) ∈ m → (v, d) ∈ m → E u v → u ≠ v → c ≠ d

/-- `cl` is a partition of `S` into `k` nonempty classes without edges between different vertices. -/
structure IsPartition (S : Set V) (E : V → V → Prop) (k : ℕ) (cl : List (List V)) : Prop where
  length : cl.length = k
  nodup : cl.flatten.Nodup
  verts : ∀ v, v ∈ cl.flatten ↔ v ∈ S
  nonempty : ∀ l ∈ cl, l ≠ []
  independent : ∀ l ∈ cl, ∀ u ∈ l, ∀ v ∈ l, E u v → u = v

/-- First fit: the color `c` of `v` is the least that no neighbor in `pre` has. -/
def FirstFit (E : V → V → Prop) (pre : List (V × ℕ)) (v : V) (c : ℕ) : Prop :=
  (∀ u, E v u → (u, c) ∉ pre) ∧ ∀ d < c, ∃ u, E v u ∧ (u, d) ∈ pre

/-- The number of different colors of the neighbors of `v` in `pre`. -/
noncomputable def saturation (E : V → V → Prop) (pre : List (V × ℕ)) (v : V) : ℕ := {d | ∃ u, E v u ∧ (u, d) ∈ pre}.ncard

/-- The number of neighbors of `v` outside `pre`. -/
noncomputable def outside (E : V → V → Prop) (pre : List (V × ℕ)) (v : V) : ℕ :=
  {u | E v u ∧ u ∉ pre.map Prod.fst}.ncard

end Rosemary.Spec
