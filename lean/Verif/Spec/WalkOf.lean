import Mathlib.Algebra.Order.Monoid.WithTop
import Mathlib.Algebra.Order.Monoid.Defs

/-!
# Weighted walks

`A u v` is the weight of the edge from `u` to `v`, if there is one.
-/

namespace Rosemary.Spec

variable {V W : Type} [Add W] [Zero W]

/-- The list of vertices `p` is a walk from `s` to `v` of total weight `c`. -/
inductive WalkOf (A : V → V → Option W) (s : V) : List V → V → W → Prop
  | start : WalkOf A s [s] s 0
  | step {p : List V} {v w : V} {c x : W} : WalkOf A s p v c → A v w = some x → WalkOf A s (p ++ [w]) w (c + x)

/-- The least weight of a walk from `s` to `v` is `c`. -/
def IsShortest [LE W] (A : V → V → Option W) (s v : V) (c : W) : Prop :=
  (∃ p, WalkOf A s p v c) ∧ ∀ p c', WalkOf A s p v c' → c ≤ c'

/-- The distance from `s` to `v`, infinite if there is no walk. -/
def IsDistance [LE W] (A : V → V → Option W) (s v : V) (d : WithTop W) : Prop :=
  (∀ c : W, d = c → IsShortest A s v c) ∧ (d = ⊤ → ∀ p c, ¬ WalkOf A s p v c)

/-- Following the links `P` back from `v` leads to `s`, along the list `p` of vertices. -/
inductive LinkPath (P : V → Option (Option V)) (s : V) : List V → V → Prop
  | root : P s = some none → LinkPath P s [s] s
  | step {p : List V} {u v : V} : LinkPath P s p u → P v = some (some u) → LinkPath P s (p ++ [v]) v

end Rosemary.Spec
