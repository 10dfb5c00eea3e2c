import Mathlib.Probability.UniformOn
import Mathlib.Probability.ProductMeasure
import Mathlib.MeasureTheory.Constructions.BorelSpace.Real

/-!
# Specification: independent uniform random numbers

`random.randint(a, b)` returns each of the integers from `a` to `b` with the same probability, and
different calls are independent.
-/

namespace Rosemary.Spec

open MeasureTheory ProbabilityTheory

/-- The law of `random.randint(a, b)`: uniform on the integers from `a` to `b`.  (If there are none,
the call raises an exception; the law is then that of the constant `a`.) -/
noncomputable def randintLaw (a b : ℤ) : Measure ℤ :=
  if a ≤ b then uniformOn (Set.Icc a b) else Measure.dirac a

instance (a b : ℤ) : IsProbabilityMeasure (randintLaw a b) := by
  unfold randintLaw
  split
  · rename_i h
    exact isProbabilityMeasure_uniformOn (Set.finite_Icc a b) (Set.nonempty_Icc.2 h)
  · infer_instance

/-- The law of `random.random()`: the multiples of `1 / 2 ^ 53` from 0 to `1 - 1 / 2 ^ 53`, all equally likely.  Python
documents `random.uniform(a, b)` as `a + (b - a) * random()`, so this is the law of `random.uniform(0, 1)` too. -/
noncomputable def randomLaw : Measure ℝ := (randintLaw 0 (2 ^ 53 - 1)).map fun k : ℤ => (k : ℝ) / 2 ^ 53

instance : IsProbabilityMeasure randomLaw :=
  Measure.isProbabilityMeasure_map (measurable_of_countable _).aemeasurable

end Rosemary.Spec
