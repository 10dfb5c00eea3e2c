import Verif.Model.Knapsack

/-!
# knapsack.py: the floating point operations of branch and bound
-/

namespace Rosemary.Knapsack

/-- The floating point operations of knapsack.py:96, 110-112 and 126, every one of them rounded by `rnd`:
`float(v)/float(w)`, `value + u*(target - weight)` and `value + optimistic_bound(...)`, where Python first converts
the integer operands to floats.  Overflow and the special values are not modelled. -/
def FloatOps.rounded (rnd : ℚ → ℚ) : FloatOps where
  div a b := rnd (rnd a / rnd b)
  bound value u t := rnd (rnd value + rnd (u * rnd t))
  add value b := rnd (rnd value + b)

end Rosemary.Knapsack
