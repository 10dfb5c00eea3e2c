import Mathlib.Algebra.Order.Floor.Ring
import Mathlib.Data.Real.Archimedean

/-!
# Continued fractions

The complete quotients of a real number `x` are `x` and, after each `t`, the inverse of the fractional part of `t`; the
partial quotients are their integer parts.
-/

namespace Rosemary.Spec

/-- The complete quotient number `n` of `x`. -/
noncomputable def completeQuotient (x : ℝ) : ℕ → ℝ
  | 0 => x
  | n + 1 => (Int.fract (completeQuotient x n))⁻¹

/-- The partial quotient number `n` of the continued fraction of `x`. -/
noncomputable def cfQuotient (x : ℝ) (n : ℕ) : ℤ := ⌊completeQuotient x n⌋

end Rosemary.Spec
