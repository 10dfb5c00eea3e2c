import Mathlib.Analysis.SpecialFunctions.Pow.Real

/-!
# The floating point roots of the library

The other files take the results of floating point expressions such as `int(n**(0.5))` as parameters.
Here these expressions are written out over a rounding function `rnd` of the real numbers.  Python's
floats are binary64; a float operation returns the rounded exact result.  Of `rnd` only is used that it
is faithful.  The basic operations are, in every IEEE rounding mode, and `x**y` is if the pow of the C
library has an error below one unit in the last place.  Overflow and underflow are left out (no number
between 0 and `2^-1000` and none above `2^1000` occurs).
-/

namespace Rosemary.Floats

/-- The numbers with a 53 bit significand. -/
def IsDouble (x : ℝ) : Prop := ∃ m e : ℤ, |m| ≤ 2 ^ 53 ∧ x = m * (2 : ℝ) ^ e

/-- A faithful rounding to binary64: the result is not separated from the exact value by a number with
a 53 bit significand.  Every rounding mode has this property, and so has every operation with an error
of less than one unit in the last place. -/
structure IsRounding (rnd : ℝ → ℝ) : Prop where
  lower : ∀ d x, IsDouble d → d ≤ x → d ≤ rnd x
  upper : ∀ d x, IsDouble d → x ≤ d → rnd x ≤ d

/-- `int(n**(0.5))` for an integer `n ≥ 0`: sieves.py:91, 164, 224 and sums.py:51, 63, 109, 121, 170,
181, 225 (arithmetic_functions), factorization.py:395, sieves.py:527 (primes), and the comparison with
`x**(0.5)` at prime_counting.py:206 and 309. -/
noncomputable def intSqrt (rnd : ℝ → ℝ) (n : ℕ) : ℕ := ⌊rnd (rnd n ^ (rnd 0.5))⌋₊

/-- prime_counting.py:82 `int((x + 0.5)**(0.5))`. -/
noncomputable def halfSqrt (rnd : ℝ → ℝ) (x : ℕ) : ℕ := ⌊rnd (rnd (rnd x + rnd 0.5) ^ (rnd 0.5))⌋₊

/-- prime_counting.py:83 `int((x + 0.5)**(1.0/3.0))`. -/
noncomputable def halfCbrt (rnd : ℝ → ℝ) (x : ℕ) : ℕ :=
  ⌊rnd (rnd (rnd x + rnd 0.5) ^ rnd (1.0 / 3.0))⌋₊

/-- enumeration.py:172 `int((1 + (1 + 24*m)**(0.5))/6)`. -/
noncomputable def pentagonalIndex (rnd : ℝ → ℝ) (m : ℕ) : ℕ :=
  ⌊rnd (rnd (1 + rnd (rnd (1 + 24 * m) ^ (rnd 0.5))) / 6)⌋₊

/-- pell.py:253 and 256 `int((K / 2.0)**(0.5))`, for `K ≥ 0`. -/
noncomputable def pellBound (rnd : ℝ → ℝ) (K : ℤ) : ℤ := ⌊rnd (rnd (rnd K / 2.0) ^ (rnd 0.5))⌋

/-- prime_counting.py:303 `int(x**(2.0/3.0))`. -/
noncomputable def lmoRoot (rnd : ℝ → ℝ) (x : ℕ) : ℕ := ⌊rnd (rnd x ^ rnd (2.0 / 3.0))⌋₊

/-- prime_counting.py:306 `x**(0.33333333333333)`; only comparisons of integers with it are made. -/
noncomputable def lmoT (rnd : ℝ → ℝ) (x : ℕ) : ℕ := ⌊rnd (rnd x ^ rnd 0.33333333333333)⌋₊

end Rosemary.Floats
