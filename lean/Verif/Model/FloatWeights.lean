import Verif.Lemmas.Floats

/-!
# Weights that are floating point numbers

The sum of two floats is the rounded exact sum (binary64, as for every IEEE addition).  The exponents are unbounded:
sums that overflow to `inf` are left out; sums cannot underflow, because the sum of two multiples of the least positive
float is one.  The integer 0 with which the functions of `paths.py` begin is the float 0, and `-0.0 == 0`.
-/

namespace Rosemary.Floats

/-- A rounding of the real numbers to the numbers with a 53 bit significand: monotone, and exact where it can be. -/
structure Mode where
  rnd : ℝ → ℝ
  mono : Monotone rnd
  exact : ∀ x, IsDouble x → rnd x = x
  double : ∀ x, IsDouble (rnd x)

/-- The floats; the rounding mode is a part of the type, for the sake of the addition. -/
def Double (_ : Mode) : Type := {x : ℝ // IsDouble x}

namespace Double

variable {M : Mode}

/-- The real number that a float stands for. -/
def val (x : Double M) : ℝ := x.1

noncomputable instance : LinearOrder (Double M) := inferInstanceAs (LinearOrder {x : ℝ // IsDouble x})

instance : Zero (Double M) := ⟨⟨0, 0, 0, by norm_num, by simp⟩⟩

/-- `a + b` for floats. -/
noncomputable instance : Add (Double M) := ⟨fun a b => ⟨M.rnd (a.1 + b.1), M.double _⟩⟩

end Double

/-- Rounding of a real number to one of the two integers next to it, to the nearer one, and halfway between them to
the even one. -/
noncomputable def roundEven (y : ℝ) : ℤ :=
  if y < ⌊y⌋ + 1 / 2 then ⌊y⌋ else if ⌊y⌋ + 1 / 2 < y then ⌊y⌋ + 1 else if Even ⌊y⌋ then ⌊y⌋ else ⌊y⌋ + 1

/-- Rounding to 53 significant bits by a rounding `r` to integers: the mantissa `x * 2^(52-e)`, where
`2^e ≤ |x| < 2^(e+1)`, is rounded. -/
noncomputable def roundMantissa (r : ℝ → ℤ) (x : ℝ) : ℝ :=
  if x = 0 then 0 else r (x * 2 ^ (52 - Int.log 2 |x|)) * 2 ^ (Int.log 2 |x| - 52)

end Rosemary.Floats
