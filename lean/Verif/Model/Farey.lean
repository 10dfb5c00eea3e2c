import Verif.Model.ContinuedFractions

/-!
# Model of `farey` in `diophantine_equations/pell.py`

The line `print (a, b)` (pell.py:318) is not modelled.
-/

namespace Rosemary.Farey

/-- pell.py:315-328: the loop with the variables `n1, d1, n2, d2`; `none` if it runs forever. -/
def walk (D N n1 d1 n2 d2 : ℤ) : Option (ℤ × ℤ) :=
  let a := n1 + n2
  let b := d1 + d2
  let t := a * a - D * b * b
  if N = t then some (a, b)
  else if t > 0 then walk D N n1 d1 a b
  else walk D N a b n2 d2
partial_fixpoint

/-- pell.py:311-328 `farey`. -/
def farey (D N : ℤ) : Option (ℤ × ℤ) := walk D N 0 1 1 0

end Rosemary.Farey
