import Verif.Model.Core

/-!
# The work done by the Euclidean algorithms

The loops of `gcd` and `ext_gcd` (`number_theory/core.py`) once more, now recording what every round computes.  A
division of `x` by `y` with quotient `q` is charged `size q * size y` bit operations and a product `q * u` is charged
`size q * size u`, as for the classical algorithms on binary digits (Python's integers are divided and multiplied that
way, in base `2^30`).
-/

namespace Rosemary.Core

/-- core.py:36-38 with the pairs `(x, y)` for which the body of the loop is run. -/
def gcdLoopRounds (x y : Nat) : Nat × List (Nat × Nat) :=
  if h : y = 0 then (x, [])
  else
    let r := gcdLoopRounds y (x % y)
    (r.1, (x, y) :: r.2)
termination_by y
decreasing_by exact Nat.mod_lt _ (Nat.pos_of_ne_zero h)

/-- core.py:31-38 `gcd` with its rounds. -/
def gcdRounds (x y : Int) : Int × List (Nat × Nat) :=
  let x := x.natAbs
  let y := y.natAbs
  let r := if x < y then gcdLoopRounds y x else gcdLoopRounds x y
  (r.1, r.2)

/-- The bit operations of the divisions `x % y`. -/
def divisionCost (l : List (Nat × Nat)) : Nat := (l.map fun p => (p.1 / p.2).size * p.2.size).sum

/-- What a round of `ext_gcd` works on: `q`, `d`, `u`, `v`, `w`. -/
structure ExtRound where
  q : Nat
  d : Nat
  u : Int
  v : Int
  w : Nat
  deriving DecidableEq

/-- core.py:114-116 with the numbers of every round. -/
def extGcdLoopRounds (a b : Int) (d : Nat) (u v : Int) (w : Nat) : (Int × Int × Nat) × List ExtRound :=
  if h : w = 0 then ((a, b, d), [])
  else
    let q : Nat := d / w
    let r := extGcdLoopRounds u v w (a - q * u) (b - q * v) (d - q * w)
    (r.1, ⟨q, d, u, v, w⟩ :: r.2)
termination_by w
decreasing_by
  have hw : 0 < w := Nat.pos_of_ne_zero h
  have := Nat.div_add_mod d w
  have h2 := Nat.mod_lt d hw
  have h3 : d - d / w * w = d % w := by
    have : d / w * w = w * (d / w) := Nat.mul_comm _ _
    omega
  omega

/-- core.py:102-122 `ext_gcd` with its rounds. -/
def extGcdRounds (x0 y0 : Int) : (Int × Int × Int) × List ExtRound :=
  let switch : Bool := decide (x0 < y0)
  let x := if switch then y0 else x0
  let y := if switch then x0 else y0
  let signX := pySign x
  let signY := pySign y
  let r := extGcdLoopRounds 1 0 x.natAbs 0 1 y.natAbs
  let a := r.1.1
  let b := r.1.2.1
  let d := r.1.2.2
  if switch then ((signY * b, signX * a, d), r.2)
  else ((signX * a, signY * b, d), r.2)

/-- The bit operations of `d//w`, `q*u`, `q*v` and `q*w`. -/
def extGcdCost (l : List ExtRound) : Nat :=
  (l.map fun r => r.q.size * r.w.size + r.q.size * r.u.natAbs.size + r.q.size * r.v.natAbs.size +
    r.q.size * r.w.size).sum

end Rosemary.Core
