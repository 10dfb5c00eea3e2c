import Mathlib.Data.Nat.Factorization.Basic
import Mathlib.Data.Nat.Prime.Defs

/-!
# Specification of the lists of primes
-/

namespace Rosemary.Spec

/-- The primes up to `n`, in increasing order. -/
def primesUpTo (n : Nat) : List Nat := (List.range (n + 1)).filter (fun p => decide p.Prime)

/-- The factorization of `m` as the increasing list of `(p, e)`, `p` prime, `p ^ e` exactly dividing
`m`. -/
def primePowers (m : Nat) : List (Nat × Nat) :=
  ((primesUpTo m).filter (fun p => p ∣ m)).map (fun p => (p, m.factorization p))

end Rosemary.Spec
