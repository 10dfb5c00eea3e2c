import Mathlib.Data.Nat.Prime.Basic
import Mathlib.Algebra.BigOperators.Group.List.Basic

/-! Specification notions shared by the number theory properties. -/

namespace Rosemary

/-- The integer represented by a list of (prime, exponent) pairs. -/
def facProd (l : List (Nat × Nat)) : Nat := (l.map (fun pe => pe.1 ^ pe.2)).prod

/-- `l` lists distinct primes with exponents. -/
structure DistinctPrimes (l : List (Nat × Nat)) : Prop where
  prime : ∀ pe ∈ l, pe.1.Prime
  nodup : (l.map Prod.fst).Nodup

/-- At most one prime factor of `n`, counted with multiplicity, is larger than `l`. -/
def OneLarge (l n : Nat) : Prop := ∀ p q : Nat, p.Prime → q.Prime → l < p → l < q → ¬ p * q ∣ n

end Rosemary

namespace Rosemary.Primality

/-- What the precomputed prime table must satisfy: it lists, in increasing order, exactly
the primes up to its last entry, which is at least 7. -/
structure IsPrimeTable (T : List Nat) : Prop where
  sorted : T.Pairwise (· < ·)
  last : ∃ l, T.getLast? = some l ∧ 7 ≤ l ∧ ∀ p, p ∈ T ↔ p.Prime ∧ p ≤ l

end Rosemary.Primality
