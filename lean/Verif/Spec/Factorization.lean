import Mathlib.Data.Nat.Prime.Basic
import Mathlib.Algebra.BigOperators.Group.List.Basic
import Mathlib.Data.Int.Basic

/-! Specification notions for factorizations. -/

namespace Rosemary

/-- `l` is the signed prime factorization of `n`: strictly increasing keys, positive exponents,
an entry `(-1, 1)` exactly when `n < 0`, all other keys prime, and the right product. -/
structure IsSignedFactorization (l : List (Int × Nat)) (n : Int) : Prop where
  increasing : (l.map Prod.fst).Pairwise (· < ·)
  pos : ∀ pe ∈ l, 1 ≤ pe.2
  sign : ((-1, 1) : Int × Nat) ∈ l ↔ n < 0
  prime : ∀ pe ∈ l, pe = (-1, 1) ∨ ∃ p : Nat, p.Prime ∧ pe.1 = p
  prod : (l.map (fun pe => pe.1 ^ pe.2)).prod = n

end Rosemary
