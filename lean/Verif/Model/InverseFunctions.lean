import Verif.Model.Factorization
import Verif.Model.Primality
import Verif.Model.Dict

/-!
# Model of `arithmetic_functions/inverse_functions.py`

`euler_phi_inverse` and `inverse_phi`. The parameter `fac` is the value of `factor(n)` (or the
factorization that was passed instead of `n`) without the sign entry.
-/

namespace Rosemary.InverseFunctions

open Rosemary.Factorization Rosemary.Primality

/-- inverse_functions.py:65-69 and 104: the `d + 1` that are prime, for `d` in a list. -/
def primeSuccs (T : List Nat) : List Nat → Except PyErr (List Nat)
  | [] => .ok []
  | d :: ds =>
    match isPrime T ((d + 1 : Nat) : Int) with
    | .error e => .error e
    | .ok b =>
      match primeSuccs T ds with
      | .error e => .error e
      | .ok l => .ok (if b then (d + 1) :: l else l)

/-! ## euler_phi_inverse (inverse_functions.py:13-100) -/

/-- inverse_functions.py:60-63 `powers_of_two`; `e` is `n_factorization[0][1]`. -/
def powersOfTwo (n e : Nat) : List Nat :=
  if n % 2 = 0 then 1 :: (List.range' 1 e).map (fun i => 2 ^ i) else [1]

/-- inverse_functions.py:83-88, the `while mmod == 0` loop; `acc` is `new_pairs`. -/
def powPairs (p a pk d mmod : Nat) (acc : List (Nat × Nat)) : Option (List (Nat × Nat)) :=
  if mmod = 0 then
    powPairs p a (pk * p) (d / p) (d % p) (if d % 2 = 0 ∨ d = 1 then acc ++ [(pk * a, d)] else acc)
  else some acc
partial_fixpoint

/-- inverse_functions.py:77-88, the loop over `pairs` for one prime. -/
def pairsLoop (p : Nat) : List (Nat × Nat) → List (Nat × Nat) → Option (List (Nat × Nat))
  | [], acc => some acc
  | (a, b) :: rest, acc =>
    if b = 1 then pairsLoop p rest acc
    else do
      let acc ← powPairs p a p (b / (p - 1)) (b % (p - 1)) acc
      pairsLoop p rest acc

/-- inverse_functions.py:75-89, the loop over the primes. -/
def primesLoop : List Nat → List (Nat × Nat) → Option (List (Nat × Nat))
  | [], pairs => some pairs
  | p :: ps, pairs => do
    let new ← pairsLoop p pairs []
    primesLoop ps (pairs ++ new)

/-- inverse_functions.py:92-97 `values`. -/
def collect (pow2 : List Nat) (pairs : List (Nat × Nat)) : List Nat :=
  pairs.flatMap (fun ab =>
    if ab.2 ∈ pow2 then (if ab.2 = 1 then [2 * ab.2 * ab.1, ab.1] else [2 * ab.2 * ab.1]) else [])

/-- inverse_functions.py:60-100, everything after the validation of the argument. -/
def eulerPhiInverseCore (T : List Nat) (n : Nat) (fac : List (Nat × Nat)) :
    Option (Except PyErr (List Nat)) :=
  match fac with
  | [] => some (.error .indexError)
  | (_, e) :: _ =>
    match primeSuccs T ((divisors fac).drop 1) with
    | .error er => some (.error er)
    | .ok primeList => do
      let pairs ← primesLoop primeList.reverse [(1, n)]
      some (.ok (pySort (collect (powersOfTwo n e) pairs) (· ≤ ·)))

/-- inverse_functions.py:45-53 `euler_phi_inverse(n)` for an integer. -/
def eulerPhiInverse (T : List Nat) (fct : Nat → Nat → Option Nat) (n : Int) :
    Option (Except PyErr (List Nat)) :=
  if n = 1 then some (.ok [1, 2])
  else if n > 1 ∧ n.fmod 2 = 1 then some (.ok [])
  else if n ≤ 0 then some (.error .valueError)
  else
    match factor T fct n with
    | none => none
    | some (.error e) => some (.error e)
    | some (.ok fac) => eulerPhiInverseCore T n.toNat (fac.map (fun pe => (pe.1.toNat, pe.2)))

/-- inverse_functions.py:54-58 `euler_phi_inverse` for a factorization. Only the first key may be
negative. -/
def eulerPhiInverseList (T : List Nat) (fac : List (Int × Nat)) : Option (Except PyErr (List Nat)) :=
  match fac with
  | [] => some (.error .indexError)
  | (p, _) :: _ =>
    if p > 0 then
      eulerPhiInverseCore T (factorBack fac).toNat (fac.map (fun pe => (pe.1.toNat, pe.2)))
    else some (.error .valueError)

/-! ## inverse_phi (inverse_functions.py:103-125)

`phi_cache` is a `defaultdict(list)`. Python's dictionary iterator checks, each time it is
advanced, that the number of entries is still what it was when the iterator was made, and raises
`RuntimeError` otherwise; a list iterator also visits the elements appended during the loop. -/

/-- `phi_cache[k]` as a value (inverse_functions.py:118, 120, 125). -/
def cacheGet (c : Dict Nat (List Nat)) (k : Nat) : List Nat := (Dict.get? c k).getD []

/-- `phi_cache[k] += [v]` (inverse_functions.py:113, 120). -/
def cacheAdd (c : Dict Nat (List Nat)) (k v : Nat) : Dict Nat (List Nat) :=
  Dict.set c k (cacheGet c k ++ [v])

/-- inverse_functions.py:118-120, the loop over `phi_cache[b]`; `rem` is what the list iterator
has still to visit. -/
def innerLoop (n p a pk b : Nat) (rem : List Nat) (c : Dict Nat (List Nat)) :
    Option (Dict Nat (List Nat)) :=
  match rem with
  | [] => some c
  | x :: rest =>
    if x % p ≠ 0 ∧ n % (a * b) = 0 then
      innerLoop n p a pk b (if a * b = b then rest ++ [x * pk] else rest) (cacheAdd c (a * b) (x * pk))
    else innerLoop n p a pk b rest c
partial_fixpoint

/-- inverse_functions.py:115-120, the loop over `phi_cache.keys()`; `size` is the number of
entries when the iterator was made. -/
def keysLoop (n p a pk size : Nat) : List Nat → Dict Nat (List Nat) →
    Option (Except PyErr (Dict Nat (List Nat)))
  | [], c => if c.length ≠ size then some (.error .runtimeError) else some (.ok c)
  | b :: bs, c =>
    if c.length ≠ size then some (.error .runtimeError)
    else if a * b > n then keysLoop n p a pk size bs c
    else do
      let c ← innerLoop n p a pk b (cacheGet c b) c
      keysLoop n p a pk size bs c

/-- inverse_functions.py:111-123, the `while a <= n` loop. -/
def powLoop (n p a pk : Nat) (c : Dict Nat (List Nat)) : Option (Except PyErr (Dict Nat (List Nat))) :=
  if a ≤ n then do
    let c := if n % a = 0 then cacheAdd c a pk else c
    let r ← keysLoop n p a pk c.length (Dict.keys c) c
    match r with
    | .error e => some (.error e)
    | .ok c => powLoop n p (a * p) (pk * p) c
  else some (.ok c)
partial_fixpoint

/-- inverse_functions.py:107-123, the loop over the primes. -/
def phiLoop (n : Nat) : List Nat → Dict Nat (List Nat) → Option (Except PyErr (Dict Nat (List Nat)))
  | [], c => some (.ok c)
  | p :: ps, c => do
    let r ← powLoop n p (p - 1) p c
    match r with
    | .error e => some (.error e)
    | .ok c => phiLoop n ps c

/-- inverse_functions.py:103-125 `inverse_phi(n)` for `n ≥ 1`; `fac` is `factor(n)`. -/
def inversePhi (T : List Nat) (n : Nat) (fac : List (Nat × Nat)) : Option (Except PyErr (List Nat)) :=
  match primeSuccs T (divisors fac) with
  | .error e => some (.error e)
  | .ok primeList => do
    let r ← phiLoop n primeList.reverse []
    match r with
    | .error e => some (.error e)
    | .ok c => some (.ok (pySort (cacheGet c n) (· ≤ ·)))

end Rosemary.InverseFunctions
