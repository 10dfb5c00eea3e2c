import Verif.Model.Core
import Mathlib.Data.Nat.Prime.Basic

/-!
# Model of `primes/primality.py`, `trial_division`, and `classification.py`

The precomputed table `_PRIME_LIST` (`number_theory/prime_list.py`) is a parameter `T`.
`IsPrimeTable T` (Verif/Props/Primality.lean) says what is required of it: the increasing list of all
primes up to its last entry.
-/

namespace Rosemary.Primality

open Rosemary.Core

/-! ## miller_rabin and friends (primality.py:17-136, 161-183) -/

/-- primality.py:98-100, `while t % 2 == 0: s += 1; t = t // 2`, from `t > 0`
(for `n = 1` the Python loop does not terminate; the model stops at `t = 0`). Returns `(t, s)`. -/
def strip2 (t s : Nat) : Nat × Nat :=
  if _h : t ≠ 0 ∧ t % 2 = 0 then strip2 (t / 2) (s + 1) else (t, s)
termination_by t
decreasing_by omega

/-- primality.py:106-110, the squaring loop, `k` iterations left. -/
def mrLoop (n b : Nat) : Nat → Bool
  | 0 => false
  | k + 1 =>
    let b' := b * b % n
    if b' = n - 1 then true else mrLoop n b' k

/-- primality.py:72-110 `miller_rabin(n, a)` for `n ≥ 2`, with the base supplied (by the
caller or by `randint`).  The builtin `pow(a, t, n)` is `a ^ t % n`. -/
def millerRabin (n a : Nat) : Bool :=
  let ts := strip2 (n - 1) 0
  let b := a ^ ts.1 % n
  if b = 1 ∨ b = n - 1 then true else mrLoop n b (ts.2 - 1)

/-- primality.py:17-69 `solovay_strassen(n, a)`. -/
def solovayStrassen (n : Nat) (a : Int) : Except PyErr Bool :=
  match jacobiSymbol a n with
  | .error e => .error e
  | .ok j =>
    if j = 0 ∨ j.fmod n ≠ a ^ ((n - 1) / 2) % (n : Int) then .ok false else .ok true

/-- primality.py:161-183 `is_probable_prime`, bases `2 <= a < min(n - 1, 20)`. -/
def isProbablePrime (n : Nat) : Bool :=
  (List.range' 2 (min (n - 1) 20 - 2)).all (fun a => millerRabin n a)

/-! ## trial_division (algorithms.py:23-95) -/

/-- algorithms.py:87, the wheel offsets; `none` models `KeyError`. -/
def wheelOffset (r : Nat) : Option Nat :=
  if r = 1 then some 6 else if r = 7 then some 4 else if r = 11 then some 2
  else if r = 13 then some 4 else if r = 17 then some 2 else if r = 19 then some 4
  else if r = 23 then some 6 else if r = 29 then some 2 else none

theorem wheelOffset_pos {r o : Nat} (h : wheelOffset r = some o) : 0 < o := by
  unfold wheelOffset at h
  repeat' split at h
  all_goals first | (simp only [Option.some.injEq] at h; omega) | simp at h

/-- algorithms.py:90-95, the wheel loop. -/
def wheelLoop (n bound d : Nat) : Except PyErr Nat :=
  if _h : d ≤ bound then
    if n % d = 0 then .ok d
    else
      match _ho : wheelOffset (d % 30) with
      | none => .error .keyError
      | some o => wheelLoop n bound (d + o)
  else .ok n
termination_by bound + 1 - d
decreasing_by
  have := wheelOffset_pos _ho
  omega

/-- algorithms.py:78-88: trial divide by the table entries, then enter the wheel from the
last table entry (`d` keeps its last value after the `for` loop). -/
def trialTable (n bound : Nat) (d : Nat) : List Nat → Except PyErr Nat
  | [] =>
    match wheelOffset (d % 30) with
    | none => .error .keyError
    | some o => wheelLoop n bound (d + o)
  | p :: rest =>
    if p > bound then .ok n
    else if n % p = 0 then .ok p
    else trialTable n bound p rest

/-- algorithms.py:23-95 `trial_division(n, bound)`. -/
def trialDivisionBound (T : List Nat) (n bound : Nat) : Except PyErr Nat :=
  trialTable n bound 0 T

/-- algorithms.py:74-75: the default bound is `integer_sqrt(n) + 1`. -/
def trialDivision (T : List Nat) (n : Nat) : Except PyErr Nat :=
  match integerSqrt n with
  | .error e => .error e
  | .ok s => trialDivisionBound T n (s + 1)

/-! ## is_prime, next_prime (primality.py:186-246) -/

/-- `bisect.bisect_left(T, n)` on a sorted list. -/
def bisectLeft (T : List Nat) (n : Nat) : Nat := (T.takeWhile (· < n)).length

/-- primality.py:186-218 `is_prime`. -/
def isPrime (T : List Nat) (n : Int) : Except PyErr Bool :=
  if n < 2 then .ok false
  else
    match T.getLast? with
    | none => .error .indexError
    | some last =>
      if n.toNat ≤ last then
        match T[bisectLeft T n.toNat]? with
        | none => .error .indexError
        | some q => .ok (q == n.toNat)
      else if !isProbablePrime n.toNat then .ok false
      else
        match trialDivision T n.toNat with
        | .error e => .error e
        | .ok d => .ok (d == n.toNat)

/-- primality.py:244-246, `while not is_prime(n): n += 2`. `none` would mean divergence. -/
def nextPrimeLoop (T : List Nat) (n : Int) : Option (Except PyErr Int) :=
  match isPrime T n with
  | .error e => some (.error e)
  | .ok true => some (.ok n)
  | .ok false => nextPrimeLoop T (n + 2)
partial_fixpoint

/-- primality.py:226-246 `next_prime`. -/
def nextPrime (T : List Nat) (n : Int) : Option (Except PyErr Int) :=
  if n = 1 then some (.ok 2)
  else
    let n := n + 1
    let n := if n.fmod 2 = 0 then n + 1 else n
    nextPrimeLoop T n

/-- primality.py:267-269, `while not is_probable_prime(n): n += 2`. -/
def nextProbablePrimeLoop (n : Nat) : Option Nat :=
  if isProbablePrime n then some n else nextProbablePrimeLoop (n + 2)
partial_fixpoint

/-- primality.py:249-269 `next_probable_prime`, for `n ≥ 0`. -/
def nextProbablePrime (n : Nat) : Option Nat :=
  if n = 1 then some 2
  else
    let n := n + 1
    let n := if n % 2 = 0 then n + 1 else n
    nextProbablePrimeLoop n

/-- primality.py:272-279 `random_prime`; `rnd i` is the value of the `i`-th call of
`randint(a, b)`. -/
def randomPrimeLoop (T : List Nat) (rnd : Nat → Int) (i : Nat) : Option (Except PyErr Int) :=
  match isPrime T (rnd i) with
  | .error e => some (.error e)
  | .ok true => some (.ok (rnd i))
  | .ok false => randomPrimeLoop T rnd (i + 1)
partial_fixpoint

/-- primality.py:113-136 `miller_rabin_deterministic`; `w` is the value of the
floating-point expression `int(2*log(n)**2)`. -/
def millerRabinDeterministic (n : Int) (w : Nat) : Bool :=
  if n < 2 then false
  else (List.range' 2 (min w (n.toNat - 1) + 1 - 2)).all (fun a => millerRabin n.toNat a)

/-! ## lucas_lehmer (primality.py:144-153) -/

/-- primality.py:151-152, `k` iterations of `v = (v*v - 2) % mp`. -/
def llLoop (mp : Int) (v : Int) : Nat → Int
  | 0 => v
  | k + 1 => llLoop mp ((v * v - 2).fmod mp) k

/-- primality.py:144-153 `lucas_lehmer`, for `p ≥ 1`. -/
def lucasLehmer (p : Nat) : Bool := llLoop (2 ^ p - 1) 4 (p - 2) == 0

end Rosemary.Primality

namespace Rosemary.Classification

open Rosemary.Core

/-! ## is_square (classification.py:19-106), integer argument -/

/-- classification.py:25-27: `q64[r]` is set iff `r = k*k % 64` for some `k < 32`. -/
def q64 (r : Nat) : Bool := (List.range 32).any (fun k => k * k % 64 == r)

/-- classification.py:29-31: `q45045[r]` is set iff `r = k*k % 45045` for some `k < 22522`. -/
def q45045 (r : Nat) : Bool := (List.range 22522).any (fun k => k * k % 45045 == r)

/-- classification.py:33-51 and 102-106.  `none` is Python's `False`; `some q` the root. -/
def isSquare (n : Int) : Except PyErr (Option Nat) :=
  if n < 0 then .ok none
  else if n = 0 ∨ n = 1 then .ok (some n.toNat)
  else if q64 (n.toNat % 64) = false then .ok none
  else if q45045 (n.toNat % 45045) = false then .ok none
  else
    match integerSqrt n with
    | .error e => .error e
    | .ok q => if q * q = n.toNat then .ok (some q) else .ok none

/-- classification.py:90-100, factorization argument (a nonempty list of pairs). -/
def isSquareFac : List (Int × Nat) → Except PyErr (Option Int)
  | [] => .error .indexError
  | (p, e) :: rest =>
    if p = -1 then .ok none
    else .ok (go 1 ((p, e) :: rest))
where
  /-- classification.py:95-100. -/
  go (sqrt : Int) : List (Int × Nat) → Option Int
    | [] => some sqrt
    | (p, e) :: rest => if e % 2 = 1 then none else go (sqrt * p ^ (e / 2)) rest

/-! ## is_power (classification.py:119-227), integer argument -/

/-- classification.py:206-212, `is_power(n, k)` for `n ≥ 1`, `k ≥ 1`. -/
def isPowerK (n k : Int) : Except PyErr (Option (Int × Int)) :=
  if k < 1 then .error .valueError
  else if n < 1 then .error .valueError
  else if k = 1 then .ok (some (n, 1))
  else
    match integerNthRoot k n with
    | .error e => .error e
    | .ok root => if (root : Int) ^ k.toNat = n then .ok (some (root, k)) else .ok none

mutual
/-- classification.py:203-204 and 214-227, `is_power(n)`. `none` at top level would mean
divergence. -/
def isPower (n : Int) : Option (Except PyErr (Option (Nat × Nat))) :=
  if n < 1 then some (.error .valueError)
  else isPowerFor n 2
partial_fixpoint

/-- classification.py:214-217, the `for k in range(2, n.bit_length() + 1)` loop from `k`. -/
def isPowerFor (n : Int) (k : Nat) : Option (Except PyErr (Option (Nat × Nat))) :=
  if k < n.toNat.size + 1 then
    match integerNthRoot k n with
    | .error e => some (.error e)
    | .ok base =>
      if (base : Int) ^ k = n then isPowerWhile base k
      else isPowerFor n (k + 1)
  else some (.ok none)
partial_fixpoint

/-- classification.py:219-225, `while True: next_step = is_power(base) ...`. -/
def isPowerWhile (base exponent : Nat) : Option (Except PyErr (Option (Nat × Nat))) := do
  match ← isPower base with
  | .error e => some (.error e)
  | .ok (some (b, e)) => isPowerWhile b (exponent * e)
  | .ok none => some (.ok (some (base, exponent)))
partial_fixpoint
end

/-- classification.py:184-191, `is_power(factorization, k)` for `k ≥ 1`. -/
def isPowerFacK (k : Nat) : List (Nat × Nat) → Option (Nat × Nat)
  | l => go 1 l
where
  /-- classification.py:186-191. -/
  go (root : Nat) : List (Nat × Nat) → Option (Nat × Nat)
    | [] => some (root, k)
    | (p, e) :: rest => if e % k = 0 then go (root * p ^ (e / k)) rest else none

/-- classification.py:193-201, `is_power(factorization)`.  Primes and exponents are natural
numbers here (a leading `-1` raises `ValueError` at line 180). -/
def isPowerFac (l : List (Nat × Nat)) : Except PyErr (Option (Nat × Nat)) :=
  match gcdList (l.map (fun pe => (pe.2 : Int))) with
  | .error e => .error e
  | .ok d =>
    if d = 1 then .ok none
    else .ok (some (l.foldl (fun r pe => r * pe.1 ^ (pe.2 / d.toNat)) 1, d.toNat))

/-! ## is_factorial (classification.py:287-295) -/

/-- classification.py:291-295, the loop; terminates because `product` at least doubles. -/
def isFactorialLoop (n product k : Nat) (hp : 0 < product) (hk : 2 ≤ k) : Bool :=
  if h : product < n then
    isFactorialLoop n (product * k) (k + 1) (by positivity) (by omega)
  else product == n
termination_by n - product
decreasing_by
  have : product < product * k := by nlinarith
  omega

/-- classification.py:287-295 `is_factorial`. -/
def isFactorial (n : Int) : Bool :=
  if n ≤ 0 then false else isFactorialLoop n.toNat 1 2 (by norm_num) (by norm_num)

end Rosemary.Classification

namespace Rosemary.Primality

/-- number_theory/prime_list.py:3, `_PRIME_LIST`: the 78498 primes up to `10 ^ 6`.  The file
is a literal; that the literal equals this list is part of the trusted base (DESIGN.md). -/
def primeList : List Nat := (List.range 1000001).filter (fun n => decide n.Prime)

end Rosemary.Primality
