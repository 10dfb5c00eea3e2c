import Verif.Model.Factorization
import Verif.Model.ArithFunctions

/-!
# Model of `zn_arithmetic.py`

Moduli are natural numbers.  Factorizations that the code obtains from `factor` are passed as
arguments.  The random nonresidue search takes its choices from a stream; `none` means that
the search does not end.
-/

namespace Rosemary.Zn

open Rosemary.Core Rosemary.ArithFunctions Rosemary.Factorization

/-- The builtin `pow(a, k, m)` for `k ≥ 0`, `m ≥ 1`. -/
def pyPow (a : Int) (k : Nat) (m : Nat) : Int := (a ^ k).fmod m

/-! ## Primitive roots -/

/-- zn_arithmetic.py:93-97, the loop of `is_primitive_root`. -/
def noTrivialPower (a : Int) (n phi : Nat) (divs : List Nat) : Bool :=
  divs.all (fun d => pyPow a (phi / d) n != 1)

/-- zn_arithmetic.py:25-97 `is_primitive_root` with `phi` and `phi_divisors` given. -/
def isPrimitiveRoot (a : Int) (n phi : Nat) (phiDivisors : List Nat) : Except PyErr Bool :=
  if n ≤ 1 then .error .valueError
  else if n > 4 ∧ n % 4 = 0 then .ok false
  else if gcd a n ≠ 1 then .ok false
  else .ok (noTrivialPower a n phi phiDivisors)

/-- zn_arithmetic.py:181-183: search among the next `k` values from `g`; `none` is Python's
`None` when the loop ends. -/
def searchRoot (n phi : Nat) (divs : List Nat) (g : Nat) : Nat → Except PyErr (Option Nat)
  | 0 => .ok none
  | k + 1 =>
    match isPrimitiveRoot g n phi divs with
    | .error e => .error e
    | .ok true => .ok (some g)
    | .ok false => searchRoot n phi divs (g + 1) k

/-- zn_arithmetic.py:100-183 `primitive_root`; `fac` is the factorization of `n` and `phiFac`
that of `euler_phi(n)`. -/
def primitiveRoot (n : Nat) (fac phiFac : List (Nat × Nat)) : Except PyErr (Option Nat) :=
  if n % 4 = 0 ∧ n ≠ 4 then .error .valueError
  else if fac.length > 2 then .error .valueError
  else if n % 2 = 1 ∧ fac.length > 1 then .error .valueError
  else if fac = [] then .error .indexError
  else searchRoot n (eulerPhi fac) (primeDivisors phiFac) 1 (n - 1)

/-! ## Square roots -/

/-- zn_arithmetic.py:319-321: the values drawn are `rnd i, rnd (i+1), ...`. -/
def findNonresidue (rnd : Nat → Int) (p : Nat) (i : Nat) : Option Int :=
  if jacobiSymbol (rnd i) p = .ok (-1) then some (rnd i) else findNonresidue rnd p (i + 1)
partial_fixpoint

/-- zn_arithmetic.py:329-333. -/
def tonelliExponent (p : Nat) (A D : Int) (s : Nat) : Nat :=
  (List.range s).foldl
    (fun m i => if pyPow (A * D ^ m) (2 ^ (s - 1 - i)) p = (p : Int) - 1 then m + 2 ^ i else m) 0

/-- zn_arithmetic.py:323-335, the root found from the nonresidue `d`. -/
def tonelliRoot (a d : Int) (p : Nat) : Int :=
  let s := valuation 2 ((p : Int) - 1) (by norm_num)
  let t := (p - 1) >>> s
  let A := pyPow a t p
  let D := pyPow d t p
  let m := tonelliExponent p A D s
  (pyPow a ((t + 1) / 2) p * pyPow D (m / 2) p).fmod p

/-- zn_arithmetic.py:338. -/
def bothRoots (x : Int) (p : Nat) : List Int := pySort [x, p - x] (· ≤ ·)

/-- zn_arithmetic.py:236-339 `sqrts_mod_p`. -/
def sqrtsModP (rnd : Nat → Int) (a : Int) (p : Nat) : Option (Except PyErr (List Int)) :=
  if p < 2 then some (.error .valueError)
  else if p = 2 then some (.ok [a.fmod p])
  else
    let a := a.fmod p
    if a = 0 then some (.ok [0])
    else
      match jacobiSymbol a p with
      | .error e => some (.error e)
      | .ok j =>
        if j ≠ 1 then some (.ok [])
        else if p % 8 = 3 ∨ p % 8 = 7 then some (.ok (bothRoots (pyPow a ((p + 1) / 4) p) p))
        else if p % 8 = 5 then
          let x := pyPow a ((p + 3) / 8) p
          let x := if (x * x).fmod p ≠ a then (x * pyPow 2 ((p - 1) / 4) p).fmod p else x
          some (.ok (bothRoots x p))
        else
          match findNonresidue rnd p 0 with
          | none => none
          | some d => some (.ok (bothRoots (tonelliRoot a d p) p))

/-- zn_arithmetic.py:342-412 `_quadratic_lift`. -/
def quadraticLift (a r : Int) (p k : Nat) : Except PyErr (List Int) :=
  if k < 1 then .error .valueError
  else if p < 2 then .error .valueError
  else if (r * r - a).fmod (p ^ k : Nat) ≠ 0 then .error .valueError
  else if (2 * r).fmod p ≠ 0 then
    match inverseMod (2 * r) p with
    | .error e => .error e
    | .ok inverse =>
      let t := (-inverse * (r * r - a).fdiv (p ^ k : Nat)).fmod p
      .ok [r + t * (p ^ k : Nat)]
  else if (r * r - a).fmod (p ^ (k + 1) : Nat) = 0 then
    .ok (pySort ((List.range p).map (fun t : Nat => r + (t : Int) * (p ^ k : Nat))) (· ≤ ·))
  else .ok []

/-- zn_arithmetic.py:434-438 and 442-446: lift all roots one step. -/
def liftAll (a : Int) (p e : Nat) : List Int → Except PyErr (List Int)
  | [] => .ok []
  | r :: rest =>
    match quadraticLift a r p e with
    | .error er => .error er
    | .ok lifts =>
      match liftAll a p e rest with
      | .error er => .error er
      | .ok more => .ok (lifts ++ more)

/-- zn_arithmetic.py:433-438 and 441-446: `j` steps starting with exponent `e`. -/
def liftLoop (a : Int) (p e : Nat) : Nat → List Int → Except PyErr (List Int)
  | 0, sols => .ok sols
  | j + 1, sols =>
    match liftAll a p e sols with
    | .error er => .error er
    | .ok sols => liftLoop a p (e + 1) j sols

/-- zn_arithmetic.py:415-449 `_sqrts_mod_pk`. -/
def sqrtsModPk (rnd : Nat → Int) (a : Int) (p k : Nat) : Option (Except PyErr (List Int)) :=
  if k = 1 then sqrtsModP rnd a p
  else if p = 2 then
    if k = 2 then
      some (.ok (pySort (([0, 1, 2, 3] : List Int).filter (fun e => (e * e).fmod 4 = a.fmod 4)) (· ≤ ·)))
    else
      let sols := ([0, 1, 2, 3, 4, 5, 6, 7] : List Int).filter (fun e => (e * e).fmod 8 = a.fmod 8)
      if k > 3 ∧ sols ≠ [] then
        match liftLoop a p 3 (k - 3) sols with
        | .error e => some (.error e)
        | .ok sols => some (.ok (pySort sols (· ≤ ·)))
      else some (.ok (pySort sols (· ≤ ·)))
  else
    match sqrtsModP rnd a p with
    | none => none
    | some (.error e) => some (.error e)
    | some (.ok sols) =>
      match liftLoop a p 1 (k - 1) sols with
      | .error e => some (.error e)
      | .ok sols => some (.ok (pySort sols (· ≤ ·)))

/-- zn_arithmetic.py:485-490, the roots modulo each prime power; `rnd p` is the stream of
random choices used for the prime `p`. -/
def rootsPerPrime (rnd : Nat → Nat → Int) (a : Int) :
    List (Nat × Nat) → Option (Except PyErr (List (List Int)))
  | [] => some (.ok [])
  | (p, k) :: rest =>
    match sqrtsModPk (rnd p) a p k with
    | none => none
    | some (.error e) => some (.error e)
    | some (.ok roots) =>
      match rootsPerPrime rnd a rest with
      | none => none
      | some (.error e) => some (.error e)
      | some (.ok more) => some (.ok (roots :: more))

/-- `itertools.product(*lists)`. -/
def cartesian {α : Type} : List (List α) → List (List α)
  | [] => [[]]
  | l :: ls => l.flatMap (fun x => (cartesian ls).map (fun t => x :: t))

/-- zn_arithmetic.py:498-499. -/
def combineAll (moduli : List Int) (data : CrtData) : List (List Int) → Except PyErr (List Int)
  | [] => .ok []
  | system :: rest =>
    match chinesePreconditioned (system.zip moduli) data with
    | .error e => .error e
    | .ok x =>
      match combineAll moduli data rest with
      | .error e => .error e
      | .ok xs => .ok (x :: xs)

/-- zn_arithmetic.py:452-502 `sqrts_mod_n`. -/
def sqrtsModN (rnd : Nat → Nat → Int) (a : Int) (fac : List (Nat × Nat)) :
    Option (Except PyErr (List Int)) :=
  match rootsPerPrime rnd a fac with
  | none => none
  | some (.error e) => some (.error e)
  | some (.ok congruences) =>
    match congruences with
    | [roots] => some (.ok (pySort roots (· ≤ ·)))
    | _ =>
      let moduli := fac.map (fun pe => ((pe.1 ^ pe.2 : Nat) : Int))
      match crtPreconditioningData moduli with
      | .error e => some (.error e)
      | .ok data =>
        match combineAll moduli data (cartesian congruences) with
        | .error e => some (.error e)
        | .ok values => some (.ok (pySort values (· ≤ ·)))

/-! ## Roots of unity -/

/-- zn_arithmetic.py:548-552. -/
def powersLoop (h : Int) (p : Nat) : Nat → Int → List Int
  | 0, _ => []
  | k + 1, val => val :: powersLoop h p k ((val * h).fmod p)

/-- zn_arithmetic.py:505-554 `nth_roots_of_unity_mod_p` for the primitive root `g`. -/
def nthRootsOfUnity (n p : Nat) (g : Int) : List Int :=
  if p = 2 then [1]
  else
    let d := Nat.gcd n (p - 1)
    let h := pyPow g ((p - 1) / d) p
    pySort (powersLoop h p d 1) (· ≤ ·)

/-- zn_arithmetic.py:557-608 `nth_roots_of_minus1_mod_p` for the primitive root `g`. -/
def nthRootsOfMinus1 (n p : Nat) (g : Int) : List Int :=
  if p = 2 then [1]
  else
    let d := Nat.gcd n (p - 1)
    if (p - 1) / d % 2 ≠ 0 then []
    else
      let root := pyPow g ((p - 1) / (2 * d)) p
      pySort ((nthRootsOfUnity n p g).map (fun h => (root * h).fmod p)) (· ≤ ·)

/-! ## discrete_log (zn_arithmetic.py:611-683) -/

/-- zn_arithmetic.py:666-670: the dictionary after `j` more steps, most recent entry first. -/
def babySteps (am : Int) (p : Nat) (k : Nat) : Nat → Int → List (Int × Nat) → List (Int × Nat)
  | 0, _, cache => cache
  | j + 1, val, cache => babySteps am p (k + 1) j ((val * am).fmod p) ((val, k) :: cache)

/-- zn_arithmetic.py:672-678: the final value of `x`. -/
def giantSteps (a : Int) (p m : Nat) (cache : List (Int × Nat)) (k : Nat) : Nat → Int → Nat
  | 0, _ => 1
  | j + 1, val =>
    match cache.lookup val with
    | some i => i * m - k
    | none => giantSteps a p m cache (k + 1) j ((val * a).fmod p)

/-- zn_arithmetic.py:611-683 `discrete_log` for `p ≥ 1`. -/
def discreteLog (a b : Int) (p : Nat) : Except PyErr Nat :=
  match integerSqrt p with
  | .error e => .error e
  | .ok s =>
    let m := s + 1
    let am := pyPow a m p
    let cache := babySteps am p 1 m am []
    let x := giantSteps a p m cache 0 (m + 1) b
    if pyPow a x p = b.fmod p then .ok x else .error .valueError

/-! ## multiplicative_order (zn_arithmetic.py:686-727) -/

/-- zn_arithmetic.py:686-727 `multiplicative_order`; `phiFac` is the factorization of
`euler_phi(n)`.  `none` is Python's `None`. -/
def multiplicativeOrder (a : Int) (n : Nat) (phiFac : List (Nat × Nat)) : Except PyErr (Option Nat) :=
  if gcd a n ≠ 1 then .error .valueError
  else .ok ((divisors phiFac).find? (fun d => pyPow a d n == 1))

/-! ## Congruences -/

/-- zn_arithmetic.py:735-781 `linear_congruence`. -/
def linearCongruence (a b n : Int) : Except PyErr (List Int) :=
  if n < 2 then .error .valueError
  else
    let r := extGcd a n
    let u := r.1
    let d := r.2.2
    if b.fmod d ≠ 0 then .ok []
    else
      let x0 := (b * u).fdiv d
      .ok (pySort ((List.range d.toNat).map
        (fun k : Nat => (x0 + ((k : Int) * n).fdiv d).fmod n)) (· ≤ ·))

/-- zn_arithmetic.py:841-844, `while d > 1`; returns `(a1, a2)`. -/
def splitCoprime (n a1 a2 : Int) : Option (Int × Int) :=
  let d := gcd n a2
  if d > 1 then splitCoprime n (a1 * d) (a2.fdiv d) else some (a1, a2)
partial_fixpoint

/-- zn_arithmetic.py:851-853. -/
def linearAll (a b m : Int) : List Int → Except PyErr (List Int)
  | [] => .ok []
  | y :: ys =>
    match linearCongruence (2 * a) (y - b) m with
    | .error e => .error e
    | .ok l =>
      match linearAll a b m ys with
      | .error e => .error e
      | .ok l' => .ok (l ++ l')

/-- zn_arithmetic.py:784-860 `quadratic_congruence`; `fac` is the factorization of `n` and
`factorOf` the outcome of the call `factor(a1*n)` made inside `sqrts_mod_n` at line 847. -/
def quadraticCongruence (rnd : Nat → Nat → Int) (a b c : Int) (n : Nat) (fac : List (Nat × Nat))
    (factorOf : Nat → List (Nat × Nat)) : Option (Except PyErr (List Int)) :=
  let disc := b * b - 4 * a * c
  if gcd (2 * a) n = 1 then
    match sqrtsModN rnd disc fac with
    | none => none
    | some (.error e) => some (.error e)
    | some (.ok ys) =>
      match inverseMod (2 * a) n with
      | .error e => some (.error e)
      | .ok inverse => some (.ok (pySort (ys.map (fun y => ((y - b) * inverse).fmod n)) (· ≤ ·)))
  else
    match splitCoprime n 1 (4 * a) with
    | none => none
    | some (a1, _) =>
      match sqrtsModN rnd disc (factorOf (a1 * n).toNat) with
      | none => none
      | some (.error e) => some (.error e)
      | some (.ok ys) =>
        match linearAll a b (a1 * n) ys with
        | .error e => some (.error e)
        | .ok xs => some (.ok (pySort (xs.map (fun x => x.fmod n)).dedup (· ≤ ·)))

/-- zn_arithmetic.py:186-228 `fibonacci_primitive_roots`; `phiFac` is the factorization of
`p - 1`. -/
def fibonacciPrimitiveRoots (rnd : Nat → Int) (p : Nat) (phiFac : List (Nat × Nat)) :
    Option (Except PyErr (List Int)) :=
  if p % 2 = 0 then some (.ok [])
  else if p = 5 then some (.ok [3])
  else if p < 5 then some (.ok [])
  else
    match jacobiSymbol 5 p with
    | .error e => some (.error e)
    | .ok j =>
      if j ≠ 1 then some (.ok [])
      else
        match sqrtsModP rnd 5 p with
        | none => none
        | some (.error e) => some (.error e)
        | some (.ok sqrts) =>
          match inverseMod 2 p with
          | .error e => some (.error e)
          | .ok inverse =>
            let quadRoots := sqrts.map (fun root => ((1 + root) * inverse).fmod p)
            some (.ok (pySort (quadRoots.filter (fun r =>
              isPrimitiveRoot r p (p - 1) (primeDivisors phiFac) = .ok true)) (· ≤ ·)))

end Rosemary.Zn
