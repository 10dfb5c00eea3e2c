import Verif.Model.Primality
import Verif.Model.Sort
import Mathlib.Data.List.Sublists

/-!
# Model of `factorization/algorithms.py` and `factorization/factorization.py`
-/

namespace Rosemary.Factorization

open Rosemary.Core Rosemary.Primality

/-! ## fermat (algorithms.py:98-146) -/

/-- algorithms.py:140-146, the loop over the remaining `k` values `a, a+1, ...`. -/
def fermatLoop (n a : Nat) : Nat → Except PyErr Int
  | 0 => .ok n
  | k + 1 =>
    let t : Int := a * a - n
    match integerSqrt t with
    | .error e => .error e
    | .ok b => if (b * b : Int) = t then .ok (a - b) else fermatLoop n (a + 1) k

/-- algorithms.py:98-146 `fermat`, for `n ≥ 0`. -/
def fermat (n : Nat) : Except PyErr Int :=
  if n % 2 = 0 then .ok 2
  else
    match integerSqrt n with
    | .error e => .error e
    | .ok s => fermatLoop n (s + 1) ((n + 9) / 6 + 1 - (s + 1))

/-! ## lehman (algorithms.py:149-215) -/

/-- algorithms.py:206-207, `while a % m != rm: a += 1`, run with `fuel ≥ m` (the loop
stops within `m` steps because `rm < m`). -/
def lehmanAlign (m rm : Nat) : Nat → Nat → Nat
  | 0, a => a
  | fuel + 1, a => if a % m ≠ rm then lehmanAlign m rm fuel (a + 1) else a

/-- algorithms.py:209-214, the inner loop; `none` when it ends without a factor.  `m > 0`. -/
def lehmanInner (n fkn ub m : Nat) (hm : 0 < m) (a : Nat) : Except PyErr (Option Int) :=
  if _h : fkn ≤ a * a ∧ a * a ≤ ub then
    let c := a * a - fkn
    match integerSqrt c with
    | .error e => .error e
    | .ok b => if b * b = c then .ok (some (gcd (a + b) n)) else lehmanInner n fkn ub m hm (a + m)
  else .ok none
termination_by ub + 1 - a
decreasing_by
  have : a ≤ a * a := Nat.le_mul_self a
  omega

/-- algorithms.py:193-215, the loop over `k`, `j` values left. -/
def lehmanLoop (n bound k : Nat) : Nat → Except PyErr Int
  | 0 => .ok n
  | j + 1 =>
    let r := if k % 2 = 0 then 1 else k + n
    let m := if k % 2 = 0 then 2 else 4
    let fkn := 4 * k * n
    match integerSqrt fkn with
    | .error e => .error e
    | .ok a =>
      match lehmanInner n fkn (fkn + bound ^ 2) m (by dsimp only [m]; split <;> omega)
          (lehmanAlign m (r % m) m a) with
      | .error e => .error e
      | .ok (some d) => .ok d
      | .ok none => lehmanLoop n bound (k + 1) j

/-- algorithms.py:149-215 `lehman`. -/
def lehman (T : List Nat) (n : Nat) : Except PyErr Int :=
  match integerNthRoot 3 n with
  | .error e => .error e
  | .ok bound =>
    match trialDivisionBound T n bound with
    | .error e => .error e
    | .ok d => if d < n then .ok d else lehmanLoop n bound 1 bound

/-! ## pollard_p_minus_1 (algorithms.py:218-282) -/

/-- algorithms.py:275-282; `powList` is the sorted list of prime powers built at lines
263-272 (only its second components are used). -/
def pMinusOneLoop (n : Nat) (c : Int) (count : Nat) : List (Nat × Nat) → Int
  | [] => gcd (c - 1) n
  | (_, p) :: rest =>
    let c := (c ^ p).fmod n
    if count % 100 = 0 then
      let g := gcd (c - 1) n
      if 1 < g ∧ g < n then g else pMinusOneLoop n c (count + 1) rest
    else pMinusOneLoop n c (count + 1) rest

/-- algorithms.py:218-282 `pollard_p_minus_1`. -/
def pollardPMinusOne (powList : List (Nat × Nat)) (n : Nat) : Int := pMinusOneLoop n 13 0 powList

/-! ## pollard_rho (algorithms.py:285-356) -/

/-- algorithms.py:344-356 with `iterations` given, `j` iterations left. -/
def rhoLoop (n a : Int) (u v prod : Int) (k : Nat) : Nat → Int
  | 0 => n
  | j + 1 =>
    let u := (u * u + a).fmod n
    let v := (v * v + a).fmod n
    let v := (v * v + a).fmod n
    let prod := (prod * (u - v)).fmod n
    if k % 100 = 0 then
      let d := gcd prod n
      if d > 1 then d else rhoLoop n a u v 1 (k + 1) j
    else rhoLoop n a u v prod (k + 1) j

/-- algorithms.py:344-356 with `iterations=None`; `none` means divergence. -/
def rhoLoopInf (n a : Int) (u v prod : Int) (k : Nat) : Option Int :=
  let u := (u * u + a).fmod n
  let v := (v * v + a).fmod n
  let v := (v * v + a).fmod n
  let prod := (prod * (u - v)).fmod n
  if k % 100 = 0 then
    let d := gcd prod n
    if d > 1 then some d else rhoLoopInf n a u v 1 (k + 1)
  else rhoLoopInf n a u v prod (k + 1)
partial_fixpoint

/-- algorithms.py:285-356 `pollard_rho`; `a`, `u` are the random choices. -/
def pollardRho (n a u : Int) (iterations : Option Nat) : Option Int :=
  match iterations with
  | some it => some (rhoLoop n a u u 1 0 it)
  | none => rhoLoopInf n a u u 1 0

/-! ## pollard_rho_brent (algorithms.py:359-433) -/

/-- algorithms.py:411-412, `y = (y*y + c) % n` repeated. -/
def brentAdvance (n c : Int) : Nat → Int → Int
  | 0, y => y
  | k + 1, y => brentAdvance n c k ((y * y + c).fmod n)

/-- algorithms.py:416-418. -/
def brentAccum (n c x : Int) : Nat → Int → Int → Int × Int
  | 0, y, prod => (y, prod)
  | k + 1, y, prod =>
    let y := (y * y + c).fmod n
    brentAccum n c x k y ((prod * (x - y)).fmod n)

/-- algorithms.py:414-421, from index `k`; returns `(ys, y, prod, g)`. -/
def brentInner (n c x : Int) (r k : Nat) (y prod : Int) : Int × Int × Int × Int :=
  let ys := y
  let yp := brentAccum n c x (min 100 (r - k)) y prod
  let g := gcd yp.2 n
  if k ≥ r ∨ g > 1 then (ys, yp.1, yp.2, g)
  else brentInner n c x r (k + 100) yp.1 yp.2
termination_by r - k
decreasing_by omega

/-- algorithms.py:409-425; returns `(x, ys, g)`; `none` means divergence. -/
def brentOuter (n c : Int) (r : Nat) (y prod : Int) : Option (Int × Int × Int) :=
  let x := y
  let y := brentAdvance n c r y
  let res := brentInner n c x r 0 y prod
  if res.2.2.2 > 1 then some (x, res.1, res.2.2.2)
  else brentOuter n c (2 * r) res.2.1 res.2.2.1
partial_fixpoint

/-- algorithms.py:428-432. -/
def brentBacktrack (n c x : Int) (ys : Int) : Option Int :=
  let ys := (ys * ys + c).fmod n
  let g := gcd (x - ys) n
  if g > 1 then some g else brentBacktrack n c x ys
partial_fixpoint

/-- algorithms.py:359-433 `pollard_rho_brent`; `c`, `y` are the random choices. -/
def pollardRhoBrent (n c y : Int) : Option Int := do
  let (x, ys, g) ← brentOuter n c 1 y 1
  if g = n then brentBacktrack n c x ys else some g

/-! ## smooth_factor (algorithms.py:676-743) -/

/-- algorithms.py:733-738: the exponent of `p` in `n` and the cofactor, for `p ≥ 2`, `n ≥ 1`. -/
def stripPrime (p n e : Nat) : Nat × Nat :=
  if _h : 2 ≤ p ∧ 0 < n ∧ n % p = 0 then stripPrime p (n / p) (e + 1) else (n, e)
termination_by n
decreasing_by exact Nat.div_lt_self _h.2.1 _h.1

/-- algorithms.py:731-743 over the remaining factor base; returns the exponents, padded
with zeros when `n` becomes 1 early. -/
def smoothLoop (n : Nat) : List Nat → Except PyErr (List Nat)
  | [] => .error .valueError
  | p :: rest =>
    let r := stripPrime p n 0
    if r.1 = 1 then .ok (r.2 :: rest.map (fun _ => 0))
    else
      match smoothLoop r.1 rest with
      | .error e => .error e
      | .ok es => .ok (r.2 :: es)

/-- algorithms.py:676-743 `smooth_factor`, for a factor base of an optional `-1` followed by
integers `≥ 2`, and `n ≠ 0` (positive when `-1` is not in the base). -/
def smoothFactor (n : Int) (neg : Bool) (base : List Nat) : Except PyErr (List Nat) :=
  if neg then
    match smoothLoop n.natAbs base with
    | .error e => .error e
    | .ok es => .ok ((if n < 0 then 1 else 0) :: es)
  else smoothLoop n.natAbs base

/-! ## _z2_gaussian_elimination (algorithms.py:570-673) -/

/-- algorithms.py:619-622, the encoding of one exponent vector (rows of equal length). -/
def encodeRow (numCols : Nat) (vector : List Nat) : Nat :=
  (List.range numCols).foldl
    (fun value i => if vector.getD i 0 % 2 ≠ 0 then value + 1 <<< (numCols - i - 1) else value) 0

/-- algorithms.py:626-630, the initial `history`: `num_rows` values starting at `value`. -/
def initHistory : Nat → Nat → List Nat
  | 0, _ => []
  | k + 1, value => value :: initHistory k (value >>> 1)

/-- algorithms.py:640-653, one column; the rows are the pairs `(reduced[i], history[i])`. -/
def elimPass (bit : Nat) : List (Nat × Nat) → List (Nat × Nat)
  | [] => []
  | (entry, his) :: rest =>
    if entry &&& bit ≠ 0 ∧ entry % bit = 0 then
      (entry, his) ::
        rest.map (fun r => if r.1 &&& bit ≠ 0 then (r.1 ^^^ entry, r.2 ^^^ his) else r)
    else (entry, his) :: elimPass bit rest

/-- algorithms.py:637-655, the loop over `bit` (`k` columns left). -/
def elimLoop (bit : Nat) : Nat → List (Nat × Nat) → List (Nat × Nat)
  | 0, rows => rows
  | k + 1, rows => elimLoop (bit <<< 1) k (elimPass bit rows)

/-- algorithms.py:663-669: the 0/1 vector of the lowest `j` bits of `value`. -/
def decodeRow : Nat → Nat → List Nat → List Nat
  | 0, _, vector => vector
  | j + 1, value, vector => decodeRow j (value >>> 1) ((if value % 2 ≠ 0 then 1 else 0) :: vector)

/-- algorithms.py:570-673 `_z2_gaussian_elimination`; an empty matrix or a matrix without
columns raises (lines 615, 638). -/
def z2Elimination (exponents : List (List Nat)) : Except PyErr (List (List Nat)) :=
  match exponents with
  | [] => .error .indexError
  | first :: _ =>
    let numRows := exponents.length
    let numCols := first.length
    if numCols = 0 then .error .valueError
    else
      let reduced := exponents.map (encodeRow numCols)
      let history := initHistory numRows (1 <<< (numRows - 1))
      let rows := elimLoop 1 numCols (reduced.zip history)
      .ok ((rows.filter (fun r => ¬ (r.1 ≠ 0 ∨ r.2 = 0))).map (fun r => decodeRow numRows r.2 []))

/-! ## _cfrac_aq_pairs (algorithms.py:746-807) -/

/-- The loop state `(A0, A1, Q0, Q1, P0, r0)`. -/
structure AQ where
  A0 : Int
  A1 : Int
  Q0 : Int
  Q1 : Int
  P0 : Int
  r0 : Int

/-- algorithms.py:788-792. -/
def aqInit (n g : Int) : AQ := ⟨0, 1, n, 1, 0, g⟩

/-- algorithms.py:795-799, 804-807, one pass of the loop. -/
def aqStep (n g : Int) (s : AQ) : AQ :=
  let q := (g + s.P0).fdiv s.Q1
  let r1 := g + s.P0 - q * s.Q1
  let A2 := (q * s.A1 + s.A0).fmod n
  let P1 := g - r1
  let Q2 := s.Q0 + q * (r1 - s.r0)
  ⟨s.A1, A2, s.Q1, Q2, P1, r1⟩

/-- The state at the start of pass `i`. -/
def aqState (n g : Int) : Nat → AQ
  | 0 => aqInit n g
  | i + 1 => aqStep n g (aqState n g i)

/-- algorithms.py:801-802: the triple `(i, A, Q)` yielded in pass `i ≥ 1`. -/
def aqPair (n g : Int) (i : Nat) : Nat × Int × Int :=
  (i, (aqState n g i).A1, (aqState n g i).Q1)

/-! ## factor (factorization.py:19-121) -/

/-- `fac[p] += k` on a `defaultdict(int)` in insertion order. -/
def bump (p : Int) (k : Nat) : List (Int × Nat) → List (Int × Nat)
  | [] => [(p, k)]
  | (q, e) :: rest => if q = p then (q, e + k) :: rest else (q, e) :: bump p k rest

/-- factorization.py:103-105, `while n % p == 0: fac[p] += 1; n //= p`, with `p ≥ 2`, `n ≥ 1`. -/
def stripInto (p n : Nat) (fac : List (Int × Nat)) : Nat × List (Int × Nat) :=
  if _h : 2 ≤ p ∧ 0 < n ∧ n % p = 0 then stripInto p (n / p) (bump p 1 fac) else (n, fac)
termination_by n
decreasing_by exact Nat.div_lt_self _h.2.1 _h.1

/-- factorization.py:95-105, the loop over the prime table. -/
def smallFactors : List Nat → Nat → List (Int × Nat) → Nat × List (Int × Nat)
  | [], n, fac => (n, fac)
  | p :: rest, n, fac =>
    if n = 1 then (n, fac)
    else if p * p > n then (1, bump n 1 fac)
    else
      let r := stripInto p n fac
      smallFactors rest r.1 r.2

/-- factorization.py:114-115, `while not _is_prime(d): d = _factor(d)`; `fct i m` is the
outcome of the `i`-th call `_factor(m)`, `none` meaning that the call does not return.
Returns `d` and the number of calls made so far. -/
def splitLoop (fct : Nat → Nat → Option Nat) (i d : Nat) : Option (Nat × Nat) :=
  if isProbablePrime d then some (d, i)
  else do
    let d' ← fct i d
    splitLoop fct (i + 1) d'
partial_fixpoint

/-- factorization.py:108-118. -/
def bigFactors (fct : Nat → Nat → Option Nat) (i n : Nat) (fac : List (Int × Nat)) :
    Option (List (Int × Nat)) :=
  if n > 1 then
    if isProbablePrime n then bigFactors fct i 1 (bump n 1 fac)
    else do
      let d ← fct i n
      let (d, i) ← splitLoop fct (i + 1) d
      let r := stripInto d n fac
      bigFactors fct i r.1 r.2
  else some fac
partial_fixpoint

/-- Python's lexicographic order on pairs. -/
def pairLe (a b : Int × Nat) : Bool := a.1 < b.1 || (a.1 == b.1 && a.2 ≤ b.2)

/-- factorization.py:19-121 `factor(n)` with the default flags. -/
def factor (T : List Nat) (fct : Nat → Nat → Option Nat) (n : Int) :
    Option (Except PyErr (List (Int × Nat))) :=
  if n = 0 then some (.error .valueError)
  else
    let fac : List (Int × Nat) := if n < 0 then [(-1, 1)] else []
    let r := smallFactors T n.natAbs fac
    match bigFactors fct 0 r.1 r.2 with
    | none => none
    | some fac => some (.ok (pySort fac pairLe))

/-- factorization.py:79-87, 120: `factor(n, skip_power_detection=False)` for `n ≥ 1`. -/
def factorPow (T : List Nat) (fct : Nat → Nat → Option Nat) (n : Int) :
    Option (Except PyErr (List (Int × Nat))) :=
  if n = 0 then some (.error .valueError)
  else
    match Classification.isPower n with
    | none => none
    | some (.error e) => some (.error e)
    | some (.ok ab) =>
      let m : Int := match ab with | some (b, _) => b | none => n
      let mult : Nat := match ab with | some (_, k) => k | none => 1
      match factor T fct m with
      | none => none
      | some (.error e) => some (.error e)
      | some (.ok l) => some (.ok (l.map (fun pe => (pe.1, pe.2 * mult))))

/-! ## factor_back, divisors, ... (factorization.py:124-348) -/

/-- factorization.py:153-156 `factor_back`. -/
def factorBack (fac : List (Int × Nat)) : Int := fac.foldl (fun pp pe => pp * pe.1 ^ pe.2) 1

/-- The tuples of `itertools.product(*(range(e + 1) for (p, e) in fac))`, in order. -/
def expTuples : List (Nat × Nat) → List (List Nat)
  | [] => [[]]
  | (_, e) :: rest => (List.range (e + 1)).flatMap (fun i => (expTuples rest).map (fun t => i :: t))

/-- factorization.py:322-325 (and 198-200): the product for one exponent tuple. -/
def tupleProd (ps : List Nat) (t : List Nat) : Nat :=
  (ps.zip t).foldl (fun prod pe => prod * pe.1 ^ pe.2) 1

/-- factorization.py:288-325 `xdivisors`, on a factorization without the `-1` entry. -/
def xdivisors (fac : List (Nat × Nat)) : List Nat :=
  (expTuples fac).map (tupleProd (fac.map Prod.fst))

/-- factorization.py:159-203 `divisors`. -/
def divisors (fac : List (Nat × Nat)) : List Nat := pySort (xdivisors fac) (· ≤ ·)

/-- factorization.py:242-246, the loop of `divisor_pairs`. -/
def pairsLoop (n : Nat) : List Nat → List (Nat × Nat)
  | [] => []
  | d :: rest => if d > n / d then [] else (d, n / d) :: pairsLoop n rest

/-- factorization.py:206-248 `divisor_pairs`, for `n ≥ 1`. -/
def divisorPairs (n : Nat) (fac : List (Nat × Nat)) : List (Nat × Nat) := pairsLoop n (divisors fac)

/-- factorization.py:251-285 `prime_divisors`. -/
def primeDivisors (fac : List (Nat × Nat)) : List Nat := fac.map Prod.fst

/-- factorization.py:328-348 `unitary_divisors`; `itertools.combinations(L, i)` lists the
sublists of length `i`. -/
def unitaryDivisors (n : Nat) (fac : List (Nat × Nat)) : List Nat :=
  let pks := fac.map (fun pe => pe.1 ^ pe.2)
  let subs := (List.range' 1 (pks.length - 1)).flatMap (fun i => pks.sublistsLen i)
  pySort ([1, n] ++ subs.map (fun s : List Nat => s.foldl (· * ·) 1)) (· ≤ ·)

end Rosemary.Factorization
