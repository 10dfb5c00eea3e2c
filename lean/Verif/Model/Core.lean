import Verif.Model.Py
import Mathlib.Data.Nat.Size
import Mathlib.Data.Nat.Sqrt
import Mathlib.Data.Nat.Bitwise
import Mathlib.Tactic.Linarith
import Mathlib.Tactic.Ring
import Mathlib.Tactic.NormNum

/-!
# Model of `rosemary/number_theory/core.py`

Python `//` and `%` are floor division: `Int.fdiv` and `Int.fmod`; on values the code has
already made nonnegative we use `Nat` division, which agrees.
-/

namespace Rosemary.Core

/-! ## gcd, gcd_list (core.py:6-67) -/

/-- core.py:36-38, `while y: x, y = y, x % y; return x`. -/
def gcdLoop (x y : Nat) : Nat :=
  if h : y = 0 then x else gcdLoop y (x % y)
termination_by y
decreasing_by exact Nat.mod_lt _ (Nat.pos_of_ne_zero h)

/-- core.py:6-38 `gcd`. -/
def gcd (x y : Int) : Int :=
  let x := x.natAbs
  let y := y.natAbs
  if x < y then gcdLoop y x else gcdLoop x y

/-- core.py:41-67 `gcd_list`; an empty list fails at `L[0]` (core.py:64). -/
def gcdList : List Int → Except PyErr Int
  | [] => .error .indexError
  | [a] => .ok a
  | a :: b :: rest => .ok (rest.foldl gcd (gcd a b))

/-! ## ext_gcd (core.py:70-122) -/

/-- core.py:114-116, the loop on `(a, b, d, u, v, w)`; `d` and `w` are nonnegative. -/
def extGcdLoop (a b : Int) (d : Nat) (u v : Int) (w : Nat) : Int × Int × Nat :=
  if h : w = 0 then (a, b, d)
  else
    let q : Nat := d / w
    extGcdLoop u v w (a - q * u) (b - q * v) (d - q * w)
termination_by w
decreasing_by
  have hw : 0 < w := Nat.pos_of_ne_zero h
  have := Nat.div_add_mod d w
  have h2 := Nat.mod_lt d hw
  have h3 : d - d / w * w = d % w := by
    have : d / w * w = w * (d / w) := Nat.mul_comm _ _
    omega
  omega

/-- core.py:107-108, `1 if x >= 0 else -1`. -/
def pySign (x : Int) : Int := if x ≥ 0 then 1 else -1

/-- core.py:70-122 `ext_gcd`, returning `(a, b, d)`. -/
def extGcd (x0 y0 : Int) : Int × Int × Int :=
  let switch : Bool := decide (x0 < y0)
  let x := if switch then y0 else x0
  let y := if switch then x0 else y0
  let signX := pySign x
  let signY := pySign y
  let r := extGcdLoop 1 0 x.natAbs 0 1 y.natAbs
  let a := r.1
  let b := r.2.1
  let d := r.2.2
  if switch then (signY * b, signX * a, d)
  else (signX * a, signY * b, d)

/-! ## lcm, lcm_list (core.py:125-185) -/

/-- core.py:125-156 `lcm`. -/
def lcm (x y : Int) : Int :=
  if x * y = 0 then 0
  else
    let x : Int := x.natAbs
    let y : Int := y.natAbs
    (x * y).fdiv (gcd x y)

/-- core.py:159-185 `lcm_list`; an empty list fails at `L[0]` (core.py:182). -/
def lcmList : List Int → Except PyErr Int
  | [] => .error .indexError
  | [a] => .ok a
  | a :: b :: rest => .ok (rest.foldl lcm (lcm a b))

/-! ## power_mod (core.py:188-241) -/

/-- core.py:234-241, the binary exponentiation loop. -/
def powerModLoop (m a t k : Nat) : Nat :=
  if h : k = 0 then t
  else powerModLoop m (a * a % m) (if k % 2 = 1 then a * t % m else t) (k / 2)
termination_by k
decreasing_by omega

/-- core.py:188-241 `power_mod`. -/
def powerMod (a k m : Int) : Except PyErr Int :=
  if a < 0 then .error .valueError
  else if k < 0 then .error .valueError
  else if m < 1 then .error .valueError
  else if a.fmod m = 0 then .ok 0
  else if k = 0 then .ok 1
  else .ok (powerModLoop m.toNat (a.fmod m).toNat 1 k.toNat : Nat)

/-! ## inverse_mod (core.py:244-288) -/

/-- core.py:244-288 `inverse_mod`. -/
def inverseMod (a m : Int) : Except PyErr Int :=
  if m < 2 then .error .valueError
  else
    let r := extGcd a m
    if r.2.2 ≠ 1 then .error .valueError
    else .ok (r.1.fmod m)

/-! ## bit_count (core.py:291-333) -/

theorem land_pred_lt {n : Nat} (h : n ≠ 0) : n &&& (n - 1) < n :=
  lt_of_le_of_lt Nat.and_le_right (by omega)

/-- core.py:329-331, `while n: n = n & (n - 1); count += 1`. -/
def bitCountLoop (n count : Nat) : Nat :=
  if h : n = 0 then count else bitCountLoop (n &&& (n - 1)) (count + 1)
termination_by n
decreasing_by exact land_pred_lt h

/-- core.py:291-333 `bit_count`. -/
def bitCount (n : Int) : Nat := bitCountLoop n.natAbs 0

/-! ## integer_log (core.py:336-410) -/

/-- core.py:392-395, the doubling phase; returns `(lo, hi)`.  The initial value passed
for `lo` is never observed because the loop body runs at least once (`n >= b`). -/
def logUp (n p lo hi : Nat) (hp : 2 ≤ p) : Nat × Nat :=
  if h : p ≤ n then logUp n (p * p) hi (2 * hi) (by nlinarith) else (lo, hi)
termination_by n + 1 - p
decreasing_by
  have : p < p * p := by nlinarith
  omega

/-- core.py:399-410, the bisection phase. -/
def logBisect (b n lo hi : Nat) : Nat :=
  if h : hi - lo > 1 then
    let mid := (lo + hi) / 2
    let power := b ^ mid
    if power > n then logBisect b n lo mid
    else if power < n then logBisect b n mid hi
    else mid
  else lo
termination_by hi - lo
decreasing_by all_goals omega

/-- core.py:336-410 `integer_log`.  `n.bit_length() - 1` is `Nat.size n - 1`. -/
def integerLog (b n : Int) : Except PyErr Nat :=
  if hb : b ≤ 1 then .error .valueError
  else if n ≤ 0 then .error .valueError
  else if n < b then .ok 0
  else if b = 2 then .ok (n.toNat.size - 1)
  else
    let r := logUp n.toNat b.toNat 0 1 (by omega)
    .ok (logBisect b.toNat n.toNat r.1 r.2)

/-! ## integer_sqrt (core.py:485-541) -/

/-- Correctly rounded (ties to even) conversion of a nonnegative integer to binary64,
for integers in the normal range; the result is again an integer. -/
def roundToDouble (n : Nat) : Nat :=
  let e := n.size - 53
  let q := n / 2 ^ e
  let r := n % 2 ^ e
  let q' := if 2 * r < 2 ^ e then q
            else if 2 * r > 2 ^ e then q + 1
            else if q % 2 = 0 then q else q + 1
  q' * 2 ^ e

/-- Nearest integer to `sqrt N` (no ties are possible). -/
def roundSqrt (N : Nat) : Nat :=
  let r := N.sqrt
  if N - r * r > r then r + 1 else r

/-- core.py:529, `int(n**(0.5))` for `0 < n ≤ 2^60`: convert `n` to binary64, take the
correctly rounded binary64 square root, truncate.  With `b` the bit length of the integer
part of the root, the 53-bit significand is the nearest integer to `sqrt(x) * 2^(53-b)`. -/
def floatSqrtInt (n : Nat) : Nat :=
  let x := roundToDouble n
  let k := 53 - x.sqrt.size
  roundSqrt (x * 4 ^ k) / 2 ^ k

/-- core.py:535-541, Newton's method. -/
def newtonLoop (n x : Nat) : Nat :=
  let y := (x + n / x) / 2
  if _h : y ≥ x then x else newtonLoop n y
termination_by x
decreasing_by omega

/-- core.py:485-541 `integer_sqrt`. -/
def integerSqrt (n : Int) : Except PyErr Nat :=
  if n < 0 then .error .valueError
  else if n = 0 ∨ n = 1 then .ok n.toNat
  else if n ≤ 2 ^ 60 then .ok (floatSqrtInt n.toNat)
  else .ok (newtonLoop n.toNat (2 ^ (n.toNat.size / 2 + 1)))

/-! ## integer_nth_root (core.py:413-482) -/

/-- core.py:473-482, Halley's method. -/
def halleyLoop (n m x : Nat) : Nat :=
  let xn := x ^ n
  let num := (n - 1) * xn + (n + 1) * m
  let den := num + 2 * xn - 2 * m
  let y := x * num / den
  if _h : y ≥ x then x else halleyLoop n m y
termination_by x
decreasing_by exact Nat.lt_of_not_ge _h

/-- core.py:413-482 `integer_nth_root`. -/
def integerNthRoot (n m : Int) : Except PyErr Nat :=
  if m < 0 then .error .valueError
  else if n < 1 then .error .valueError
  else if n = 1 then .ok m.toNat
  else if n = 2 then integerSqrt m
  else if m = 0 ∨ m = 1 then .ok m.toNat
  else
    let bits := m.toNat.size
    if n.toNat ≥ bits then .ok 1
    else .ok (halleyLoop n.toNat m.toNat (2 ^ (bits / n.toNat + 1)))

/-! ## chinese (core.py:544-595) -/

/-- core.py:585-595, the loop over the remaining congruences.  `x % m` with `m = 0`
raises `ZeroDivisionError`. -/
def chineseLoop (x m : Int) : List (Int × Int) → Except PyErr Int
  | [] => .ok x
  | (xi, mi) :: rest =>
    let r := extGcd m mi
    if r.2.2 ≠ 1 then .error .valueError
    else
      let x' := r.1 * m * xi + r.2.1 * mi * x
      let m' := m * mi
      if m' = 0 then .error .zeroDivisionError
      else chineseLoop (x'.fmod m') m' rest

/-- core.py:544-595 `chinese`. -/
def chinese : List (Int × Int) → Except PyErr Int
  | [] => .error .indexError
  | (x, m) :: rest => chineseLoop x m rest

/-! ## crt_preconditioning_data, chinese_preconditioned (core.py:598-699) -/

/-- core.py:639-641: from the previous partial product and modulus, the lists of later
partial products and inverses, and the final product (core.py:643). -/
def crtLoop (pp m : Int) : List Int → Except PyErr (List Int × List Int × Int)
  | [] => .ok ([], [], pp * m)
  | mi :: rest =>
    let pp' := pp * m
    match inverseMod pp' mi with
    | .error e => .error e
    | .ok inv =>
      match crtLoop pp' mi rest with
      | .error e => .error e
      | .ok (pps, invs, prod) => .ok (pp' :: pps, inv :: invs, prod)

/-- The tuple `(r, moduli, partial_products, inverse_list, product)` of core.py:644. -/
structure CrtData where
  r : Nat
  moduli : List Int
  partialProducts : List Int
  inverseList : List Int
  product : Int
  deriving DecidableEq

/-- core.py:598-645 `crt_preconditioning_data`; with no moduli `partial_products[-1]`
raises `IndexError`. -/
def crtPreconditioningData : List Int → Except PyErr CrtData
  | [] => .error .indexError
  | m :: rest =>
    match crtLoop 1 m rest with
    | .error e => .error e
    | .ok (pps, invs, prod) =>
      .ok ⟨rest.length + 1, m :: rest, 1 :: pps, 1 :: invs, prod⟩

/-- core.py:696-698, the Garner loop for indices `1 .. r-1`, run over the four lists in
parallel.  Running out of residues before `r` raises `IndexError`. -/
def garnerLoop (x : Int) : List Int → List Int → List Int → List Int → Except PyErr Int
  | res, mi :: ms, inv :: invs, pp :: pps =>
    match res with
    | [] => .error .indexError
    | a :: res' => garnerLoop (x + ((a - x) * inv).fmod mi * pp) res' ms invs pps
  | _, _, _, _ => .ok x

/-- core.py:648-699 `chinese_preconditioned`. -/
def chinesePreconditioned (congruences : List (Int × Int)) (data : CrtData) :
    Except PyErr Int :=
  match congruences.map Prod.fst with
  | [] => .error .indexError
  | a :: res =>
    match garnerLoop a res data.moduli.tail data.inverseList.tail data.partialProducts.tail with
    | .error e => .error e
    | .ok x => if data.product = 0 then .error .zeroDivisionError else .ok (x.fmod data.product)

/-! ## jacobi_symbol (core.py:702-768)

Modelled for `m ≥ 0` (the documented domain is odd `m > 0`). -/

/-- core.py:754-757: strip factors of two from `a > 0`, flipping `t`; returns `(a, t)`. -/
def jacobiStrip (m a : Nat) (t : Int) : Nat × Int :=
  if _h : a ≠ 0 ∧ a % 2 = 0 then
    jacobiStrip m (a / 2) (if m % 8 = 3 ∨ m % 8 = 5 then -t else t)
  else (a, t)
termination_by a
decreasing_by omega

theorem jacobiStrip_le (m a : Nat) (t : Int) : (jacobiStrip m a t).1 ≤ a := by
  fun_induction jacobiStrip m a t with
  | case1 a t h ih => simp only [dite_eq_ite] at ih; omega
  | case2 a t h => exact le_refl _

theorem jacobiStrip_pos (m a : Nat) (t : Int) (ha : 0 < a) : 0 < (jacobiStrip m a t).1 := by
  fun_induction jacobiStrip m a t with
  | case1 a t h ih => apply ih; omega
  | case2 a t h => exact ha

/-- core.py:753-768, the main loop on `(a, m, t)`. -/
def jacobiLoop (a m : Nat) (t : Int) : Int :=
  if h : a = 0 then (if m = 1 then t else 0)
  else
    let s := jacobiStrip m a t
    let t' := if m % 4 = 3 ∧ s.1 % 4 = 3 then -s.2 else s.2
    jacobiLoop (m % s.1) s.1 t'
termination_by a
decreasing_by
  have h1 := jacobiStrip_le m a t
  have h2 := jacobiStrip_pos m a t (Nat.pos_of_ne_zero h)
  exact lt_of_lt_of_le (Nat.mod_lt _ h2) h1

/-- core.py:702-768 `jacobi_symbol`. -/
def jacobiSymbol (a : Int) (m : Nat) : Except PyErr Int :=
  if m % 2 = 0 then .error .valueError
  else .ok (jacobiLoop (a.fmod m).toNat m 1)

/-! ## valuation (core.py:771-817)

Modelled for `p ≥ 2`. -/

/-- core.py:802-805, the doubling phase; returns `(lo, hi)`. -/
def valUp (n pk lo hi : Nat) (hn : 0 < n) (hp : 2 ≤ pk) : Nat × Nat :=
  if h : n % pk = 0 then valUp n (pk * pk) hi (2 * hi) hn (by nlinarith) else (lo, hi)
termination_by n + 1 - pk
decreasing_by
  have h1 : pk ≤ n := Nat.le_of_dvd hn (Nat.dvd_of_mod_eq_zero h)
  have : pk < pk * pk := by nlinarith
  omega

/-- core.py:809-817, the bisection phase. -/
def valBisect (p n lo hi : Nat) : Nat :=
  if h : hi - lo > 1 then
    let mid := (lo + hi) / 2
    if n % p ^ mid = 0 then valBisect p n mid hi else valBisect p n lo mid
  else lo
termination_by hi - lo
decreasing_by all_goals omega

/-- core.py:771-817 `valuation`, for `p ≥ 2`. -/
def valuation (p : Nat) (n : Int) (hp : 2 ≤ p) : Nat :=
  if h : n.fmod p ≠ 0 ∨ (p : Int) > n then 0
  else
    let r := valUp n.natAbs p 0 1 (by omega) hp
    valBisect p n.natAbs r.1 r.2

end Rosemary.Core
