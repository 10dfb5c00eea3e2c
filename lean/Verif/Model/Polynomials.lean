import Verif.Model.Py
import Mathlib.Data.List.Basic
import Mathlib.Data.Int.Basic
import Mathlib.Algebra.Order.Ring.Int
import Mathlib.Order.Lattice

/-!
# Model of `algebra/polynomials/algorithms.py`, `algebra/polynomials/polynomials.py` and
`algebra/power_series/power_series.py`

Coefficients are Python integers.  Item updates `C[i] += c` whose index is in range by construction are
modelled with `List.modify`.  Exponents are natural numbers (with a negative exponent `a0**k` is a
float, and `power_binary` does not terminate).
-/

namespace Rosemary.Polys

/-- The loop `for (i, c) in enumerate(B): C[i] = f(C[i], c)`. -/
def intoLoop (f : Int → Int → Int) : List Int → Nat → List Int → List Int
  | C, _, [] => C
  | C, i, c :: B => intoLoop f (C.modify i (fun e => f e c)) (i + 1) B

/-- algorithms.py:150-180 `list_add`. -/
def listAdd (A B : List Int) : List Int :=
  if A.length ≥ B.length then intoLoop (· + ·) A 0 B else intoLoop (· + ·) B 0 A

/-- algorithms.py:183-213 `list_subtract`. -/
def listSubtract (A B : List Int) : List Int :=
  if A.length ≥ B.length then intoLoop (· - ·) A 0 B else intoLoop (· + ·) (B.map (fun e => -e)) 0 A

/-- algorithms.py:37-38, the inner loop: `j` runs along `N`. -/
def mulRow (P : List Int) (i : Nat) (x : Int) : Nat → List Int → List Int
  | _, [] => P
  | j, y :: N => mulRow (P.modify (i + j) (fun e => e + x * y)) i x (j + 1) N

/-- algorithms.py:36-38, the outer loop: `i` runs along `M`. -/
def mulRows (N : List Int) : List Int → Nat → List Int → List Int
  | P, _, [] => P
  | P, i, x :: M => mulRows N (mulRow P i x 0 N) (i + 1) M

/-- algorithms.py:4-39 `mul_classical`. -/
def mulClassical (M N : List Int) : List Int :=
  if M.length = 0 ∨ N.length = 0 then []
  else mulRows N (List.replicate (M.length + N.length - 1) 0) 0 M

theorem length_intoLoop (f : Int → Int → Int) (C : List Int) (i : Nat) (B : List Int) :
    (intoLoop f C i B).length = C.length := by
  induction B generalizing C i with
  | nil => rfl
  | cons c B ih => rw [intoLoop, ih, List.length_modify]

theorem length_listAdd (A B : List Int) : (listAdd A B).length = max A.length B.length := by
  unfold listAdd
  split <;> rw [length_intoLoop] <;> omega

/-- algorithms.py:42-102 `mul_karatsuba`; `kthresh = 30`. -/
def mulKaratsuba (M N : List Int) : List Int :=
  if _h : M.length < 30 ∨ N.length < 30 then mulClassical M N
  else
    let k := max M.length N.length / 2
    let f0 := M.take k
    let f1 := M.drop k
    let g0 := N.take k
    let g1 := N.drop k
    let z0 := mulKaratsuba f0 g0
    let z2 := mulKaratsuba f1 g1
    let xxyy := mulKaratsuba (listAdd f1 f0) (listAdd g1 g0)
    let z1 := listSubtract (listSubtract xxyy z2) z0
    let t2 := List.replicate (2 * k) 0 ++ z2
    let t1 := List.replicate k 0 ++ z1
    listAdd (listAdd t2 t1) z0
termination_by M.length + N.length
decreasing_by
  all_goals
    simp only [length_listAdd, List.length_take, List.length_drop]
    omega

/-- algorithms.py:132-134: the index of the first nonzero coefficient. -/
def lowest : List Int → Except PyErr Nat
  | [] => .error .indexError
  | a :: A =>
    if a = 0 then
      match lowest A with
      | .error e => .error e
      | .ok s => .ok (s + 1)
    else .ok 0

/-- algorithms.py:143-145 (and power_series.py:70-72): `j` runs from 1 to `top - 1`. -/
def jcpSum (B P : List Int) (k i top : Nat) : Int :=
  ((List.range' 1 (top - 1)).map
    (fun j => B.getD j 0 * ((k + 1) * j - i) * P.getD (i - j) 0)).sum

/-- algorithms.py:142-146. -/
def jcpLoop (B : List Int) (k : Nat) (a0 : Int) : List Nat → List Int → Except PyErr (List Int)
  | [], P => .ok P
  | i :: is, P =>
    if (i : Int) * a0 = 0 then .error .zeroDivisionError
    else jcpLoop B k a0 is
      (P.set i (Int.fdiv (jcpSum B P k i (min B.length (i + 1))) (i * a0)))

/-- algorithms.py:105-147 `power_jcp`. -/
def powerJcp (A : List Int) (k : Nat) : Except PyErr (List Int) :=
  match lowest A with
  | .error e => .error e
  | .ok shift =>
    let B := A.drop shift
    let newDeg := (B.length - 1) * k + 1
    let a0 := B.getD 0 0
    match jcpLoop B k a0 (List.range' 1 (newDeg - 1)) ((List.replicate newDeg 0).set 0 (a0 ^ k)) with
    | .error e => .error e
    | .ok P => .ok (List.replicate (shift * k) 0 ++ P)

/-! ## Power series -/

/-- power_series.py:69-73. -/
def psPowerLoop (A : List Int) (k : Nat) (a0 : Int) : List Nat → List Int → Except PyErr (List Int)
  | [], P => .ok P
  | i :: is, P =>
    if (i : Int) * a0 = 0 then .error .zeroDivisionError
    else psPowerLoop A k a0 is (P.set i (Int.fdiv (jcpSum A P k i (i + 1)) (i * a0)))

/-- power_series.py:58-74 `ps_power`. -/
def psPower (A : List Int) (k : Nat) : Except PyErr (List Int) :=
  match A with
  | [] => .error .indexError
  | a0 :: _ =>
    psPowerLoop A k a0 (List.range' 1 (A.length - 1)) ((List.replicate A.length 0).set 0 (a0 ^ k))

/-- power_series.py:50-54; `i` runs from 0 to `k`. -/
def psInvertLoop (A : List Int) (a0 : Int) : List Nat → List Int → List Int
  | [], B => B
  | k :: ks, B =>
    let ss := ((List.range (k + 1)).map (fun i => A.getD i 0 * B.getD (k - i) 0)).sum
    psInvertLoop A a0 ks (B.set k (Int.fdiv (-ss) a0))

/-- power_series.py:39-55 `ps_invert`. -/
def psInvert (A : List Int) : Except PyErr (List Int) :=
  match A with
  | [] => .error .indexError
  | a0 :: _ =>
    if a0 = 0 then .error .zeroDivisionError
    else .ok (psInvertLoop A a0 (List.range' 1 (A.length - 1))
      ((List.replicate A.length 0).set 0 (Int.fdiv 1 a0)))

/-- power_series.py:77-84 `ps_mult_classical`; `[0] * (-1)` is the empty list. -/
def psMultClassical (M N : List Int) : List Int :=
  mulRows N (List.replicate (M.length + N.length - 1) 0) 0 M

/-- `itertools.zip_longest` of three lists with `fillvalue=0`. -/
def zipLongest3 (A B C : List Int) : List (Int × Int × Int) :=
  (List.range (max A.length (max B.length C.length))).map
    (fun i => (A.getD i 0, B.getD i 0, C.getD i 0))

/-- `[sum(e) for e in itertools.zip_longest(A, B, fillvalue=0)]`. -/
def zipSum (A B : List Int) : List Int :=
  (List.range (max A.length B.length)).map (fun i => A.getD i 0 + B.getD i 0)

/-- power_series.py:87-119 `ps_mult_karatsuba`; `none` stands for unbounded recursion. -/
def psMultKaratsuba (M N : List Int) (kthresh : Int) : Option (List Int) :=
  if (M.length : Int) < kthresh ∨ (N.length : Int) < kthresh then some (psMultClassical M N)
  else
    let k := max M.length N.length / 2
    do
      let z0 ← psMultKaratsuba (M.take k) (N.take k) kthresh
      let z2 ← psMultKaratsuba (M.drop k) (N.drop k) kthresh
      let xxyy ← psMultKaratsuba (zipSum (M.drop k) (M.take k)) (zipSum (N.drop k) (N.take k)) kthresh
      let z1 := (zipLongest3 xxyy z2 z0).map (fun e => e.1 - e.2.1 - e.2.2)
      let t2 := List.replicate (2 * k) 0 ++ z2
      let t1 := List.replicate k 0 ++ z1
      some ((zipLongest3 t2 t1 z0).map (fun e => e.1 + e.2.1 + e.2.2))
partial_fixpoint

/-- power_series.py:30-36: the loop over `zip(exps(), cycle((-1, -1, 1, 1)))`.  One step treats the two
terms of `n`; the sign is -1 for odd `n`. -/
def etaLoop (prec : Nat) (n : Nat) (L : List Int) : List Int :=
  let sign : Int := if n % 2 = 1 then -1 else 1
  if n * (3 * n - 1) / 2 ≥ prec then L
  else
    let L := L.set (n * (3 * n - 1) / 2) sign
    if n * (3 * n + 1) / 2 ≥ prec then L
    else if h : n < prec then etaLoop prec (n + 1) (L.set (n * (3 * n + 1) / 2) sign) else L
termination_by prec - n

/-- power_series.py:15-36 `eta_series`.  The guard `n < prec` in `etaLoop` always holds there, it only
makes the recursion well founded. -/
def etaSeries (prec : Nat) : Except PyErr (List Int) :=
  if prec = 0 then .error .indexError
  else .ok (etaLoop prec 1 ((List.replicate prec 0).set 0 1))

/-- power_series.py:9-12 `delta_series`. -/
def deltaSeries (n : Nat) : Except PyErr (List Int) :=
  match etaSeries n with
  | .error e => .error e
  | .ok eta => psPower eta 24

/-! ## The class `Polynomial`

An object is its list `_coefficients`; `degree` is its length minus one and `lead_coeff` its last
entry (polynomials.py:55-63).  The variable name is not modelled, and `PolyZZ`, `PolyQQ` only differ
from `Polynomial` by the methods of `PolyZZ` below. -/

/-- polynomials.py:45-47: drop trailing zeros while more than one coefficient is left. -/
def popZeros (coeffs : List Int) : List Int :=
  if h : coeffs.length > 1 ∧ coeffs.getD (coeffs.length - 1) 0 = 0 then popZeros coeffs.dropLast
  else coeffs
termination_by coeffs.length
decreasing_by rw [List.length_dropLast]; omega

/-- polynomials.py:38-47 `Polynomial(L)` for a list or tuple. -/
def mk (L : List Int) : List Int := if L.length = 0 then [0] else popZeros L

/-- polynomials.py:48-54 `Polynomial(L)` for a number. -/
def mkScalar (c : Int) : List Int := [c]

/-- polynomials.py:49-51 `Polynomial()`. -/
def mkX : List Int := [0, 1]

/-- polynomials.py:104-121 `__add__`, both operands polynomials. -/
def add (f g : List Int) : List Int := mk (listAdd f g)

/-- polynomials.py:110-114 and 123-130 `__add__` and `__radd__` with a number. -/
def addScalar (f : List Int) (c : Int) : List Int := add f (mkScalar c)

/-- polynomials.py:132-141 `__neg__`. -/
def neg (f : List Int) : List Int := mk (f.map (fun e => -e))

/-- polynomials.py:143-160 `__sub__`, both operands polynomials. -/
def sub (f g : List Int) : List Int := mk (listSubtract f g)

/-- polynomials.py:149-153 `__sub__` with a number on the right. -/
def subScalar (f : List Int) (c : Int) : List Int := add f (mkScalar c)

/-- polynomials.py:162-169 `__rsub__`, a number on the left. -/
def rsubScalar (c : Int) (f : List Int) : List Int := addScalar (neg f) c

/-- polynomials.py:171-190 `__mul__`, both operands polynomials. -/
def mul (f g : List Int) : List Int := mk (mulKaratsuba f g)

/-- polynomials.py:179-183 and 192-199 `__mul__` and `__rmul__` with a number. -/
def mulScalar (f : List Int) (c : Int) : List Int := mk (f.map (fun e => c * e))

/-- polynomials.py:201-211 `__pow__`. -/
def pow (f : List Int) (k : Nat) : Except PyErr (List Int) :=
  match powerJcp f k with
  | .error e => .error e
  | .ok L => .ok (mk L)

/-- polynomials.py:220-235 `__eq__`, both operands polynomials. -/
def eq (f g : List Int) : Bool := f == g

/-- polynomials.py:254-263 `__call__`. -/
def call (f : List Int) (x : Int) : Int := f.reverse.foldl (fun value coeff => value * x + coeff) 0

/-- polynomials.py:288-294. -/
def powerBinaryLoop (z y : List Int) (k : Nat) : List Int :=
  let y := if k % 2 = 1 then mul z y else y
  if _h : k / 2 = 0 then y else powerBinaryLoop (mul z z) y (k / 2)
termination_by k

/-- polynomials.py:276-294 `power_binary`. -/
def powerBinary (f : List Int) (k : Nat) : List Int :=
  if k = 0 then mk [1] else powerBinaryLoop f (mk [1]) k

/-- polynomials.py:329-333: `js` are the values of `j` left. -/
def pseudoRow (v : List Int) (n k : Nat) : List Nat → List Int → List Int
  | [], u => u
  | j :: js, u =>
    if j < k then pseudoRow v n k js (u.set j (v.getD n 0 * u.getD j 0))
    else pseudoRow v n k js (u.set j (v.getD n 0 * u.getD j 0 - u.getD (n + k) 0 * v.getD (j - k) 0))

/-- polynomials.py:327-333: `ks` are the values of `k` left. -/
def pseudoLoop (v : List Int) (n : Nat) : List Nat → List Int → List Int → List Int × List Int
  | [], q, u => (q, u)
  | k :: ks, q, u =>
    pseudoLoop v n ks (q.set k (u.getD (n + k) 0 * v.getD n 0 ^ k))
      (pseudoRow v n k (List.range (n + k)).reverse u)

/-- polynomials.py:296-336 `pseudo_quo_rem`. -/
def pseudoQuoRem (u v : List Int) : List Int × List Int :=
  let m := u.length - 1
  let n := v.length - 1
  if m < n then (mk [0], u)
  else
    let r := pseudoLoop v n (List.range (m - n + 1)).reverse (List.replicate (m - n + 1) 0) u
    (mk r.1, mk (r.2.take n))

/-- polynomials.py:368-369. -/
def quoRow (qi : Int) (i : Nat) : List Int → Nat → List Int → List Int
  | r, _, [] => r
  | r, j, bj :: b => quoRow qi i (r.modify (i + j) (fun e => e - qi * bj)) (j + 1) b

/-- polynomials.py:366-369. -/
def quoLoop (b : List Int) (lc : Int) : List Nat → List Int → List Int → List Int × List Int
  | [], q, r => (q, r)
  | i :: is, q, r =>
    let qi := Int.fdiv (r.getD (i + b.length - 1) 0) lc
    quoLoop b lc is (q.set i qi) (quoRow qi i r 0 b)

/-- polynomials.py:338-372 `quo_rem`. -/
def quoRem (a b : List Int) : Except PyErr (List Int × List Int) :=
  let k := a.length
  let l := b.length
  if k < l then .ok (mk [0], mk a)
  else
    let lc := b.getD (l - 1) 0
    if lc = 0 then .error .zeroDivisionError
    else if Int.fmod (a.getD (k - 1) 0) lc ≠ 0 then .error .valueError
    else
      let r := quoLoop b lc (List.range (k - l + 1)).reverse (List.replicate (k - l + 1) 0) a
      .ok (mk r.1, mk r.2)

end Rosemary.Polys
