import Verif.Model.Py
import Mathlib.Data.Rat.Floor
import Mathlib.Data.List.Basic
import Mathlib.Order.Lattice

/-!
# Polynomials with rational coefficients (`PolyQQ`)

The code of `algebra/polynomials/algorithms.py` and `algebra/polynomials/polynomials.py` run on
`fractions.Fraction`; the class `PolyQQ` (polynomials.py:439-440) has no code of its own.  The
definitions are those of `Model/Polynomials.lean` over the rational numbers, with Python's `//` and `%`
of fractions.
-/

namespace Rosemary.RatPolys

/-- `a // b` for fractions, `b ≠ 0`: an integer. -/
def floorDiv (a b : ℚ) : ℚ := (⌊a / b⌋ : ℤ)

/-- `a % b` for fractions, `b ≠ 0`. -/
def floorMod (a b : ℚ) : ℚ := a - b * floorDiv a b

/-- The loop `for (i, c) in enumerate(B): C[i] = f(C[i], c)`. -/
def intoLoop (f : ℚ → ℚ → ℚ) : List ℚ → ℕ → List ℚ → List ℚ
  | C, _, [] => C
  | C, i, c :: B => intoLoop f (C.modify i (fun e => f e c)) (i + 1) B

/-- algorithms.py:150-180 `list_add`. -/
def listAdd (A B : List ℚ) : List ℚ :=
  if A.length ≥ B.length then intoLoop (· + ·) A 0 B else intoLoop (· + ·) B 0 A

/-- algorithms.py:183-213 `list_subtract`. -/
def listSubtract (A B : List ℚ) : List ℚ :=
  if A.length ≥ B.length then intoLoop (· - ·) A 0 B else intoLoop (· + ·) (B.map (fun e => -e)) 0 A

/-- algorithms.py:37-38, the inner loop: `j` runs along `N`. -/
def mulRow (P : List ℚ) (i : ℕ) (x : ℚ) : ℕ → List ℚ → List ℚ
  | _, [] => P
  | j, y :: N => mulRow (P.modify (i + j) (fun e => e + x * y)) i x (j + 1) N

/-- algorithms.py:36-38, the outer loop: `i` runs along `M`. -/
def mulRows (N : List ℚ) : List ℚ → ℕ → List ℚ → List ℚ
  | P, _, [] => P
  | P, i, x :: M => mulRows N (mulRow P i x 0 N) (i + 1) M

/-- algorithms.py:4-39 `mul_classical`. -/
def mulClassical (M N : List ℚ) : List ℚ :=
  if M.length = 0 ∨ N.length = 0 then []
  else mulRows N (List.replicate (M.length + N.length - 1) 0) 0 M

theorem length_intoLoop (f : ℚ → ℚ → ℚ) (C : List ℚ) (i : ℕ) (B : List ℚ) :
    (intoLoop f C i B).length = C.length := by
  induction B generalizing C i with
  | nil => rfl
  | cons c B ih => rw [intoLoop, ih, List.length_modify]

theorem length_listAdd (A B : List ℚ) : (listAdd A B).length = max A.length B.length := by
  unfold listAdd
  split <;> rw [length_intoLoop] <;> omega

/-- algorithms.py:42-102 `mul_karatsuba`; `kthresh = 30`. -/
def mulKaratsuba (M N : List ℚ) : List ℚ :=
  if _h : M.length < 30 ∨ N.length < 30 then mulClassical M N
  else
    let k := max M.length N.length / 2
    let f0 := M.take k
    let f1 := M.drop k
    let g0 := N.take k
    let g1 := N.drop k
    let z0 := mulKaratsuba f0 g0
    let z2 := mulKaratsuba f1 g1
    let xxyy := mulKaratsuba (listAdd f1 f0) (listAdd g1 g0)
    let z1 := listSubtract (listSubtract xxyy z2) z0
    let t2 := List.replicate (2 * k) 0 ++ z2
    let t1 := List.replicate k 0 ++ z1
    listAdd (listAdd t2 t1) z0
termination_by M.length + N.length
decreasing_by
  all_goals
    simp only [length_listAdd, List.length_take, List.length_drop]
    omega

/-- algorithms.py:132-134: the index of the first nonzero coefficient. -/
def lowest : List ℚ → Except PyErr ℕ
  | [] => .error .indexError
  | a :: A =>
    if a = 0 then
      match lowest A with
      | .error e => .error e
      | .ok s => .ok (s + 1)
    else .ok 0

/-- algorithms.py:143-145 (and power_series.py:70-72): `j` runs from 1 to `top - 1`. -/
def jcpSum (B P : List ℚ) (k i top : ℕ) : ℚ :=
  ((List.range' 1 (top - 1)).map
    (fun j => B.getD j 0 * (((k : ℚ) + 1) * j - i) * P.getD (i - j) 0)).sum

/-- algorithms.py:142-146. -/
def jcpLoop (B : List ℚ) (k : ℕ) (a0 : ℚ) : List ℕ → List ℚ → Except PyErr (List ℚ)
  | [], P => .ok P
  | i :: is, P =>
    if (i : ℚ) * a0 = 0 then .error .zeroDivisionError
    else jcpLoop B k a0 is
      (P.set i (floorDiv (jcpSum B P k i (min B.length (i + 1))) (i * a0)))

/-- algorithms.py:105-147 `power_jcp`. -/
def powerJcp (A : List ℚ) (k : ℕ) : Except PyErr (List ℚ) :=
  match lowest A with
  | .error e => .error e
  | .ok shift =>
    let B := A.drop shift
    let newDeg := (B.length - 1) * k + 1
    let a0 := B.getD 0 0
    match jcpLoop B k a0 (List.range' 1 (newDeg - 1)) ((List.replicate newDeg 0).set 0 (a0 ^ k)) with
    | .error e => .error e
    | .ok P => .ok (List.replicate (shift * k) 0 ++ P)

/-! ## The class `Polynomial`

An object is its list `_coefficients`. -/

/-- polynomials.py:45-47: drop trailing zeros while more than one coefficient is left. -/
def popZeros (coeffs : List ℚ) : List ℚ :=
  if h : coeffs.length > 1 ∧ coeffs.getD (coeffs.length - 1) 0 = 0 then popZeros coeffs.dropLast
  else coeffs
termination_by coeffs.length
decreasing_by rw [List.length_dropLast]; omega

/-- polynomials.py:38-47 `Polynomial(L)` for a list or tuple. -/
def mk (L : List ℚ) : List ℚ := if L.length = 0 then [0] else popZeros L

/-- polynomials.py:48-54 `Polynomial(L)` for a number. -/
def mkScalar (c : ℚ) : List ℚ := [c]

/-- polynomials.py:49-51 `Polynomial()`. -/
def mkX : List ℚ := [0, 1]

/-- polynomials.py:104-121 `__add__`, both operands polynomials. -/
def add (f g : List ℚ) : List ℚ := mk (listAdd f g)

/-- polynomials.py:110-114 and 123-130 `__add__` and `__radd__` with a number. -/
def addScalar (f : List ℚ) (c : ℚ) : List ℚ := add f (mkScalar c)

/-- polynomials.py:132-141 `__neg__`. -/
def neg (f : List ℚ) : List ℚ := mk (f.map (fun e => -e))

/-- polynomials.py:143-160 `__sub__`, both operands polynomials. -/
def sub (f g : List ℚ) : List ℚ := mk (listSubtract f g)

/-- polynomials.py:149-153 `__sub__` with a number on the right. -/
def subScalar (f : List ℚ) (c : ℚ) : List ℚ := add f (mkScalar c)

/-- polynomials.py:162-169 `__rsub__`, a number on the left. -/
def rsubScalar (c : ℚ) (f : List ℚ) : List ℚ := addScalar (neg f) c

/-- polynomials.py:171-190 `__mul__`, both operands polynomials. -/
def mul (f g : List ℚ) : List ℚ := mk (mulKaratsuba f g)

/-- polynomials.py:179-183 and 192-199 `__mul__` and `__rmul__` with a number. -/
def mulScalar (f : List ℚ) (c : ℚ) : List ℚ := mk (f.map (fun e => c * e))

/-- polynomials.py:201-211 `__pow__`. -/
def pow (f : List ℚ) (k : ℕ) : Except PyErr (List ℚ) :=
  match powerJcp f k with
  | .error e => .error e
  | .ok L => .ok (mk L)

/-- polynomials.py:220-235 `__eq__`, both operands polynomials. -/
def eq (f g : List ℚ) : Bool := f == g

/-- polynomials.py:254-263 `__call__`. -/
def call (f : List ℚ) (x : ℚ) : ℚ := f.reverse.foldl (fun value coeff => value * x + coeff) 0

/-- polynomials.py:288-294. -/
def powerBinaryLoop (z y : List ℚ) (k : ℕ) : List ℚ :=
  let y := if k % 2 = 1 then mul z y else y
  if _h : k / 2 = 0 then y else powerBinaryLoop (mul z z) y (k / 2)
termination_by k

/-- polynomials.py:276-294 `power_binary`. -/
def powerBinary (f : List ℚ) (k : ℕ) : List ℚ :=
  if k = 0 then mk [1] else powerBinaryLoop f (mk [1]) k

/-- polynomials.py:329-333: `js` are the values of `j` left. -/
def pseudoRow (v : List ℚ) (n k : ℕ) : List ℕ → List ℚ → List ℚ
  | [], u => u
  | j :: js, u =>
    if j < k then pseudoRow v n k js (u.set j (v.getD n 0 * u.getD j 0))
    else pseudoRow v n k js (u.set j (v.getD n 0 * u.getD j 0 - u.getD (n + k) 0 * v.getD (j - k) 0))

/-- polynomials.py:327-333: `ks` are the values of `k` left. -/
def pseudoLoop (v : List ℚ) (n : ℕ) : List ℕ → List ℚ → List ℚ → List ℚ × List ℚ
  | [], q, u => (q, u)
  | k :: ks, q, u =>
    pseudoLoop v n ks (q.set k (u.getD (n + k) 0 * v.getD n 0 ^ k))
      (pseudoRow v n k (List.range (n + k)).reverse u)

/-- polynomials.py:296-336 `pseudo_quo_rem`. -/
def pseudoQuoRem (u v : List ℚ) : List ℚ × List ℚ :=
  let m := u.length - 1
  let n := v.length - 1
  if m < n then (mk [0], u)
  else
    let r := pseudoLoop v n (List.range (m - n + 1)).reverse (List.replicate (m - n + 1) 0) u
    (mk r.1, mk (r.2.take n))

/-- polynomials.py:368-369. -/
def quoRow (qi : ℚ) (i : ℕ) : List ℚ → ℕ → List ℚ → List ℚ
  | r, _, [] => r
  | r, j, bj :: b => quoRow qi i (r.modify (i + j) (fun e => e - qi * bj)) (j + 1) b

/-- polynomials.py:366-369. -/
def quoLoop (b : List ℚ) (lc : ℚ) : List ℕ → List ℚ → List ℚ → List ℚ × List ℚ
  | [], q, r => (q, r)
  | i :: is, q, r =>
    let qi := floorDiv (r.getD (i + b.length - 1) 0) lc
    quoLoop b lc is (q.set i qi) (quoRow qi i r 0 b)

/-- polynomials.py:338-372 `quo_rem`. -/
def quoRem (a b : List ℚ) : Except PyErr (List ℚ × List ℚ) :=
  let k := a.length
  let l := b.length
  if k < l then .ok (mk [0], mk a)
  else
    let lc := b.getD (l - 1) 0
    if lc = 0 then .error .zeroDivisionError
    else if floorMod (a.getD (k - 1) 0) lc ≠ 0 then .error .valueError
    else
      let r := quoLoop b lc (List.range (k - l + 1)).reverse (List.replicate (k - l + 1) 0) a
      .ok (mk r.1, mk r.2)

end Rosemary.RatPolys
