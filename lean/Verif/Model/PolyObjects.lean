import Verif.Model.PolyGcd

/-!
# Model of `Polynomial`, `PolyZZ` and `PolyQQ` objects with their class and variable
(`rosemary/algebra/polynomials/polynomials.py`)

Model/Polynomials.lean keeps the coefficient list of an object only.  Here an object has its class and
its variable as well, numbers may stand wherever the code accepts them, and expressions are built from
all the methods.  Coefficients and numbers are integers.  `Polynomial`, `PolyZZ` and `PolyQQ` do not
override each other's operators, so that Python asks the left operand first, and the right one only if
the left one is a number.
-/

namespace Rosemary.PolyObj

open Rosemary Rosemary.Polys

/-- polynomials.py:13, 409 and 439: the three classes. -/
inductive Cls where
  | base
  | zz
  | qq
deriving DecidableEq, Repr

/-- polynomials.py:55-63: an object; `degree` and `lead_coeff` are computed from the coefficients. -/
structure Obj where
  cls : Cls
  coeffs : List Int
  name : String
deriving DecidableEq, Repr

/-- What an expression may be: a number or an object. -/
inductive Val where
  | num (c : Int)
  | obj (f : Obj)
deriving DecidableEq, Repr

/-- polynomials.py:104-130 `__add__` and `__radd__`. -/
def addV : Val → Val → Val
  | .num a, .num b => .num (a + b)
  | .num c, .obj f => .obj ⟨f.cls, addScalar f.coeffs c, f.name⟩
  | .obj f, .num c => .obj ⟨f.cls, addScalar f.coeffs c, f.name⟩
  | .obj f, .obj g => .obj ⟨f.cls, add f.coeffs g.coeffs, f.name⟩

/-- polynomials.py:132-141 `__neg__`. -/
def negV : Val → Val
  | .num a => .num (-a)
  | .obj f => .obj ⟨f.cls, neg f.coeffs, f.name⟩

/-- polynomials.py:143-169 `__sub__` and `__rsub__`. -/
def subV : Val → Val → Val
  | .num a, .num b => .num (a - b)
  | .num c, .obj f => addV (negV (.obj f)) (.num c)
  | .obj f, .num c => .obj ⟨f.cls, subScalar f.coeffs c, f.name⟩
  | .obj f, .obj g => .obj ⟨f.cls, sub f.coeffs g.coeffs, f.name⟩

/-- polynomials.py:171-190 `__mul__` of two objects. -/
def mulO (f g : Obj) : Obj := ⟨f.cls, mul f.coeffs g.coeffs, f.name⟩

/-- polynomials.py:171-199 `__mul__` and `__rmul__`. -/
def mulV : Val → Val → Val
  | .num a, .num b => .num (a * b)
  | .num c, .obj f => .obj ⟨f.cls, mulScalar f.coeffs c, f.name⟩
  | .obj f, .num c => .obj ⟨f.cls, mulScalar f.coeffs c, f.name⟩
  | .obj f, .obj g => .obj (mulO f g)

/-- polynomials.py:201-211 `__pow__`, the exponent a natural number. -/
def powV (v : Val) (k : Nat) : Except PyErr Val :=
  match v with
  | .num a => .ok (.num (a ^ k))
  | .obj f =>
    match Polys.pow f.coeffs k with
    | .error e => .error e
    | .ok L => .ok (.obj ⟨f.cls, L, f.name⟩)

/-- polynomials.py:288-294. -/
def powerBinaryLoopO (z y : Obj) (k : Nat) : Obj :=
  let y := if k % 2 = 1 then mulO z y else y
  if _h : k / 2 = 0 then y else powerBinaryLoopO (mulO z z) y (k / 2)
termination_by k

/-- polynomials.py:276-294 `power_binary`; line 285 makes a plain `Polynomial`. -/
def powerBinaryV (v : Val) (k : Nat) : Except PyErr Val :=
  match v with
  | .num _ => .error .attributeError
  | .obj f =>
    let y : Obj := ⟨.base, mk [1], f.name⟩
    if k = 0 then .ok (.obj y) else .ok (.obj (powerBinaryLoopO f y k))

/-- polynomials.py:313-319 the coefficients of `other`, a number taken as a constant. -/
def coeffsOf : Val → List Int
  | .num c => mkScalar c
  | .obj v => v.coeffs

/-- polynomials.py:296-336 `pseudo_quo_rem`; when the divisor has the larger degree the remainder is
`self` (325). -/
def pseudoV : Val → Val → Except PyErr (Obj × Obj)
  | .num _, _ => .error .attributeError
  | .obj u, v =>
    let vc := coeffsOf v
    let r := pseudoQuoRem u.coeffs vc
    if u.coeffs.length - 1 < vc.length - 1 then .ok (⟨.base, r.1, u.name⟩, u)
    else .ok (⟨.base, r.1, u.name⟩, ⟨.base, r.2, u.name⟩)

/-- polynomials.py:338-372 `quo_rem`; for a number as divisor every exception becomes `ValueError`
(346-352). -/
def quoV : Val → Val → Except PyErr (Obj × Obj)
  | .num _, _ => .error .attributeError
  | .obj a, .num c =>
    match quoRem a.coeffs (mkScalar c) with
    | .error _ => .error .valueError
    | .ok r => .ok (⟨.base, r.1, a.name⟩, ⟨.base, r.2, a.name⟩)
  | .obj a, .obj b =>
    match quoRem a.coeffs b.coeffs with
    | .error e => .error e
    | .ok r => .ok (⟨.base, r.1, a.name⟩, ⟨.base, r.2, a.name⟩)

/-- polynomials.py:410-418 `content`, a method of `PolyZZ` alone. -/
def contentV : Val → Except PyErr Val
  | .num _ => .error .attributeError
  | .obj f =>
    match f.cls with
    | .zz =>
      match content f.coeffs with
      | .error e => .error e
      | .ok c => .ok (.num c)
    | _ => .error .attributeError

/-- polynomials.py:420-436 `primitive_part`, a method of `PolyZZ` alone. -/
def primitiveV : Val → Except PyErr Val
  | .num _ => .error .attributeError
  | .obj f =>
    match f.cls with
    | .zz =>
      match primitivePart f.coeffs with
      | .error e => .error e
      | .ok P => .ok (.obj ⟨f.cls, P, f.name⟩)
    | _ => .error .attributeError

/-- polynomials.py:213-218 `__getitem__`; negative indices count from the end. -/
def itemV (v : Val) (i : Int) : Except PyErr Val :=
  match v with
  | .num _ => .error .typeError
  | .obj f =>
    let j := if i < 0 then i + f.coeffs.length else i
    if j < 0 then .error .indexError
    else
      match f.coeffs[j.toNat]? with
      | none => .error .indexError
      | some c => .ok (.num c)

/-- polynomials.py:254-263 `__call__`; the argument may be an object too. -/
def callV : Val → Val → Except PyErr Val
  | .num _, _ => .error .typeError
  | .obj f, x => .ok (f.coeffs.reverse.foldl (fun value coeff => addV (mulV value x) (.num coeff)) (.num 0))

/-- polynomials.py:55-62: the attributes `degree` and `lead_coeff`. -/
def degree (f : Obj) : Int := (f.coeffs.length : Int) - 1

@[inherit_doc degree]
def leadCoeff (f : Obj) : Int := f.coeffs.getD (f.coeffs.length - 1) 0

/-- polynomials.py:220-235 `__eq__`; a number on the left leads to the method of the right operand. -/
def eqV : Val → Val → Bool
  | .num a, .num b => a == b
  | .num c, .obj f => mkScalar c == f.coeffs
  | .obj f, .num c => mkScalar c == f.coeffs
  | .obj f, .obj g => f.coeffs == g.coeffs

/-- Expressions a caller may write. -/
inductive Expr where
  | num (c : Int)
  | list (cls : Cls) (L : List Int) (name : String)
  | const (cls : Cls) (c : Int) (name : String)
  | var (cls : Cls) (name : String)
  | add (a b : Expr)
  | sub (a b : Expr)
  | neg (a : Expr)
  | mul (a b : Expr)
  | pow (a : Expr) (k : Nat)
  | powerBinary (a : Expr) (k : Nat)
  | call (a b : Expr)
  | pquo (a b : Expr)
  | prem (a b : Expr)
  | quo (a b : Expr)
  | rem (a b : Expr)
  | content (a : Expr)
  | primitive (a : Expr)
  | item (a : Expr) (i : Int)
deriving DecidableEq, Repr

/-- The value of an expression: operands from left to right, the first exception ends it; the
constructor is polynomials.py:38-54. -/
def evalE : Expr → Except PyErr Val
  | .num c => .ok (.num c)
  | .list cls L name => .ok (.obj ⟨cls, mk L, name⟩)
  | .const cls c name => .ok (.obj ⟨cls, mkScalar c, name⟩)
  | .var cls name => .ok (.obj ⟨cls, mkX, name⟩)
  | .add a b => do let x ← evalE a; let y ← evalE b; .ok (addV x y)
  | .sub a b => do let x ← evalE a; let y ← evalE b; .ok (subV x y)
  | .neg a => do let x ← evalE a; .ok (negV x)
  | .mul a b => do let x ← evalE a; let y ← evalE b; .ok (mulV x y)
  | .pow a k => do let x ← evalE a; powV x k
  | .powerBinary a k => do let x ← evalE a; powerBinaryV x k
  | .call a b => do let x ← evalE a; let y ← evalE b; callV x y
  | .pquo a b => do let x ← evalE a; let y ← evalE b; let r ← pseudoV x y; .ok (.obj r.1)
  | .prem a b => do let x ← evalE a; let y ← evalE b; let r ← pseudoV x y; .ok (.obj r.2)
  | .quo a b => do let x ← evalE a; let y ← evalE b; let r ← quoV x y; .ok (.obj r.1)
  | .rem a b => do let x ← evalE a; let y ← evalE b; let r ← quoV x y; .ok (.obj r.2)
  | .content a => do let x ← evalE a; contentV x
  | .primitive a => do let x ← evalE a; primitiveV x
  | .item a i => do let x ← evalE a; itemV x i

end Rosemary.PolyObj
