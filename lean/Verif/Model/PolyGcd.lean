import Verif.Model.Core
import Verif.Model.Polynomials

/-!
# Model of `PolyZZ.content`, `PolyZZ.primitive_part`, `Polynomial.gcd` and `Polynomial.__ne__`
(`rosemary/algebra/polynomials/polynomials.py`)

Objects are coefficient lists as in Model/Polynomials.lean.  `content` and `primitive_part` are
methods of `PolyZZ` only; `pseudo_quo_rem` and the constructor calls inside `gcd` make plain
`Polynomial` objects, on which these methods raise `AttributeError`.
-/

namespace Rosemary.Polys

open Rosemary

/-- polynomials.py:410-418 `PolyZZ.content`. -/
def content (f : List Int) : Except PyErr Int := Core.gcdList f

/-- polynomials.py:420-436 `PolyZZ.primitive_part`; dividing by a zero content (433) raises. -/
def primitivePart (f : List Int) : Except PyErr (List Int) :=
  match Core.gcdList f with
  | .error e => .error e
  | .ok c =>
    let c := if f.getD (f.length - 1) 0 < 0 then c * -1 else c
    if c = 0 then .error .zeroDivisionError else .ok (mk (f.map (fun e => Int.fdiv e c)))

/-- polynomials.py:237-252 `__ne__`, both operands polynomials. -/
def ne (f g : List Int) : Bool := !(f == g)

/-- polynomials.py:237-248 `__ne__` with a number on the right. -/
def neScalar (f : List Int) (c : Int) : Bool := !(mkScalar c == f)

/-- How `gcd` ends.  `floats`: the integer `h` was replaced by a float (line 406 with `dd = 1`
computes `1 // g**(-1)`), or that power overflowed; what happens with the float is not modelled. -/
inductive GcdOut where
  | value (f : List Int)
  | raises (e : PyErr)
  | floats
deriving DecidableEq, Repr

theorem length_popZeros_le (l : List Int) : (popZeros l).length ≤ l.length := by
  induction l using popZeros.induct with
  | case1 l h' ih =>
    rw [popZeros, dif_pos h']
    exact ih.trans (by rw [List.length_dropLast]; omega)
  | case2 l h' => rw [popZeros, dif_neg h']

theorem length_mk_le (l : List Int) : (mk l).length ≤ max 1 l.length := by
  unfold mk
  split
  · simp
  · exact (length_popZeros_le l).trans (le_max_right _ _)

theorem length_pseudoQuoRem (u v : List Int) (h : 2 ≤ (pseudoQuoRem u v).2.length) :
    (pseudoQuoRem u v).2.length < v.length := by
  unfold pseudoQuoRem at h ⊢
  dsimp only at h ⊢
  split
  · rename_i hlt; dsimp only; omega
  · rename_i hlt
    rw [if_neg hlt] at h
    dsimp only at h ⊢
    have := length_mk_le (List.take (v.length - 1)
      (pseudoLoop v (v.length - 1) (List.range (u.length - 1 - (v.length - 1) + 1)).reverse
        (List.replicate (u.length - 1 - (v.length - 1) + 1) 0) u).2)
    have h2 := List.length_take_le (v.length - 1)
      (pseudoLoop v (v.length - 1) (List.range (u.length - 1 - (v.length - 1) + 1)).reverse
        (List.replicate (u.length - 1 - (v.length - 1) + 1) 0) u).2
    omega

/-- polynomials.py:393-406, the loop of `gcd`.  `zz` says whether `v` is a `PolyZZ` object; `h` is
`none` when it is a float; `ovf g` says that `g**(-1)` overflows. -/
def gcdRounds (ovf : Int → Bool) (d : Int) (dd : Nat) (zz : Bool) (u v : List Int) (g : Int)
    (h : Option Int) : GcdOut :=
  let r := (pseudoQuoRem u v).2
  if r = mkScalar 0 then
    if zz then
      match primitivePart v with
      | .error e => .raises e
      | .ok p => .value (mulScalar p d)
    else .raises .attributeError
  else if _hr : r.length - 1 = 0 then .value (mk [d])
  else
    match h with
    | none => .floats
    | some h =>
      if g * h ^ dd = 0 then .raises .zeroDivisionError
      else
        let u' := v
        let v' := mk (r.map (fun e => Int.fdiv e (g * h ^ dd)))
        let g' := u'.getD (u'.length - 1) 0
        if dd > 1 then
          if h ^ (dd - 1) = 0 then .raises .zeroDivisionError
          else gcdRounds ovf d dd false u' v' g' (some (Int.fdiv (g' ^ dd) (h ^ (dd - 1))))
        else if dd = 1 then
          if g' = 0 then .raises .zeroDivisionError
          else if ovf g' then .floats
          else gcdRounds ovf d dd false u' v' g' none
        else gcdRounds ovf d dd false u' v' g' (some (Int.fdiv (h ^ 1) (g' ^ 0)))
termination_by v.length
decreasing_by
  all_goals
    have h0 : ¬ (pseudoQuoRem u v).2.length - 1 = 0 := _hr
    have h1 := length_pseudoQuoRem u v (by omega)
    have h2 := length_mk_le (((pseudoQuoRem u v).2).map (fun e => Int.fdiv e (g * h ^ dd)))
    rw [List.length_map] at h2
    exact Nat.lt_of_le_of_lt h2 (by omega)

/-- polynomials.py:384-391, the lines of `gcd` before the loop, when `self` has at least the degree
of `other`. -/
def gcdFrom (ovf : Int → Bool) (cf cg : Int) (f g u v : List Int) : GcdOut :=
  let d := Core.gcd cf cg
  if u.length < v.length then
    -- polynomials.py:391 `return other.gcd(self)`: the same lines with the roles exchanged
    match content g, content f, primitivePart g, primitivePart f with
    | .ok cg, .ok cf, .ok v, .ok u => gcdRounds ovf (Core.gcd cg cf) (v.length - u.length) true v u 1 (some 1)
    | _, _, _, _ => .raises .zeroDivisionError
  else gcdRounds ovf d (u.length - v.length) true u v 1 (some 1)

/-- polynomials.py:374-406 `gcd`, both operands `PolyZZ`. -/
def polyGcd (ovf : Int → Bool) (f g : List Int) : GcdOut :=
  match content f with
  | .error e => .raises e
  | .ok cf =>
    match content g with
    | .error e => .raises e
    | .ok cg =>
      match primitivePart f with
      | .error e => .raises e
      | .ok u =>
        match primitivePart g with
        | .error e => .raises e
        | .ok v => gcdFrom ovf cf cg f g u v

end Rosemary.Polys
