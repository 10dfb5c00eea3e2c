import Verif.Model.ZnArithmetic

/-!
# The numbers built by `sqrts_mod_p`

`sqrts_mod_p` again, with the list of the numbers `A*D**m` built in zn_arithmetic.py:332.  These are the only numbers in the
function that are not reduced modulo `p` at once.
-/

namespace Rosemary.Zn

open Rosemary.Core Rosemary.ArithFunctions Rosemary.Factorization

/-- zn_arithmetic.py:329-333 with the numbers `A*D**m`. -/
def tonelliExponentC (p : Nat) (A D : Int) (s : Nat) : Nat × List Int :=
  (List.range s).foldl
    (fun st i => (if pyPow (A * D ^ st.1) (2 ^ (s - 1 - i)) p = (p : Int) - 1 then st.1 + 2 ^ i else st.1, st.2 ++ [A * D ^ st.1])) (0, [])

/-- zn_arithmetic.py:323-335 with these numbers. -/
def tonelliRootC (a d : Int) (p : Nat) : Int × List Int :=
  let s := valuation 2 ((p : Int) - 1) (by norm_num)
  let t := (p - 1) >>> s
  let A := pyPow a t p
  let D := pyPow d t p
  let st := tonelliExponentC p A D s
  ((pyPow a ((t + 1) / 2) p * pyPow D (st.1 / 2) p).fmod p, st.2)

/-- zn_arithmetic.py:236-339 `sqrts_mod_p` with these numbers. -/
def sqrtsModPC (rnd : Nat → Int) (a : Int) (p : Nat) : Option (Except PyErr (List Int) × List Int) :=
  if p < 2 then some (.error .valueError, [])
  else if p = 2 then some (.ok [a.fmod p], [])
  else
    let a := a.fmod p
    if a = 0 then some (.ok [0], [])
    else
      match jacobiSymbol a p with
      | .error e => some (.error e, [])
      | .ok j =>
        if j ≠ 1 then some (.ok [], [])
        else if p % 8 = 3 ∨ p % 8 = 7 then some (.ok (bothRoots (pyPow a ((p + 1) / 4) p) p), [])
        else if p % 8 = 5 then
          let x := pyPow a ((p + 3) / 8) p
          let x := if (x * x).fmod p ≠ a then (x * pyPow 2 ((p - 1) / 4) p).fmod p else x
          some (.ok (bothRoots x p), [])
        else
          match findNonresidue rnd p 0 with
          | none => none
          | some d =>
            let r := tonelliRootC a d p
            some (.ok (bothRoots r.1 p), r.2)

end Rosemary.Zn
