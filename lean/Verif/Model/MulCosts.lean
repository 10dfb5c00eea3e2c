import Verif.Model.Polynomials

/-!
# The coefficient operations of polynomial multiplication

`mul_classical` and `mul_karatsuba` of `algebra/polynomials/algorithms.py` once more, now counting the multiplications of
coefficients and the additions, subtractions and sign changes of coefficients.
-/

namespace Rosemary.Polys

/-- The numbers of multiplications and of additions, subtractions and sign changes. -/
structure Ops where
  mul : Nat
  add : Nat
  deriving DecidableEq

/-- Both one after the other. -/
def Ops.plus (a b : Ops) : Ops := ⟨a.mul + b.mul, a.add + b.add⟩

/-- algorithms.py:173-180 `list_add` adds the shorter list to the longer one. -/
def listAddOps (A B : List Int) : Ops := if A.length ≥ B.length then ⟨0, B.length⟩ else ⟨0, A.length⟩

/-- algorithms.py:206-213 `list_subtract`: if `B` is longer its signs are changed first. -/
def listSubtractOps (A B : List Int) : Ops :=
  if A.length ≥ B.length then ⟨0, B.length⟩ else ⟨0, B.length + A.length⟩

/-- algorithms.py:37-38: one multiplication and one addition for each `j`. -/
def mulRowOps : List Int → Ops
  | [] => ⟨0, 0⟩
  | _ :: N => (mulRowOps N).plus ⟨1, 1⟩

/-- algorithms.py:36-38. -/
def mulRowsOps (N : List Int) : List Int → Ops
  | [] => ⟨0, 0⟩
  | _ :: M => (mulRowOps N).plus (mulRowsOps N M)

/-- algorithms.py:31-39 `mul_classical`. -/
def mulClassicalOps (M N : List Int) : Ops :=
  if M.length = 0 ∨ N.length = 0 then ⟨0, 0⟩ else mulRowsOps N M

/-- algorithms.py:74-102 `mul_karatsuba` with its operations. -/
def mulKaratsubaOps (M N : List Int) : List Int × Ops :=
  if _h : M.length < 30 ∨ N.length < 30 then (mulClassical M N, mulClassicalOps M N)
  else
    let k := max M.length N.length / 2
    let f0 := M.take k
    let f1 := M.drop k
    let g0 := N.take k
    let g1 := N.drop k
    let z0 := mulKaratsubaOps f0 g0
    let z2 := mulKaratsubaOps f1 g1
    let xxyy := mulKaratsubaOps (listAdd f1 f0) (listAdd g1 g0)
    let d := listSubtract xxyy.1 z2.1
    let z1 := listSubtract d z0.1
    let t2 := List.replicate (2 * k) 0 ++ z2.1
    let t1 := List.replicate k 0 ++ z1
    let s := listAdd t2 t1
    (listAdd s z0.1,
      (listAddOps f1 f0).plus <| (listAddOps g1 g0).plus <| z0.2.plus <| z2.2.plus <| xxyy.2.plus <|
        (listSubtractOps xxyy.1 z2.1).plus <| (listSubtractOps d z0.1).plus <|
        (listAddOps t2 t1).plus (listAddOps s z0.1))
termination_by M.length + N.length
decreasing_by
  all_goals
    simp only [length_listAdd, List.length_take, List.length_drop]
    omega

end Rosemary.Polys
