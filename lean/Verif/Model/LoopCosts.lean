import Verif.Model.Polynomials
import Verif.Model.Paths

/-!
# The work of `power_jcp` and of `floyd_warshall`
-/

namespace Rosemary.Polys

/-- algorithms.py:142-146 with the number of passes of the inner loop over `j` in line 144. -/
def jcpLoopC (B : List Int) (k : Nat) (a0 : Int) : List Nat → List Int → Nat → Except PyErr (List Int) × Nat
  | [], P, c => (.ok P, c)
  | i :: is, P, c =>
    let c := c + (List.range' 1 (min B.length (i + 1) - 1)).length
    if (i : Int) * a0 = 0 then (.error .zeroDivisionError, c)
    else jcpLoopC B k a0 is
      (P.set i (Int.fdiv (jcpSum B P k i (min B.length (i + 1))) (i * a0))) c

/-- algorithms.py:105-147 `power_jcp` with the number of passes of the inner loop and the number of entries of the list `P`
(line 139) and of the list returned (line 147). -/
def powerJcpC (A : List Int) (k : Nat) : Except PyErr (List Int) × Nat × Nat :=
  match lowest A with
  | .error e => (.error e, 0, 0)
  | .ok shift =>
    let B := A.drop shift
    let newDeg := (B.length - 1) * k + 1
    let a0 := B.getD 0 0
    match jcpLoopC B k a0 (List.range' 1 (newDeg - 1)) ((List.replicate newDeg 0).set 0 (a0 ^ k)) 0 with
    | (.error e, c) => (.error e, c, newDeg)
    | (.ok P, c) => (.ok (List.replicate (shift * k) 0 ++ P), c, newDeg + (List.replicate (shift * k) (0 : Int) ++ P).length)

end Rosemary.Polys

namespace Rosemary.Paths

open Graph

variable {V W : Type} [LinearOrder V] [AddCommMonoid W] [LinearOrder W]

/-- paths.py:728-731 with the number of comparisons. -/
def fwInnerC (u v : V) : List V → Dict (V × V) (WithTop W × Option V) → ℕ →
    Except PyErr (Dict (V × V) (WithTop W × Option V)) × ℕ
  | [], D, c => (.ok D, c)
  | w :: ws, D, c =>
    match fwCell u v w D with
    | .error e => (.error e, c + 1)
    | .ok D => fwInnerC u v ws D (c + 1)

/-- paths.py:727-731 with the number of comparisons. -/
def fwMiddleC (u : V) (vs : List V) : List V → Dict (V × V) (WithTop W × Option V) → ℕ →
    Except PyErr (Dict (V × V) (WithTop W × Option V)) × ℕ
  | [], D, c => (.ok D, c)
  | v :: vs', D, c =>
    match fwInnerC u v vs D c with
    | (.error e, c) => (.error e, c)
    | (.ok D, c) => fwMiddleC u vs vs' D c

/-- paths.py:723-731 with the number of comparisons. -/
def fwOuterC (vs : List V) : List V → Dict (V × V) (WithTop W × Option V) → ℕ →
    Except PyErr (Dict (V × V) (WithTop W × Option V)) × ℕ
  | [], D, c => (.ok D, c)
  | u :: us, D, c =>
    match Dict.get? D (u, u) with
    | none => (.error .keyError, c)
    | some d =>
      if d.1 < ((0 : W) : WithTop W) then (.error .valueError, c + 1)
      else
        match fwMiddleC u vs vs D (c + 1) with
        | (.error e, c) => (.error e, c)
        | (.ok D, c) => fwOuterC vs us D c

/-- paths.py:630-733 `floyd_warshall` with the number of comparisons in lines 724 and 729. -/
def floydWarshallC (g : Graph V W) : Except PyErr (Dict (V × V) (WithTop W × Option V)) × ℕ :=
  fwOuterC (Dict.keys g) (Dict.keys g) (fwStart g) 0

end Rosemary.Paths
