import Verif.Model.Py
import Verif.Model.Sort
import Mathlib.Data.Int.Order.Basic

/-!
# Model of `graphs/algorithms/degree_sequences.py`

The output of `print` is not modelled.
-/

namespace Rosemary.DegreeSequences

/-- degree_sequences.py:74-75: `for i in range(d): T[i] -= 1`. -/
def subtract : ℕ → List ℤ → Except PyErr (List ℤ)
  | 0, T => .ok T
  | _ + 1, [] => .error .indexError
  | d + 1, t :: T => do
    let T' ← subtract d T
    .ok ((t - 1) :: T')

/-- degree_sequences.py:56-75: the loop; the list loses one entry in every round, and the first argument is (a bound for)
its length. -/
def graphicLoop : ℕ → List ℤ → Except PyErr Bool
  | 0, _ => .ok true
  | n + 1, T =>
    if T.any (fun e => decide (e < 0)) then .ok false
    else if T.all (fun e => decide (e ≤ 0)) then .ok true
    else
      match pySort T (fun a b => decide (b ≤ a)) with
      | [] => .error .indexError
      | d :: T' => do
        let T'' ← subtract d.toNat T'
        graphicLoop n T''

/-- degree_sequences.py:1-75 `is_graphic`. -/
def isGraphic (S : List ℤ) : Except PyErr Bool :=
  if S.any (fun d => decide ((S.length : ℤ) ≤ d)) then .ok false else graphicLoop S.length S

/-- degree_sequences.py:82-87: the loop over `k` from `k` on; the list is `T[k:]`. -/
def erdosGallaiLoop : ℕ → ℤ → List ℤ → Bool
  | _, _, [] => true
  | k, dSum, t :: T =>
    if dSum + t > (k : ℤ) * ((k : ℤ) + 1) + (T.map (fun x => min ((k : ℤ) + 1) x)).sum then false
    else erdosGallaiLoop (k + 1) (dSum + t) T

/-- degree_sequences.py:78-89 `is_graphic_erdos_gallai`. -/
def isGraphicErdosGallai (S : List ℤ) : Bool := erdosGallaiLoop 0 0 (pySort S (fun a b => decide (b ≤ a)))

end Rosemary.DegreeSequences
