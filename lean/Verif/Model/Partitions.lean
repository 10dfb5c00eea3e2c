import Verif.Model.Gen
import Verif.Model.Sort

/-!
# Model of `combinatorics/generation/partitions.py`

`n` and `num_parts` are natural numbers.
-/

namespace Rosemary.Partitions

open Rosemary.Gen

/-- partitions.py:82-85, the variables of `algorithm_p`. -/
structure PState where
  part : List Int
  last : Nat
  idx : Int
  deriving DecidableEq

/-- partitions.py:101-104: `while n > replacement: ...`; writing past the list raises. -/
def pFill (r : Int) (p : List Int) (last : Nat) (n : Int) : Except PyErr (List Int × Nat × Int) :=
  if n > r then
    if _h : last < p.length then pFill r (p.set last r) (last + 1) (n - r) else .error .indexError
  else .ok (p, last, n)
termination_by p.length - last
decreasing_by simp; omega

/-- partitions.py:89-106, one step of `algorithm_p`. -/
def pStep (s : PState) : Step PState :=
  if s.idx < 0 then .stop
  else
    let i := s.idx.toNat
    match s.part[i]? with
    | none => .raise .indexError
    | some v =>
      if v = 2 then
        let p := s.part.set i 1
        let last := s.last + 1
        if last < p.length then .next ⟨p.set last 1, last, s.idx - 1⟩ else .raise .indexError
      else
        let r := v - 1
        match pFill r (s.part.set i r) (i + 1) ((s.last : Int) - i + 1) with
        | .error e => .raise e
        | .ok (p, last, n) =>
          if last < p.length then .next ⟨p.set last n, last, if n = 1 then (last : Int) - 1 else last⟩
          else .raise .indexError

/-- partitions.py:88: `partition[0:last_replaced + 1]`. -/
def pOut (s : PState) : List Int := s.part.take (s.last + 1)

/-- partitions.py:82-85 for `n >= 1`. -/
def pInit (n : Nat) : PState :=
  ⟨(List.replicate n 0).set 0 n, 0, if n = 1 then -1 else 0⟩

/-- partitions.py:124-126; `m` is the length of the list. -/
def hScan (p : List Int) (a : Int) (j : Nat) (s : Int) : Nat × Int :=
  if _h : j < p.length then
    if p.getD j 0 ≥ a - 1 then hScan p a (j + 1) (s + p.getD j 0) else (j, s)
  else (j, s)
termination_by p.length - j

/-- partitions.py:132-135. -/
def hFill (r : Int) : Nat → List Int → Int → List Int × Int
  | 0, p, s => (p, s)
  | j + 1, p, s => hFill r j (p.set (j + 1) r) (s - r)

/-- partitions.py:118-136, one step of `algorithm_h`. -/
def hStep (p : List Int) : Step (List Int) :=
  match p[0]?, p[1]? with
  | some a, some b =>
    if b < a - 1 then .next ((p.set 0 (a - 1)).set 1 (b + 1))
    else
      let (j, s) := hScan p a 2 (a + b - 1)
      if j ≥ p.length then .stop
      else
        let r := p.getD j 0 + 1
        let (p, s) := hFill r (j - 1) (p.set j r) s
        .next (p.set 0 s)
  | _, _ => .raise .indexError

/-- partitions.py:113-114. -/
def hInit (n m : Nat) : List Int := (List.replicate m 1).set 0 ((n : Int) - m + 1)

/-- partitions.py:138-152 `backtrack`; the result is `none` when the search does not end. -/
def backtrack (n : Int) (parts : List Int) (distinct numParts : Nat) (partialSum : Int) (used : List Int)
    (numUsed lastIdx : Nat) : Option (List (List Int)) :=
  if partialSum = n then some (if numParts = 0 ∨ numUsed = numParts then [used] else [])
  else if partialSum < n then
    if numParts ≠ 0 ∧ numUsed ≥ numParts then some []
    else
      let idx := if lastIdx ≠ 0 then lastIdx + distinct else 0
      do
        let ls ← (List.range' idx (parts.length - idx)).mapM (fun i =>
          backtrack n parts distinct numParts (partialSum + parts.getD i 0) (used ++ [parts.getD i 0])
            (numUsed + 1) i)
        some ls.flatten
  else some []
partial_fixpoint

/-- partitions.py:57-60. -/
def allParts (n : Nat) : Option (List Int) → List Int
  | some parts => pySort parts (fun a b => decide (a ≥ b))
  | none => ((List.range n).map (fun i : Nat => (i : Int) + 1)).reverse

/-- partitions.py:1-162 `integer_partitions`; an absent `num_parts` acts like 0. -/
def integerPartitions (n : Nat) (parts : Option (List Int)) (distinct : Bool) (numParts : Nat) :
    Option (List (List Int) × Option PyErr) :=
  if numParts > n then some ([[]], none)
  else if distinct ∨ parts.isSome then
    match backtrack n (allParts n parts) (if distinct then 1 else 0) numParts 0 [] 0 0 with
    | none => none
    | some L => some (L, none)
  else if numParts ≠ 0 then run hStep id (hInit n numParts)
  else if n = 0 then some ([], some .indexError)
  else run pStep pOut (pInit n)

end Rosemary.Partitions
