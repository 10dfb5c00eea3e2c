import Verif.Model.Sieves

/-!
# The work of `chartres`

`chartres` in `number_theory/primes/sieves.py` again, with counts of its passes and the size of its heap.
-/

namespace Rosemary.Sieves

/-- sieves.py:353-355 with the number of passes, each of which takes one entry from the heap and puts one back. -/
def chartresPopC (candidate : Nat) (q : Nat) (heap : List (Nat × Nat × Nat)) (k : Nat) :
    Option (Except PyErr (Nat × List (Nat × Nat × Nat)) × Nat) :=
  if q < candidate then
    match heap with
    | [] => some (.error .indexError, k)
    | (q, qp, qpp) :: heap => chartresPopC candidate q (heapPush (q + qp, qpp - qp, qpp) heap) (k + 1)
  else some (.ok (q, heap), k)
partial_fixpoint

/-- sieves.py:360-364 with the number of passes. -/
def chartresAddC (q : Nat) (candidate diff : Nat) (primes : List Nat) (k : Nat) :
    Option ((Nat × Nat × List Nat) × Nat) :=
  if candidate < q then chartresAddC q (candidate + diff) (6 - diff) (primes ++ [candidate]) (k + 1)
  else some ((candidate, diff, primes), k)
partial_fixpoint

/-- sieves.py:352-377 with the number `pops` of passes of the loop in line 353, the number `tests` of passes of the loops in
lines 352 and 360 (the pass that returns is not counted), and the largest size of the heap. -/
def chartresLoopC (n : Int) (primes : List Nat) (candidate diff size q t : Nat)
    (heap : List (Nat × Nat × Nat)) (pops tests largest : Nat) :
    Option (Except PyErr (Option (List Nat)) × Nat × Nat × Nat) :=
  if heap = [] then some (.ok none, pops, tests, largest)
  else
    match chartresPopC candidate q heap pops with
    | none => none
    | some (.error e, pops) => some (.error e, pops, tests, largest)
    | some (.ok (q, heap), pops) =>
      if (candidate : Int) > n then
        some (.ok (some (primes.filter (fun e => decide (e ≠ 0 ∧ (e : Int) ≤ n)))), pops, tests, largest)
      else
        match chartresAddC q candidate diff primes tests with
        | none => none
        | some ((candidate, diff, primes), tests) =>
          if candidate = t then
            match primes[size + 1 + 2]? with
            | none => some (.error .indexError, pops, tests, largest)
            | some u =>
              let heap' :=
                if u % 3 = 2 then heapPush (u * u, 2 * u, 6 * u) heap
                else if u % 3 = 1 then heapPush (u * u, 4 * u, 6 * u) heap
                else heap
              chartresLoopC n primes (candidate + diff) (6 - diff) (size + 1) q (u * u) heap' pops (tests + 1)
                (max largest heap'.length)
          else chartresLoopC n primes (candidate + diff) (6 - diff) size q t heap pops (tests + 1) largest
partial_fixpoint

/-- sieves.py:296-377 `chartres` with the two numbers of passes and the largest size of the heap. -/
def chartresC (n : Int) : Option (Except PyErr (Option (List Nat)) × Nat × Nat × Nat) :=
  chartresLoopC n [0, 2, 3] 5 2 1 25 25 [(25, 10, 30)] 0 0 1

end Rosemary.Sieves
