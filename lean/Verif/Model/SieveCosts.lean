import Verif.Model.Sieves

/-!
# Work of the sieves in `number_theory/primes/sieves.py`

The functions of `Verif.Model.Sieves` again, with a count of the work.  For the three sieves with slice
assignments the count is the number of bytes that the assignments `block[a::k] = bytearray([0])*c`
write, that is the sum of the `c` (an empty right hand side writes nothing).  For `pritchard` every
assignment `block[p*f] = 0` is recorded with its index, and the passes of the inner loop are counted.
The `sqrt` and the final list comprehensions are not counted.
-/

namespace Rosemary.SieveCosts

open Rosemary.Core Rosemary.Sieves

/-- sieves.py:142-147, with the number of bytes written. -/
def era1LoopC (m : Nat) : List Nat → List Bool → Except PyErr (List Bool) × Nat
  | [], block => (.ok block, 0)
  | i :: is, block =>
    match block[i]? with
    | none => (.error .indexError, 0)
    | some false => era1LoopC m is block
    | some true =>
      let k := 2 * i + 1
      let start := k * k / 2
      let c := ceilCount m start k
      match sliceZero block start k c with
      | .error e => (.error e, c.toNat)
      | .ok block =>
        let r := era1LoopC m is block
        (r.1, c.toNat + r.2)

/-- sieves.py:91-149 `eratosthenes1`, with the number of bytes written. -/
def eratosthenes1C (n : Int) : Except PyErr (List Nat) × Nat :=
  if n ≤ 1 then (.ok [], 0)
  else
    let N := n.toNat
    let m := N / 2 + 1
    match integerSqrt m with
    | .error e => (.error e, 0)
    | .ok sqrt =>
      match era1LoopC m (pyRange 1 (sqrt + 1)) (List.replicate m true) with
      | (.error e, c) => (.error e, c)
      | (.ok block, c) =>
        match collect (fun i => 2 * i + 1) block (pyRange 1 (N / 2 + N % 2)) with
        | .error e => (.error e, c)
        | .ok r => (.ok (2 :: r), c)

/-- sieves.py:211-218, with the number of bytes written. -/
def era2LoopC (m : Nat) : List Nat → List Bool → Except PyErr (List Bool) × Nat
  | [], block => (.ok block, 0)
  | i :: is, block =>
    match block[i]? with
    | none => (.error .indexError, 0)
    | some false => era2LoopC m is block
    | some true =>
      let k := wheel i
      let kk := k * k
      let a := kk / 3
      let b := (kk + 4 * k - 2 * k * (i &&& 1)) / 3
      let c := ceilCount m a (2 * k : Nat)
      match sliceZero block a (2 * k) c with
      | .error e => (.error e, c.toNat)
      | .ok block =>
        let d := ceilCount m b (2 * k : Nat)
        match sliceZero block b (2 * k) d with
        | .error e => (.error e, c.toNat + d.toNat)
        | .ok block =>
          let r := era2LoopC m is block
          (r.1, c.toNat + d.toNat + r.2)

/-- sieves.py:152-220 `eratosthenes2`, with the number of bytes written. -/
def eratosthenes2C (n : Int) : Except PyErr (List Nat) × Nat :=
  if n ≤ 1 then (.ok [], 0)
  else if n ≤ 3 then (.ok (pyRange 2 (n.toNat + 1)), 0)
  else
    let n1 := n.toNat + 1
    let offset := sixOffset n1
    let N := roundSix n1
    let m := N / 3
    match integerSqrt N with
    | .error e => (.error e, 0)
    | .ok sqrt =>
      match era2LoopC m (pyRange 0 (sqrt / 3 + 1)) ((List.replicate m true).set 0 false) with
      | (.error e, c) => (.error e, c)
      | (.ok block, c) =>
        match collect wheel block (pyRange 1 (N / 3 - offset)) with
        | .error e => (.error e, c)
        | .ok r => (.ok (2 :: 3 :: r), c)

/-- sieves.py:283-291, with the number of bytes written. -/
def luoLoopC (m : Nat) : List Nat → Nat → Nat → Nat → List Bool → Except PyErr (List Bool) × Nat
  | [], _, _, _, block => (.ok block, 0)
  | i :: is, a, k, t, block =>
    let k := 3 - k
    let a := a + 4 * k * i
    let t := t + 4 * k
    match block[i]? with
    | none => (.error .indexError, 0)
    | some false => luoLoopC m is a k t block
    | some true =>
      let b := a + 2 * i * (3 - k) + 1
      let c := ceilCount m a t
      match sliceZero block a t c with
      | .error e => (.error e, c.toNat)
      | .ok block =>
        let d := ceilCount m b t
        match sliceZero block b t d with
        | .error e => (.error e, c.toNat + d.toNat)
        | .ok block =>
          let r := luoLoopC m is a k t block
          (r.1, c.toNat + d.toNat + r.2)

/-- sieves.py:223-293 `luo`, with the number of bytes written. -/
def luoC (n : Int) : Except PyErr (List Nat) × Nat :=
  if n ≤ 1 then (.ok [], 0)
  else if n ≤ 6 then (luoSmall n.toNat, 0)
  else
    let n1 := n.toNat + 1
    let offset := sixOffset n1
    let N := roundSix n1
    let m := N / 3
    match integerSqrt N with
    | .error e => (.error e, 0)
    | .ok sqrt =>
      match luoLoopC m (pyRange 1 (sqrt + 1)) 0 1 2 (List.replicate m true) with
      | (.error e, c) => (.error e, c)
      | (.ok block, c) =>
        match collect wheel block (pyRange 1 (m - offset)) with
        | .error e => (.error e, c)
        | .ok r => (.ok (2 :: 3 :: r), c)

/-- sieves.py:434-441, the inner loop, with the indices written and the number of passes. -/
def pritchardInnerC (n f : Nat) : List Nat → List Bool → Except PyErr (List Bool) × List Nat × Nat
  | [], block => (.ok block, [], 0)
  | p :: ps, block =>
    if p * f > n then (.ok block, [], 1)
    else if p * f < block.length then
      let block := block.set (p * f) false
      if f % p = 0 then (.ok block, [p * f], 1)
      else
        let r := pritchardInnerC n f ps block
        (r.1, p * f :: r.2.1, r.2.2 + 1)
    else (.error .indexError, [], 1)

/-- sieves.py:433-441, with the indices written and the number of passes. -/
def pritchardLoopC (n : Nat) (ps : List Nat) : List Nat → List Bool → Except PyErr (List Bool) × List Nat × Nat
  | [], block => (.ok block, [], 0)
  | f :: fs, block =>
    match pritchardInnerC n f ps block with
    | (.error e, w, c) => (.error e, w, c)
    | (.ok block, w, c) =>
      let r := pritchardLoopC n ps fs block
      (r.1, w ++ r.2.1, c + r.2.2)

/-- sieves.py:380-443 `pritchard`, with the indices written and the number of passes. -/
def pritchardC (T : List Nat) (n : Int) : Except PyErr (List Nat) × List Nat × Nat :=
  if n ≤ 1 then (.ok [], [], 0)
  else
    let N := n.toNat
    match integerSqrt n with
    | .error e => (.error e, [], 0)
    | .ok sqrt =>
      match primes T sqrt with
      | .error e => (.error e, [], 0)
      | .ok ps =>
        let block := ((List.replicate (N + 1) true).set 0 false).set 1 false
        match pritchardLoopC N ps (pyRange 2 (N / 2 + 1)) block with
        | (.error e, w) => (.error e, w)
        | (.ok block, w) => (collect (fun i => i) block (pyRange 2 (N + 1)), w)

end Rosemary.SieveCosts
