import Verif.Model.Core
import Verif.Model.Primality

/-!
# Model of `number_theory/primes/sieves.py`

A `bytearray`/`list` block of flags is a `List Bool`.  Assigning to an extended slice is modelled with
CPython's rules (`sliceZero`, `listSliceZero`), so a wrong element count is an exception (or, for a
`bytearray` and an empty right hand side, a deletion) and not silently ignored.  The table
`_PRIME_LIST` is a parameter `T`.  The two places that use floats, `int(n*(log(n) + log(log(n))))`
in `primes_first_n` and `int(b**(0.5))` in `prime_range`, take the float result as a parameter.
The binary heap of `heapq` in `chartres` is an ordered list: only the minimum and the multiset of
entries are observable there.
-/

namespace Rosemary.Sieves

open Rosemary.Core
open Rosemary.Primality (bisectLeft)

/-- The positions selected by the slice `[start::step]`. -/
def hit (start step j : Nat) : Bool := start ≤ j && (j - start) % step == 0

/-- Number of positions selected by `block[start::step]` in a block of `len` entries. -/
def sliceLen (len start step : Nat) : Nat := (len - start + step - 1) / step

/-- `block[start::step] = bytearray([0])*count` for `step > 1`: an empty right hand side deletes the
slice, otherwise the lengths have to agree. -/
def sliceZero (block : List Bool) (start step : Nat) (count : Int) : Except PyErr (List Bool) :=
  if count.toNat = 0 then
    .ok ((block.zipIdx.filter (fun x => !hit start step x.2)).map Prod.fst)
  else if count.toNat = sliceLen block.length start step then
    .ok (block.mapIdx (fun j v => if hit start step j then false else v))
  else .error .valueError

/-- `block[start::step] = [0]*count` for a list: the lengths have to agree. -/
def listSliceZero (block : List Bool) (start step : Nat) (count : Int) : Except PyErr (List Bool) :=
  if count.toNat = sliceLen block.length start step then
    .ok (block.mapIdx (fun j v => if hit start step j then false else v))
  else .error .valueError

/-- `(m - a)//k + ((m - a) % k > 0)`. -/
def ceilCount (m a k : Int) : Int :=
  (m - a).fdiv k + (if (m - a).fmod k > 0 then 1 else 0)

/-- `[w(i) for i in indices if block[i]]`. -/
def collect (w : Nat → Nat) (block : List Bool) : List Nat → Except PyErr (List Nat)
  | [] => .ok []
  | i :: is =>
    match block[i]? with
    | none => .error .indexError
    | some v =>
      match collect w block is with
      | .error e => .error e
      | .ok r => .ok (if v then w i :: r else r)

/-- `range(a, b)`. -/
def pyRange (a b : Nat) : List Nat := List.range' a (b - a)

/-! ## eratosthenes1 (sieves.py:91-149) -/

/-- sieves.py:142-147. -/
def era1Loop (m : Nat) : List Nat → List Bool → Except PyErr (List Bool)
  | [], block => .ok block
  | i :: is, block =>
    match block[i]? with
    | none => .error .indexError
    | some false => era1Loop m is block
    | some true =>
      let k := 2 * i + 1
      let start := k * k / 2
      match sliceZero block start k (ceilCount m start k) with
      | .error e => .error e
      | .ok block => era1Loop m is block

/-- sieves.py:91-149 `eratosthenes1`. -/
def eratosthenes1 (n : Int) : Except PyErr (List Nat) :=
  if n ≤ 1 then .ok []
  else
    let N := n.toNat
    let m := N / 2 + 1
    match integerSqrt m with
    | .error e => .error e
    | .ok sqrt =>
      match era1Loop m (pyRange 1 (sqrt + 1)) (List.replicate m true) with
      | .error e => .error e
      | .ok block =>
        match collect (fun i => 2 * i + 1) block (pyRange 1 (N / 2 + N % 2)) with
        | .error e => .error e
        | .ok r => .ok (2 :: r)

/-! ## eratosthenes2 (sieves.py:152-220) and luo (sieves.py:223-293) -/

/-- sieves.py:204 and :276, the dictionary that rounds `n` to a multiple of six. -/
def roundSix (n : Nat) : Nat :=
  match n % 6 with
  | 0 => n
  | 1 => n - 1
  | 2 => n + 4
  | 3 => n + 3
  | 4 => n + 2
  | _ => n + 1

/-- sieves.py:203 and :275, `offset = (n % 6 > 1)`. -/
def sixOffset (n : Nat) : Nat := if n % 6 > 1 then 1 else 0

/-- `(3*i + 1) | 1`. -/
def wheel (i : Nat) : Nat := (3 * i + 1) ||| 1

/-- sieves.py:211-218. -/
def era2Loop (m : Nat) : List Nat → List Bool → Except PyErr (List Bool)
  | [], block => .ok block
  | i :: is, block =>
    match block[i]? with
    | none => .error .indexError
    | some false => era2Loop m is block
    | some true =>
      let k := wheel i
      let kk := k * k
      let a := kk / 3
      let b := (kk + 4 * k - 2 * k * (i &&& 1)) / 3
      match sliceZero block a (2 * k) (ceilCount m a (2 * k : Nat)) with
      | .error e => .error e
      | .ok block =>
        match sliceZero block b (2 * k) (ceilCount m b (2 * k : Nat)) with
        | .error e => .error e
        | .ok block => era2Loop m is block

/-- sieves.py:152-220 `eratosthenes2`. -/
def eratosthenes2 (n : Int) : Except PyErr (List Nat) :=
  if n ≤ 1 then .ok []
  else if n ≤ 3 then .ok (pyRange 2 (n.toNat + 1))
  else
    let n1 := n.toNat + 1
    let offset := sixOffset n1
    let N := roundSix n1
    let m := N / 3
    match integerSqrt N with
    | .error e => .error e
    | .ok sqrt =>
      match era2Loop m (pyRange 0 (sqrt / 3 + 1)) ((List.replicate m true).set 0 false) with
      | .error e => .error e
      | .ok block =>
        match collect wheel block (pyRange 1 (N / 3 - offset)) with
        | .error e => .error e
        | .ok r => .ok (2 :: 3 :: r)

/-- sieves.py:283-291. -/
def luoLoop (m : Nat) : List Nat → Nat → Nat → Nat → List Bool → Except PyErr (List Bool)
  | [], _, _, _, block => .ok block
  | i :: is, a, k, t, block =>
    let k := 3 - k
    let a := a + 4 * k * i
    let t := t + 4 * k
    match block[i]? with
    | none => .error .indexError
    | some false => luoLoop m is a k t block
    | some true =>
      let b := a + 2 * i * (3 - k) + 1
      match sliceZero block a t (ceilCount m a t) with
      | .error e => .error e
      | .ok block =>
        match sliceZero block b t (ceilCount m b t) with
        | .error e => .error e
        | .ok block => luoLoop m is a k t block

/-- sieves.py:272, the table for small `n`. -/
def luoSmall (n : Nat) : Except PyErr (List Nat) :=
  match n with
  | 2 => .ok [2]
  | 3 => .ok [2, 3]
  | 4 => .ok [2, 3]
  | 5 => .ok [2, 3, 5]
  | 6 => .ok [2, 3, 5]
  | _ => .error .keyError

/-- sieves.py:223-293 `luo`. -/
def luo (n : Int) : Except PyErr (List Nat) :=
  if n ≤ 1 then .ok []
  else if n ≤ 6 then luoSmall n.toNat
  else
    let n1 := n.toNat + 1
    let offset := sixOffset n1
    let N := roundSix n1
    let m := N / 3
    match integerSqrt N with
    | .error e => .error e
    | .ok sqrt =>
      match luoLoop m (pyRange 1 (sqrt + 1)) 0 1 2 (List.replicate m true) with
      | .error e => .error e
      | .ok block =>
        match collect wheel block (pyRange 1 (m - offset)) with
        | .error e => .error e
        | .ok r => .ok (2 :: 3 :: r)

/-! ## primes, primes_first_n (sieves.py:16-88) -/

/-- `bisect.bisect(T, n)` on a sorted list. -/
def bisectRight (T : List Nat) (n : Int) : Nat := (T.takeWhile (fun p : Nat => (p : Int) ≤ n)).length

/-- sieves.py:16-48 `primes`. -/
def primes (T : List Nat) (n : Int) : Except PyErr (List Nat) :=
  match T.getLast? with
  | none => .error .indexError
  | some l => if n < l then .ok (T.take (bisectRight T n)) else eratosthenes2 n

/-- sieves.py:51-88 `primes_first_n`; `bound` is the float computation of line 87. -/
def primesFirstN (T : List Nat) (bound : Nat → Int) (n : Int) : Except PyErr (List Nat) :=
  if n ≤ 0 then .ok []
  else if n < T.length then .ok (T.take n.toNat)
  else
    match eratosthenes2 (bound n.toNat) with
    | .error e => .error e
    | .ok L => .ok (L.take n.toNat)

/-! ## pritchard (sieves.py:380-443) -/

/-- sieves.py:434-441, the inner loop. -/
def pritchardInner (n f : Nat) : List Nat → List Bool → Except PyErr (List Bool)
  | [], block => .ok block
  | p :: ps, block =>
    if p * f > n then .ok block
    else if p * f < block.length then
      let block := block.set (p * f) false
      if f % p = 0 then .ok block else pritchardInner n f ps block
    else .error .indexError

/-- sieves.py:433-441. -/
def pritchardLoop (n : Nat) (ps : List Nat) : List Nat → List Bool → Except PyErr (List Bool)
  | [], block => .ok block
  | f :: fs, block =>
    match pritchardInner n f ps block with
    | .error e => .error e
    | .ok block => pritchardLoop n ps fs block

/-- sieves.py:380-443 `pritchard`. -/
def pritchard (T : List Nat) (n : Int) : Except PyErr (List Nat) :=
  if n ≤ 1 then .ok []
  else
    let N := n.toNat
    match integerSqrt n with
    | .error e => .error e
    | .ok sqrt =>
      match primes T sqrt with
      | .error e => .error e
      | .ok ps =>
        let block := ((List.replicate (N + 1) true).set 0 false).set 1 false
        match pritchardLoop N ps (pyRange 2 (N / 2 + 1)) block with
        | .error e => .error e
        | .ok block => collect (fun i => i) block (pyRange 2 (N + 1))

/-! ## chartres (sieves.py:296-377) -/

/-- Tuple comparison of heap entries. -/
def entryLe (x y : Nat × Nat × Nat) : Bool :=
  x.1 < y.1 || (x.1 == y.1 && (x.2.1 < y.2.1 || (x.2.1 == y.2.1 && x.2.2 ≤ y.2.2)))

/-- `heappush`, on the ordered list that represents the heap. -/
def heapPush (x : Nat × Nat × Nat) : List (Nat × Nat × Nat) → List (Nat × Nat × Nat)
  | [] => [x]
  | y :: ys => if entryLe x y then x :: y :: ys else y :: heapPush x ys

/-- sieves.py:353-355: pop until the minimum is at least the candidate.  Returns the new `q` and the
heap. -/
def chartresPop (candidate : Nat) (q : Nat) (heap : List (Nat × Nat × Nat)) :
    Option (Except PyErr (Nat × List (Nat × Nat × Nat))) :=
  if q < candidate then
    match heap with
    | [] => some (.error .indexError)
    | (q, qp, qpp) :: heap => chartresPop candidate q (heapPush (q + qp, qpp - qp, qpp) heap)
  else some (.ok (q, heap))
partial_fixpoint

/-- sieves.py:360-364: the candidates below `q` are primes.  `primes` is kept in order. -/
def chartresAdd (q : Nat) (candidate diff : Nat) (primes : List Nat) :
    Option (Nat × Nat × List Nat) :=
  if candidate < q then chartresAdd q (candidate + diff) (6 - diff) (primes ++ [candidate])
  else some (candidate, diff, primes)
partial_fixpoint

/-- sieves.py:352-377, the outer loop.  `num_primes` is never read and left out. -/
def chartresLoop (n : Int) (primes : List Nat) (candidate diff size q t : Nat)
    (heap : List (Nat × Nat × Nat)) : Option (Except PyErr (Option (List Nat))) :=
  if heap = [] then some (.ok none)
  else
    match chartresPop candidate q heap with
    | none => none
    | some (.error e) => some (.error e)
    | some (.ok (q, heap)) =>
      if (candidate : Int) > n then
        some (.ok (some (primes.filter (fun e => decide (e ≠ 0 ∧ (e : Int) ≤ n)))))
      else
        match chartresAdd q candidate diff primes with
        | none => none
        | some (candidate, diff, primes) =>
          if candidate = t then
            match primes[size + 1 + 2]? with
            | none => some (.error .indexError)
            | some u =>
              let heap' :=
                if u % 3 = 2 then heapPush (u * u, 2 * u, 6 * u) heap
                else if u % 3 = 1 then heapPush (u * u, 4 * u, 6 * u) heap
                else heap
              chartresLoop n primes (candidate + diff) (6 - diff) (size + 1) q (u * u) heap'
          else chartresLoop n primes (candidate + diff) (6 - diff) size q t heap
partial_fixpoint

/-- sieves.py:296-377 `chartres`. -/
def chartres (n : Int) : Option (Except PyErr (Option (List Nat))) :=
  chartresLoop n [0, 2, 3] 5 2 1 25 25 [(25, 10, 30)]

/-! ## prime_range (sieves.py:451-544) -/

/-- sieves.py:497-502: sieve one block with every prime; returns the block and the new offsets. -/
def segmentPass (blockSize : Nat) : List (Nat × Nat) → List Bool →
    Except PyErr (List Bool × List (Nat × Nat))
  | [], block => .ok (block, [])
  | (p, offset) :: rest, block =>
    let diff : Int := blockSize - offset
    match listSliceZero block offset p (diff.fdiv p + (if diff.fmod p > 0 then 1 else 0)) with
    | .error e => .error e
    | .ok block =>
      match segmentPass blockSize rest block with
      | .error e => .error e
      | .ok (block, offsets) => .ok (block, (p, ((-diff).fmod p).toNat) :: offsets)

/-- sieves.py:504-508: the numbers `start + 2*j + 1` of `[a, b)` whose flag is set. -/
def segmentYield (a b start : Nat) (block : List Bool) : List Nat :=
  ((List.range block.length).filter (fun j => block[j]? == some true)).filterMap
    (fun j => if a ≤ start + 2 * j + 1 ∧ start + 2 * j + 1 < b then some (start + 2 * j + 1) else none)

/-- sieves.py:494-508, over the successive blocks; `blockSize > 0`. -/
def segmentLoop (a b bb blockSize start : Nat) (offsets : List (Nat × Nat)) :
    Except PyErr (List Nat) :=
  if _h : start < bb ∧ 0 < blockSize then
    match segmentPass blockSize offsets (List.replicate blockSize true) with
    | .error e => .error e
    | .ok (block, offsets) =>
      match segmentLoop a b bb blockSize (start + 2 * blockSize) offsets with
      | .error e => .error e
      | .ok r => .ok (segmentYield a b start block ++ r)
  else .ok []
termination_by bb - start
decreasing_by omega

/-- sieves.py:482-508 `sieve_interval`, for `a <= b`. -/
def sieveInterval (a b sqrt : Nat) (ps : List Nat) : Except PyErr (List Nat) :=
  let aa := a - a % 2
  let bb := b + b % 2
  let blockSize := min ((bb - aa) / 2) (8 * sqrt)
  if blockSize = 0 then .error .valueError
  else segmentLoop a b bb blockSize aa
    (ps.map (fun p => (p, (((-((aa : Int) + 1 + p)).fdiv 2).fmod p).toNat)))

/-- sieves.py:514-544, with both bounds given and `2 <= a`.  `sqrt` is `int(b**(0.5))`.  The
generator is modelled by the list of everything it yields. -/
def primeRangeBody (T : List Nat) (sqrt : Nat → Nat) (a b : Int) : Except PyErr (List Nat) :=
  if b ≤ 10 ^ 7 then
    match primes T b with
    | .error e => .error e
    | .ok ps => .ok (ps.drop (bisectLeft ps a.toNat))
  else
    let r := sqrt b.toNat
    match primes T r with
    | .error e => .error e
    | .ok ps =>
      if a ≤ r then
        match sieveInterval (r + 1) b.toNat r (ps.drop 1) with
        | .error e => .error e
        | .ok rest => .ok (ps.drop (bisectRight ps a) ++ rest)
      else sieveInterval a.toNat b.toNat r (ps.drop 1)

/-- sieves.py:451-544 `prime_range`. -/
def primeRange (T : List Nat) (sqrt : Nat → Nat) (a : Int) (b : Option Int) :
    Except PyErr (List Nat) :=
  let a := if a < 2 then 2 else a
  match b with
  | none => primeRangeBody T sqrt 1 a
  | some b => primeRangeBody T sqrt a b

end Rosemary.Sieves
