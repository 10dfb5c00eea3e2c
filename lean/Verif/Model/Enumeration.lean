import Verif.Model.Py
import Verif.Model.ArithFunctions
import Verif.Model.Factorization

/-!
# Model of `combinatorics/enumeration/enumeration.py`, counting part

The tilings (enumeration.py:226-357) are in `Verif/Model/Tilings.lean`.
-/

namespace Rosemary.Enumeration

/-! ## bell_number (enumeration.py:11-49) -/

/-- enumeration.py:44-47, one pass of the inner loop; the state is `(coeff, value)`. -/
def bellStep (B : List Nat) (i : Nat) (s : Nat × Nat) (k : Nat) : Nat × Nat :=
  (s.1 * (i - k) / k, s.2 + s.1 * B.getD (i - k) 0)

/-- enumeration.py:42-48, one pass of the outer loop. -/
def bellRow (B : List Nat) (i : Nat) : List Nat :=
  B.set i ((List.range' 1 i).foldl (bellStep B i) (1, 0)).2

/-- enumeration.py:11-49 `bell_number`. -/
def bellNumber (n : Int) : Except PyErr Nat :=
  if n < 0 then .error .valueError
  else
    let B := (List.replicate (n.toNat + 1) 0).set 0 1
    .ok (((List.range' 1 n.toNat).foldl bellRow B).getD n.toNat 0)

/-! ## stirling_number2 (enumeration.py:52-66) -/

/-- The dictionary `S`. -/
abbrev SDict := Nat → Nat → Option Nat

/-- `S[i, j] = v`. -/
def SDict.put (S : SDict) (i j v : Nat) : SDict := fun a b => if a = i ∧ b = j then some v else S a b

/-- enumeration.py:63-64. -/
def stirlingRow (i : Nat) : List Nat → SDict → Except PyErr SDict
  | [], S => .ok S
  | j :: js, S =>
    match S (i - 1) j, S (i - j) (j - 1) with
    | some a, some b => stirlingRow i js (S.put i j (j * a + b))
    | _, _ => .error .keyError

/-- enumeration.py:62-64. -/
def stirlingLoop (n : Nat) : List Nat → SDict → Except PyErr SDict
  | [], S => .ok S
  | i :: is, S =>
    match stirlingRow i (List.range' 1 (min i n)) S with
    | .error e => .error e
    | .ok S => stirlingLoop n is S

/-- enumeration.py:53-60. -/
def stirlingInit (m : Nat) : SDict :=
  let S : SDict := SDict.put (fun _ _ => none) 0 0 1
  let S := (List.range' 1 m).foldl (fun S i => S.put i 0 0) S
  (List.range (m + 1)).foldl (fun S i => S.put i (i + 1) 0) S

/-- enumeration.py:52-66 `stirling_number2` for natural numbers. -/
def stirlingNumber2 (m n : Nat) : Except PyErr Nat :=
  match stirlingLoop n (List.range' 1 m) (stirlingInit m) with
  | .error e => .error e
  | .ok S =>
    match S m n with
    | some v => .ok v
    | none => .error .keyError

/-! ## binomial, multinomial (enumeration.py:69-123) -/

/-- `range(a, b)` for integers. -/
def intRange (a b : Int) : List Int := (List.range (b - a).toNat).map (fun i : Nat => a + i)

/-- enumeration.py:69-93 `binomial`. -/
def binomial (n k : Int) : Int :=
  let k := min k (n - k)
  let pp := (intRange (n - k + 1) (n + 1)).foldl (fun pp e => pp * e) 1
  (intRange 2 (k + 1)).foldl (fun pp e => Int.fdiv pp e) pp

/-- enumeration.py:120-122. -/
def multinomialDen : List Int → Nat → Except PyErr Nat
  | [], den => .ok den
  | e :: es, den =>
    match ArithFunctions.factorial e with
    | .error err => .error err
    | .ok f => multinomialDen es (den * f)

/-- enumeration.py:96-123 `multinomial`. -/
def multinomial (n : Int) (k : List Int) : Except PyErr Nat :=
  if k.sum > n then .error .valueError
  else if k.length = 0 then .error .valueError
  else
    match ArithFunctions.factorial n with
    | .error e => .error e
    | .ok num =>
      match multinomialDen k 1 with
      | .error e => .error e
      | .ok den => .ok (num / den)

/-! ## bipartitions (enumeration.py:126-159) -/

/-- enumeration.py:157; the table is a list of rows. -/
def bipartCell (i j : Nat) (p : List (List Nat)) (kl : Nat × Nat) : List (List Nat) :=
  p.set kl.1 ((p.getD kl.1 []).set kl.2
    ((p.getD kl.1 []).getD kl.2 0 + (p.getD (kl.1 - i) []).getD (kl.2 - j) 0))

/-- enumeration.py:155-157. -/
def bipartPass (m n : Nat) (p : List (List Nat)) (ij : Nat × Nat) : List (List Nat) :=
  if ij.1 + ij.2 > 1 then
    ((List.range' ij.1 (m + 1 - ij.1)).flatMap
      (fun k => (List.range' ij.2 (n + 1 - ij.2)).map (fun l => (k, l)))).foldl (bipartCell ij.1 ij.2) p
  else p

/-- enumeration.py:126-159 `bipartitions`. -/
def bipartitions (m n : Nat) : Nat :=
  let p := List.replicate (m + 1) (List.replicate (n + 1) 1)
  let p := ((List.range (m + 1)).flatMap (fun i => (List.range (n + 1)).map (fun j => (i, j)))).foldl
    (bipartPass m n) p
  (p.getD m []).getD n 0

/-! ## partition_list (enumeration.py:162-221) -/

/-- enumeration.py:176-184: the loop over `k = max_idx, ..., 1`; the state is `(sign, total)`.  An index
`v1 < 0` would wrap around in Python; it is reported as an error here, which the theorems show not to occur. -/
def partitionInner (values : List Int) (m : Nat) : Nat → Int → Int → Except PyErr Int
  | 0, _, total => .ok total
  | k + 1, sign, total =>
    let K : Int := k + 1
    let v1 := (m : Int) - Int.fdiv (K * (3 * K - 1)) 2
    if v1 < 0 then .error .indexError
    else
      let t1 := values.getD v1.toNat 0
      let v2 := (m : Int) - Int.fdiv (K * (3 * K + 1)) 2
      let t2 := if v2 < 0 then 0 else values.getD v2.toNat 0
      partitionInner values m k (sign * (-1)) (total + sign * (t1 + t2))

/-- enumeration.py:171-185; `maxIdx m` is `int((1 + (1 + 24*m)**(0.5))/6)`. -/
def partitionLoop (maxIdx : Nat → Nat) : List Nat → List Int → Except PyErr (List Int)
  | [], values => .ok values
  | m :: ms, values =>
    match partitionInner values m (maxIdx m) ((-1) ^ (maxIdx m + 1)) 0 with
    | .error e => .error e
    | .ok total => partitionLoop maxIdx ms (values.set m total)

/-- enumeration.py:162-186 `partition_list`; line 169 fails for `n = 0`. -/
def partitionList (maxIdx : Nat → Nat) (n : Nat) : Except PyErr (List Int) :=
  if n = 0 then .error .indexError
  else partitionLoop maxIdx (List.range' 2 (n - 1)) (((List.replicate (n + 1) 0).set 0 1).set 1 1)

/-- enumeration.py:189-190 `partition_number`. -/
def partitionNumber (maxIdx : Nat → Nat) (n : Nat) : Except PyErr Int :=
  match partitionList maxIdx n with
  | .error e => .error e
  | .ok l => .ok (l.getD n 0)

/-- enumeration.py:215-219. -/
def rthLoop (P : List Int) (r : Int) (Pr : List Int) (k : Nat) : List Int :=
  let ss := (List.range' 1 k).foldl
    (fun ss i => ss + P.getD i 0 * ((r + 1) * i - k) * Pr.getD (k - i) 0) 0
  Pr.set k (Int.fdiv ss k)

/-- enumeration.py:195-221 `rth_power_partition_number`. -/
def rthPowerPartitionNumber (maxIdx : Nat → Nat) (r : Int) (n : Nat) : Except PyErr Int :=
  if n = 0 then .ok 1
  else if r = 1 then partitionNumber maxIdx n
  else
    match (List.range (n + 1)).mapM (partitionNumber maxIdx) with
    | .error e => .error e
    | .ok P =>
      .ok (((List.range' 1 n).foldl (rthLoop P r) ((List.replicate (n + 1) 0).set 0 1)).getD n 0)

/-! ## necklaces (enumeration.py:360-405) -/

/-- enumeration.py:403-404. -/
def necklaceLoop (factor : Nat → List (Nat × Nat)) (n k : Nat) : List Nat → Nat → Except PyErr Nat
  | [], ss => .ok ss
  | d :: ds, ss =>
    match ArithFunctions.validateInt d (factor d) with
    | .error e => .error e
    | .ok fac => necklaceLoop factor n k ds (ss + ArithFunctions.eulerPhi fac * k ^ (n / d))

/-- enumeration.py:360-405 `necklaces` for `n >= 1`; `factor` stands for the factorization function that
`xdivisors` and `euler_phi` call.  With (nonempty) weights, line 395 calls `gcd` (core.py:6) with one
argument, which is a TypeError. -/
def necklaces (factor : Nat → List (Nat × Nat)) (n k : Nat) (weights : Option (List Nat)) : Except PyErr Nat :=
  if weights.getD [] ≠ [] then .error .typeError
  else
    match necklaceLoop factor n k (Factorization.xdivisors (factor n)) 0 with
    | .error e => .error e
    | .ok ss => .ok (ss / n)

end Rosemary.Enumeration
