import Verif.Model.PrimeCounting
import Verif.Model.Sort
import Verif.Model.Dict

/-!
# Model of `meissel`, `lehmer` and `lmo` (primes/prime_counting.py:66-299)

The two floating point roots of line 82-83 (`int((x + 0.5)**(0.5))`, `int((x + 0.5)**(1.0/3.0))`) and the
one of line 206 (`x**(0.5)`, of which only the integer part matters to `bisect` in a list of integers) are
parameters `fsqrt` and `fcbrt`.  The memo of the nested functions `phi` is threaded explicitly; the fuel
bounds the depth of the recursion (the second argument decreases).
-/

namespace Rosemary.PrimeCounting

open Rosemary.Core Rosemary.Sieves

/-- prime_counting.py:85-122 and, word for word the same, :167-204: the values of `phi(x, a)` for
`a <= 7`; `a == 0` would take the branch of 7. -/
def phiSmall (X : Nat) (a : Nat) : Int :=
  let x : Int := X
  let d : Nat → Int := fun k => (X / k : Nat)
  if a = 1 then
    x - d 2
  else if a = 2 then
    x - d 2 - d 3 + d 6
  else if a = 3 then
    x - d 2 - d 3 - d 5 + d 6 + d 10 + d 15 - d 30
  else if a = 4 then
    x - d 2 - d 3 - d 5 - d 7 + d 6 + d 10 + d 14 + d 15 + d 21 + d 35 - d 30 - d 42 - d 70 -
      d 105 + d 210
  else if a = 5 then
    x - d 2 - d 3 - d 5 - d 7 - d 11 + d 6 + d 10 + d 14 + d 22 + d 15 + d 21 + d 33 + d 35 + d 55
      + d 77 - d 30 - d 42 - d 66 - d 70 - d 110 - d 154 - d 105 - d 165 - d 231 - d 385 + d 210 +
      d 330 + d 462 + d 770 + d 1155 - d 2310
  else if a = 6 then
    x - d 2 - d 3 - d 5 - d 7 - d 11 - d 13 + d 6 + d 10 + d 14 + d 22 + d 26 + d 15 + d 21 + d 33
      + d 39 + d 35 + d 55 + d 65 + d 77 + d 91 + d 143 - d 30 - d 42 - d 66 - d 78 - d 70 - d 110
      - d 130 - d 154 - d 182 - d 286 - d 105 - d 165 - d 195 - d 231 - d 273 - d 429 - d 385 -
      d 455 - d 715 - d 1001 + d 210 + d 330 + d 390 + d 462 + d 546 + d 858 + d 770 + d 910 +
      d 1430 + d 2002 + d 1155 + d 1365 + d 2145 + d 3003 + d 5005 - d 2310 - d 2730 - d 4290 -
      d 6006 - d 10010 - d 15015 + d 30030
  else
    x - d 2 - d 3 - d 5 - d 7 - d 11 - d 13 - d 17 + d 6 + d 10 + d 14 + d 22 + d 26 + d 34 + d 15
      + d 21 + d 33 + d 39 + d 51 + d 35 + d 55 + d 65 + d 85 + d 77 + d 91 + d 119 + d 143 +
      d 187 + d 221 - d 30 - d 42 - d 66 - d 78 - d 102 - d 70 - d 110 - d 130 - d 170 - d 154 -
      d 182 - d 238 - d 286 - d 374 - d 442 - d 105 - d 165 - d 195 - d 255 - d 231 - d 273 -
      d 357 - d 429 - d 561 - d 663 - d 385 - d 455 - d 595 - d 715 - d 935 - d 1105 - d 1001 -
      d 1309 - d 1547 - d 2431 + d 210 + d 330 + d 390 + d 510 + d 462 + d 546 + d 714 + d 858 +
      d 1122 + d 1326 + d 770 + d 910 + d 1190 + d 1430 + d 1870 + d 2210 + d 2002 + d 2618 +
      d 3094 + d 4862 + d 1155 + d 1365 + d 1785 + d 2145 + d 2805 + d 3315 + d 3003 + d 3927 +
      d 4641 + d 7293 + d 5005 + d 6545 + d 7735 + d 12155 + d 17017 - d 2310 - d 2730 - d 3570 -
      d 4290 - d 5610 - d 6630 - d 6006 - d 7854 - d 9282 - d 14586 - d 10010 - d 13090 - d 15470
      - d 24310 - d 34034 - d 15015 - d 19635 - d 23205 - d 36465 - d 51051 - d 85085 + d 30030 +
      d 39270 + d 46410 + d 72930 + d 102102 + d 170170 + d 255255 - d 510510

/-- prime_counting.py:131-135 and :211-215. -/
def phiLoop (rec : Nat → Nat → Memo → Except PyErr (Int × Memo)) (primes : List Nat) (x : Nat) :
    List Nat → Int → Memo → Except PyErr (Int × Memo)
  | [], value, memo => .ok (value, memo)
  | i :: is, value, memo =>
    match primes[i]? with
    | none => .error .indexError
    | some p =>
      if p > x then .ok (value, memo)
      else
        match rec (x / p) i memo with
        | .error e => .error e
        | .ok (y, memo) => phiLoop rec primes x is (value - y) memo

/-! ## meissel -/

/-- prime_counting.py:142-143. -/
def phi2Loop (primes piCache : List Nat) (n : Nat) : List Nat → Int → Except PyErr Int
  | [], total => .ok total
  | i :: is, total =>
    match primes[i]? with
    | none => .error .indexError
    | some p =>
      match piCache[n / p]? with
      | none => .error .indexError
      | some k => phi2Loop primes piCache n is (total + k)

/-- prime_counting.py:140-144, the nested `phi2`. -/
def meisselPhi2 (primes piCache : List Nat) (n a b : Nat) : Except PyErr Int :=
  phi2Loop primes piCache n (pyRange a b) ((((a : Int) - b) * (b + a - 1)).fdiv 2)

/-- prime_counting.py:78-138, the nested `phi`. -/
def meisselPhi (fsqrt fcbrt : Nat → Nat) (primes piCache : List Nat) (root : Nat) :
    Nat → Nat → Nat → Memo → Except PyErr (Int × Memo)
  | 0, _, _, _ => .error .runtimeError
  | fuel + 1, x, a, memo =>
    match memo.lookup (x, a) with
    | some v => .ok (v, memo)
    | none =>
      match piCache[fsqrt x]?, piCache[fcbrt x]? with
      | some b, some c =>
        if a ≤ 7 then
          let value := phiSmall x a
          .ok (value, ((x, a), value) :: memo)
        else if (b > a ∧ a ≥ c) ∧ x ≤ root then
          match piCache[x]? with
          | none => .error .indexError
          | some k =>
            match meisselPhi2 primes piCache x a b with
            | .error e => .error e
            | .ok t =>
              let value := (k : Int) - a + 1 + t
              .ok (value, ((x, a), value) :: memo)
        else if a ≥ b ∧ x ≤ root then
          match piCache[x]? with
          | none => .error .indexError
          | some k =>
            let value := (k : Int) - a + 1
            .ok (value, ((x, a), value) :: memo)
        else
          match phiLoop (meisselPhi fsqrt fcbrt primes piCache root fuel) primes x (pyRange 1 a)
            ((x + 1) / 2 : Nat) memo with
          | .error e => .error e
          | .ok (value, memo) => .ok (value, ((x, a), value) :: memo)
      | _, _ => .error .indexError

/-- prime_counting.py:66-147 `meissel`. -/
def meissel (T : List Nat) (fsqrt fcbrt : Nat → Nat) (n : Int) : Except PyErr Int :=
  if n ≤ 1 then .ok 0
  else
    match T.getLast? with
    | none => .error .indexError
    | some l =>
      if n ≤ l then .ok (bisectRight T n : Nat)
      else
        match integerNthRoot 3 (n ^ 2) with
        | .error e => .error e
        | .ok root =>
          match piTable T root with
          | .error e => .error e
          | .ok (primes, piCache) =>
            match integerNthRoot 3 n, integerNthRoot 2 n with
            | .ok r3, .ok r2 =>
              match piCache[r3]?, piCache[r2]? with
              | some a, some b =>
                match meisselPhi fsqrt fcbrt primes piCache root (a + 1) n.toNat a [] with
                | .error e => .error e
                | .ok (v, _) =>
                  match meisselPhi2 primes piCache n.toNat a b with
                  | .error e => .error e
                  | .ok t => .ok (v - 1 + a - t)
              | _, _ => .error .indexError
            | .error e, _ => .error e
            | _, .error e => .error e

/-! ## lehmer -/

/-- prime_counting.py:163-218, the nested `phi`. -/
def lehmerPhi (fsqrt : Nat → Nat) (primes : List Nat) :
    Nat → Nat → Nat → Memo → Except PyErr (Int × Memo)
  | 0, _, _, _ => .error .runtimeError
  | fuel + 1, x, a, memo =>
    match memo.lookup (x, a) with
    | some v => .ok (v, memo)
    | none =>
      if a ≤ 7 then
        let value := phiSmall x a
        .ok (value, ((x, a), value) :: memo)
      else
        match primes.getLast? with
        | none => .error .indexError
        | some l =>
          if a ≥ bisectRight primes (fsqrt x) ∧ x < l then
            let value := (bisectRight primes x : Int) - a + 1
            .ok (value, ((x, a), value) :: memo)
          else
            match phiLoop (lehmerPhi fsqrt primes fuel) primes x (pyRange 1 a) ((x + 1) / 2 : Nat) memo with
            | .error e => .error e
            | .ok (value, memo) => .ok (value, ((x, a), value) :: memo)

/-- prime_counting.py:220-224, the nested `phi2`. -/
def lehmerPhi2 (phi : Nat → Nat → Memo → Except PyErr (Int × Memo)) (primes : List Nat) (n b : Nat) :
    List Nat → Int → Memo → Except PyErr (Int × Memo)
  | [], s1, memo => .ok (s1, memo)
  | i :: is, s1, memo =>
    match primes[i]? with
    | none => .error .indexError
    | some p =>
      match phi (n / p) b memo with
      | .error e => .error e
      | .ok (v, memo) => lehmerPhi2 phi primes n b is (s1 + (v + b - 1)) memo

/-- prime_counting.py:230-232, the inner loop of `phi3`. -/
def lehmerInner (phi : Nat → Nat → Memo → Except PyErr (Int × Memo)) (primes : List Nat) (n b p : Nat) :
    List Nat → Int → Memo → Except PyErr (Int × Memo)
  | [], s2, memo => .ok (s2, memo)
  | j :: js, s2, memo =>
    match primes[j]? with
    | none => .error .indexError
    | some q =>
      match phi (n / (p * q)) b memo with
      | .error e => .error e
      | .ok (v, memo) => lehmerInner phi primes n b p js (s2 + (v + b - 1 - j)) memo

/-- prime_counting.py:226-233, the nested `phi3`. -/
def lehmerPhi3 (phi : Nat → Nat → Memo → Except PyErr (Int × Memo)) (primes : List Nat) (n b : Nat) :
    List Nat → Int → Memo → Except PyErr (Int × Memo)
  | [], s2, memo => .ok (s2, memo)
  | i :: is, s2, memo =>
    match primes[i]? with
    | none => .error .indexError
    | some p =>
      match integerSqrt ((n / p : Nat) : Int) with
      | .error e => .error e
      | .ok r =>
        match phi r b memo with
        | .error e => .error e
        | .ok (v, memo) =>
          match lehmerInner phi primes n b p (pyRange i (v + b - 1).toNat) s2 memo with
          | .error e => .error e
          | .ok (s2, memo) => lehmerPhi3 phi primes n b is s2 memo

/-- prime_counting.py:150-236 `lehmer`. -/
def lehmer (T : List Nat) (fsqrt : Nat → Nat) (n : Int) : Except PyErr Int :=
  if n ≤ 1 then .ok 0
  else
    match T.getLast? with
    | none => .error .indexError
    | some l =>
      if n ≤ l then .ok (bisectRight T n : Nat)
      else
        match integerNthRoot 4 (n ^ 3) with
        | .error e => .error e
        | .ok root =>
          match primes T root with
          | .error e => .error e
          | .ok ps =>
            match integerNthRoot 4 n with
            | .error e => .error e
            | .ok r4 =>
              match integerSqrt n with
              | .error e => .error e
              | .ok r2 =>
                match integerNthRoot 3 n with
                | .error e => .error e
                | .ok r3 =>
                  let a := bisectRight ps r4
                  let b := bisectRight ps r2
                  let c := bisectRight ps r3
                  let phi := lehmerPhi fsqrt ps (a + b + 1)
                  match phi n.toNat a [] with
                  | .error e => .error e
                  | .ok (v, memo) =>
                    match lehmerPhi2 phi ps n.toNat b (pyRange a b) 0 memo with
                    | .error e => .error e
                    | .ok (s1, memo) =>
                      match lehmerPhi3 phi ps n.toNat b (pyRange a c) 0 memo with
                      | .error e => .error e
                      | .ok (s2, _) =>
                        .ok ((((b : Int) + a - 2) * (b - a + 1)).fdiv 2 + v - s1 - s2)

/-! ## lmo -/

/-- prime_counting.py:254-256. -/
def lmoSum (primes : List Nat) (x : Nat) : List Nat → Int → Except PyErr Int
  | [], value => .ok value
  | i :: is, value =>
    match primes[i]? with
    | none => .error .indexError
    | some p => lmoSum primes x is (value - (bisectRight primes ((x / p : Nat) : Int) : Nat))

/-- The lists of leaves `special`, a `defaultdict(list)`. -/
abbrev Special := Rosemary.Dict Nat (List (Nat × Int))

/-- prime_counting.py:266-279; the head of the list is the top of the stack.  `a == 0` does not occur: the
start is `c >= 1` and nothing is pushed below a node with `a == 1`. -/
def lmoStack (primes : List Nat) (x t : Nat) :
    Nat → List (Nat × Nat × Int) → Int → Special → Except PyErr (Int × Special)
  | _, [], value, special => .ok (value, special)
  | 0, _ :: _, _, _ => .error .runtimeError
  | fuel + 1, (n, a, sign) :: stack, value, special =>
    if a = 1 ∧ n ≤ t then
      if sign > 0 then lmoStack primes x t fuel stack (value + ((x / n + 1) / 2 : Nat)) special
      else lmoStack primes x t fuel stack (value - ((x / n + 1) / 2 : Nat)) special
    else if n > t then
      lmoStack primes x t fuel stack value
        (special.set a (((special.get? a).getD []) ++ [(x / n, sign)]))
    else if a = 0 then .error .runtimeError
    else
      match primes[a - 1]? with
      | none => .error .indexError
      | some p =>
        lmoStack primes x t fuel ((n * p, a - 1, -sign) :: (n, a - 1, sign) :: stack) value special

/-- `block[p::p] = [0]*(root//p)`, where `len(block) == root + 1` so that the lengths agree. -/
def clearMultiples (p : Nat) (block : List Nat) : List Nat :=
  block.mapIdx (fun i v => if p ≤ i ∧ i % p = 0 then 0 else v)

/-- prime_counting.py:291-298. -/
def lmoLeaves (block : List Nat) : List (Nat × Int) → Nat → Nat → Int → Int
  | [], _, _, value => value
  | (v, sign) :: rest, lastV, lastS, value =>
    let lastS := lastS + ((block.drop lastV).take (v + 1 - lastV)).sum
    if sign > 0 then lmoLeaves block rest (v + 1) lastS (value + lastS)
    else lmoLeaves block rest (v + 1) lastS (value - lastS)

/-- The order of tuples. -/
def leLeaf (a b : Nat × Int) : Bool := decide (a.1 < b.1 ∨ (a.1 = b.1 ∧ a.2 ≤ b.2))

/-- prime_counting.py:284-298. -/
def lmoSieve (primes : List Nat) (special : Special) : List Nat → List Nat → Int → Except PyErr Int
  | [], _, value => .ok value
  | a :: as, block, value =>
    match primes[a - 1]? with
    | none => .error .indexError
    | some p =>
      let block := clearMultiples p block
      match special.get? a with
      | none => .error .keyError
      | some leaves => lmoSieve primes special as block (lmoLeaves block (pySort leaves leLeaf) 0 0 value)

/-- prime_counting.py:239-299 `lmo`. -/
def lmo (T : List Nat) (x : Int) : Except PyErr Int :=
  if x ≤ 1 then .ok 0
  else
    match T.getLast? with
    | none => .error .indexError
    | some l =>
      if x ≤ l then .ok (bisectRight T x : Nat)
      else
        match integerNthRoot 3 (x ^ 2) with
        | .error e => .error e
        | .ok root =>
          match primes T root with
          | .error e => .error e
          | .ok ps =>
            match integerNthRoot 3 x with
            | .error e => .error e
            | .ok t =>
              match integerNthRoot 2 x with
              | .error e => .error e
              | .ok r2 =>
                let c := bisectRight ps t
                let b := bisectRight ps r2
                match lmoSum ps x.toNat (pyRange c b) ((((b : Int) + c - 2) * (b - c + 1)).fdiv 2) with
                | .error e => .error e
                | .ok value =>
                  match lmoStack ps x.toNat t (2 ^ (c + 1)) [(1, c, 1)] value [] with
                  | .error e => .error e
                  | .ok (value, special) =>
                    lmoSieve ps special (pySort (Rosemary.Dict.keys special) (· ≤ ·))
                      (0 :: List.replicate root 1) value

end Rosemary.PrimeCounting
