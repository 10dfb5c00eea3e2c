import Verif.Model.Sieves

/-!
# Model of `primes/prime_counting.py`

Modelled: `legendre`, `prime_sum2`, `prime_sum`, `pi_table`, `prime_count`.  Dictionaries with integer
keys are partial functions; the memo tables of the nested functions `phi` (a default argument, created
anew by each call of the enclosing function) are threaded explicitly as association lists.  The fuel
argument of the nested functions bounds the depth of the recursion.
-/

namespace Rosemary.PrimeCounting

open Rosemary.Core Rosemary.Sieves

/-! ## prime_count and prime_sum (prime_counting.py:399-414 and :458-470) -/

/-- A dictionary with natural keys. -/
abbrev Dict := Nat → Option Int

/-- `d[k] = v`. -/
def Dict.put (d : Dict) (k : Nat) (v : Int) : Dict := fun j => if j = k then some v else d j

/-- `range(a, 0, -1)`. -/
def downFrom : Nat → List Nat
  | 0 => []
  | a + 1 => (a + 1) :: downFrom a

/-- prime_counting.py:401-402 and :460-461, the list `V`. -/
def floors (n r : Nat) : Except PyErr (List Nat) :=
  let V := (pyRange 1 (r + 1)).map (fun i => n / i)
  match V.getLast? with
  | none => .error .indexError
  | some l => .ok (V ++ downFrom (l - 1))

/-- prime_counting.py:403 and :462, the dictionary comprehension. -/
def initDict (f : Nat → Int) (V : List Nat) : Dict := fun v => if v ∈ V then some (f v) else none

/-- prime_counting.py:466-469, the loop over `V` for one `p`. -/
def countInner (p : Nat) : List Nat → Dict → Except PyErr Dict
  | [], S => .ok S
  | v :: vs, S =>
    if v < p * p then .ok S
    else
      match S v, S (v / p), S (p - 1) with
      | some a, some b, some c => countInner p vs (S.put v (a - (b - c)))
      | _, _, _ => .error .keyError

/-- prime_counting.py:464-469. -/
def countLoop (V : List Nat) : List Nat → Dict → Except PyErr Dict
  | [], S => .ok S
  | p :: ps, S =>
    match S p, S (p - 1) with
    | some a, some b =>
      if a > b then
        match countInner p V S with
        | .error e => .error e
        | .ok S => countLoop V ps S
      else countLoop V ps S
    | _, _ => .error .keyError

/-- prime_counting.py:458-470 `prime_count`. -/
def primeCount (n : Int) : Except PyErr Dict :=
  match integerSqrt n with
  | .error e => .error e
  | .ok r =>
    match floors n.toNat r with
    | .error e => .error e
    | .ok V => countLoop V (pyRange 2 (r + 1)) (initDict (fun i => ((i : Int) + 1).fdiv 2) V)

/-- prime_counting.py:409-412, the loop over `V` for one `p`. -/
def sumInner (p : Nat) (sp : Int) : List Nat → Dict → Except PyErr Dict
  | [], S => .ok S
  | v :: vs, S =>
    if v < p * p then .ok S
    else
      match S v, S (v / p) with
      | some a, some b => sumInner p sp vs (S.put v (a - p * (b - sp)))
      | _, _ => .error .keyError

/-- prime_counting.py:405-412. -/
def sumLoop (V : List Nat) : List Nat → Dict → Except PyErr Dict
  | [], S => .ok S
  | p :: ps, S =>
    match S p, S (p - 1) with
    | some a, some b =>
      if a > b then
        match sumInner p b V S with
        | .error e => .error e
        | .ok S => sumLoop V ps S
      else sumLoop V ps S
    | _, _ => .error .keyError

/-- prime_counting.py:399-414 `prime_sum`. -/
def primeSum (n : Int) : Except PyErr Int :=
  match integerSqrt n with
  | .error e => .error e
  | .ok r =>
    match floors n.toNat r with
    | .error e => .error e
    | .ok V =>
      match sumLoop V (pyRange 2 (r + 1)) (initDict (fun i => ((i : Int) * (i + 1)).fdiv 2 - 1) V) with
      | .error e => .error e
      | .ok S =>
        match S n.toNat with
        | none => .error .keyError
        | some v => .ok v

/-! ## legendre (prime_counting.py:15-63) -/

/-- The memo of the nested functions `phi`: keys `(x, a)`. -/
abbrev Memo := List ((Nat × Nat) × Int)

/-- prime_counting.py:54-58. -/
def phiFor (rec : Nat → Nat → Memo → Except PyErr (Int × Memo)) (primes : List Nat) (x : Nat) :
    List Nat → Int → Memo → Except PyErr (Int × Memo)
  | [], value, memo => .ok (value, memo)
  | i :: is, value, memo =>
    match primes[i - 1]? with
    | none => .error .indexError
    | some p =>
      if p > x then .ok (value, memo)
      else
        match rec (x / p) (i - 1) memo with
        | .error e => .error e
        | .ok (y, memo) => phiFor rec primes x is (value - y) memo

/-- prime_counting.py:46-61, the nested `phi`. -/
def legendrePhi (primes : List Nat) : Nat → Nat → Nat → Memo → Except PyErr (Int × Memo)
  | 0, _, _, _ => .error .runtimeError
  | fuel + 1, x, a, memo =>
    match memo.lookup (x, a) with
    | some v => .ok (v, memo)
    | none =>
      if a = 1 then .ok (((x + 1) / 2 : Nat), memo)
      else
        match phiFor (legendrePhi primes fuel) primes x (pyRange 2 (a + 1)) ((x + 1) / 2 : Nat) memo with
        | .error e => .error e
        | .ok (value, memo) => .ok (value, ((x, a), value) :: memo)

/-- prime_counting.py:15-63 `legendre`. -/
def legendre (T : List Nat) (n : Int) : Except PyErr Int :=
  if n ≤ 1 then .ok 0
  else
    match T.getLast? with
    | none => .error .indexError
    | some l =>
      if n ≤ l then .ok (bisectRight T n : Nat)
      else
        match integerSqrt n with
        | .error e => .error e
        | .ok root =>
          match primes T root with
          | .error e => .error e
          | .ok ps =>
            match legendrePhi ps (ps.length + 1) n.toNat ps.length [] with
            | .error e => .error e
            | .ok (v, _) => .ok (v + ps.length - 1)

/-! ## prime_sum2 (prime_counting.py:360-396) -/

/-- prime_counting.py:367-368. -/
def accumulate : Nat → List Nat → List Nat
  | _, [] => []
  | s, p :: ps => (s + p) :: accumulate (s + p) ps

/-- prime_counting.py:370-371. -/
def sumTable : List (Nat × Nat) → List Nat → Except PyErr (List Nat)
  | [], table => .ok table
  | (p, t) :: rest, table =>
    if p < table.length then sumTable rest (table.set p t) else .error .indexError

/-- prime_counting.py:373-375. -/
def fillTable : List Nat → List Nat → Except PyErr (List Nat)
  | [], table => .ok table
  | i :: is, table =>
    match table[i]?, table[i - 1]? with
    | some t, some s => fillTable is (if t = 0 then table.set i s else table)
    | _, _ => .error .indexError

/-- prime_counting.py:387-391. -/
def phiSumFor (rec : Nat → Nat → Memo → Except PyErr (Int × Memo)) (primes : List Nat) (x : Nat) :
    List Nat → Int → Memo → Except PyErr (Int × Memo)
  | [], value, memo => .ok (value, memo)
  | i :: is, value, memo =>
    match primes[i - 1]? with
    | none => .error .indexError
    | some p =>
      if p > x then .ok (value, memo)
      else
        match rec (x / p) (i - 1) memo with
        | .error e => .error e
        | .ok (y, memo) => phiSumFor rec primes x is (value - p * y) memo

/-- prime_counting.py:377-394, the nested `phi`. -/
def sumPhi (primes : List Nat) : Nat → Nat → Nat → Memo → Except PyErr (Int × Memo)
  | 0, _, _, _ => .error .runtimeError
  | fuel + 1, x, a, memo =>
    match memo.lookup (x, a) with
    | some v => .ok (v, memo)
    | none =>
      if x = 0 then .ok (0, memo)
      else if a = 0 then .ok ((x * (x + 1) / 2 : Nat), memo)
      else
        match phiSumFor (sumPhi primes fuel) primes x (pyRange 1 (a + 1)) (x * (x + 1) / 2 : Nat) memo with
        | .error e => .error e
        | .ok (value, memo) => .ok (value, ((x, a), value) :: memo)

/-- prime_counting.py:360-396 `prime_sum2`. -/
def primeSum2 (T : List Nat) (n : Int) : Except PyErr Int :=
  match integerSqrt n with
  | .error e => .error e
  | .ok root =>
    match primes T root with
    | .error e => .error e
    | .ok ps =>
      match sumTable (ps.zip (accumulate 0 ps)) (List.replicate (root + 1) 0) with
      | .error e => .error e
      | .ok table =>
        match fillTable (pyRange 2 (root + 1)) table with
        | .error e => .error e
        | .ok _ =>
          match sumPhi ps (ps.length + 1) n.toNat ps.length [] with
          | .error e => .error e
          | .ok (v, _) => .ok (v + ps.sum - 1)

/-! ## pi_table (prime_counting.py:422-455) -/

/-- `table[last:stop] = [v]*(stop - last)`, for `last <= stop <= len(table)`. -/
def fillSlice (table : List Nat) (last stop v : Nat) : List Nat :=
  table.take last ++ List.replicate (stop - last) v ++ table.drop stop

/-- prime_counting.py:449-451; returns the table, `last` and the last value of `i`. -/
def piLoop : List Nat → Nat → Nat → Option Nat → List Nat → List Nat × Nat × Option Nat
  | [], _, last, i, table => (table, last, i)
  | p :: ps, k, last, _, table => piLoop ps (k + 1) p (some k) (fillSlice table last p k)

/-- prime_counting.py:422-455 `pi_table`.  If there is no prime the variable `i` is unbound. -/
def piTable (T : List Nat) (n : Int) : Except PyErr (List Nat × List Nat) :=
  match primes T n with
  | .error e => .error e
  | .ok ps =>
    match piLoop ps 0 0 none (List.replicate (n + 1).toNat 0) with
    | (_, _, none) => .error .unboundLocalError
    | (table, last, some i) => .ok (ps, fillSlice table last (n + 1).toNat (i + 1))

end Rosemary.PrimeCounting
