import Verif.Model.Sieves

/-!
# Model of `data_structures/bit_sieve.py` and of `utilities.py`

The dictionary `A` of `BITSieve` has pairs as keys and is a partial function; `parent` likewise.  The
array of `BITSieveArray` is a list of lists.  Arguments `m` and `p` are natural numbers (a negative
`m` makes `partial_sum` loop forever, since `m >>= 1` stays at -1; `range` rejects `p = 0`).
-/

namespace Rosemary.BitSieve

open Rosemary.Sieves

/-- The dictionary `A`. -/
abbrev Table := Nat × Nat → Option Int

/-- `d[k] = v`. -/
def put {β : Type} (d : Nat × Nat → Option β) (k : Nat × Nat) (v : β) : Nat × Nat → Option β :=
  fun j => if j = k then some v else d j

/-- The attributes set at bit_sieve.py:21-23. -/
structure Sieve where
  A : Table
  n : Nat
  parent : Nat × Nat → Option (Nat × Nat)

/-- bit_sieve.py:14-17, one level. -/
def initLevel (i : Nat) : List Nat → Table → (Nat × Nat → Option (Nat × Nat)) →
    Except PyErr (Table × (Nat × Nat → Option (Nat × Nat)))
  | [], A, parent => .ok (A, parent)
  | j :: js, A, parent =>
    match A (i - 1, 2 * j - 1), A (i - 1, 2 * j) with
    | some a, some b =>
      initLevel i js (put A (i, j) (a + b))
        (put (put parent (i - 1, 2 * j - 1) (i, j)) (i - 1, 2 * j) (i, j))
    | _, _ => .error .keyError

/-- bit_sieve.py:13-19, all levels. -/
def initLevels (n i : Nat) (A : Table) (parent : Nat × Nat → Option (Nat × Nat)) :
    Except PyErr (Table × (Nat × Nat → Option (Nat × Nat))) :=
  if _h : n >>> i ≠ 0 then
    match initLevel i (pyRange 1 (n >>> i + 1)) A parent with
    | .error e => .error e
    | .ok (A, parent) => initLevels n (i + 1) A parent
  else .ok (A, parent)
termination_by n + 1 - i
decreasing_by
  have : i < n := by
    by_contra hc
    have h1 : n < 2 ^ i := lt_of_lt_of_le Nat.lt_two_pow_self (Nat.pow_le_pow_right (by omega) (by omega))
    rw [Nat.shiftRight_eq_div_pow, Nat.div_eq_of_lt h1] at _h
    exact _h rfl
  omega

/-- bit_sieve.py:2-23 `BITSieve.__init__`. -/
def init (n : Nat) : Except PyErr Sieve :=
  let A : Table := fun k => if k.1 = 0 ∧ 1 ≤ k.2 ∧ k.2 ≤ n then some 1 else none
  match initLevels n 1 A (fun _ => none) with
  | .error e => .error e
  | .ok (A, parent) => .ok ⟨A, n, parent⟩

/-- bit_sieve.py:25-26 `BITSieve.entries`. -/
def entries (A : Table) : List Nat → Except PyErr (List Int)
  | [] => .ok []
  | i :: is =>
    match A (0, i) with
    | none => .error .keyError
    | some v =>
      match entries A is with
      | .error e => .error e
      | .ok r => .ok (v :: r)

/-- bit_sieve.py:53-55, the walk to the top. -/
def climb (parent : Nat × Nat → Option (Nat × Nat)) (A : Table) (pos : Nat × Nat) :
    Option (Except PyErr Table) :=
  match parent pos with
  | none => some (.ok A)
  | some q =>
    match A q with
    | none => some (.error .keyError)
    | some v => climb parent (put A q (v - 1)) q
partial_fixpoint

/-- bit_sieve.py:46-55. -/
def markLoop (parent : Nat × Nat → Option (Nat × Nat)) :
    List Nat → Table → Option (Except PyErr Table)
  | [], A => some (.ok A)
  | i :: is, A =>
    match A (0, i) with
    | none => some (.error .keyError)
    | some v =>
      if v = 0 then markLoop parent is A
      else
        match climb parent (put A (0, i) 0) (0, i) with
        | none => none
        | some (.error e) => some (.error e)
        | some (.ok A) => markLoop parent is A

/-- `range(p, n + 1, p)` for `p >= 1`. -/
def multiples (p n : Nat) : List Nat := (List.range (n / p)).map (fun k => p * (k + 1))

/-- bit_sieve.py:37-55 `BITSieve.mark_multiples`. -/
def markMultiples (s : Sieve) (p : Nat) : Option (Except PyErr Sieve) :=
  if p = 0 then some (.error .valueError)
  else
    match markLoop s.parent (multiples p s.n) s.A with
    | none => none
    | some (.error e) => some (.error e)
    | some (.ok A) => some (.ok { s with A := A })

/-- bit_sieve.py:62-67. -/
def sumLoop (A : Table) (m i : Nat) (total : Int) : Except PyErr Int :=
  if _h : m ≠ 0 then
    if m % 2 = 1 then
      match A (i, m) with
      | none => .error .keyError
      | some v => sumLoop A (m / 2) (i + 1) (total + v)
    else sumLoop A (m / 2) (i + 1) total
  else .ok total
termination_by m
decreasing_by all_goals omega

/-- bit_sieve.py:57-69 `BITSieve.partial_sum`. -/
def partialSum (s : Sieve) (m : Nat) : Except PyErr Int := sumLoop s.A m 0 0

/-! ## BITSieveArray (bit_sieve.py:72-120) -/

/-- The attributes set at bit_sieve.py:88-89. -/
structure SieveArray where
  A : List (List Int)
  n : Nat

/-- bit_sieve.py:83-84, one level from the previous one. -/
def levelFill (prev : List Int) : List Nat → List Int → Except PyErr (List Int)
  | [], row => .ok row
  | j :: js, row =>
    match prev[2 * j - 1]?, prev[2 * j]? with
    | some a, some b =>
      if j < row.length then levelFill prev js (row.set j (a + b)) else .error .indexError
    | _, _ => .error .indexError

/-- bit_sieve.py:81-86. -/
def arrayLevels (n i : Nat) (prev : List Int) (A : List (List Int)) :
    Except PyErr (List (List Int)) :=
  if _h : n >>> i ≠ 0 then
    match levelFill prev (pyRange 1 (n >>> i + 1)) (List.replicate (n >>> i + 1) 0) with
    | .error e => .error e
    | .ok row => arrayLevels n (i + 1) row (A ++ [row])
  else .ok A
termination_by n + 1 - i
decreasing_by
  have : i < n := by
    by_contra hc
    have h1 : n < 2 ^ i := lt_of_lt_of_le Nat.lt_two_pow_self (Nat.pow_le_pow_right (by omega) (by omega))
    rw [Nat.shiftRight_eq_div_pow, Nat.div_eq_of_lt h1] at _h
    exact _h rfl
  omega

/-- bit_sieve.py:73-89 `BITSieveArray.__init__`. -/
def initArray (n : Nat) : Except PyErr SieveArray :=
  let row := (List.replicate (n + 1) (1 : Int)).set 0 0
  match arrayLevels n 1 row [row] with
  | .error e => .error e
  | .ok A => .ok ⟨A, n⟩

/-- bit_sieve.py:102-106: `x` runs over the levels, `y` is the position. -/
def decrement (A : List (List Int)) (y : Nat) : List (List Int) :=
  match A with
  | [] => []
  | row :: rest =>
    if y ≥ row.length then row :: rest
    else row.set y (row[y]?.getD 0 - 1) :: decrement rest ((y + 1) / 2)

/-- bit_sieve.py:97-106. -/
def markArrayLoop : List Nat → List (List Int) → Except PyErr (List (List Int))
  | [], A => .ok A
  | i :: is, A =>
    match A.head? with
    | none => .error .indexError
    | some row =>
      match row[i]? with
      | none => .error .indexError
      | some v => if v = 0 then markArrayLoop is A else markArrayLoop is (decrement A i)

/-- bit_sieve.py:94-106 `BITSieveArray.mark_multiples`. -/
def markMultiplesArray (s : SieveArray) (p : Nat) : Except PyErr SieveArray :=
  if p = 0 then .error .valueError
  else
    match markArrayLoop (multiples p s.n) s.A with
    | .error e => .error e
    | .ok A => .ok { s with A := A }

/-- bit_sieve.py:113-118. -/
def sumArrayLoop (A : List (List Int)) (m i : Nat) (total : Int) : Except PyErr Int :=
  if _h : m ≠ 0 then
    if m % 2 = 1 then
      match A[i]? with
      | none => .error .indexError
      | some row =>
        match row[m]? with
        | none => .error .indexError
        | some v => sumArrayLoop A (m / 2) (i + 1) (total + v)
    else sumArrayLoop A (m / 2) (i + 1) total
  else .ok total
termination_by m
decreasing_by all_goals omega

/-- bit_sieve.py:108-120 `BITSieveArray.partial_sum`. -/
def partialSumArray (s : SieveArray) (m : Nat) : Except PyErr Int := sumArrayLoop s.A m 0 0

end Rosemary.BitSieve

namespace Rosemary.Utilities

/-- utilities.py:12-20 `cached_function`: one call of `wrap` with the arguments `x`; the cache is an
association list.  `func` may raise, then nothing is stored. -/
def cachedCall {α β : Type} [DecidableEq α] (func : α → Except PyErr β) (cache : List (α × β)) (x : α) :
    Except PyErr β × List (α × β) :=
  match cache.lookup x with
  | some v => (.ok v, cache)
  | none =>
    match func x with
    | .error e => (.error e, cache)
    | .ok v => (.ok v, (x, v) :: cache)

/-- A sequence of calls: the results. -/
def cachedCalls {α β : Type} [DecidableEq α] (func : α → Except PyErr β) :
    List (α × β) → List α → List (Except PyErr β)
  | _, [] => []
  | cache, x :: xs =>
    let r := cachedCall func cache x
    r.1 :: cachedCalls func r.2 xs

end Rosemary.Utilities
