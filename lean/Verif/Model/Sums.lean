import Verif.Model.Tables

/-!
# Model of `arithmetic_functions/sums.py`

The dictionaries `cache`, shared by the nested recursive functions, are threaded explicitly as
association lists with the newest entry first.  `int(n**(0.5))` is the parameter `sq`.  The recursive
inner functions take a fuel argument which bounds the depth of the recursion; the exhausted fuel is
the error `runtimeError` and the entry points pass more fuel than can be used (Python's own recursion
limit is not modelled).
-/

namespace Rosemary.Sums

open Rosemary.Sieves Rosemary.Tables

/-- A dictionary from natural numbers to integers. -/
abbrev Cache := List (Nat × Int)

/-- sums.py:56-57, :114-115, :175-176: `for i in ...: cache[i] = cache[i-1] + w(i)*table[i]`. -/
def prefixCache (table : List Int) (w : Nat → Int) : List Nat → Cache → Except PyErr Cache
  | [], cache => .ok cache
  | i :: is, cache =>
    match cache.lookup (i - 1), table[i]? with
    | none, _ => .error .keyError
    | _, none => .error .indexError
    | some c, some t => prefixCache table w is ((i, c + w i * t) :: cache)

/-! ## euler_phi_sum (sums.py:8-72) -/

/-- sums.py:66-67. -/
def phiSumLoop (rec : Nat → Cache → Except PyErr (Int × Cache)) (table : List Int) (n : Nat) :
    List Nat → Int → Cache → Except PyErr (Int × Cache)
  | [], value, cache => .ok (value, cache)
  | d :: ds, value, cache =>
    match rec (n / d) cache with
    | .error e => .error e
    | .ok (s, cache) =>
      match table[d]? with
      | none => .error .indexError
      | some t => phiSumLoop rec table n ds (value + (s + t * (n / d : Nat))) cache

/-- sums.py:59-70, the inner function `S`. -/
def phiS (sq : Nat → Nat) (table : List Int) : Nat → Nat → Cache → Except PyErr (Int × Cache)
  | 0, _, _ => .error .runtimeError
  | fuel + 1, n, cache =>
    match cache.lookup n with
    | some v => .ok (v, cache)
    | none =>
      match cache.lookup (sq n) with
      | none => .error .keyError
      | some cr =>
        match phiSumLoop (phiS sq table fuel) table n (pyRange 2 (sq n + 1)) (n - sq n * cr) cache with
        | .error e => .error e
        | .ok (value, cache) =>
          let v := ((n : Int) * (n + 1)).fdiv 2 - value
          .ok (v, (n, v) :: cache)

/-- sums.py:8-72 `euler_phi_sum` (also `totient_sum`). -/
def eulerPhiSum (T : List Nat) (sq : Nat → Nat) (n : Int) : Except PyErr Int :=
  if n ≤ 0 then .error .valueError
  else
    let N := n.toNat
    match eulerPhiList T (sq N) with
    | .error e => .error e
    | .ok table =>
      match prefixCache table (fun _ => 1) (pyRange 2 (sq N + 1)) [(1, 1)] with
      | .error e => .error e
      | .ok cache =>
        match phiS sq table (N + 1) N cache with
        | .error e => .error e
        | .ok (v, _) => .ok v

/-! ## euler_phi_weighted_sum (sums.py:78-129) -/

/-- `sum(f(d, table[d]) for d in ...)`. -/
def tableSum (f : Nat → Int → Int) (table : List Int) : List Nat → Int → Except PyErr Int
  | [], acc => .ok acc
  | d :: ds, acc =>
    match table[d]? with
    | none => .error .indexError
    | some t => tableSum f table ds (acc + f d t)

/-- sums.py:123, `sum(d*(T(n//d) - T(d - 1)) for d in range(2, sqrt_n))`. -/
def weightedLoop (rec : Nat → Cache → Except PyErr (Int × Cache)) (n : Nat) :
    List Nat → Int → Cache → Except PyErr (Int × Cache)
  | [], acc, cache => .ok (acc, cache)
  | d :: ds, acc, cache =>
    match rec (n / d) cache with
    | .error e => .error e
    | .ok (x, cache) =>
      match rec (d - 1) cache with
      | .error e => .error e
      | .ok (y, cache) => weightedLoop rec n ds (acc + d * (x - y)) cache

/-- sums.py:117-127, the inner function `T`. -/
def weightedT (sq : Nat → Nat) (table : List Int) : Nat → Nat → Cache → Except PyErr (Int × Cache)
  | 0, _, _ => .error .runtimeError
  | fuel + 1, n, cache =>
    match cache.lookup n with
    | some v => .ok (v, cache)
    | none =>
      let r := sq n + 1
      match tableSum (fun d t => (d * t * ((n / d : Nat) - d + 1) * ((n / d : Nat) + d)).fdiv 2) table
          (pyRange 1 r) 0 with
      | .error e => .error e
      | .ok s1 =>
        match weightedLoop (weightedT sq table fuel) n (pyRange 2 r) 0 cache with
        | .error e => .error e
        | .ok (s2, cache) =>
          match tableSum (fun d t => d * d * t) table (pyRange 1 r) 0 with
          | .error e => .error e
          | .ok s3 =>
            let v := ((n : Int) * (n + 1) * (2 * n + 1)).fdiv 6 - (s1 + s2 - s3)
            .ok (v, (n, v) :: cache)

/-- sums.py:78-129 `euler_phi_weighted_sum`. -/
def eulerPhiWeightedSum (T : List Nat) (sq : Nat → Nat) (n : Int) : Except PyErr Int :=
  if n ≤ 0 then .error .valueError
  else
    let N := n.toNat
    match eulerPhiList T (sq N) with
    | .error e => .error e
    | .ok table =>
      match prefixCache table (fun i => i) (pyRange 2 (sq N + 1)) [(1, 1)] with
      | .error e => .error e
      | .ok cache =>
        match weightedT sq table (N + 1) N cache with
        | .error e => .error e
        | .ok (v, _) => .ok v

/-! ## moebius_sum (sums.py:132-189) -/

/-- sums.py:183-185. -/
def moebiusSumLoop (rec : Nat → Cache → Except PyErr (Int × Cache)) (table : List Int) (n : Nat) :
    List Nat → Int → Cache → Except PyErr (Int × Cache)
  | [], value, cache => .ok (value, cache)
  | d :: ds, value, cache =>
    match rec (n / d) cache with
    | .error e => .error e
    | .ok (x, cache) =>
      match rec (d - 1) cache with
      | .error e => .error e
      | .ok (y, cache) =>
        match table[d]? with
        | none => .error .indexError
        | some t =>
          moebiusSumLoop rec table n ds (value + (x - y) + t * ((n / d : Nat) - d)) cache

/-- sums.py:178-187, the inner function `M`. -/
def moebiusM (sq : Nat → Nat) (table : List Int) : Nat → Nat → Cache → Except PyErr (Int × Cache)
  | 0, _, _ => .error .runtimeError
  | fuel + 1, n, cache =>
    match cache.lookup n with
    | some v => .ok (v, cache)
    | none =>
      match moebiusSumLoop (moebiusM sq table fuel) table n (pyRange 2 (sq n + 1)) (n - 1) cache with
      | .error e => .error e
      | .ok (value, cache) => .ok (1 - value, (n, 1 - value) :: cache)

/-- sums.py:132-189 `moebius_sum` (also `mertens`). -/
def moebiusSum (T : List Nat) (sq : Nat → Nat) (n : Int) : Except PyErr Int :=
  if n ≤ 0 then .error .valueError
  else
    let N := n.toNat
    match moebiusList T sq (sq N) with
    | .error e => .error e
    | .ok table =>
      match prefixCache table (fun _ => 1) (pyRange 2 (sq N + 1)) [(1, 1)] with
      | .error e => .error e
      | .ok cache =>
        match moebiusM sq table (N + 1) N cache with
        | .error e => .error e
        | .ok (v, _) => .ok v

/-! ## sigma_sum (sums.py:195-234) -/

/-- sums.py:228-232. -/
def sigmaSumLoop (n : Nat) : List Nat → Int → Int
  | [], value => value
  | k :: ks, value =>
    let nk : Int := (n / k : Nat)
    let tt : Int := nk - k + 1
    sigmaSumLoop n ks (value + 2 * k * tt + tt * (nk + k))

/-- sums.py:195-234 `sigma_sum`. -/
def sigmaSum (sq : Nat → Nat) (n : Int) : Except PyErr Int :=
  if n ≤ 0 then .error .valueError
  else
    let N := n.toNat
    let s : Int := sq N
    .ok ((sigmaSumLoop N (pyRange 1 (sq N + 1)) (-s * (s + 1))).fdiv 2)

end Rosemary.Sums
