import Verif.Model.Sums

/-!
# Work of `arithmetic_functions/sums.py`

The functions of `Verif.Model.Sums` again, with the number of passes of all their loops (a `sum` over a
generator is a loop).  The tables from `euler_phi_list` and `moebius_list`, which are only made up to
`int(n**0.5)`, are not counted.
-/

namespace Rosemary.SumCosts

open Rosemary.Sieves Rosemary.Tables Rosemary.Sums

/-- sums.py:56-57, :114-115, :175-176, with the number of passes. -/
def prefixCacheC (table : List Int) (w : Nat → Int) : List Nat → Cache → Except PyErr (Cache × Nat)
  | [], cache => .ok (cache, 0)
  | i :: is, cache =>
    match cache.lookup (i - 1), table[i]? with
    | none, _ => .error .keyError
    | _, none => .error .indexError
    | some c, some t =>
      match prefixCacheC table w is ((i, c + w i * t) :: cache) with
      | .error e => .error e
      | .ok (c, p) => .ok (c, p + 1)

/-- sums.py:66-67; `p` counts the passes, including those of the calls made. -/
def phiSumLoopC (rec : Nat → Cache → Except PyErr (Int × Cache × Nat)) (table : List Int) (n : Nat) :
    List Nat → Int → Cache → Nat → Except PyErr (Int × Cache × Nat)
  | [], value, cache, p => .ok (value, cache, p)
  | d :: ds, value, cache, p =>
    match rec (n / d) cache with
    | .error e => .error e
    | .ok (s, cache, q) =>
      match table[d]? with
      | none => .error .indexError
      | some t => phiSumLoopC rec table n ds (value + (s + t * (n / d : Nat))) cache (p + q + 1)

/-- sums.py:59-70, the inner function `S`, with the number of passes. -/
def phiSC (sq : Nat → Nat) (table : List Int) : Nat → Nat → Cache → Except PyErr (Int × Cache × Nat)
  | 0, _, _ => .error .runtimeError
  | fuel + 1, n, cache =>
    match cache.lookup n with
    | some v => .ok (v, cache, 0)
    | none =>
      match cache.lookup (sq n) with
      | none => .error .keyError
      | some cr =>
        match phiSumLoopC (phiSC sq table fuel) table n (pyRange 2 (sq n + 1)) (n - sq n * cr) cache 0 with
        | .error e => .error e
        | .ok (value, cache, p) =>
          let v := ((n : Int) * (n + 1)).fdiv 2 - value
          .ok (v, (n, v) :: cache, p)

/-- sums.py:8-72 `euler_phi_sum`, with the number of passes. -/
def eulerPhiSumC (T : List Nat) (sq : Nat → Nat) (n : Int) : Except PyErr (Int × Nat) :=
  if n ≤ 0 then .error .valueError
  else
    let N := n.toNat
    match eulerPhiList T (sq N) with
    | .error e => .error e
    | .ok table =>
      match prefixCacheC table (fun _ => 1) (pyRange 2 (sq N + 1)) [(1, 1)] with
      | .error e => .error e
      | .ok (cache, p) =>
        match phiSC sq table (N + 1) N cache with
        | .error e => .error e
        | .ok (v, _, q) => .ok (v, p + q)

/-- `sum(f(d, table[d]) for d in ...)`, with the number of passes. -/
def tableSumC (f : Nat → Int → Int) (table : List Int) : List Nat → Int → Nat → Except PyErr (Int × Nat)
  | [], acc, p => .ok (acc, p)
  | d :: ds, acc, p =>
    match table[d]? with
    | none => .error .indexError
    | some t => tableSumC f table ds (acc + f d t) (p + 1)

/-- sums.py:123, with the number of passes. -/
def weightedLoopC (rec : Nat → Cache → Except PyErr (Int × Cache × Nat)) (n : Nat) :
    List Nat → Int → Cache → Nat → Except PyErr (Int × Cache × Nat)
  | [], acc, cache, p => .ok (acc, cache, p)
  | d :: ds, acc, cache, p =>
    match rec (n / d) cache with
    | .error e => .error e
    | .ok (x, cache, q) =>
      match rec (d - 1) cache with
      | .error e => .error e
      | .ok (y, cache, q') => weightedLoopC rec n ds (acc + d * (x - y)) cache (p + q + q' + 1)

/-- sums.py:117-127, the inner function `T`, with the number of passes. -/
def weightedTC (sq : Nat → Nat) (table : List Int) : Nat → Nat → Cache → Except PyErr (Int × Cache × Nat)
  | 0, _, _ => .error .runtimeError
  | fuel + 1, n, cache =>
    match cache.lookup n with
    | some v => .ok (v, cache, 0)
    | none =>
      let r := sq n + 1
      match tableSumC (fun d t => (d * t * ((n / d : Nat) - d + 1) * ((n / d : Nat) + d)).fdiv 2) table
          (pyRange 1 r) 0 0 with
      | .error e => .error e
      | .ok (s1, p1) =>
        match weightedLoopC (weightedTC sq table fuel) n (pyRange 2 r) 0 cache 0 with
        | .error e => .error e
        | .ok (s2, cache, p2) =>
          match tableSumC (fun d t => d * d * t) table (pyRange 1 r) 0 0 with
          | .error e => .error e
          | .ok (s3, p3) =>
            let v := ((n : Int) * (n + 1) * (2 * n + 1)).fdiv 6 - (s1 + s2 - s3)
            .ok (v, (n, v) :: cache, p1 + p2 + p3)

/-- sums.py:78-129 `euler_phi_weighted_sum`, with the number of passes. -/
def eulerPhiWeightedSumC (T : List Nat) (sq : Nat → Nat) (n : Int) : Except PyErr (Int × Nat) :=
  if n ≤ 0 then .error .valueError
  else
    let N := n.toNat
    match eulerPhiList T (sq N) with
    | .error e => .error e
    | .ok table =>
      match prefixCacheC table (fun i => i) (pyRange 2 (sq N + 1)) [(1, 1)] with
      | .error e => .error e
      | .ok (cache, p) =>
        match weightedTC sq table (N + 1) N cache with
        | .error e => .error e
        | .ok (v, _, q) => .ok (v, p + q)

/-- sums.py:183-185, with the number of passes. -/
def moebiusSumLoopC (rec : Nat → Cache → Except PyErr (Int × Cache × Nat)) (table : List Int) (n : Nat) :
    List Nat → Int → Cache → Nat → Except PyErr (Int × Cache × Nat)
  | [], value, cache, p => .ok (value, cache, p)
  | d :: ds, value, cache, p =>
    match rec (n / d) cache with
    | .error e => .error e
    | .ok (x, cache, q) =>
      match rec (d - 1) cache with
      | .error e => .error e
      | .ok (y, cache, q') =>
        match table[d]? with
        | none => .error .indexError
        | some t =>
          moebiusSumLoopC rec table n ds (value + (x - y) + t * ((n / d : Nat) - d)) cache (p + q + q' + 1)

/-- sums.py:178-187, the inner function `M`, with the number of passes. -/
def moebiusMC (sq : Nat → Nat) (table : List Int) : Nat → Nat → Cache → Except PyErr (Int × Cache × Nat)
  | 0, _, _ => .error .runtimeError
  | fuel + 1, n, cache =>
    match cache.lookup n with
    | some v => .ok (v, cache, 0)
    | none =>
      match moebiusSumLoopC (moebiusMC sq table fuel) table n (pyRange 2 (sq n + 1)) (n - 1) cache 0 with
      | .error e => .error e
      | .ok (value, cache, p) => .ok (1 - value, (n, 1 - value) :: cache, p)

/-- sums.py:132-189 `moebius_sum`, with the number of passes. -/
def moebiusSumC (T : List Nat) (sq : Nat → Nat) (n : Int) : Except PyErr (Int × Nat) :=
  if n ≤ 0 then .error .valueError
  else
    let N := n.toNat
    match moebiusList T sq (sq N) with
    | .error e => .error e
    | .ok table =>
      match prefixCacheC table (fun _ => 1) (pyRange 2 (sq N + 1)) [(1, 1)] with
      | .error e => .error e
      | .ok (cache, p) =>
        match moebiusMC sq table (N + 1) N cache with
        | .error e => .error e
        | .ok (v, _, q) => .ok (v, p + q)

end Rosemary.SumCosts
