import Verif.Model.Sieves

/-!
# Model of `arithmetic_functions/sieves.py` and `factorization.factored_range`

Tables are `List Int`.  `int(n**(0.5))` is a float computation and appears as the parameter `sq`;
`_PRIME_LIST` is the parameter `T`.
-/

namespace Rosemary.Tables

open Rosemary.Core Rosemary.Sieves

/-- `range(a, b, s)` for `s > 0`. -/
def pyRangeStep (a b s : Nat) : List Nat := List.range' a ((b - a + s - 1) / s) s

/-- `for i in indices: block[i] = f(i, block[i])`. -/
def forIdx (f : Nat → Int → Int) : List Nat → List Int → Except PyErr (List Int)
  | [], block => .ok block
  | i :: is, block =>
    match block[i]? with
    | none => .error .indexError
    | some v => forIdx f is (block.set i (f i v))

/-! ## euler_phi_list (sieves.py:10-54) -/

/-- sieves.py:49-52, the loop over the higher powers of `p`. -/
def phiPowers (n p pk : Nat) (block : List Int) : Except PyErr (List Int) :=
  if _h : pk ≤ n ∧ 0 < pk ∧ 1 < p then
    match forIdx (fun _ v => v * p) (pyRangeStep pk (n + 1) pk) block with
    | .error e => .error e
    | .ok block => phiPowers n p (pk * p) block
  else .ok block
termination_by n + 1 - pk
decreasing_by
  have : pk * 1 < pk * p := Nat.mul_lt_mul_of_pos_left _h.2.2 _h.2.1
  omega

/-- sieves.py:45-52. -/
def phiLoop (n : Nat) : List Nat → List Int → Except PyErr (List Int)
  | [], block => .ok block
  | p :: ps, block =>
    match forIdx (fun _ v => v * (p - 1)) (pyRangeStep p (n + 1) p) block with
    | .error e => .error e
    | .ok block =>
      match phiPowers n p (p * p) block with
      | .error e => .error e
      | .ok block => phiLoop n ps block

/-- sieves.py:10-54 `euler_phi_list`. -/
def eulerPhiList (T : List Nat) (n : Int) : Except PyErr (List Int) :=
  if n ≤ 0 then .error .valueError
  else
    let N := n.toNat
    match primes T n with
    | .error e => .error e
    | .ok ps => phiLoop N ps ((List.replicate (N + 1) 1).set 0 0)

/-! ## moebius_list (sieves.py:60-110) -/

/-- sieves.py:99-104, on the pair of tables `(block, values)`. -/
def moebiusInner (p : Nat) : List Nat → List Int → List Int → Except PyErr (List Int × List Int)
  | [], block, values => .ok (block, values)
  | i :: is, block, values =>
    match block[i]?, values[i]? with
    | some b, some v =>
      if i % (p * p) = 0 then moebiusInner p is (block.set i 0) values
      else moebiusInner p is (block.set i (b * -1)) (values.set i (v * p))
    | _, _ => .error .indexError

/-- sieves.py:98-104. -/
def moebiusLoop (n : Nat) : List Nat → List Int → List Int → Except PyErr (List Int × List Int)
  | [], block, values => .ok (block, values)
  | p :: ps, block, values =>
    match moebiusInner p (pyRangeStep p (n + 1) p) block values with
    | .error e => .error e
    | .ok (block, values) => moebiusLoop n ps block values

/-- sieves.py:106-108. -/
def moebiusFix (values : List Int) : List Nat → List Int → Except PyErr (List Int)
  | [], block => .ok block
  | i :: is, block =>
    match block[i]?, values[i]? with
    | some b, some v =>
      moebiusFix values is (if b ≠ 0 ∧ v < i then block.set i (b * -1) else block)
    | _, _ => .error .indexError

/-- sieves.py:60-110 `moebius_list`. -/
def moebiusList (T : List Nat) (sq : Nat → Nat) (n : Int) : Except PyErr (List Int) :=
  if n ≤ 0 then .error .valueError
  else
    let N := n.toNat
    match primes T (sq N) with
    | .error e => .error e
    | .ok ps =>
      match moebiusLoop N ps ((List.replicate (N + 1) 1).set 0 0) (List.replicate (N + 1) 1) with
      | .error e => .error e
      | .ok (block, values) => moebiusFix values (List.range (N + 1)) block

/-! ## tau_list and sigma_list (sieves.py:113-230) -/

/-- sieves.py:166-169 and :226-229: `block[j*j] += d(j)` and `block[k*j] += g(j, k)` for
`j < k <= n//j`. -/
def hyperbolaLoop (n : Nat) (d : Nat → Int) (g : Nat → Nat → Int) :
    List Nat → List Int → Except PyErr (List Int)
  | [], block => .ok block
  | j :: js, block =>
    match forIdx (fun _ v => v + d j) [j * j] block with
    | .error e => .error e
    | .ok block =>
      match forIdx (fun i v => v + g j (i / j)) ((pyRange (j + 1) (n / j + 1)).map (· * j)) block with
      | .error e => .error e
      | .ok block => hyperbolaLoop n d g js block

/-- sieves.py:192-230 `tau_list`. -/
def tauList (sq : Nat → Nat) (n : Int) : Except PyErr (List Int) :=
  if n ≤ 0 then .error .valueError
  else
    let N := n.toNat
    hyperbolaLoop N (fun _ => 1) (fun _ _ => 2) (pyRange 1 (sq N + 1)) (List.replicate (N + 1) 0)

/-- sieves.py:181-187, the loop over the powers of `p`. -/
def sigmaPowers (n p pk : Nat) (mul term last : Int) (block : List Int) : Except PyErr (List Int) :=
  if _h : pk ≤ n ∧ 0 < pk ∧ 1 < p then
    match forIdx (fun _ v => (v * (term - 1)).fdiv (last - 1)) (pyRangeStep pk (n + 1) pk) block with
    | .error e => .error e
    | .ok block => sigmaPowers n p (pk * p) mul (term * mul) term block
  else .ok block
termination_by n + 1 - pk
decreasing_by
  have : pk * 1 < pk * p := Nat.mul_lt_mul_of_pos_left _h.2.2 _h.2.1
  omega

/-- sieves.py:176-187. -/
def sigmaLoop (n k : Nat) : List Nat → List Int → Except PyErr (List Int)
  | [], block => .ok block
  | p :: ps, block =>
    let mul : Int := (p ^ k : Nat)
    match sigmaPowers n p p mul (mul ^ 2) mul block with
    | .error e => .error e
    | .ok block => sigmaLoop n k ps block

/-- sieves.py:113-189 `sigma_list`. -/
def sigmaList (T : List Nat) (sq : Nat → Nat) (n k : Int) : Except PyErr (List Int) :=
  if n ≤ 0 then .error .valueError
  else if k = 0 then tauList sq n
  else if k < 0 then .error .valueError
  else
    let N := n.toNat
    if k = 1 ∧ n ≤ 10 ^ 4 then
      hyperbolaLoop N (fun j => j) (fun j k => j + k) (pyRange 1 (sq N + 1))
        (List.replicate (N + 1) 0)
    else
      match primes T n with
      | .error e => .error e
      | .ok ps => sigmaLoop N k.toNat ps ((List.replicate (N + 1) 1).set 0 0)

/-! ## moebius_range (sieves.py:238-291) -/

/-- sieves.py:278 and factorization.py:407,
`((p*(start//p + 1) - a) % block_size) % p` (with `a <= start`). -/
def segOffset (a start bs p : Nat) : Nat := ((p * (start / p + 1) - a) % bs) % p

/-- sieves.py:279-284, with `start + i` in place of `i`. -/
def mrInner (start p : Nat) : List Nat → List Int → List Int → Except PyErr (List Int × List Int)
  | [], block, values => .ok (block, values)
  | i :: is, block, values =>
    match block[i]?, values[i]? with
    | some b, some v =>
      if (start + i) % (p * p) = 0 then mrInner start p is (block.set i 0) values
      else mrInner start p is (block.set i (b * -1)) (values.set i (v * p))
    | _, _ => .error .indexError

/-- sieves.py:277-284. -/
def mrLoop (a start bs : Nat) : List Nat → List Int → List Int → Except PyErr (List Int × List Int)
  | [], block, values => .ok (block, values)
  | p :: ps, block, values =>
    match mrInner start p (pyRangeStep (segOffset a start bs p) bs p) block values with
    | .error e => .error e
    | .ok (block, values) => mrLoop a start bs ps block values

/-- sieves.py:286-291: the yielded values, and whether the generator has returned. -/
def mrYield (b start : Nat) (block values : List Int) : List Nat → Except PyErr (List (Nat × Int) × Bool)
  | [] => .ok ([], false)
  | i :: is =>
    if start + i ≥ b then .ok ([], true)
    else
      match block[i]?, values[i]? with
      | some m, some v =>
        match mrYield b start block values is with
        | .error e => .error e
        | .ok (r, stop) =>
          .ok ((start + i, if m ≠ 0 ∧ v < ((start + i : Nat) : Int) then m * -1 else m) :: r, stop)
      | _, _ => .error .indexError

/-- sieves.py:273-291, over the successive blocks. -/
def mrBlocks (a b bs : Nat) (ps : List Nat) (start : Nat) : Except PyErr (List (Nat × Int)) :=
  if _h : start < b ∧ 0 < bs then
    match mrLoop a start bs ps (List.replicate bs 1) (List.replicate bs 1) with
    | .error e => .error e
    | .ok (block, values) =>
      match mrYield b start block values (List.range bs) with
      | .error e => .error e
      | .ok (r, true) => .ok r
      | .ok (r, false) =>
        match mrBlocks a b bs ps (start + bs) with
        | .error e => .error e
        | .ok rest => .ok (r ++ rest)
  else .ok []
termination_by b - start
decreasing_by omega

/-- The bounds after sieves.py:261-265 and factorization.py:386-390. -/
def rangeBounds (a : Int) (b : Option Int) : Int × Int :=
  let a := if a < 2 then 1 else a
  match b with
  | none => (1, a)
  | some b => (a, b)

/-- sieves.py:238-291 `moebius_range`: the list of all yielded pairs. -/
def moebiusRange (T : List Nat) (a : Int) (b : Option Int) : Except PyErr (List (Nat × Int)) :=
  let (a, b) := rangeBounds a b
  if b ≤ a then .ok []
  else
    match integerSqrt b with
    | .error e => .error e
    | .ok bs =>
      match primes T bs with
      | .error e => .error e
      | .ok ps => if bs = 0 then .error .valueError else mrBlocks a.toNat b.toNat bs ps a.toNat

/-! ## factored_range (factorization.py:351-420) -/

/-- factorization.py:410-412, `while block[i] % p == 0`; returns the cofactor and the exponent.  For
`p <= 1` or `m = 0` the loop would not end; the model stops. -/
def divOut (p m : Nat) : Nat × Nat :=
  if _h : m % p = 0 ∧ 1 < p ∧ 0 < m then
    let r := divOut p (m / p)
    (r.1, r.2 + 1)
  else (m, 0)
termination_by m
decreasing_by exact Nat.div_lt_self _h.2.2 _h.2.1

/-- factorization.py:408-413. -/
def frInner (p : Nat) : List Nat → List Nat → List (List (Nat × Nat)) →
    Except PyErr (List Nat × List (List (Nat × Nat)))
  | [], block, facs => .ok (block, facs)
  | i :: is, block, facs =>
    match block[i]?, facs[i]? with
    | some m, some f =>
      let r := divOut p m
      frInner p is (block.set i r.1) (facs.set i (f ++ [(p, r.2)]))
    | _, _ => .error .indexError

/-- factorization.py:406-413. -/
def frLoop (a start bs : Nat) : List Nat → List Nat → List (List (Nat × Nat)) →
    Except PyErr (List Nat × List (List (Nat × Nat)))
  | [], block, facs => .ok (block, facs)
  | p :: ps, block, facs =>
    match frInner p (pyRangeStep (segOffset a start bs p) bs p) block facs with
    | .error e => .error e
    | .ok (block, facs) => frLoop a start bs ps block facs

/-- factorization.py:415-420: the yielded values, and whether the generator has returned. -/
def frYield (b start : Nat) (block : List Nat) (facs : List (List (Nat × Nat))) :
    List Nat → Except PyErr (List (Nat × List (Nat × Nat)) × Bool)
  | [] => .ok ([], false)
  | i :: is =>
    if start + i ≥ b then .ok ([], true)
    else
      match block[i]?, facs[i]? with
      | some m, some f =>
        match frYield b start block facs is with
        | .error e => .error e
        | .ok (r, stop) => .ok ((start + i, if m ≠ 1 then f ++ [(m, 1)] else f) :: r, stop)
      | _, _ => .error .indexError

/-- factorization.py:402-420, over the successive blocks. -/
def frBlocks (a b bs : Nat) (ps : List Nat) (start : Nat) :
    Except PyErr (List (Nat × List (Nat × Nat))) :=
  if _h : start < b ∧ 0 < bs then
    match frLoop a start bs ps (List.range' start bs) (List.replicate bs []) with
    | .error e => .error e
    | .ok (block, facs) =>
      match frYield b start block facs (List.range bs) with
      | .error e => .error e
      | .ok (r, true) => .ok r
      | .ok (r, false) =>
        match frBlocks a b bs ps (start + bs) with
        | .error e => .error e
        | .ok rest => .ok (r ++ rest)
  else .ok []
termination_by b - start
decreasing_by omega

/-- factorization.py:351-420 `factored_range`: the list of all yielded pairs.  A zero block size
makes `range` raise. -/
def factoredRange (T : List Nat) (sq : Nat → Nat) (a : Int) (b : Option Int) :
    Except PyErr (List (Nat × List (Nat × Nat))) :=
  let (a, b) := rangeBounds a b
  if b ≤ a then .ok []
  else
    let bs := sq b.toNat
    match primes T bs with
    | .error e => .error e
    | .ok ps =>
      let first := if a = 1 then [(1, [(1, 1)])] else []
      let a' := if a = 1 then 2 else a.toNat
      if bs = 0 then .error .valueError
      else
        match frBlocks a' b.toNat bs ps a' with
        | .error e => .error e
        | .ok rest => .ok (first ++ rest)

end Rosemary.Tables
