import Verif.Model.Core

/-!
# Work of the binary and iterative methods in `number_theory/core.py`

`power_mod`, `integer_log`, `valuation`, `integer_sqrt` and `integer_nth_root` of `Verif.Model.Core` again, with a
count: the multiplications modulo `m` in `power_mod`, the passes of the loops in the other functions.
-/

namespace Rosemary.RootCosts

open Rosemary.Core

/-- core.py:234-241, with the number of modular multiplications. -/
def powerModLoopC (m a t k : Nat) : Nat × Nat :=
  if h : k = 0 then (t, 0)
  else
    let r := powerModLoopC m (a * a % m) (if k % 2 = 1 then a * t % m else t) (k / 2)
    (r.1, r.2 + (if k % 2 = 1 then 2 else 1))
termination_by k
decreasing_by omega

/-- core.py:188-241 `power_mod`, with the number of modular multiplications. -/
def powerModC (a k m : Int) : Except PyErr Int × Nat :=
  if a < 0 then (.error .valueError, 0)
  else if k < 0 then (.error .valueError, 0)
  else if m < 1 then (.error .valueError, 0)
  else if a.fmod m = 0 then (.ok 0, 0)
  else if k = 0 then (.ok 1, 0)
  else
    let r := powerModLoopC m.toNat (a.fmod m).toNat 1 k.toNat
    (.ok (r.1 : Nat), r.2)

/-- core.py:392-395, with the number of passes. -/
def logUpC (n p lo hi : Nat) (hp : 2 ≤ p) : (Nat × Nat) × Nat :=
  if h : p ≤ n then
    let r := logUpC n (p * p) hi (2 * hi) (by nlinarith)
    (r.1, r.2 + 1)
  else ((lo, hi), 0)
termination_by n + 1 - p
decreasing_by
  have : p < p * p := by nlinarith
  omega

/-- core.py:399-410, with the number of passes. -/
def logBisectC (b n lo hi : Nat) : Nat × Nat :=
  if h : hi - lo > 1 then
    let mid := (lo + hi) / 2
    let power := b ^ mid
    if power > n then
      let r := logBisectC b n lo mid
      (r.1, r.2 + 1)
    else if power < n then
      let r := logBisectC b n mid hi
      (r.1, r.2 + 1)
    else (mid, 1)
  else (lo, 0)
termination_by hi - lo
decreasing_by all_goals omega

/-- core.py:336-410 `integer_log`, with the number of passes of both loops. -/
def integerLogC (b n : Int) : Except PyErr Nat × Nat :=
  if hb : b ≤ 1 then (.error .valueError, 0)
  else if n ≤ 0 then (.error .valueError, 0)
  else if n < b then (.ok 0, 0)
  else if b = 2 then (.ok (n.toNat.size - 1), 0)
  else
    let r := logUpC n.toNat b.toNat 0 1 (by omega)
    let q := logBisectC b.toNat n.toNat r.1.1 r.1.2
    (.ok q.1, r.2 + q.2)

/-- core.py:802-805, with the number of passes. -/
def valUpC (n pk lo hi : Nat) (hn : 0 < n) (hp : 2 ≤ pk) : (Nat × Nat) × Nat :=
  if h : n % pk = 0 then
    let r := valUpC n (pk * pk) hi (2 * hi) hn (by nlinarith)
    (r.1, r.2 + 1)
  else ((lo, hi), 0)
termination_by n + 1 - pk
decreasing_by
  have h1 : pk ≤ n := Nat.le_of_dvd hn (Nat.dvd_of_mod_eq_zero h)
  have : pk < pk * pk := by nlinarith
  omega

/-- core.py:809-817, with the number of passes. -/
def valBisectC (p n lo hi : Nat) : Nat × Nat :=
  if h : hi - lo > 1 then
    let mid := (lo + hi) / 2
    if n % p ^ mid = 0 then
      let r := valBisectC p n mid hi
      (r.1, r.2 + 1)
    else
      let r := valBisectC p n lo mid
      (r.1, r.2 + 1)
  else (lo, 0)
termination_by hi - lo
decreasing_by all_goals omega

/-- core.py:771-817 `valuation`, for `p ≥ 2`, with the number of passes of both loops. -/
def valuationC (p : Nat) (n : Int) (hp : 2 ≤ p) : Nat × Nat :=
  if h : n.fmod p ≠ 0 ∨ (p : Int) > n then (0, 0)
  else
    let r := valUpC n.natAbs p 0 1 (by omega) hp
    let q := valBisectC p n.natAbs r.1.1 r.1.2
    (q.1, r.2 + q.2)

/-- core.py:535-541, Newton's method, with the number of passes. -/
def newtonLoopC (n x : Nat) : Nat × Nat :=
  let y := (x + n / x) / 2
  if _h : y ≥ x then (x, 1)
  else
    let r := newtonLoopC n y
    (r.1, r.2 + 1)
termination_by x
decreasing_by omega

/-- core.py:485-541 `integer_sqrt`, with the number of passes. -/
def integerSqrtC (n : Int) : Except PyErr Nat × Nat :=
  if n < 0 then (.error .valueError, 0)
  else if n = 0 ∨ n = 1 then (.ok n.toNat, 0)
  else if n ≤ 2 ^ 60 then (.ok (floatSqrtInt n.toNat), 0)
  else
    let r := newtonLoopC n.toNat (2 ^ (n.toNat.size / 2 + 1))
    (.ok r.1, r.2)

/-- core.py:473-482, Halley's method, with the number of passes. -/
def halleyLoopC (n m x : Nat) : Nat × Nat :=
  let xn := x ^ n
  let num := (n - 1) * xn + (n + 1) * m
  let den := num + 2 * xn - 2 * m
  let y := x * num / den
  if _h : y ≥ x then (x, 1)
  else
    let r := halleyLoopC n m y
    (r.1, r.2 + 1)
termination_by x
decreasing_by exact Nat.lt_of_not_ge _h

/-- core.py:413-482 `integer_nth_root`, with the number of passes. -/
def integerNthRootC (n m : Int) : Except PyErr Nat × Nat :=
  if m < 0 then (.error .valueError, 0)
  else if n < 1 then (.error .valueError, 0)
  else if n = 1 then (.ok m.toNat, 0)
  else if n = 2 then integerSqrtC m
  else if m = 0 ∨ m = 1 then (.ok m.toNat, 0)
  else
    let bits := m.toNat.size
    if n.toNat ≥ bits then (.ok 1, 0)
    else
      let r := halleyLoopC n.toNat m.toNat (2 ^ (bits / n.toNat + 1))
      (.ok r.1, r.2)

end Rosemary.RootCosts
