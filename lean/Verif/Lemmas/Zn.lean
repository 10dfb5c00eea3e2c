import Verif.Model.ZnArithmetic
import Verif.Props.ArithFunctions
import Verif.Props.Factorization
import Mathlib.RingTheory.ZMod.UnitsCyclic
import Mathlib.FieldTheory.Finite.Basic

/-! Lemmas relating the integer routines of `zn_arithmetic.py` to arithmetic in `ZMod n`. -/

namespace Rosemary

/-- `fac` is what `factor(n)` returns for `n ≥ 1`: distinct primes with positive exponents and
product `n` (the empty list for `n = 1`). -/
structure FactorsTo (fac : List (Nat × Nat)) (n : Nat) : Prop where
  primes : DistinctPrimes fac
  pos : ∀ pe ∈ fac, 1 ≤ pe.2
  prod : facProd fac = n

theorem FactorsTo.isFactorization {fac : List (Nat × Nat)} {n : Nat} (h : FactorsTo fac n) :
    IsFactorization fac n := Or.inr ⟨h.primes, h.pos, h.prod⟩

namespace Zn

open Rosemary.Core Rosemary.ArithFunctions Rosemary.Factorization Rosemary.Props

theorem fmod_nat (x : Int) (n : Nat) : x.fmod n = x % (n : Int) :=
  Int.fmod_eq_emod_of_nonneg _ (by positivity)

@[simp] theorem cast_fmod (x : Int) (n : Nat) : ((x.fmod n : Int) : ZMod n) = (x : ZMod n) := by
  rw [fmod_nat, ZMod.intCast_mod]

theorem fmod_nonneg (x : Int) {n : Nat} (hn : 0 < n) : 0 ≤ x.fmod n := by
  rw [fmod_nat]; exact Int.emod_nonneg _ (by omega)

theorem fmod_lt (x : Int) {n : Nat} (hn : 0 < n) : x.fmod n < n := by
  rw [fmod_nat]; exact Int.emod_lt_of_pos _ (by omega)

@[simp] theorem cast_pyPow (a : Int) (k n : Nat) : ((pyPow a k n : Int) : ZMod n) = (a : ZMod n) ^ k := by
  unfold pyPow; rw [cast_fmod]; push_cast; rfl

theorem pyPow_nonneg (a : Int) (k : Nat) {n : Nat} (hn : 0 < n) : 0 ≤ pyPow a k n := fmod_nonneg _ hn

theorem pyPow_lt (a : Int) (k : Nat) {n : Nat} (hn : 0 < n) : pyPow a k n < n := fmod_lt _ hn

theorem eq_of_cast {n : Nat} {x y : Int} (hx : 0 ≤ x) (hx' : x < n) (hy : 0 ≤ y) (hy' : y < n)
    (h : (x : ZMod n) = (y : ZMod n)) : x = y := by
  rw [ZMod.intCast_eq_intCast_iff] at h
  have := h.eq
  rwa [Int.emod_eq_of_lt hx hx', Int.emod_eq_of_lt hy hy'] at this

theorem cast_eq_iff_dvd {n : Nat} {x y : Int} : (x : ZMod n) = (y : ZMod n) ↔ (n : Int) ∣ x - y := by
  rw [eq_comm, ZMod.intCast_eq_intCast_iff_dvd_sub]

theorem pyPow_eq_one_iff (a : Int) (k : Nat) {n : Nat} (hn : 2 ≤ n) :
    pyPow a k n = 1 ↔ (a : ZMod n) ^ k = 1 := by
  rw [← cast_pyPow]
  constructor
  · intro h; rw [h]; simp
  · intro h
    exact eq_of_cast (pyPow_nonneg _ _ (by omega)) (pyPow_lt _ _ (by omega)) (by norm_num)
      (by omega) (by rw [h]; simp)

theorem isUnit_cast {a : Int} {n : Nat} : IsUnit (a : ZMod n) ↔ Int.gcd a n = 1 := by
  rw [ZMod.coe_int_isUnit_iff_isCoprime, isCoprime_comm, Int.isCoprime_iff_gcd_eq_one]

/-- The integer in `[0, n)` representing a residue class. -/
theorem exists_rep {n : Nat} (hn : 0 < n) (x : ZMod n) : ∃ y : Int, 0 ≤ y ∧ y < n ∧ (y : ZMod n) = x := by
  haveI : NeZero n := ⟨by omega⟩
  exact ⟨x.val, by positivity, by exact_mod_cast x.val_lt, by simp⟩

end Zn
end Rosemary
