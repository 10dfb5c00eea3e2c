import Mathlib.NumberTheory.Primorial
import Mathlib.Data.Nat.Choose.Bounds
import Mathlib.Data.Nat.Cast.Order.Field
import Mathlib.Data.Nat.Log
import Mathlib.Algebra.BigOperators.Intervals
import Mathlib.Algebra.Order.BigOperators.Group.Finset
import Mathlib.Algebra.Order.BigOperators.Ring.Finset
import Mathlib.Algebra.Order.Field.Basic
import Mathlib.Data.Rat.Cast.Order
import Mathlib.Tactic.Ring
import Mathlib.Tactic.Linarith
import Mathlib.Tactic.FieldSimp
import Mathlib.Tactic.Positivity

/-!
# The sum of the reciprocals of the primes up to `n` is `O(log log n)`
-/

namespace Rosemary.Spec

open Finset

theorem sum_inv_le_log : ∀ m : ℕ, ∑ k ∈ Icc 2 m, (1 / (k : ℚ)) ≤ (Nat.log 2 m : ℚ) := by
  intro m
  induction m using Nat.strong_induction_on with
  | _ m ih =>
    rcases Nat.lt_or_ge m 2 with h | h
    · rw [Icc_eq_empty (by omega), sum_empty]; positivity
    · have h1 := ih (m / 2) (by omega)
      have hlog : Nat.log 2 m = Nat.log 2 (m / 2) + 1 := by
        rw [Nat.log_div_base]
        have : 0 < Nat.log 2 m := Nat.log_pos (by omega) h
        omega
      have hsplit : Icc 2 m = Icc 2 (m / 2) ∪ Ioc (m / 2) m := by
        ext k; simp only [mem_Icc, mem_union, mem_Ioc]; omega
      have hdisj : Disjoint (Icc 2 (m / 2)) (Ioc (m / 2) m) := by
        rw [disjoint_left]; intro k; simp only [mem_Icc, mem_Ioc]; omega
      rw [hsplit, sum_union hdisj, hlog]
      have h2 : ∑ k ∈ Ioc (m / 2) m, (1 / (k : ℚ)) ≤ (Ioc (m / 2) m).card • (1 / ((m / 2 + 1 : ℕ) : ℚ)) := by
        refine sum_le_card_nsmul _ _ _ fun k hk => ?_
        have : m / 2 + 1 ≤ k := (mem_Ioc.1 hk).1
        exact one_div_le_one_div_of_le (by positivity) (by exact_mod_cast this)
      have h3 : (Ioc (m / 2) m).card • (1 / ((m / 2 + 1 : ℕ) : ℚ)) ≤ 1 := by
        rw [Nat.card_Ioc, nsmul_eq_mul, mul_one_div, div_le_one (by positivity)]
        exact_mod_cast (by omega : m - m / 2 ≤ m / 2 + 1)
      push_cast
      linarith

/-- The number of primes between `2^k` and `2^(k+1)`. -/
theorem card_primes_block (k : ℕ) : k * ((Ioc (2 ^ k) (2 ^ (k + 1))).filter Nat.Prime).card ≤ 2 ^ (k + 1) := by
  set S := (Ioc (2 ^ k) (2 ^ (k + 1))).filter Nat.Prime with hS
  have h1 : (2 ^ k) ^ S.card ≤ ∏ p ∈ S, p := by
    rw [← prod_const]
    exact prod_le_prod' fun p hp => (mem_Ioc.1 (mem_filter.1 hp).1).1.le
  have h2 : (∏ p ∈ S, p) ∣ (2 * 2 ^ k).choose (2 ^ k) := by
    refine prod_primes_dvd _ (fun p hp => (mem_filter.1 hp).2.prime) fun p hp => ?_
    obtain ⟨h3, h4⟩ := mem_filter.1 hp
    obtain ⟨h5, h6⟩ := mem_Ioc.1 h3
    rw [pow_succ] at h6
    have h7 : p ∣ (2 ^ k + 2 ^ k).choose (2 ^ k) := h4.dvd_choose_add h5 h5 (by omega)
    rwa [two_mul]
  have h8 : (2 * 2 ^ k).choose (2 ^ k) ≤ 2 ^ (2 * 2 ^ k) := Nat.choose_le_two_pow _ _
  have h9 : 2 ^ (k * S.card) ≤ 2 ^ (2 ^ (k + 1)) := by
    rw [pow_mul, pow_succ, mul_comm (2 ^ k) 2]
    exact h1.trans ((Nat.le_of_dvd (Nat.choose_pos (by omega)) h2).trans h8)
  exact (Nat.pow_le_pow_iff_right (by omega)).1 h9

theorem sum_block {k : ℕ} (hk : 0 < k) :
    ∑ p ∈ (Ioc (2 ^ k) (2 ^ (k + 1))).filter Nat.Prime, (1 / (p : ℚ)) ≤ 2 * (1 / (k : ℚ)) := by
  set S := (Ioc (2 ^ k) (2 ^ (k + 1))).filter Nat.Prime with hS
  have h1 : ∑ p ∈ S, (1 / (p : ℚ)) ≤ S.card • (1 / ((2 ^ k : ℕ) : ℚ)) := by
    refine sum_le_card_nsmul _ _ _ fun p hp => ?_
    have : 2 ^ k ≤ p := (mem_Ioc.1 (mem_filter.1 hp).1).1.le
    exact one_div_le_one_div_of_le (by positivity) (by exact_mod_cast this)
  refine h1.trans ?_
  have h2 : (k : ℚ) * S.card ≤ 2 * (2 ^ k : ℕ) := by
    have := card_primes_block k
    rw [← hS] at this
    rw [pow_succ, mul_comm (2 ^ k) 2] at this
    exact_mod_cast this
  have hk' : (0 : ℚ) < k := by exact_mod_cast hk
  have h2k : (0 : ℚ) < ((2 ^ k : ℕ) : ℚ) := by positivity
  rw [nsmul_eq_mul, mul_one_div, mul_one_div, div_le_div_iff₀ h2k hk']
  linarith

theorem sum_primes_two_pow : ∀ K : ℕ,
    ∑ p ∈ (Ioc 4 (2 ^ K)).filter Nat.Prime, (1 / (p : ℚ)) ≤ 2 * ∑ k ∈ Icc 2 (K - 1), (1 / (k : ℚ)) := by
  intro K
  induction K with
  | zero => rw [show Ioc 4 (2 ^ 0) = ∅ by decide]; simp
  | succ K ih =>
    rcases Nat.lt_or_ge K 2 with h | h
    · have : (Ioc 4 (2 ^ (K + 1))).filter Nat.Prime = ∅ := by
        have : 2 ^ (K + 1) ≤ 2 ^ 2 := Nat.pow_le_pow_right (by omega) (by omega)
        rw [Ioc_eq_empty (by omega)]; rfl
      rw [this, sum_empty]
      have : (0 : ℚ) ≤ ∑ k ∈ Icc 2 (K + 1 - 1), (1 / (k : ℚ)) := sum_nonneg fun k _ => by positivity
      linarith
    · have h4 : 4 ≤ 2 ^ K := by
        calc 4 = 2 ^ 2 := rfl
          _ ≤ 2 ^ K := Nat.pow_le_pow_right (by omega) h
      have h5 : 2 ^ K ≤ 2 ^ (K + 1) := Nat.pow_le_pow_right (by omega) (by omega)
      have hsplit : (Ioc 4 (2 ^ (K + 1))).filter Nat.Prime =
          (Ioc 4 (2 ^ K)).filter Nat.Prime ∪ (Ioc (2 ^ K) (2 ^ (K + 1))).filter Nat.Prime := by
        rw [← filter_union]
        congr 1
        ext p; simp only [mem_Ioc, mem_union]; omega
      have hdisj : Disjoint ((Ioc 4 (2 ^ K)).filter Nat.Prime) ((Ioc (2 ^ K) (2 ^ (K + 1))).filter Nat.Prime) := by
        rw [disjoint_left]; intro p; simp only [mem_filter, mem_Ioc]; omega
      rw [hsplit, sum_union hdisj, Nat.add_sub_cancel]
      have h6 : ∑ k ∈ Icc 2 K, (1 / (k : ℚ)) = ∑ k ∈ Icc 2 (K - 1), (1 / (k : ℚ)) + 1 / (K : ℚ) := by
        obtain ⟨j, rfl⟩ : ∃ j, K = j + 1 := ⟨K - 1, by omega⟩
        rw [Nat.add_sub_cancel, sum_Icc_succ_top (by omega)]
      rw [h6]
      have := sum_block (show 0 < K by omega)
      linarith

/-- The sum of the reciprocals of the primes from 5 to `n` is at most `2 log₂ log₂ n`, with logarithms rounded down. -/
theorem sum_inv_primes_le (n : ℕ) :
    ∑ p ∈ (Ioc 4 n).filter Nat.Prime, (1 / (p : ℚ)) ≤ 2 * (Nat.log 2 (Nat.log 2 n) : ℚ) := by
  have hn : n ≤ 2 ^ (Nat.log 2 n + 1) := (Nat.lt_pow_succ_log_self (by omega) n).le
  have h1 : ∑ p ∈ (Ioc 4 n).filter Nat.Prime, (1 / (p : ℚ)) ≤
      ∑ p ∈ (Ioc 4 (2 ^ (Nat.log 2 n + 1))).filter Nat.Prime, (1 / (p : ℚ)) := by
    refine sum_le_sum_of_subset_of_nonneg (filter_subset_filter _ (Ioc_subset_Ioc_right hn)) fun p _ _ => by positivity
  have h2 := sum_primes_two_pow (Nat.log 2 n + 1)
  rw [Nat.add_sub_cancel] at h2
  have h3 := sum_inv_le_log (Nat.log 2 n)
  linarith

theorem sum_div_primes_le (L n : ℕ) : ∑ p ∈ (Ioc 4 n).filter Nat.Prime, L / p ≤ 2 * L * Nat.log 2 (Nat.log 2 n) := by
  have h1 : ((∑ p ∈ (Ioc 4 n).filter Nat.Prime, L / p : ℕ) : ℚ) ≤ L * ∑ p ∈ (Ioc 4 n).filter Nat.Prime, (1 / (p : ℚ)) := by
    rw [Nat.cast_sum, mul_sum]
    refine sum_le_sum fun p _ => ?_
    rw [mul_one_div]
    exact Nat.cast_div_le
  have h2 := mul_le_mul_of_nonneg_left (sum_inv_primes_le n) (show (0 : ℚ) ≤ L by positivity)
  have h3 : ((∑ p ∈ (Ioc 4 n).filter Nat.Prime, L / p : ℕ) : ℚ) ≤ ((2 * L * Nat.log 2 (Nat.log 2 n) : ℕ) : ℚ) := by
    push_cast at h1 ⊢
    linarith
  exact_mod_cast h3

end Rosemary.Spec
