import Verif.Model.MulCosts
import Verif.Lemmas.Polynomials
import Mathlib.Analysis.SpecialFunctions.Log.Base
import Mathlib.Analysis.SpecialFunctions.Pow.Real

/-!
# C157: the coefficient operations of polynomial multiplication
-/

namespace Rosemary.Props
open Rosemary.Polys

theorem mulRowsOps_eq (N M : List Int) : mulRowsOps N M = ⟨M.length * N.length, M.length * N.length⟩ := by
  have h : ∀ N : List Int, mulRowOps N = ⟨N.length, N.length⟩ := by
    intro N
    induction N with
    | nil => rfl
    | cons y N ih => rw [mulRowOps, ih]; rfl
  induction M with
  | nil => rw [mulRowsOps]; simp
  | cons x M ih => rw [mulRowsOps, ih, h, Ops.plus]; simp only [List.length_cons, Nat.succ_mul]; congr 1 <;> omega

/-- C157: `mul_classical` takes exactly `m * n` multiplications and as many additions. -/
theorem C157_mul_classical (M N : List Int) : mulClassicalOps M N = ⟨M.length * N.length, M.length * N.length⟩ := by
  rw [mulClassicalOps]
  split_ifs with h
  · rcases h with h | h <;> simp [h]
  · exact mulRowsOps_eq N M

theorem karatsubaOps_result (M N : List Int) : (mulKaratsubaOps M N).1 = mulKaratsuba M N := by
  fun_induction mulKaratsuba M N with
  | case1 M N h => rw [mulKaratsubaOps, dif_pos h]
  | case2 M N h k f0 f1 g0 g1 z0 z2 xxyy z1 t2 t1 ih1 ih2 ih3 =>
    rw [mulKaratsubaOps, dif_neg h]
    dsimp only
    rw [ih1, ih2, ih3]

theorem length_mulClassical_le (M N : List Int) : (mulClassical M N).length ≤ 2 * max M.length N.length := by
  by_cases hM : M = []
  · subst hM; simp [mulClassical]
  · by_cases hN : N = []
    · subst hN; simp [mulClassical]
    · rw [length_mulClassical M N hM hN]; omega

theorem length_mulKaratsuba_le (M N : List Int) : (mulKaratsuba M N).length ≤ 2 * max M.length N.length := by
  fun_induction mulKaratsuba M N with
  | case1 M N h => exact length_mulClassical_le M N
  | case2 M N h k f0 f1 g0 g1 z0 z2 xxyy z1 t2 t1 ih1 ih2 ih3 =>
    have hk : k = max M.length N.length / 2 := rfl
    rw [length_listAdd, length_listAdd]
    simp only [t2, t1, z1, List.length_append, List.length_replicate, length_listSubtract]
    have j1 : z0.length ≤ _ := ih1
    have j2 : z2.length ≤ _ := ih2
    have j3 : xxyy.length ≤ _ := ih3
    clear ih1 ih2 ih3
    simp only [f0, f1, g0, g1, length_listAdd, List.length_take, List.length_drop] at j1 j2 j3
    omega

/-- Sizes up to `29 * 2^j` take at most `841 * 3^j` multiplications. -/
theorem karatsubaOps_le (j : ℕ) : ∀ M N : List Int, max M.length N.length ≤ 29 * 2 ^ j →
    (mulKaratsubaOps M N).2.mul ≤ 841 * 3 ^ j ∧ (mulKaratsubaOps M N).2.add + 464 * 2 ^ j ≤ 1305 * 3 ^ j := by
  have hsmall : ∀ (j m n : ℕ), (m < 30 ∨ n < 30) → max m n ≤ 29 * 2 ^ j →
      m * n ≤ 841 * 3 ^ j ∧ m * n + 464 * 2 ^ j ≤ 1305 * 3 ^ j := by
    intro j m n h hmax
    have h23 : 2 ^ j ≤ 3 ^ j := Nat.pow_le_pow_left (by norm_num) j
    have hmn : m * n ≤ 29 * (29 * 2 ^ j) := by
      rcases h with h | h
      · exact Nat.mul_le_mul (by omega) (by omega)
      · rw [Nat.mul_comm]; exact Nat.mul_le_mul (by omega) (by omega)
    omega
  induction j with
  | zero =>
    intro M N hmax
    have h : M.length < 30 ∨ N.length < 30 := by omega
    rw [mulKaratsubaOps, dif_pos h, C157_mul_classical]
    exact hsmall 0 _ _ h hmax
  | succ j ih =>
    intro M N hmax
    by_cases h : M.length < 30 ∨ N.length < 30
    · rw [mulKaratsubaOps, dif_pos h, C157_mul_classical]
      exact hsmall _ _ _ h hmax
    · rw [mulKaratsubaOps, dif_neg h]
      simp only [karatsubaOps_result]
      rw [pow_succ] at hmax
      set k := max M.length N.length / 2 with hk
      have i0 := ih (M.take k) (N.take k) (by simp only [List.length_take]; omega)
      have i2 := ih (M.drop k) (N.drop k) (by simp only [List.length_drop]; omega)
      have i1 := ih (listAdd (M.drop k) (M.take k)) (listAdd (N.drop k) (N.take k))
        (by simp only [length_listAdd, List.length_drop, List.length_take]; omega)
      have l0 := length_mulKaratsuba_le (M.take k) (N.take k)
      have l2 := length_mulKaratsuba_le (M.drop k) (N.drop k)
      have l1 := length_mulKaratsuba_le (listAdd (M.drop k) (M.take k)) (listAdd (N.drop k) (N.take k))
      simp only [length_listAdd, List.length_drop, List.length_take] at l0 l1 l2
      generalize mulKaratsuba (M.take k) (N.take k) = z0 at *
      generalize mulKaratsuba (M.drop k) (N.drop k) = z2 at *
      generalize mulKaratsuba (listAdd (M.drop k) (M.take k)) (listAdd (N.drop k) (N.take k)) = z1 at *
      have add_mul : ∀ A B, (listAddOps A B).mul = 0 := by intro A B; rw [listAddOps]; split_ifs <;> rfl
      have add_add : ∀ A B, (listAddOps A B).add = min A.length B.length := by
        intro A B; rw [listAddOps]; split_ifs <;> simp only <;> omega
      have sub_mul : ∀ A B, (listSubtractOps A B).mul = 0 := by intro A B; rw [listSubtractOps]; split_ifs <;> rfl
      have sub_add : ∀ A B, (listSubtractOps A B).add ≤ A.length + B.length := by
        intro A B; rw [listSubtractOps]; split_ifs <;> simp only <;> omega
      have s1 := sub_add z1 z2
      have s2 := sub_add (listSubtract z1 z2) z0
      rw [length_listSubtract] at s2
      simp only [Ops.plus, add_mul, sub_mul, add_add, length_listAdd, length_listSubtract, List.length_append,
        List.length_replicate, List.length_drop, List.length_take]
      rw [pow_succ, pow_succ]
      omega

/-- C157: `mul_karatsuba` on at most `n` coefficients each takes `O(n^c)` coefficient operations with `c = log_2 3`. -/
theorem C157_mul_karatsuba (M N : List Int) (n : ℕ) (hn : 29 ≤ n) (hM : M.length ≤ n) (hN : N.length ≤ n) :
    (mulKaratsubaOps M N).1 = mulKaratsuba M N ∧
      ((mulKaratsubaOps M N).2.mul : ℝ) ≤ 2523 * ((n : ℝ) / 29) ^ Real.logb 2 3 ∧
      ((mulKaratsubaOps M N).2.add : ℝ) ≤ 3915 * ((n : ℝ) / 29) ^ Real.logb 2 3 := by
  have hc : (0 : ℝ) ≤ Real.logb 2 3 := Real.logb_nonneg (by norm_num) (by norm_num)
  -- the least `j` with `n ≤ 29 * 2^j`
  obtain ⟨j, hj1, hj2⟩ : ∃ j, n ≤ 29 * 2 ^ j ∧ (29 : ℕ) * 2 ^ j ≤ 2 * n := by
    have hex : ∃ j, n ≤ 29 * 2 ^ j := ⟨n, by have := @Nat.lt_two_pow_self n; omega⟩
    refine ⟨Nat.find hex, Nat.find_spec hex, ?_⟩
    rcases Nat.eq_zero_or_pos (Nat.find hex) with h0 | h0
    · rw [h0]; omega
    · have := Nat.find_min hex (show Nat.find hex - 1 < Nat.find hex by omega)
      have e : 2 ^ Nat.find hex = 2 * 2 ^ (Nat.find hex - 1) := by
        rw [← pow_succ']; congr 1; omega
      omega
  obtain ⟨h1, h2⟩ := karatsubaOps_le j M N (by omega)
  have h3 : ((3 : ℝ)) ^ j ≤ 3 * ((n : ℝ) / 29) ^ Real.logb 2 3 := by
    have e2 : ((2 : ℝ) ^ j) ^ Real.logb 2 3 = 3 ^ j := by
      rw [← Real.rpow_natCast, ← Real.rpow_mul (by norm_num), mul_comm, Real.rpow_mul (by norm_num),
        Real.rpow_logb (by norm_num) (by norm_num) (by norm_num), Real.rpow_natCast]
    have e3 : (2 : ℝ) ^ j ≤ 2 * ((n : ℝ) / 29) := by
      have : (29 : ℝ) * 2 ^ j ≤ 2 * n := by exact_mod_cast hj2
      linarith
    calc (3 : ℝ) ^ j = ((2 : ℝ) ^ j) ^ Real.logb 2 3 := e2.symm
      _ ≤ (2 * ((n : ℝ) / 29)) ^ Real.logb 2 3 := Real.rpow_le_rpow (by positivity) e3 hc
      _ = 3 * ((n : ℝ) / 29) ^ Real.logb 2 3 := by
        rw [Real.mul_rpow (by norm_num) (by positivity), Real.rpow_logb (by norm_num) (by norm_num) (by norm_num)]
  refine ⟨karatsubaOps_result M N, ?_, ?_⟩
  · have : ((mulKaratsubaOps M N).2.mul : ℝ) ≤ 841 * 3 ^ j := by exact_mod_cast h1
    linarith
  · have : ((mulKaratsubaOps M N).2.add : ℝ) ≤ 1305 * 3 ^ j := by exact_mod_cast (le_trans (by omega) h2)
    linarith

/-- The bound by powers of three for one concrete size: 116 coefficients take at most 9 * 841 multiplications, the
classical method takes 13456. -/
example (M N : List Int) (hM : M.length = 116) (hN : N.length = 116) :
    (mulKaratsubaOps M N).2.mul ≤ 7569 ∧ (mulClassicalOps M N).mul = 13456 := by
  refine ⟨(karatsubaOps_le 2 M N (by rw [hM, hN]; norm_num)).1, ?_⟩
  rw [C157_mul_classical, hM, hN]

end Rosemary.Props
