import Verif.Lemmas.QuadraticCF
import Verif.Props.ContinuedFractions

/-!
# C94: continued fractions of general quadratic irrationals
-/

namespace Rosemary.Props

open Rosemary.ContinuedFractions Rosemary.Core Rosemary.Classification Rosemary.Spec

private theorem root_of {d : ℤ} (hd : 0 < d) (hns : ∀ k : ℤ, k ^ 2 ≠ d)
    (h : d < 4503599761588224 ∨ 2 ^ 60 < d ∨ ∀ r : ℕ, integerSqrt d = .ok r → (r : ℤ) ^ 2 ≤ d) :
    ∃ r : ℕ, integerSqrt d = .ok r ∧ (r : ℤ) * r < d ∧ d < ((r : ℤ) + 1) * (r + 1) ∧ (1 : ℤ) ≤ r := by
  have key : ∃ r : ℕ, integerSqrt d = .ok r ∧ (r : ℤ) ^ 2 ≤ d ∧ d < ((r : ℤ) + 1) ^ 2 := by
    rcases h with h | h | h
    · exact C09_integer_sqrt_partial d hd.le (Or.inl h)
    · exact C09_integer_sqrt_partial d hd.le (Or.inr h)
    · obtain ⟨r, h1, h2, -, -⟩ := C09_integer_sqrt_bounds d hd.le
      exact ⟨r, h1, h r h1, h2⟩
  obtain ⟨r, h1, h2, h3⟩ := key
  have hne := hns r
  refine ⟨r, h1, ?_, by rw [← pow_two]; exact h3, ?_⟩
  · rw [← pow_two]; exact lt_of_le_of_ne h2 hne
  · rcases Nat.eq_zero_or_pos r with rfl | hr
    · norm_num at h3; omega
    · exact_mod_cast hr

private theorem start_of {d r : ℤ} (h1 : r * r < d) (h2 : d < (r + 1) * (r + 1)) (hr : 1 ≤ r) {P Q : ℤ} (hQ : 0 < Q)
    (hdvd : Q ∣ d - P * P) (hconj : (P : ℝ) - √(d : ℝ) < Q * ⌊((P : ℝ) + √(d : ℝ)) / Q⌋) : Start d r (P, Q) := by
  refine ⟨h1, h2, hr, hQ, hdvd, ?_⟩
  rw [floor_quot h1 h2 hr P Q hQ] at hconj
  obtain ⟨-, b2⟩ := sqrt_bounds h1 h2 hr
  show -r ≤ (P + r) / Q * Q - P
  have : (P : ℝ) - (r + 1) < Q * ((P + r) / Q : ℤ) := by linarith
  have : P - (r + 1) < Q * ((P + r) / Q) := by exact_mod_cast this
  have := mul_comm Q ((P + r) / Q)
  omega

/-- The values of `partial_quotients` are the partial quotients of `(p + √d)/q`, when `q` is positive and the conjugate
`(p - √d)/q` lies below the integer part.  The first alternative of `h` is the case in which the triple is used as it is
and the second the case in which it is scaled.  Missing: negative `q`, larger conjugates and scaled triples with `q ∣ p²`,
where the result can be wrong (`C94_quadratic_violation`), and the arguments where `integer_sqrt` is too large. -/
theorem C94_quadratic_partial (d p q : ℤ) (hd : 0 < d) (hns : ∀ k : ℤ, k ^ 2 ≠ d) (hq : 0 < q)
    (hconj : ((p : ℝ) - √(d : ℝ)) / q < ⌊((p : ℝ) + √(d : ℝ)) / q⌋)
    (h : (q ∣ d - p ^ 2 ∧
        (d < 4503599761588224 ∨ 2 ^ 60 < d ∨ ∀ r : ℕ, integerSqrt d = .ok r → (r : ℤ) ^ 2 ≤ d)) ∨
      (¬ q ∣ d - p ^ 2 ∧ ¬ q ∣ p ^ 2 ∧ (q ^ 2 * d < 4503599761588224 ∨ 2 ^ 60 < q ^ 2 * d ∨
        ∀ r : ℕ, integerSqrt (q ^ 2 * d) = .ok r → (r : ℤ) ^ 2 ≤ q ^ 2 * d))) :
    ∃ c, quadraticIrrational d p q = some (.ok c) ∧
      (∀ n, partialQuotient c n = cfQuotient (((p : ℝ) + √(d : ℝ)) / q) n) ∧
      0 < c.periodLength ∧ c.fundamentalPeriod.length = c.periodLength := by
  have hq' : (0 : ℝ) < q := by exact_mod_cast hq
  by_cases hpq : p = 0 ∧ q = 1
  · obtain ⟨rfl, rfl⟩ := hpq
    rcases h with ⟨-, h⟩ | ⟨h, -⟩
    · obtain ⟨c, c1, c2, -, c3, c4, -, -⟩ := C40_partial_quotients_partial d hd hns h
      refine ⟨c, c1, fun n => ?_, c3, c4⟩
      rw [c2]; congr 1; simp
    · exact absurd (one_dvd _) h
  rw [div_lt_iff₀ hq', mul_comm] at hconj
  obtain ⟨r0, i1, -, -, i4⟩ := C09_integer_sqrt_bounds d hd.le
  rw [quadraticIrrational, if_neg hpq, initQuadratic, i1]
  dsimp only
  rw [if_neg (fun he => hns r0 (by rw [pow_two]; exact he)), if_neg (by omega)]
  rcases h with ⟨hdvd, h⟩ | ⟨hdvd, hp2, h⟩
  · obtain ⟨r, hint, h1, h2, hr⟩ := root_of hd hns h
    have hrr : r0 = r := by rw [i1] at hint; exact Except.ok.inj hint
    rw [hrr]
    have hdvd' : q ∣ d - p * p := by rw [← pow_two]; exact hdvd
    rw [if_pos (by rw [Int.fmod_eq_emod_of_nonneg _ hq.le]; exact Int.emod_eq_zero_of_dvd hdvd')]
    have hst := start_of h1 h2 hr hq hdvd' hconj
    obtain ⟨c, c1, c2, c3, c4⟩ := finish_spec hst (states d r (p, q)) (fun _ => rfl) (Or.inl rfl)
    exact ⟨c, c1, fun n => (c2 n).trans (completeQuotient_states hst n).2.symm, c3, c4⟩
  · have hdvd' : ¬ q ∣ d - p * p := by rw [← pow_two]; exact hdvd
    rw [if_neg (by rw [Int.fmod_eq_emod_of_nonneg _ hq.le]; exact fun he => hdvd' (Int.dvd_of_emod_eq_zero he)), abs_of_pos hq]
    have hD : 0 < q * q * d := by positivity
    have hDe : q ^ 2 * d = q * q * d := by ring
    rw [hDe] at h
    have hnsD : ∀ k : ℤ, k ^ 2 ≠ q * q * d := by
      intro k hk
      have hqk : q ∣ k := by
        have : q ^ 2 ∣ k ^ 2 := ⟨d, by rw [hk]; ring⟩
        exact (Int.pow_dvd_pow_iff (by norm_num)).1 this
      obtain ⟨t, rfl⟩ := hqk
      apply hns t
      apply mul_left_cancel₀ (mul_ne_zero (ne_of_gt hq) (ne_of_gt hq))
      rw [← hk]; ring
    obtain ⟨r, hint, h1, h2, hr⟩ := root_of hD hnsD h
    rw [hint]
    dsimp only
    have hsqrt : √((q * q * d : ℤ) : ℝ) = q * √(d : ℝ) := by
      push_cast
      rw [Real.sqrt_mul (by positivity), Real.sqrt_mul_self hq'.le]
    have hx : (((q * p : ℤ) : ℝ) + √((q * q * d : ℤ) : ℝ)) / ((q * q : ℤ) : ℝ) = ((p : ℝ) + √(d : ℝ)) / q := by
      rw [hsqrt]
      push_cast
      rw [← mul_add, mul_div_mul_left _ _ (ne_of_gt hq')]
    have hst : Start (q * q * d) r (q * p, q * q) := by
      refine start_of h1 h2 hr (by positivity) ⟨d - p * p, by ring⟩ ?_
      rw [hx, hsqrt]
      push_cast
      have := mul_lt_mul_of_pos_left hconj hq'
      linarith
    obtain ⟨c, c1, c2, c3, c4⟩ := finish_spec hst (fun n => if n = 0 then (p, q) else states (q * q * d) r (q * p, q * q) n)
      (fun n => by rw [if_neg (by omega)]) (Or.inr (by
        intro n hn
        rw [if_neg (by omega), if_pos rfl] at hn
        have hd2 := (states_facts hst (n + 1)).2
        rw [hn] at hd2
        apply hp2
        have : p ^ 2 = q * q * d - (q * q * d - p * p) := by ring
        rw [this]
        exact dvd_sub ⟨q * d, by ring⟩ hd2))
    rw [if_pos rfl] at c1
    refine ⟨c, c1, fun n => (c2 n).trans ?_, c3, c4⟩
    have := (completeQuotient_states hst n).2
    dsimp only at this
    rw [hx] at this
    exact this.symm

/-- Square and negative `d` raise `ValueError`; for other `d` a zero `q` raises `ZeroDivisionError`. -/
theorem C94_quadratic_error (d p q : ℤ) :
    (d < 0 ∨ (∃ k : ℤ, k ^ 2 = d) → quadraticIrrational d p q = some (.error .valueError)) ∧
    (0 ≤ d → (∀ k : ℤ, k ^ 2 ≠ d) → q = 0 → quadraticIrrational d p q = some (.error .zeroDivisionError)) := by
  constructor
  · intro h
    by_cases hpq : p = 0 ∧ q = 1
    · obtain ⟨rfl, rfl⟩ := hpq
      exact (C40_valueError d).2 h
    · rw [quadraticIrrational, if_neg hpq, initQuadratic]
      by_cases hd : d < 0
      · rw [(C09_integer_sqrt_error d).2 hd]
      · rcases h with h | ⟨k, hk⟩
        · exact absurd h hd
        · obtain ⟨r, h1, -, -, h4⟩ := C09_integer_sqrt_bounds d (by omega)
          have hr := h4 k.natAbs (by rw [← hk, Int.natAbs_sq])
          rw [h1]
          dsimp only
          rw [if_pos]
          rw [hr, ← hk, ← pow_two, Int.natAbs_sq]
  · rintro hd hns rfl
    obtain ⟨r, h1, -, -, -⟩ := C09_integer_sqrt_bounds d hd
    rw [quadraticIrrational, if_neg (by omega), initQuadratic, h1]
    dsimp only
    rw [if_neg (fun he => hns r (by rw [pow_two]; exact he)), if_pos rfl]

/-- Three wrong expansions: for `(10 + √2)/7`, whose conjugate is `1.22…`, the second quotient is 1 and not 2; for
`(1 + √2)/(-1) = -2.41…` the first quotient is `-3`; for `(10 + √7)/4`, which is scaled, the pair `(10, 4)` of the seed
of the dictionary comes up and the code stops with the period `3, 6`, although the third quotient is 5. -/
theorem C94_quadratic_violation :
    initQuadratic 2 10 7 = some (.ok ⟨1, [1, 2], [-2]⟩) ∧ cfQuotient (((10 : ℤ) + √((2 : ℤ) : ℝ)) / (7 : ℤ)) 1 = 1 ∧
    initQuadratic 2 1 (-1) = some (.ok ⟨1, [], [-2]⟩) ∧ cfQuotient (((1 : ℤ) + √((2 : ℤ) : ℝ)) / (-1 : ℤ)) 0 = -3 ∧
    initQuadratic 7 10 4 = some (.ok ⟨2, [], [3, 6]⟩) ∧ cfQuotient (((10 : ℤ) + √((7 : ℤ) : ℝ)) / (4 : ℤ)) 2 = 5 := by
  have hsq2 : √((2 : ℤ) : ℝ) * √((2 : ℤ) : ℝ) = 2 := by
    rw [Real.mul_self_sqrt] <;> norm_num
  obtain ⟨a1, a2⟩ := sqrt_bounds (d := 2) (r := 1) (by norm_num) (by norm_num) (by norm_num)
  have hsq7 : √((7 : ℤ) : ℝ) * √((7 : ℤ) : ℝ) = 7 := by
    rw [Real.mul_self_sqrt] <;> norm_num
  obtain ⟨-, c2⟩ := sqrt_bounds (d := 7) (r := 2) (by norm_num) (by norm_num) (by norm_num)
  have c1 : (5 / 2 : ℝ) < √((7 : ℤ) : ℝ) := by rw [Real.lt_sqrt (by norm_num)]; norm_num
  refine ⟨?_, ?_, ?_, ?_, ?_, ?_⟩
  · rw [initQuadratic, show integerSqrt 2 = .ok 1 by decide +kernel]
    dsimp only
    rw [if_neg (by decide), if_neg (by decide), if_pos (by decide),
      quadLoop_of_fuel 2 ((1 : ℕ) : ℤ) 5 10 7 [((10, 7), 0)] [] 1 (.ok ([1, 2, -2], 2)) (by decide +kernel)]
    decide +kernel
  · rw [cfQuotient, completeQuotient, completeQuotient, Int.fract]
    generalize √((2 : ℤ) : ℝ) = t at *
    push_cast at *
    have h0 : ⌊((10 : ℝ) + t) / 7⌋ = 1 := by
      rw [Int.floor_eq_iff]; push_cast; constructor <;> linarith
    have h1 : (((10 : ℝ) + t) / 7 - (1 : ℤ))⁻¹ = 7 / (3 + t) := by
      rw [show ((10 : ℝ) + t) / 7 - (1 : ℤ) = (3 + t) / 7 by push_cast; ring, inv_div]
    have h2 : (0 : ℝ) < 3 + t := by linarith
    rw [h0, h1, Int.floor_eq_iff, le_div_iff₀ h2, div_lt_iff₀ h2]
    push_cast
    constructor <;> linarith
  · rw [initQuadratic, show integerSqrt 2 = .ok 1 by decide +kernel]
    dsimp only
    rw [if_neg (by decide), if_neg (by decide), if_pos (by decide),
      quadLoop_of_fuel 2 ((1 : ℕ) : ℤ) 5 1 (-1) [((1, -1), 0)] [] 1 (.ok ([-2], 0)) (by decide +kernel)]
    decide +kernel
  · rw [cfQuotient, completeQuotient]
    push_cast at *
    rw [Int.floor_eq_iff]
    push_cast
    constructor <;> norm_num <;> linarith
  · rw [initQuadratic, show integerSqrt 7 = .ok 2 by decide +kernel]
    dsimp only
    rw [if_neg (by decide), if_neg (by decide), if_neg (by decide), show integerSqrt (4 * 4 * 7) = .ok 10 by decide +kernel]
    dsimp only
    rw [quadLoop_of_fuel (4 * 4 * 7) ((10 : ℕ) : ℤ) 5 (|4| * 10) (|4| * 4) [((10, 4), 0)] [] 1 (.ok ([3, 6], 0)) (by decide +kernel)]
    decide +kernel
  · rw [cfQuotient, completeQuotient, completeQuotient, completeQuotient, Int.fract, Int.fract]
    generalize √((7 : ℤ) : ℝ) = t at *
    push_cast at *
    have h0 : ⌊((10 : ℝ) + t) / 4⌋ = 3 := by
      rw [Int.floor_eq_iff]; push_cast; constructor <;> linarith
    have h1 : (((10 : ℝ) + t) / 4 - (3 : ℤ))⁻¹ = (4 * t + 8) / 3 := by
      have : t - 2 ≠ 0 := by intro h; linarith
      rw [show ((10 : ℝ) + t) / 4 - (3 : ℤ) = (t - 2) / 4 by push_cast; ring, inv_div, div_eq_div_iff this (by norm_num)]
      linear_combination -4 * hsq7
    have h2 : ⌊(4 * t + 8) / 3⌋ = 6 := by
      rw [Int.floor_eq_iff]; push_cast; constructor <;> linarith
    have h3 : ((4 * t + 8) / 3 - (6 : ℤ))⁻¹ = t + 5 / 2 := by
      have : 4 * t - 10 ≠ 0 := by intro h; linarith
      rw [show (4 * t + 8) / 3 - ((6 : ℤ) : ℝ) = (4 * t - 10) / 3 by push_cast; ring, inv_div, div_eq_iff this]
      linear_combination -4 * hsq7
    rw [h0, h1, h2, h3, Int.floor_eq_iff]
    push_cast
    constructor <;> linarith

example : quadraticIrrational 5 1 2 = some (.ok ⟨1, [], [1]⟩) ∧ quadraticIrrational 3 1 5 = some (.ok ⟨4, [0, 1], [1, 4, 1, 7]⟩) ∧
    (2 : ℤ) ∣ 5 - 1 ^ 2 ∧ ¬ (5 : ℤ) ∣ 3 - 1 ^ 2 ∧ ¬ (5 : ℤ) ∣ 1 ^ 2 := by
  refine ⟨?_, ?_, by decide, by decide, by decide⟩
  · rw [quadraticIrrational, if_neg (by decide), initQuadratic, show integerSqrt 5 = .ok 2 by decide +kernel]
    dsimp only
    rw [if_neg (by decide), if_neg (by decide), if_pos (by decide),
      quadLoop_of_fuel 5 ((2 : ℕ) : ℤ) 5 1 2 [((1, 2), 0)] [] 1 (.ok ([1], 0)) (by decide +kernel)]
    decide +kernel
  · rw [quadraticIrrational, if_neg (by decide), initQuadratic, show integerSqrt 3 = .ok 1 by decide +kernel]
    dsimp only
    rw [if_neg (by decide), if_neg (by decide), if_neg (by decide), show integerSqrt (5 * 5 * 3) = .ok 8 by decide +kernel]
    dsimp only
    rw [quadLoop_of_fuel (5 * 5 * 3) ((8 : ℕ) : ℤ) 20 (|5| * 1) (|5| * 5) [((1, 5), 0)] [] 1 (.ok ([0, 1, 1, 4, 1, 7], 2)) (by decide +kernel)]
    decide +kernel

end Rosemary.Props
