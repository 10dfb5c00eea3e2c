import Verif.Lemmas.SqrtPeriod
import Verif.Spec.ContinuedFraction
import Mathlib.Analysis.Real.Sqrt
import Mathlib.NumberTheory.DiophantineApproximation.Basic
import Mathlib.Tactic.FieldSimp

/-!
# The convergents of a square root
-/

namespace Rosemary.ContinuedFractions

open Rosemary.Spec

/-! ## Partial quotients -/

section Quotients

variable {d r : ℤ}

theorem state_facts (h1 : r * r < d) (h2 : d < (r + 1) * (r + 1)) (hr : 1 ≤ r) (n : ℕ) :
    0 < (state d r n).2 ∧ (state d r n).2 ∣ d - (state d r n).1 * (state d r n).1 ∧ 1 ≤ quot r (state d r n) := by
  rcases Nat.eq_zero_or_pos n with rfl | hn
  · rw [state, if_pos rfl, quot]
    dsimp only
    exact ⟨one_pos, one_dvd _, by rw [Int.ediv_one]; omega⟩
  · rw [state, if_neg (by omega)]
    have h := reduced_iterate h1 h2 hr n
    refine ⟨h.posQ, h.dvd, ?_⟩
    rw [quot, Int.le_ediv_iff_mul_le h.posQ]
    have := h.le'
    omega

theorem sqrt_bounds (h1 : r * r < d) (h2 : d < (r + 1) * (r + 1)) (hr : 1 ≤ r) :
    (r : ℝ) < √(d : ℝ) ∧ √(d : ℝ) < r + 1 := by
  have hr' : (0 : ℝ) ≤ r := by exact_mod_cast (by omega : (0 : ℤ) ≤ r)
  constructor
  · rw [Real.lt_sqrt hr', sq]; exact_mod_cast h1
  · rw [Real.sqrt_lt' (by linarith), sq]; exact_mod_cast h2

/-- The complete quotients of the square root are the numbers `(P + √d)/Q`. -/
theorem completeQuotient_eq (h1 : r * r < d) (h2 : d < (r + 1) * (r + 1)) (hr : 1 ≤ r) (n : ℕ) :
    completeQuotient (√(d : ℝ)) n = ((state d r n).1 + √(d : ℝ)) / (state d r n).2 ∧
      cfQuotient (√(d : ℝ)) n = quot r (state d r n) := by
  obtain ⟨b1, b2⟩ := sqrt_bounds h1 h2 hr
  have floor_eq : ∀ P Q : ℤ, 0 < Q → ⌊((P : ℝ) + √(d : ℝ)) / (Q : ℝ)⌋ = (P + r) / Q := by
    intro P Q hQ
    have hQ' : (0 : ℝ) < Q := by exact_mod_cast hQ
    have h3 := Int.mul_ediv_add_emod (P + r) Q
    have h4 := Int.emod_nonneg (P + r) (ne_of_gt hQ)
    have h5 := Int.emod_lt_of_pos (P + r) hQ
    rw [Int.floor_eq_iff, le_div_iff₀ hQ', div_lt_iff₀ hQ']
    constructor
    · have : (P + r) / Q * Q ≤ P + r := by rw [mul_comm]; omega
      have : (((P + r) / Q : ℤ) : ℝ) * Q ≤ P + r := by exact_mod_cast this
      linarith
    · have : P + r + 1 ≤ ((P + r) / Q + 1) * Q := by
        have : ((P + r) / Q + 1) * Q = Q * ((P + r) / Q) + Q := by ring
        omega
      have : (P : ℝ) + r + 1 ≤ (((P + r) / Q : ℤ) + 1) * Q := by exact_mod_cast this
      linarith
  have key : completeQuotient (√(d : ℝ)) n = ((state d r n).1 + √(d : ℝ)) / (state d r n).2 := by
    induction n with
    | zero => rw [completeQuotient, state, if_pos rfl]; simp
    | succ n ih =>
      obtain ⟨hQ, hdvd, -⟩ := state_facts h1 h2 hr n
      obtain ⟨hQ1, -, -⟩ := state_facts h1 h2 hr (n + 1)
      rw [completeQuotient, ih, Int.fract, floor_eq _ _ hQ]
      obtain ⟨-, -, f3, f4⟩ := step_facts (d := d) (r := r) hQ hdvd
      rw [Prod.mk.eta, ← state_succ] at f3 f4
      have hQ' : ((state d r n).2 : ℝ) ≠ 0 := by exact_mod_cast ne_of_gt hQ
      have hQ1' : ((state d r (n + 1)).2 : ℝ) ≠ 0 := by exact_mod_cast ne_of_gt hQ1
      have f3' : ((state d r n).2 : ℝ) * (state d r (n + 1)).2 = d - (state d r (n + 1)).1 * (state d r (n + 1)).1 := by
        exact_mod_cast f3
      have f4' : ((state d r n).1 : ℝ) + (state d r (n + 1)).1 = (((state d r n).1 + r) / (state d r n).2 : ℤ) * (state d r n).2 := by
        exact_mod_cast f4
      have hsq : √(d : ℝ) * √(d : ℝ) = d := Real.mul_self_sqrt (by
        have : (0 : ℤ) ≤ d := by nlinarith
        exact_mod_cast this)
      have e1 : ((state d r n).1 + √(d : ℝ)) / (state d r n).2 - (((state d r n).1 + r) / (state d r n).2 : ℤ) =
          (√(d : ℝ) - (state d r (n + 1)).1) / (state d r n).2 := by
        rw [sub_eq_iff_eq_add, div_add' _ _ _ hQ', ← f4']
        congr 1; ring
      rw [e1, inv_div]
      have hne : √(d : ℝ) - (state d r (n + 1)).1 ≠ 0 := by
        intro h0
        have : (√(d : ℝ) - (state d r (n + 1)).1) * (√(d : ℝ) + (state d r (n + 1)).1) = 0 := by rw [h0, zero_mul]
        have h6 : (d : ℝ) - (state d r (n + 1)).1 * (state d r (n + 1)).1 = 0 := by rw [← hsq]; linarith
        rw [← f3'] at h6
        exact (mul_ne_zero hQ' hQ1') h6
      rw [div_eq_div_iff hne hQ1', f3']
      linear_combination -hsq
  exact ⟨key, by rw [cfQuotient, key, floor_eq _ _ (state_facts h1 h2 hr n).1]; rfl⟩

end Quotients

/-! ## Convergents -/

section Convergents

/-- The value of `[⌊x₀⌋; …, ⌊xₙ₋₁⌋, t]` for the complete quotients of `x`. -/
noncomputable def ev : ℝ → ℕ → ℝ → ℝ
  | _, 0, t => t
  | x, n + 1, t => ⌊x⌋ + (ev (Int.fract x)⁻¹ n t)⁻¹

theorem completeQuotient_succ' (x : ℝ) (n : ℕ) : completeQuotient x (n + 1) = completeQuotient (Int.fract x)⁻¹ n := by
  induction n with
  | zero => rfl
  | succ n ih => rw [completeQuotient, ih, completeQuotient]

theorem ev_succ (x : ℝ) (n : ℕ) (t : ℝ) : ev x (n + 1) t = ev x n (cfQuotient x n + t⁻¹) := by
  induction n generalizing x with
  | zero => rfl
  | succ n ih =>
    rw [ev, ih, ev, cfQuotient, cfQuotient, completeQuotient_succ']

theorem convergent_eq_ev (x : ℝ) (n : ℕ) : (x.convergent n : ℝ) = ev x n (cfQuotient x n) := by
  induction n generalizing x with
  | zero => rw [Real.convergent_zero, ev, cfQuotient, completeQuotient]; simp
  | succ n ih =>
    rw [Real.convergent_succ, ev]
    push_cast
    rw [ih, cfQuotient, cfQuotient, completeQuotient_succ']

variable (a : ℕ → ℤ)

/-- The numerators, starting with those of the numbers -2 and -1. -/
def num (n : ℕ) : ℤ := (convergentState a n).2.1
def num0 (n : ℕ) : ℤ := (convergentState a n).1
def den (n : ℕ) : ℤ := (convergentState a n).2.2.2
def den0 (n : ℕ) : ℤ := (convergentState a n).2.2.1

theorem num_succ (n : ℕ) : num a (n + 1) = a n * num a n + num0 a n := rfl
theorem num0_succ (n : ℕ) : num0 a (n + 1) = num a n := rfl
theorem den_succ (n : ℕ) : den a (n + 1) = a n * den a n + den0 a n := rfl
theorem den0_succ (n : ℕ) : den0 a (n + 1) = den a n := rfl

theorem det (n : ℕ) : num a n * den0 a n - num0 a n * den a n = (-1) ^ n := by
  induction n with
  | zero => rfl
  | succ n ih =>
    rw [num_succ, den_succ, num0_succ, den0_succ, pow_succ, ← ih]; ring

variable {a}

theorem den_pos (ha : ∀ n, 1 ≤ a n) (n : ℕ) : 0 ≤ den a n ∧ 0 ≤ den0 a n ∧ 0 < den a (n + 1) ∧ den a n ≤ den a (n + 1) := by
  induction n with
  | zero => rw [den_succ]; exact ⟨le_rfl, zero_le_one, by simp [den, den0, convergentState], by simp [den, den0, convergentState]⟩
  | succ n ih =>
    obtain ⟨h1, h2, h3, h4⟩ := ih
    have h := ha (n + 1)
    refine ⟨h3.le, by rw [den0_succ]; exact h1, ?_, ?_⟩
    · rw [den_succ _ (n + 1), den0_succ]; nlinarith
    · rw [den_succ _ (n + 1), den0_succ]; nlinarith

theorem num_pos (ha : ∀ n, 1 ≤ a n) (n : ℕ) : 0 < num a n ∧ 0 ≤ num0 a n ∧ num a n ≤ num a (n + 1) := by
  induction n with
  | zero =>
    have := ha 0
    rw [num_succ]
    simp [num, num0, convergentState]; omega
  | succ n ih =>
    obtain ⟨h1, h2, h3⟩ := ih
    have h := ha (n + 1)
    refine ⟨by omega, by rw [num0_succ]; omega, ?_⟩
    rw [num_succ _ (n + 1), num0_succ]; nlinarith

theorem den_mono (ha : ∀ n, 1 ≤ a n) {m n : ℕ} (h : m ≤ n) : den a m ≤ den a n :=
  monotone_nat_of_le_succ (fun n => (den_pos ha n).2.2.2) h

theorem num_mono (ha : ∀ n, 1 ≤ a n) {m n : ℕ} (h : m ≤ n) : num a m ≤ num a n :=
  monotone_nat_of_le_succ (fun n => (num_pos ha n).2.2) h

theorem ev_eq {x : ℝ} (hx : ∀ n, cfQuotient x n = a n) (ha : ∀ n, 1 ≤ a n) (n : ℕ) {t : ℝ} (ht : 0 < t) :
    ev x n t = (num a n * t + num0 a n) / (den a n * t + den0 a n) := by
  induction n generalizing t with
  | zero => simp [ev, num, num0, den, den0, convergentState]
  | succ n ih =>
    have h1 : (0 : ℝ) < a n := by exact_mod_cast (ha n)
    have hpos : 0 < (cfQuotient x n : ℝ) + t⁻¹ := by rw [hx]; positivity
    rw [ev_succ, ih hpos, hx, num_succ, den_succ, num0_succ, den0_succ]
    have ht' := ne_of_gt ht
    have e1 : (num a n : ℝ) * (a n + t⁻¹) + num0 a n = ((a n * num a n + num0 a n) * t + num a n) / t := by
      field_simp; ring
    have e2 : (den a n : ℝ) * (a n + t⁻¹) + den0 a n = ((a n * den a n + den0 a n) * t + den a n) / t := by
      field_simp; ring
    rw [e1, e2, div_div_div_cancel_right₀ ht']
    push_cast
    rfl

theorem convergent_eq {x : ℝ} (hx : ∀ n, cfQuotient x n = a n) (ha : ∀ n, 1 ≤ a n) (n : ℕ) :
    x.convergent n = (num a (n + 1) : ℚ) / (den a (n + 1) : ℚ) := by
  have h := convergent_eq_ev x n
  have h1 : (0 : ℝ) < a n := by exact_mod_cast (ha n)
  rw [hx, ev_eq hx ha n h1] at h
  have : ((x.convergent n : ℚ) : ℝ) = (((num a (n + 1) : ℚ) / (den a (n + 1) : ℚ) : ℚ) : ℝ) := by
    rw [h, num_succ, den_succ]
    push_cast
    rw [mul_comm (num a n : ℝ), mul_comm (den a n : ℝ)]
  exact_mod_cast this

theorem coprime (n : ℕ) : IsCoprime (num a n) (den a n) := by
  have h := det a n
  rcases Nat.even_or_odd n with he | ho
  · rw [he.neg_one_pow] at h
    exact ⟨den0 a n, -num0 a n, by linarith⟩
  · rw [ho.neg_one_pow] at h
    exact ⟨-den0 a n, num0 a n, by linarith⟩

end Convergents

end Rosemary.ContinuedFractions
