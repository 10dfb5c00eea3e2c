import Verif.Model.PellSmall
import Verif.Props.Pell

/-!
# C115, C116: `pell_small` and `_pell_small_minimal_positive_solutions`
-/

namespace Rosemary.Props

open Rosemary.PellSmall Rosemary.Pell Rosemary.ContinuedFractions Rosemary.Core Rosemary.Classification

section aux

variable {d r : ℤ}

private theorem of_convergent (h1 : r * r < d) (h2 : d < (r + 1) * (r + 1)) (hr : 1 ≤ r) {x y : ℤ} (hy : 0 < y)
    (hc : IsCoprime x y) {k : ℕ} (hk : (x : ℚ) / (y : ℚ) = (√(d : ℝ)).convergent k) :
    convergent (sqrtIrr d r) k = (x, y) := by
  have ha := sq_pos h1 h2 hr
  have hgcd : Nat.Coprime x.natAbs y.natAbs := Int.isCoprime_iff_gcd_eq_one.1 hc
  have hden := Rat.den_div_eq_of_coprime hy hgcd
  have hnum := Rat.num_div_eq_of_coprime hy hgcd
  rw [convergent_eq (a := ContinuedFractions.sq d r) (fun n => (completeQuotient_eq h1 h2 hr n).2) ha] at hk
  have hB := (den_pos ha k).2.2.1
  have hgcd' : Nat.Coprime (num (ContinuedFractions.sq d r) (k + 1)).natAbs (den (ContinuedFractions.sq d r) (k + 1)).natAbs :=
    Int.isCoprime_iff_gcd_eq_one.1 (coprime (k + 1))
  have hden' := Rat.den_div_eq_of_coprime hB hgcd'
  have hnum' := Rat.num_div_eq_of_coprime hB hgcd'
  rw [← hk] at hden' hnum'
  rw [convergent_eq_num h1 h2 hr]
  exact Prod.ext (hnum'.symm.trans hnum) (hden'.symm.trans hden)

/-- Solutions for small `N` are convergents. -/
private theorem small_is_convergent (h1 : r * r < d) (h2 : d < (r + 1) * (r + 1)) (hr : 1 ≤ r) {x y n : ℤ} (hx : 0 < x)
    (hy : 0 < y) (hc : IsCoprime x y) (hn : n ^ 2 < d) (h : x ^ 2 - d * y ^ 2 = n) :
    ∃ k, convergent (sqrtIrr d r) k = (x, y) := by
  obtain ⟨b1, b2⟩ := sqrt_bounds h1 h2 hr
  have hd0 : (0 : ℤ) ≤ d := by nlinarith
  have hsq : √(d : ℝ) * √(d : ℝ) = d := Real.mul_self_sqrt (by exact_mod_cast hd0)
  have hs1 : (1 : ℝ) < √(d : ℝ) := by
    have : (1 : ℝ) ≤ r := by exact_mod_cast hr
    linarith
  have hx' : (0 : ℝ) < x := by exact_mod_cast hx
  have hy' : (0 : ℝ) < y := by exact_mod_cast hy
  have hnr : (n : ℝ) ^ 2 < d := by exact_mod_cast hn
  have hns : |(n : ℝ)| < √(d : ℝ) := Real.lt_sqrt_of_sq_lt (by rw [sq_abs]; exact hnr)
  have hr' : (x : ℝ) ^ 2 - d * (y : ℝ) ^ 2 = n := by exact_mod_cast h
  have hS : 0 < (x : ℝ) + y * √(d : ℝ) := by positivity
  have hfac : ((x : ℝ) - y * √(d : ℝ)) * (x + y * √(d : ℝ)) = n := by linear_combination hr' - (y : ℝ) ^ 2 * hsq
  have hgcd : Nat.Coprime x.natAbs y.natAbs := Int.isCoprime_iff_gcd_eq_one.1 hc
  rcases le_or_gt 0 n with hn0 | hn0
  · -- Legendre's theorem for `x/y`
    have hn0' : (0 : ℝ) ≤ n := by exact_mod_cast hn0
    have hxy : y * √(d : ℝ) ≤ x := by
      by_contra hlt
      push Not at hlt
      have := mul_neg_of_neg_of_pos (by linarith : (x : ℝ) - y * √(d : ℝ) < 0) hS
      linarith
    have hden : (((x : ℚ) / (y : ℚ)).den : ℤ) = y := Rat.den_div_eq_of_coprime hy hgcd
    have happ : |√(d : ℝ) - (((x : ℚ) / (y : ℚ) : ℚ) : ℝ)| < 1 / (2 * (((x : ℚ) / (y : ℚ)).den : ℝ) ^ 2) := by
      have e1 : ((((x : ℚ) / (y : ℚ)).den : ℕ) : ℝ) = (y : ℝ) := by exact_mod_cast hden
      rw [e1]
      have e2 : ((((x : ℚ) / (y : ℚ)) : ℚ) : ℝ) = (x : ℝ) / y := by push_cast; rfl
      rw [e2]
      have e3 : √(d : ℝ) - (x : ℝ) / y = -((n : ℝ) / (y * (x + y * √(d : ℝ)))) := by
        rw [← hfac]
        field_simp
        ring
      rw [e3, abs_neg, abs_of_nonneg (by positivity), div_lt_div_iff₀ (by positivity) (by positivity), one_mul]
      rw [abs_of_nonneg hn0'] at hns
      have : (n : ℝ) * y < √(d : ℝ) * y := mul_lt_mul_of_pos_right hns hy'
      nlinarith
    obtain ⟨k, hk⟩ := Real.exists_rat_eq_convergent happ
    exact ⟨k, of_convergent h1 h2 hr hy hc hk⟩
  · -- Legendre's theorem for `y/x`
    have hn0' : (n : ℝ) < 0 := by exact_mod_cast hn0
    have hxy : x < y * √(d : ℝ) := by
      by_contra hlt
      push Not at hlt
      have := mul_nonneg (by linarith : 0 ≤ (x : ℝ) - y * √(d : ℝ)) hS.le
      linarith
    have hden : (((y : ℚ) / (x : ℚ)).den : ℤ) = x := Rat.den_div_eq_of_coprime hx hgcd.symm
    have happ : |(√(d : ℝ))⁻¹ - (((y : ℚ) / (x : ℚ) : ℚ) : ℝ)| < 1 / (2 * (((y : ℚ) / (x : ℚ)).den : ℝ) ^ 2) := by
      have e1 : ((((y : ℚ) / (x : ℚ)).den : ℕ) : ℝ) = (x : ℝ) := by exact_mod_cast hden
      rw [e1]
      have e2 : ((((y : ℚ) / (x : ℚ)) : ℚ) : ℝ) = (y : ℝ) / x := by push_cast; rfl
      rw [e2]
      have hs0 : (0 : ℝ) < √(d : ℝ) := by linarith
      have e3 : (√(d : ℝ))⁻¹ - (y : ℝ) / x = (n : ℝ) / (√(d : ℝ) * x * (x + y * √(d : ℝ))) := by
        rw [← hfac]
        field_simp
      rw [e3, abs_div, abs_of_pos (by positivity : 0 < √(d : ℝ) * x * (x + y * √(d : ℝ))),
        div_lt_div_iff₀ (by positivity) (by positivity), one_mul]
      have : |(n : ℝ)| * x < √(d : ℝ) * x := mul_lt_mul_of_pos_right hns hx'
      have h3 : √(d : ℝ) * x < √(d : ℝ) * (y * √(d : ℝ)) := mul_lt_mul_of_pos_left hxy hs0
      nlinarith
    obtain ⟨k, hk⟩ := Real.exists_rat_eq_convergent happ
    have hfl : ⌊(√(d : ℝ))⁻¹⌋ = 0 := by
      rw [Int.floor_eq_zero_iff, Set.mem_Ico]
      exact ⟨by positivity, inv_lt_one_of_one_lt₀ hs1⟩
    have hfr : Int.fract (√(d : ℝ))⁻¹ = (√(d : ℝ))⁻¹ := by rw [Int.fract, hfl]; simp
    cases k with
    | zero =>
      exfalso
      rw [Real.convergent_zero, hfl] at hk
      have : ((y : ℚ) / (x : ℚ)) = 0 := by simpa using hk
      rw [div_eq_zero_iff] at this
      rcases this with h | h
      · have : y = 0 := by exact_mod_cast h
        omega
      · have : x = 0 := by exact_mod_cast h
        omega
    | succ k =>
      rw [Real.convergent_succ, hfl, hfr, inv_inv] at hk
      refine ⟨k, of_convergent h1 h2 hr hy hc ?_⟩
      have : ((y : ℚ) / (x : ℚ))⁻¹ = (√(d : ℝ)).convergent k := by rw [hk]; simp
      rw [← this, inv_div]

private theorem norm_convergent (h1 : r * r < d) (h2 : d < (r + 1) * (r + 1)) (hr : 1 ≤ r) (k : ℕ) :
    normAt (sqrtIrr d r) d k = (-1) ^ (k + 1) * (state d r (k + 1)).2 := by
  rw [normAt, convergent_eq_num h1 h2 hr]
  exact norm_eq h1 h2 hr (k + 1)

private theorem convergent_facts (h1 : r * r < d) (h2 : d < (r + 1) * (r + 1)) (hr : 1 ≤ r) (k : ℕ) :
    0 < (convergent (sqrtIrr d r) k).1 ∧ 0 < (convergent (sqrtIrr d r) k).2 ∧
      IsCoprime (convergent (sqrtIrr d r) k).1 (convergent (sqrtIrr d r) k).2 ∧
      (convergent (sqrtIrr d r) k).1 < (convergent (sqrtIrr d r) (k + 1)).1 := by
  have ha := sq_pos h1 h2 hr
  rw [convergent_eq_num h1 h2 hr, convergent_eq_num h1 h2 hr]
  refine ⟨(num_pos ha _).1, (den_pos ha k).2.2.1, coprime (k + 1), ?_⟩
  dsimp only
  rw [num_succ _ (k + 1), num0_succ]
  have := (num_pos ha k).1
  have := (num_pos ha (k + 1)).1
  have := ha (k + 1)
  nlinarith

private theorem convergent_strict (h1 : r * r < d) (h2 : d < (r + 1) * (r + 1)) (hr : 1 ≤ r) {i j : ℕ} (h : i < j) :
    (convergent (sqrtIrr d r) i).1 < (convergent (sqrtIrr d r) j).1 :=
  strictMono_nat_of_lt_succ (f := fun i => (convergent (sqrtIrr d r) i).1) (fun i => (convergent_facts h1 h2 hr i).2.2.2) h

end aux

private theorem root_of' {d : ℤ} (hd : 0 < d) (hns : ∀ k : ℤ, k ^ 2 ≠ d)
    (h : d < 4503599761588224 ∨ 2 ^ 60 < d ∨ ∀ r : ℕ, integerSqrt d = .ok r → (r : ℤ) ^ 2 ≤ d) :
    ∃ r : ℕ, integerSqrt d = .ok r ∧ (r : ℤ) * r < d ∧ d < ((r : ℤ) + 1) * (r + 1) ∧ (1 : ℤ) ≤ r := by
  have key : ∃ r : ℕ, integerSqrt d = .ok r ∧ (r : ℤ) ^ 2 ≤ d ∧ d < ((r : ℤ) + 1) ^ 2 := by
    rcases h with h | h | h
    · exact C09_integer_sqrt_partial d hd.le (Or.inl h)
    · exact C09_integer_sqrt_partial d hd.le (Or.inr h)
    · obtain ⟨r, h1, h2, -, -⟩ := C09_integer_sqrt_bounds d hd.le
      exact ⟨r, h1, h r h1, h2⟩
  obtain ⟨r, h1, h2, h3⟩ := key
  have hne := hns r
  refine ⟨r, h1, ?_, by rw [← pow_two]; exact h3, ?_⟩
  · rw [← pow_two]; exact lt_of_le_of_ne h2 hne
  · rcases Nat.eq_zero_or_pos r with rfl | hr
    · norm_num at h3; omega
    · exact_mod_cast hr

private theorem guarded_eq {D N : ℤ} (hd : 0 < D) (hns : ∀ k : ℤ, k ^ 2 ≠ D) (hN : N < D * D) :
    guarded D N = quadraticIrrational D := by
  rw [guarded, if_neg (by omega)]
  rcases C14_is_square D with ⟨s, -, hs⟩ | ⟨hs, -⟩
  · exact absurd hs (hns s)
  · rw [hs]
    dsimp only
    rw [if_neg (by simp; omega)]

private theorem mem_yields (c : QuadIrr) (D N : ℤ) (k : ℕ) (s : ℤ × ℤ) :
    s ∈ yields c D N k ↔ ∃ i < k, s = convergent c i ∧ normAt c D i = N := by
  induction k with
  | zero => simp [yields]
  | succ k ih =>
    rw [yields]
    by_cases h : normAt c D k = N
    · rw [if_pos h, List.mem_append, ih, List.mem_singleton]
      constructor
      · rintro (⟨i, h1, h2⟩ | h1)
        · exact ⟨i, by omega, h2⟩
        · exact ⟨k, by omega, h1, h⟩
      · rintro ⟨i, h1, h2, h3⟩
        rcases Nat.lt_succ_iff_lt_or_eq.1 h1 with h4 | rfl
        · exact Or.inl ⟨i, h4, h2, h3⟩
        · exact Or.inr h2
    · rw [if_neg h, ih]
      constructor
      · rintro ⟨i, h1, h2⟩; exact ⟨i, by omega, h2⟩
      · rintro ⟨i, h1, h2, h3⟩
        rcases Nat.lt_succ_iff_lt_or_eq.1 h1 with h4 | rfl
        · exact ⟨i, h4, h2, h3⟩
        · exact absurd h3 h

/-- For `N² < D` the generator yields exactly the solutions of `x² - D y² = N` in coprime positive integers, in increasing
order, each once.  Missing: the `D` for which `integer_sqrt` is too large, and the `N` with `√D ≤ |N|` that the guard lets
through (`C115_pell_small_empty`, `C115_pell_small_violation`). -/
theorem C115_pell_small_partial (D N : ℤ) (hd : 0 < D) (hns : ∀ k : ℤ, k ^ 2 ≠ D) (hN : N ^ 2 < D)
    (h : D < 4503599761588224 ∨ 2 ^ 60 < D ∨ ∀ r : ℕ, integerSqrt D = .ok r → (r : ℤ) ^ 2 ≤ D) :
    ∃ out, pellSmall D N = some (.ok out) ∧
      (∀ k, out k <+: out (k + 1) ∧ (out k).Pairwise (fun a b => a.1 < b.1)) ∧
      ∀ x y, (∃ k, (x, y) ∈ out k) ↔ 0 < x ∧ 0 < y ∧ IsCoprime x y ∧ x ^ 2 - D * y ^ 2 = N := by
  obtain ⟨r, hint, h1, h2, hr⟩ := root_of' hd hns h
  have hND : N < D * D := by nlinarith [sq_nonneg (N - 1)]
  refine ⟨yields (sqrtIrr D r) D N, ?_, fun k => ⟨?_, ?_⟩, fun x y => ⟨?_, ?_⟩⟩
  · rw [pellSmall, guarded_eq hd hns hND, quadraticIrrational_eq h1 h2 hr hint]
  · rw [yields]
    split
    · exact List.prefix_append _ _
    · exact List.prefix_rfl
  · induction k with
    | zero => exact List.Pairwise.nil
    | succ k ih =>
      rw [yields]
      split
      · rw [List.pairwise_append]
        refine ⟨ih, List.pairwise_singleton _ _, ?_⟩
        intro a ha b hb
        obtain ⟨i, hi, rfl, -⟩ := (mem_yields _ _ _ _ _).1 ha
        rw [List.mem_singleton.1 hb]
        exact convergent_strict h1 h2 hr hi
      · exact ih
  · rintro ⟨k, hk⟩
    obtain ⟨i, -, he, hn⟩ := (mem_yields _ _ _ _ _).1 hk
    obtain ⟨f1, f2, f3, -⟩ := convergent_facts h1 h2 hr i
    rw [normAt] at hn
    rw [← he] at f1 f2 f3 hn
    exact ⟨f1, f2, f3, by rw [← hn]; ring⟩
  · rintro ⟨hx, hy, hc, he⟩
    obtain ⟨i, hi⟩ := small_is_convergent h1 h2 hr hx hy hc hN he
    exact ⟨i + 1, (mem_yields _ _ _ _ _).2 ⟨i, by omega, hi.symm, by rw [normAt, hi, ← he]; ring⟩⟩

/-- `ValueError` is raised exactly for `D ≤ 0`, for squares and for `N ≥ D²`. -/
theorem C115_pell_small_error (D N : ℤ) (h : D ≤ 0 ∨ (∃ k : ℤ, k ^ 2 = D) ∨ D ^ 2 ≤ N) :
    pellSmall D N = some (.error .valueError) ∧ pellSmallMinimal D N = some (.error .valueError) := by
  have key : guarded D N = some (.error .valueError) := by
    rw [guarded]
    by_cases hD : D ≤ 0
    · rw [if_pos hD]
    · rw [if_neg hD]
      rcases C14_is_square D with ⟨s, hs, hsq⟩ | ⟨hs, hns⟩
      · rw [hs]
        dsimp only
        rw [if_pos (Or.inl (by
          rw [decide_eq_true_eq]
          rintro rfl
          simp at hsq
          omega))]
      · rw [hs]
        dsimp only
        rw [if_pos (Or.inr (by
          rcases h with h | ⟨k, hk⟩ | h
          · exact absurd h hD
          · exact absurd hk (hns k)
          · nlinarith))]
  exact ⟨by rw [pellSmall, key], by rw [pellSmallMinimal, key]⟩

/-- For `N² ≥ 4D` nothing is ever yielded, even if there are solutions. -/
theorem C115_pell_small_empty (D N : ℤ) (hd : 0 < D) (hns : ∀ k : ℤ, k ^ 2 ≠ D) (hN : 4 * D ≤ N ^ 2) (hND : N < D ^ 2)
    (h : D < 4503599761588224 ∨ 2 ^ 60 < D ∨ ∀ r : ℕ, integerSqrt D = .ok r → (r : ℤ) ^ 2 ≤ D) :
    ∃ out, pellSmall D N = some (.ok out) ∧ ∀ k, out k = [] := by
  obtain ⟨r, hint, h1, h2, hr⟩ := root_of' hd hns h
  refine ⟨yields (sqrtIrr D r) D N, ?_, fun k => ?_⟩
  · rw [pellSmall, guarded_eq hd hns (by nlinarith), quadraticIrrational_eq h1 h2 hr hint]
  · rw [List.eq_nil_iff_forall_not_mem]
    intro s hs
    obtain ⟨i, -, -, hi⟩ := (mem_yields _ _ _ _ _).1 hs
    rw [norm_convergent h1 h2 hr] at hi
    have hred : Reduced D r (state D r (i + 1)) := by
      rw [state, if_neg (by omega)]
      exact reduced_iterate h1 h2 hr _
    have e1 := hred.posQ
    have e2 := hred.le'
    have e3 := hred.le
    have e4 : N ^ 2 = (state D r (i + 1)).2 ^ 2 := by
      rw [← hi, mul_pow, ← pow_mul, mul_comm (i + 1), pow_mul]; norm_num
    have e5 : (state D r (i + 1)).2 ≤ 2 * r := by omega
    nlinarith

private theorem not_square_seven (k : ℤ) : k ^ 2 ≠ 7 := by
  intro hk
  have h1 : k < 3 := by nlinarith
  have h2 : -3 < k := by nlinarith
  interval_cases k <;> omega

/-- The guard `D*D <= N` does not ensure `N < sqrt(D)`: `4² - 7·1² = 9` is missed. -/
theorem C115_pell_small_violation : (∃ out, pellSmall 7 9 = some (.ok out) ∧ ∀ k, out k = []) ∧
    (4 : ℤ) ^ 2 - 7 * 1 ^ 2 = 9 ∧ IsCoprime (4 : ℤ) 1 :=
  ⟨C115_pell_small_empty 7 9 (by norm_num) not_square_seven (by norm_num) (by norm_num) (by norm_num), by norm_num,
    isCoprime_one_right⟩

/-- `x² - 7y² = 2` with `(3, 1)`, `(45, 17)`, … -/
example : ∃ out, pellSmall 7 2 = some (.ok out) ∧ (∃ k, ((3 : ℤ), (1 : ℤ)) ∈ out k) ∧ (∃ k, ((45 : ℤ), (17 : ℤ)) ∈ out k) ∧
    ¬ ∃ k, ((6 : ℤ), (2 : ℤ)) ∈ out k := by
  obtain ⟨out, h1, -, h2⟩ := C115_pell_small_partial 7 2 (by norm_num) not_square_seven (by norm_num) (by norm_num)
  exact ⟨out, h1, (h2 3 1).2 ⟨by norm_num, by norm_num, isCoprime_one_right, by norm_num⟩,
    (h2 45 17).2 ⟨by norm_num, by norm_num, ⟨-3, 8, by norm_num⟩, by norm_num⟩, fun h => by have := ((h2 6 2).1 h).2.2.2; norm_num at this⟩

example : pellSmall 16 3 = some (.error .valueError) := (C115_pell_small_error 16 3 (Or.inr (Or.inl ⟨4, by norm_num⟩))).1

/-! ## C116 -/

private theorem collect_spec (c : QuadIrr) (D : ℤ) (m k : ℕ) (hk : normAt c D (k + m) = 1)
    (hmin : ∀ i, k ≤ i → i < k + m → normAt c D i ≠ 1) :
    collect c D k = some ((List.range' k m).map (convergent c)) := by
  induction m generalizing k with
  | zero => rw [Nat.add_zero] at hk; rw [collect.eq_def, if_pos hk]; rfl
  | succ m ih =>
    rw [collect.eq_def, if_neg (hmin k le_rfl (by omega)), ih (k + 1) (by rw [show k + 1 + m = k + (m + 1) by omega]; exact hk)
      (fun i h1 h2 => hmin i (by omega) (by omega))]
    rfl

private theorem fdiv_dvd {N k : ℤ} (h : k ∣ N) : N.fdiv k * k = N := Int.fdiv_mul_cancel h

private theorem multiples_spec (D N : ℤ) (l : List (ℤ × ℤ)) (hl : ∀ s ∈ l, s.1 * s.1 - D * s.2 * s.2 ≠ 0) :
    ∃ out, multiples D N l = .ok out ∧
      (∀ t, t ∈ out ↔ ∃ s ∈ l, ∃ f : ℕ, t = (f * s.1, f * s.2) ∧ (f : ℤ) ^ 2 * (s.1 * s.1 - D * s.2 * s.2) = N) := by
  induction l with
  | nil => exact ⟨[], rfl, by simp⟩
  | cons s l ih =>
    obtain ⟨x, y⟩ := s
    obtain ⟨out, h1, h2⟩ := ih (fun s hs => hl s (List.mem_cons_of_mem _ hs))
    have hk := hl (x, y) (List.mem_cons_self ..)
    dsimp only at hk
    rw [multiples, if_neg hk]
    have split : ∀ t, (∃ s ∈ (x, y) :: l, ∃ f : ℕ, t = (f * s.1, f * s.2) ∧ (f : ℤ) ^ 2 * (s.1 * s.1 - D * s.2 * s.2) = N) ↔
        (∃ f : ℕ, t = (f * x, f * y) ∧ (f : ℤ) ^ 2 * (x * x - D * y * y) = N) ∨ t ∈ out := by
      intro t
      rw [h2]
      constructor
      · rintro ⟨s, hs, hf⟩
        rcases List.mem_cons.1 hs with rfl | hs
        · exact Or.inl hf
        · exact Or.inr ⟨s, hs, hf⟩
      · rintro (hf | ⟨s, hs, hf⟩)
        · exact ⟨(x, y), List.mem_cons_self .., hf⟩
        · exact ⟨s, List.mem_cons_of_mem _ hs, hf⟩
    by_cases hm : N.fmod (x * x - D * y * y) ≠ 0
    · rw [if_pos hm]
      refine ⟨out, h1, fun t => ?_⟩
      rw [split]
      refine ⟨Or.inr, ?_⟩
      rintro (⟨f, -, hf⟩ | h)
      · exact absurd (Int.fmod_eq_zero_of_dvd ⟨(f : ℤ) ^ 2, by rw [← hf]; ring⟩) hm
      · exact h
    · rw [if_neg hm]
      push Not at hm
      have hdvd := Int.dvd_of_fmod_eq_zero hm
      have hdiv := fdiv_dvd hdvd
      rcases C14_is_square (N.fdiv (x * x - D * y * y)) with ⟨f, e1, e2⟩ | ⟨e1, e2⟩
      · rw [e1, h1]
        refine ⟨_, rfl, fun t => ?_⟩
        rw [split, List.mem_cons]
        apply or_congr_left
        constructor
        · intro ht
          exact ⟨f, ht, by rw [e2, hdiv]⟩
        · rintro ⟨g, ht, hg⟩
          have : (g : ℤ) ^ 2 = (f : ℤ) ^ 2 := by
            rw [e2]
            exact mul_right_cancel₀ hk (by rw [hg, hdiv])
          have : g = f := by
            have h3 : g ^ 2 = f ^ 2 := by exact_mod_cast this
            exact Nat.pow_left_injective (by norm_num : (2 : ℕ) ≠ 0) h3
          rw [ht, this]
      · rw [e1]
        refine ⟨out, h1, fun t => ?_⟩
        rw [split]
        refine ⟨Or.inr, ?_⟩
        rintro (⟨f, -, hf⟩ | h)
        · exact absurd (mul_right_cancel₀ hk (by rw [hf, hdiv])) (e2 f)
        · exact h

/-- For `0 < N² < D`: the result is the increasing list of the positive solutions `(g·x, g·y)` of `x² - D y² = N`, with
`x` and `y` coprime, for which `x` is smaller than the first number of the fundamental solution `(u, v)`.  Missing: the
`D` for which `integer_sqrt` is too large. -/
theorem C116_small_minimal_partial (D N : ℤ) (hd : 0 < D) (hns : ∀ k : ℤ, k ^ 2 ≠ D) (hN0 : N ≠ 0) (hN : N ^ 2 < D)
    (h : D < 4503599761588224 ∨ 2 ^ 60 < D ∨ ∀ r : ℕ, integerSqrt D = .ok r → (r : ℤ) ^ 2 ≤ D) :
    ∃ u v L, pellFundamentalSolution D = some (.ok (u, v)) ∧ pellSmallMinimal D N = some (.ok L) ∧
      L.Pairwise (fun a b => a.1 < b.1 ∨ (a.1 = b.1 ∧ a.2 ≤ b.2)) ∧
      ∀ X Y, (X, Y) ∈ L ↔ 0 < X ∧ 0 < Y ∧ X ^ 2 - D * Y ^ 2 = N ∧ X < Int.gcd X Y * u := by
  obtain ⟨r, hint, h1, h2, hr⟩ := root_of' hd hns h
  have hND : N < D * D := by nlinarith [sq_nonneg (N - 1)]
  obtain ⟨u, v, hp, hu, hv, huv, hleast⟩ := C39_pell_fundamental_partial D hd hns h
  obtain ⟨k, hk⟩ := small_is_convergent h1 h2 hr hu hv ⟨u, -D * v, by rw [← huv]; ring⟩ (by nlinarith) huv
  have hnk : normAt (sqrtIrr D r) D k = 1 := by rw [normAt, hk, ← huv]; ring
  have hcol := collect_spec (sqrtIrr D r) D k 0 (by rw [Nat.zero_add]; exact hnk) (by
    intro i _ hi hni
    obtain ⟨f1, f2, -, -⟩ := convergent_facts h1 h2 hr i
    have := (hleast _ _ f1 f2 (by rw [← hni, normAt]; ring)).1
    have h3 := convergent_strict h1 h2 hr (show i < k by omega)
    rw [hk] at h3
    dsimp only at h3
    omega)
  have hne : ∀ s ∈ (List.range' 0 k).map (convergent (sqrtIrr D r)), s.1 * s.1 - D * s.2 * s.2 ≠ 0 := by
    intro s hs h0
    obtain ⟨i, -, rfl⟩ := List.mem_map.1 hs
    have e := norm_convergent h1 h2 hr i
    rw [normAt, h0] at e
    have := (state_facts h1 h2 hr (i + 1)).1
    rcases mul_eq_zero.1 e.symm with e | e
    · exact absurd e (pow_ne_zero _ (by norm_num))
    · omega
  obtain ⟨out, o1, o2⟩ := multiples_spec D N _ hne
  refine ⟨u, v, pySort out pairLe, hp, ?_, ?_, fun X Y => ?_⟩
  · rw [pellSmallMinimal, guarded_eq hd hns hND, quadraticIrrational_eq h1 h2 hr hint]
    dsimp only
    rw [hcol]
    dsimp only
    rw [o1]
  · refine (pairwise_pySort (le := pairLe) ?_ ?_ out).imp ?_
    · intro a b c; unfold pairLe; simp only [decide_eq_true_eq]; omega
    · intro a b; unfold pairLe; simp only [Bool.or_eq_true, decide_eq_true_eq]; omega
    · intro a b; unfold pairLe; simp only [decide_eq_true_eq]; exact id
  · rw [mem_pySort, o2]
    constructor
    · rintro ⟨s, hs, f, he, hf⟩
      obtain ⟨i, hi, rfl⟩ := List.mem_map.1 hs
      rw [List.mem_range'_1] at hi
      obtain ⟨f1, f2, f3, -⟩ := convergent_facts h1 h2 hr i
      have hlt := convergent_strict h1 h2 hr (show i < k by omega)
      rw [hk] at hlt
      dsimp only at hlt
      simp only [Prod.mk.injEq] at he
      obtain ⟨rfl, rfl⟩ := he
      have hf0 : 0 < (f : ℤ) := by
        rcases Nat.eq_zero_or_pos f with rfl | h
        · exact absurd (by rw [← hf]; simp) hN0
        · exact_mod_cast h
      refine ⟨by positivity, by positivity, by rw [← hf]; ring, ?_⟩
      rw [Int.gcd_mul_left, Int.isCoprime_iff_gcd_eq_one.1 f3, mul_one, Int.natAbs_natCast]
      exact mul_lt_mul_of_pos_left hlt hf0
    · rintro ⟨hX, hY, he, hlt⟩
      have hg : 0 < Int.gcd X Y := Int.gcd_pos_of_ne_zero_left _ hX.ne'
      obtain ⟨x, hx⟩ := Int.gcd_dvd_left X Y
      obtain ⟨y, hy⟩ := Int.gcd_dvd_right X Y
      obtain ⟨g, hgd⟩ : ∃ g : ℕ, g = Int.gcd X Y := ⟨_, rfl⟩
      rw [← hgd] at hg hx hy hlt
      have hg' : (0 : ℤ) < g := by exact_mod_cast hg
      have hc : IsCoprime x y := by
        rw [Int.isCoprime_iff_gcd_eq_one]
        rw [hx, hy, Int.gcd_mul_left, Int.natAbs_natCast] at hgd
        have : g * 1 = g * Int.gcd x y := by rw [mul_one]; exact hgd
        exact (Nat.eq_of_mul_eq_mul_left hg this).symm
      have hx0 : 0 < x := by rw [hx] at hX; exact (mul_pos_iff_of_pos_left hg').1 hX
      have hy0 : 0 < y := by rw [hy] at hY; exact (mul_pos_iff_of_pos_left hg').1 hY
      have hn : (g : ℤ) ^ 2 * (x ^ 2 - D * y ^ 2) = N := by rw [← he, hx, hy]; ring
      have hsmall : (x ^ 2 - D * y ^ 2) ^ 2 < D := by
        have e : N ^ 2 = (g : ℤ) ^ 4 * (x ^ 2 - D * y ^ 2) ^ 2 := by rw [← hn]; ring
        have : (1 : ℤ) ≤ (g : ℤ) ^ 4 := by
          have : 0 < (g : ℤ) ^ 4 := by positivity
          omega
        nlinarith [sq_nonneg (x ^ 2 - D * y ^ 2)]
      obtain ⟨i, hi⟩ := small_is_convergent h1 h2 hr hx0 hy0 hc hsmall rfl
      have hxu : x < u := by rw [hx] at hlt; exact lt_of_mul_lt_mul_left hlt hg'.le
      refine ⟨(x, y), List.mem_map.2 ⟨i, ?_, hi⟩, g, by rw [hx, hy], by rw [← hn]; ring⟩
      rw [List.mem_range'_1]
      refine ⟨Nat.zero_le _, ?_⟩
      by_contra hge
      rcases Nat.lt_or_ge k i with h3 | h3
      · have h4 := convergent_strict h1 h2 hr h3
        rw [hk, hi] at h4
        dsimp only at h4
        omega
      · have : i = k := by omega
        rw [this, hk] at hi
        simp only [Prod.mk.injEq] at hi
        omega

/-- The numbers `A, B` with `x = A u + B x₀`, `y = A v + B y₀` for the convergents `(x, y)` after `(u, v)`. -/
private theorem after_period {d r : ℤ} (h1 : r * r < d) (h2 : d < (r + 1) * (r + 1)) (hr : 1 ≤ r) {n : ℕ} (hn : 0 < n)
    (hL : Function.minimalPeriod (step d r) (r, 1) ∣ n) (j : ℕ) :
    ∃ A B A' B' : ℤ, num (ContinuedFractions.sq d r) (n + j) = A * num (ContinuedFractions.sq d r) n + B * num0 (ContinuedFractions.sq d r) n ∧
      den (ContinuedFractions.sq d r) (n + j) = A * den (ContinuedFractions.sq d r) n + B * den0 (ContinuedFractions.sq d r) n ∧
      num0 (ContinuedFractions.sq d r) (n + (j + 1)) = A * num (ContinuedFractions.sq d r) n + B * num0 (ContinuedFractions.sq d r) n ∧
      den0 (ContinuedFractions.sq d r) (n + (j + 1)) = A * den (ContinuedFractions.sq d r) n + B * den0 (ContinuedFractions.sq d r) n ∧
      num (ContinuedFractions.sq d r) (n + (j + 1)) = A' * num (ContinuedFractions.sq d r) n + B' * num0 (ContinuedFractions.sq d r) n ∧
      den (ContinuedFractions.sq d r) (n + (j + 1)) = A' * den (ContinuedFractions.sq d r) n + B' * den0 (ContinuedFractions.sq d r) n ∧
      0 ≤ B ∧ 2 * r * B ≤ A ∧ 0 < B' ∧ 2 * r * B' ≤ A' := by
  induction j with
  | zero =>
    have hq := (sq_eq_iff h1 h2 hr n).2 ⟨hn, hL⟩
    refine ⟨1, 0, 2 * r, 1, by simp, by simp, ?_, ?_, ?_, ?_, le_rfl, by simp, one_pos, by simp⟩
    · rw [Nat.zero_add, num0_succ]; ring
    · rw [Nat.zero_add, den0_succ]; ring
    · rw [Nat.zero_add, num_succ, hq]; ring
    · rw [Nat.zero_add, den_succ, hq]; ring
  | succ j ih =>
    obtain ⟨A, B, A', B', e1, e2, e3, e4, e5, e6, e7, e8, e9, e10⟩ := ih
    have ha := sq_pos h1 h2 hr (n + (j + 1))
    obtain ⟨q, hq⟩ : ∃ q, q = ContinuedFractions.sq d r (n + (j + 1)) := ⟨_, rfl⟩
    rw [← hq] at ha
    refine ⟨A', B', q * A' + A, q * B' + B, e5, e6, ?_, ?_, ?_, ?_, e9.le, e10, by nlinarith, by nlinarith⟩
    · rw [show n + (j + 1 + 1) = (n + (j + 1)) + 1 by omega, num0_succ, e5]
    · rw [show n + (j + 1 + 1) = (n + (j + 1)) + 1 by omega, den0_succ, e6]
    · rw [show n + (j + 1 + 1) = (n + (j + 1)) + 1 by omega, num_succ, e5, e3, ← hq]; ring
    · rw [show n + (j + 1 + 1) = (n + (j + 1)) + 1 by omega, den_succ, e6, e4, ← hq]; ring

/-- A convergent after the fundamental solution is an earlier positive pair times that solution. -/
private theorem descend {d r : ℤ} (h1 : r * r < d) (h2 : d < (r + 1) * (r + 1)) (hr : 1 ≤ r) {u v x y : ℤ} {k i : ℕ}
    (huv : u * u - d * v * v = 1) (hk : convergent (sqrtIrr d r) k = (u, v)) (hi : convergent (sqrtIrr d r) i = (x, y))
    (hki : k < i) : 0 < x * u - d * y * v ∧ 0 < y * u - x * v := by
  rw [convergent_eq_num h1 h2 hr] at hk hi
  simp only [Prod.mk.injEq] at hk hi
  obtain ⟨hu, hv⟩ := hk
  obtain ⟨hx, hy⟩ := hi
  have hnorm := norm_eq h1 h2 hr (k + 1)
  rw [hu, hv, huv] at hnorm
  have hQ := (state_facts h1 h2 hr (k + 1)).1
  have heven : Even (k + 1) := by
    by_contra ho
    rw [Nat.not_even_iff_odd] at ho
    rw [ho.neg_one_pow] at hnorm
    omega
  rw [heven.neg_one_pow, one_mul] at hnorm
  have hL := (state_one_iff h1 h2 hr (show 0 < k + 1 by omega)).1 hnorm.symm
  have hdet := det (ContinuedFractions.sq d r) (k + 1)
  rw [heven.neg_one_pow, hu, hv] at hdet
  obtain ⟨a1, a2⟩ := norm_aux h1 h2 hr (k + 1)
  have hst : (state d r (k + 1)).1 = r := by
    have hred : Reduced d r (state d r (k + 1)) := by
      rw [state, if_neg (by omega)]
      exact reduced_iterate h1 h2 hr _
    have := hred.lt
    have := hred.le
    omega
  rw [hu, hv, hst, ← hnorm] at a1 a2
  obtain ⟨j, rfl⟩ : ∃ j, i = k + (j + 1) := ⟨i - k - 1, by omega⟩
  obtain ⟨-, -, A, B, -, -, -, -, e5, e6, -, -, e9, e10⟩ := after_period h1 h2 hr (show 0 < k + 1 by omega) hL j
  rw [show k + 1 + (j + 1) = k + (j + 1) + 1 by omega] at e5 e6
  rw [hx, hu] at e5
  rw [hy, hv] at e6
  obtain ⟨p, hp⟩ : ∃ p, p = num0 (ContinuedFractions.sq d r) (k + 1) := ⟨_, rfl⟩
  obtain ⟨q, hq⟩ : ∃ q, q = den0 (ContinuedFractions.sq d r) (k + 1) := ⟨_, rfl⟩
  rw [← hp] at e5 a1 hdet
  rw [← hq] at e6 a2 hdet
  have hp' : p = v * d - u * r := by linarith
  have hq' : q = u - v * r := by linarith
  have f1 : y * u - x * v = B := by rw [e5, e6]; linear_combination B * hdet
  have f2 : x * u - d * y * v = A - r * B := by
    rw [e5, e6, hp', hq']; linear_combination (A - r * B) * huv
  rw [f1, f2]
  exact ⟨by nlinarith, e9⟩

private theorem zsqrt_mul_pow_dvd {D : ℤ} {u v : ℤ} (g : ℤ) (k : ℕ) {a b c e : ℤ}
    (h : (⟨a, b⟩ : ℤ√D) = ⟨c, e⟩ * ⟨u, v⟩ ^ k) (h1 : g ∣ c) (h2 : g ∣ e) : g ∣ a ∧ g ∣ b := by
  have h3 : ((g : ℤ) : ℤ√D) ∣ ⟨c, e⟩ := (Zsqrtd.intCast_dvd _ _).2 ⟨h1, h2⟩
  have h4 : ((g : ℤ) : ℤ√D) ∣ ⟨a, b⟩ := by rw [h]; exact Dvd.dvd.mul_right h3 _
  exact (Zsqrtd.intCast_dvd _ _).1 h4

/-- For `0 < N² < D` the list holds one member of each class: every positive solution is a member of the list times a
power of the fundamental solution, except, if `N = g²`, those of the class of `g`, and no member is such a multiple of
another one. -/
theorem C116_small_minimal_classes_partial (D N : ℤ) (hd : 0 < D) (hns : ∀ k : ℤ, k ^ 2 ≠ D) (hN0 : N ≠ 0) (hN : N ^ 2 < D)
    (h : D < 4503599761588224 ∨ 2 ^ 60 < D ∨ ∀ r : ℕ, integerSqrt D = .ok r → (r : ℤ) ^ 2 ≤ D) :
    ∃ u v L, pellFundamentalSolution D = some (.ok (u, v)) ∧ pellSmallMinimal D N = some (.ok L) ∧
      (∀ X Y : ℤ, 0 < X → 0 < Y → X ^ 2 - D * Y ^ 2 = N →
        (∃ s ∈ L, ∃ k : ℕ, (⟨X, Y⟩ : ℤ√D) = ⟨s.1, s.2⟩ * ⟨u, v⟩ ^ k) ∨
        ∃ g : ℤ, 0 < g ∧ g ^ 2 = N ∧ ∃ k : ℕ, (⟨X, Y⟩ : ℤ√D) = (g : ℤ√D) * ⟨u, v⟩ ^ (k + 1)) ∧
      ∀ s ∈ L, ∀ s' ∈ L, ∀ k : ℕ, (⟨s.1, s.2⟩ : ℤ√D) = ⟨s'.1, s'.2⟩ * ⟨u, v⟩ ^ k → k = 0 ∧ s = s' := by
  obtain ⟨u, v, L, hp, hL, -, hmem⟩ := C116_small_minimal_partial D N hd hns hN0 hN h
  obtain ⟨r, hint, h1, h2, hr⟩ := root_of' hd hns h
  obtain ⟨u', v', hp', hu, hv, huv, -⟩ := C39_pell_fundamental_partial D hd hns h
  rw [hp] at hp'
  simp only [Option.some.injEq, Except.ok.injEq, Prod.mk.injEq] at hp'
  obtain ⟨rfl, rfl⟩ := hp'
  have huv' : u * u - D * v * v = 1 := by rw [← huv]; ring
  obtain ⟨i0, hi0⟩ := small_is_convergent h1 h2 hr hu hv ⟨u, -D * v, by rw [← huv]; ring⟩ (by nlinarith) huv
  refine ⟨u, v, L, hp, hL, ?_, ?_⟩
  · have key : ∀ (m : ℕ) (X Y : ℤ), X ≤ m → 0 < X → 0 < Y → X ^ 2 - D * Y ^ 2 = N →
        (∃ s ∈ L, ∃ k : ℕ, (⟨X, Y⟩ : ℤ√D) = ⟨s.1, s.2⟩ * ⟨u, v⟩ ^ k) ∨
        ∃ g : ℤ, 0 < g ∧ g ^ 2 = N ∧ ∃ k : ℕ, (⟨X, Y⟩ : ℤ√D) = (g : ℤ√D) * ⟨u, v⟩ ^ (k + 1) := by
      intro m
      induction m with
      | zero => intro X Y h3 h4; push_cast at h3; omega
      | succ m ih =>
        intro X Y hm hX hY he
        by_cases hlt : X < Int.gcd X Y * u
        · exact Or.inl ⟨(X, Y), (hmem X Y).2 ⟨hX, hY, he, hlt⟩, 0, by rw [pow_zero, mul_one]⟩
        push Not at hlt
        have hg : 0 < Int.gcd X Y := Int.gcd_pos_of_ne_zero_left _ hX.ne'
        obtain ⟨x, hx⟩ := Int.gcd_dvd_left X Y
        obtain ⟨y, hy⟩ := Int.gcd_dvd_right X Y
        obtain ⟨g, hgd⟩ : ∃ g : ℕ, g = Int.gcd X Y := ⟨_, rfl⟩
        rw [← hgd] at hg hx hy hlt
        have hg' : (0 : ℤ) < g := by exact_mod_cast hg
        have hc : IsCoprime x y := by
          rw [Int.isCoprime_iff_gcd_eq_one]
          rw [hx, hy, Int.gcd_mul_left, Int.natAbs_natCast] at hgd
          have : g * 1 = g * Int.gcd x y := by rw [mul_one]; exact hgd
          exact (Nat.eq_of_mul_eq_mul_left hg this).symm
        have hx0 : 0 < x := by rw [hx] at hX; exact (mul_pos_iff_of_pos_left hg').1 hX
        have hy0 : 0 < y := by rw [hy] at hY; exact (mul_pos_iff_of_pos_left hg').1 hY
        have hn : (g : ℤ) ^ 2 * (x ^ 2 - D * y ^ 2) = N := by rw [← he, hx, hy]; ring
        have hsmall : (x ^ 2 - D * y ^ 2) ^ 2 < D := by
          have e : N ^ 2 = (g : ℤ) ^ 4 * (x ^ 2 - D * y ^ 2) ^ 2 := by rw [← hn]; ring
          have : (1 : ℤ) ≤ (g : ℤ) ^ 4 := by
            have : 0 < (g : ℤ) ^ 4 := by positivity
            omega
          nlinarith [sq_nonneg (x ^ 2 - D * y ^ 2)]
        obtain ⟨i, hi⟩ := small_is_convergent h1 h2 hr hx0 hy0 hc hsmall rfl
        have hxu : u ≤ x := by rw [hx] at hlt; exact le_of_mul_le_mul_left hlt hg'
        have hii : i0 ≤ i := by
          by_contra hgt
          have h4 := convergent_strict h1 h2 hr (show i < i0 by omega)
          rw [hi0, hi] at h4
          dsimp only at h4
          omega
        rcases Nat.eq_or_lt_of_le hii with rfl | hii
        · rw [hi0] at hi
          simp only [Prod.mk.injEq] at hi
          obtain ⟨rfl, rfl⟩ := hi
          rw [huv, mul_one] at hn
          refine Or.inr ⟨g, hg', hn, 0, ?_⟩
          rw [Nat.zero_add, pow_one, Zsqrtd.ext_iff, Zsqrtd.re_mul, Zsqrtd.im_mul, Zsqrtd.re_intCast, Zsqrtd.im_intCast]
          dsimp only
          exact ⟨by rw [hx]; ring, by rw [hy]; ring⟩
        · obtain ⟨p1, p2⟩ := descend h1 h2 hr huv' hi0 hi hii
          have q1 : 0 < X * u - D * Y * v := by
            rw [hx, hy]
            have : (g : ℤ) * x * u - D * (g * y) * v = g * (x * u - D * y * v) := by ring
            rw [this]; positivity
          have q2 : 0 < Y * u - X * v := by
            rw [hx, hy]
            have : (g : ℤ) * y * u - g * x * v = g * (y * u - x * v) := by ring
            rw [this]; positivity
          have eX : X = (X * u - D * Y * v) * u + D * (Y * u - X * v) * v := by linear_combination (-X) * huv'
          have eY : Y = (X * u - D * Y * v) * v + (Y * u - X * v) * u := by linear_combination (-Y) * huv'
          have hlt' : X * u - D * Y * v < X := by
            have : 0 < D * (Y * u - X * v) * v := by positivity
            nlinarith
          have hstep : (⟨X, Y⟩ : ℤ√D) = ⟨X * u - D * Y * v, Y * u - X * v⟩ * ⟨u, v⟩ := by
            rw [Zsqrtd.ext_iff, Zsqrtd.re_mul, Zsqrtd.im_mul]
            exact ⟨eX, eY⟩
          rcases ih (X * u - D * Y * v) (Y * u - X * v) (by push_cast at hm; omega) q1 q2
            (by rw [← he]; linear_combination (X ^ 2 - D * Y ^ 2) * huv') with ⟨s, hs, k, e⟩ | ⟨g, g1, g2, k, e⟩
          · exact Or.inl ⟨s, hs, k + 1, by rw [hstep, e, pow_succ, mul_assoc]⟩
          · exact Or.inr ⟨g, g1, g2, k + 1, by rw [hstep, e, pow_succ _ (k + 1), mul_assoc]⟩
    exact fun X Y hX hY he => key X.toNat X Y (by omega) hX hY he
  · rintro ⟨X, Y⟩ hs ⟨x, y⟩ hs' k he
    obtain ⟨hX, hY, -, hlt⟩ := (hmem X Y).1 hs
    obtain ⟨hx, hy, -, -⟩ := (hmem x y).1 hs'
    dsimp only at he
    cases k with
    | zero =>
      rw [pow_zero, mul_one, Zsqrtd.ext_iff] at he
      exact ⟨rfl, Prod.ext he.1 he.2⟩
    | succ k =>
      exfalso
      -- the divisor divides both pairs
      have hunit : (⟨u, v⟩ : ℤ√D) * ⟨u, -v⟩ = 1 := by
        rw [Zsqrtd.ext_iff, Zsqrtd.re_mul, Zsqrtd.im_mul]
        exact ⟨by dsimp only; rw [Zsqrtd.re_one]; linarith, by dsimp only; rw [Zsqrtd.im_one]; ring⟩
      have hback : (⟨x, y⟩ : ℤ√D) = ⟨X, Y⟩ * ⟨u, -v⟩ ^ (k + 1) := by
        rw [he, mul_assoc, ← mul_pow, hunit, one_pow, mul_one]
      obtain ⟨d1, d2⟩ := zsqrt_mul_pow_dvd (Int.gcd X Y) (k + 1) hback (Int.gcd_dvd_left ..) (Int.gcd_dvd_right ..)
      -- the first number of a multiple
      have grow : ∀ (k : ℕ), ∃ p q : ℤ, (⟨x, y⟩ : ℤ√D) * ⟨u, v⟩ ^ k = ⟨p, q⟩ ∧ x ≤ p ∧ 0 < q := by
        intro k
        induction k with
        | zero => exact ⟨x, y, by rw [pow_zero, mul_one], le_rfl, hy⟩
        | succ k ih =>
          obtain ⟨p, q, e, e1, e2⟩ := ih
          refine ⟨p * u + D * q * v, p * v + q * u, ?_, ?_, ?_⟩
          · rw [pow_succ, ← mul_assoc, e, Zsqrtd.ext_iff, Zsqrtd.re_mul, Zsqrtd.im_mul]
            exact ⟨rfl, rfl⟩
          · have : 0 < D * q * v := by positivity
            nlinarith
          · have : 0 < p * v := mul_pos (by omega) hv
            have : 0 < q * u := by positivity
            omega
      obtain ⟨p, q, e, e1, e2⟩ := grow k
      rw [pow_succ, ← mul_assoc, e, Zsqrtd.ext_iff, Zsqrtd.re_mul] at he
      have hX' : X = p * u + D * q * v := he.1
      have hgx := Int.le_of_dvd hx d1
      have : 0 < D * q * v := by positivity
      have : (Int.gcd X Y : ℤ) * u ≤ p * u := mul_le_mul_of_nonneg_right (by omega) hu.le
      omega

/-- So it misses the minimal solution for `N = 1`, and for every other square. -/
theorem C116_small_minimal_violation (D g : ℤ) (hd : 0 < D) (hns : ∀ k : ℤ, k ^ 2 ≠ D) (hg : 0 < g) (hN : g ^ 4 < D)
    (h : D < 4503599761588224 ∨ 2 ^ 60 < D ∨ ∀ r : ℕ, integerSqrt D = .ok r → (r : ℤ) ^ 2 ≤ D) :
    ∃ u v L, pellFundamentalSolution D = some (.ok (u, v)) ∧ pellSmallMinimal D (g ^ 2) = some (.ok L) ∧
      (g * u) ^ 2 - D * (g * v) ^ 2 = g ^ 2 ∧ (g * u, g * v) ∉ L := by
  obtain ⟨u, v, L, h1, h2, -, h3⟩ := C116_small_minimal_partial D (g ^ 2) hd hns (by positivity) (by nlinarith) h
  have huv := (C39_pell_sound D 1 u v h1).1
  refine ⟨u, v, L, h1, h2, by linear_combination g ^ 2 * huv, fun hm => ?_⟩
  have h4 := ((h3 _ _).1 hm).2.2.2
  have hc : IsCoprime u v := ⟨u, -D * v, by rw [← huv]; ring⟩
  rw [Int.gcd_mul_left, Int.isCoprime_iff_gcd_eq_one.1 hc, mul_one, Int.natCast_natAbs, abs_of_pos hg] at h4
  omega

/-- `x² - 7y² = 2`: the only minimal solution is `(3, 1)`; the next one, `(45, 17)`, is not in the list. -/
example : ∃ L, pellSmallMinimal 7 2 = some (.ok L) ∧ ((3 : ℤ), (1 : ℤ)) ∈ L ∧ ((45 : ℤ), (17 : ℤ)) ∉ L := by
  obtain ⟨u, v, L, h1, h2, -, h3⟩ := C116_small_minimal_partial 7 2 (by norm_num) not_square_seven (by norm_num) (by norm_num)
    (by norm_num)
  obtain ⟨x, y, g1, g2, g3, g4, g5⟩ := C39_pell_fundamental_partial 7 (by norm_num) not_square_seven (by norm_num)
  rw [h1] at g1
  simp only [Option.some.injEq, Except.ok.injEq, Prod.mk.injEq] at g1
  obtain ⟨rfl, rfl⟩ := g1
  have hle := g5 8 3 (by norm_num) (by norm_num) (by norm_num)
  refine ⟨L, h2, (h3 3 1).2 ⟨by norm_num, by norm_num, by norm_num, ?_⟩, fun h => ?_⟩
  · norm_num
    by_contra hu
    have hv3 : v ≤ 3 := hle.2
    interval_cases u <;> interval_cases v <;> omega
  · have := ((h3 _ _).1 h).2.2.2
    norm_num at this
    omega

end Rosemary.Props
