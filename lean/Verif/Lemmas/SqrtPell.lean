import Verif.Lemmas.SqrtConvergents

/-!
# Pell's equation and the convergents of the square root
-/

namespace Rosemary.ContinuedFractions

open Rosemary.Spec

variable {d r : ℤ}

/-- The partial quotients of the square root. -/
def sq (d r : ℤ) (n : ℕ) : ℤ := quot r (state d r n)

theorem sq_pos (h1 : r * r < d) (h2 : d < (r + 1) * (r + 1)) (hr : 1 ≤ r) (n : ℕ) : 1 ≤ sq d r n :=
  (state_facts h1 h2 hr n).2.2

theorem norm_aux (h1 : r * r < d) (h2 : d < (r + 1) * (r + 1)) (hr : 1 ≤ r) (n : ℕ) :
    num (sq d r) n * (state d r n).1 + num0 (sq d r) n * (state d r n).2 = den (sq d r) n * d ∧
    num (sq d r) n = den (sq d r) n * (state d r n).1 + den0 (sq d r) n * (state d r n).2 := by
  induction n with
  | zero => rw [state, if_pos rfl]; simp [num, num0, den, den0, convergentState]
  | succ n ih =>
    obtain ⟨i1, i2⟩ := ih
    obtain ⟨hQ, hdvd, -⟩ := state_facts h1 h2 hr n
    obtain ⟨-, -, f3, f4⟩ := step_facts (d := d) (r := r) hQ hdvd
    rw [Prod.mk.eta, ← state_succ] at f3 f4
    have hq : sq d r n = ((state d r n).1 + r) / (state d r n).2 := rfl
    rw [← hq] at f4
    rw [num_succ, den_succ, num0_succ, den0_succ]
    have hQ0 := ne_of_gt hQ
    generalize num (sq d r) n = A at *
    generalize num0 (sq d r) n = A0 at *
    generalize den (sq d r) n = B at *
    generalize den0 (sq d r) n = B0 at *
    generalize sq d r n = q at *
    generalize state d r n = s at *
    generalize state d r (n + 1) = s' at *
    constructor
    · apply mul_left_cancel₀ hQ0
      linear_combination (A * s'.1 - B * d) * (-f4) + A * f3 + s'.1 * i1 + d * i2
    · apply mul_left_cancel₀ hQ0
      linear_combination (B * s'.1 - A) * f4 - B * f3 + i1 + s'.1 * i2

/-- The norm of a convergent. -/
theorem norm_eq (h1 : r * r < d) (h2 : d < (r + 1) * (r + 1)) (hr : 1 ≤ r) (n : ℕ) :
    num (sq d r) n * num (sq d r) n - d * den (sq d r) n * den (sq d r) n = (-1) ^ n * (state d r n).2 := by
  obtain ⟨i1, i2⟩ := norm_aux h1 h2 hr n
  rw [← det]
  linear_combination (num (sq d r) n) * i2 + den (sq d r) n * i1

/-- The states with `Q = 1` are the multiples of the period. -/
theorem state_one_iff (h1 : r * r < d) (h2 : d < (r + 1) * (r + 1)) (hr : 1 ≤ r) {n : ℕ} (hn : 0 < n) :
    (state d r n).2 = 1 ↔ Function.minimalPeriod (step d r) (r, 1) ∣ n := by
  rw [← Function.isPeriodicPt_iff_minimalPeriod_dvd]
  have hred := reduced_iterate h1 h2 hr n
  rw [state, if_neg (by omega)]
  constructor
  · intro h
    have l1 := hred.lt
    have l2 := hred.le
    exact Prod.ext (by dsimp only; omega) h
  · intro h
    have h' : (step d r)^[n] (r, 1) = (r, 1) := h
    rw [h']

/-- The positive solutions of the two equations are convergents. -/
theorem pell_is_convergent (h1 : r * r < d) (h2 : d < (r + 1) * (r + 1)) (hr : 1 ≤ r) {x y n : ℤ} (hx : 0 < x) (hy : 0 < y)
    (hn : n = 1 ∨ n = -1) (h : x * x - d * y * y = n) :
    ∃ k, x = num (sq d r) (k + 1) ∧ y = den (sq d r) (k + 1) := by
  obtain ⟨b1, b2⟩ := sqrt_bounds h1 h2 hr
  have hd2 : 2 ≤ d := by nlinarith
  have hsq : √(d : ℝ) * √(d : ℝ) = d := Real.mul_self_sqrt (by
    have : (0 : ℤ) ≤ d := by omega
    exact_mod_cast this)
  have hs1 : (1 : ℝ) < √(d : ℝ) := by
    have : (1 : ℝ) ≤ r := by exact_mod_cast hr
    linarith
  have hxy : y ≤ x := by
    by_contra hlt
    push Not at hlt
    have : x * x ≤ (y - 1) * (y - 1) := by nlinarith
    rcases hn with rfl | rfl <;> nlinarith
  have hx' : (0 : ℝ) < x := by exact_mod_cast hx
  have hy' : (0 : ℝ) < y := by exact_mod_cast hy
  have hxy' : (y : ℝ) ≤ x := by exact_mod_cast hxy
  have hcop : IsCoprime x y := by
    rcases hn with rfl | rfl
    · exact ⟨x, -(d * y), by linarith⟩
    · exact ⟨-x, d * y, by linarith⟩
  have hgcd : Nat.Coprime x.natAbs y.natAbs := Int.isCoprime_iff_gcd_eq_one.1 hcop
  have hden : (((x : ℚ) / (y : ℚ)).den : ℤ) = y := Rat.den_div_eq_of_coprime hy hgcd
  have hnum : ((x : ℚ) / (y : ℚ)).num = x := Rat.num_div_eq_of_coprime hy hgcd
  have happ : |√(d : ℝ) - (((x : ℚ) / (y : ℚ) : ℚ) : ℝ)| < 1 / (2 * (((x : ℚ) / (y : ℚ)).den : ℝ) ^ 2) := by
    have e1 : ((((x : ℚ) / (y : ℚ)).den : ℕ) : ℝ) = (y : ℝ) := by exact_mod_cast hden
    rw [e1]
    have e2 : ((((x : ℚ) / (y : ℚ)) : ℚ) : ℝ) = (x : ℝ) / y := by push_cast; rfl
    rw [e2]
    have hS : 0 < (x : ℝ) + y * √(d : ℝ) := by positivity
    have e3 : √(d : ℝ) - (x : ℝ) / y = -(n : ℝ) / (y * (x + y * √(d : ℝ))) := by
      rw [← h]
      push_cast
      rw [eq_div_iff (by positivity)]
      field_simp
      linear_combination (y : ℝ) ^ 2 * hsq
    rw [e3, abs_div, abs_neg]
    have hn1 : |(n : ℝ)| = 1 := by rcases hn with rfl | rfl <;> simp
    rw [hn1, abs_of_pos (by positivity)]
    apply one_div_lt_one_div_of_lt (by positivity)
    have : (y : ℝ) < y * √(d : ℝ) := by nlinarith
    nlinarith
  obtain ⟨k, hk⟩ := Real.exists_rat_eq_convergent happ
  refine ⟨k, ?_⟩
  have ha := sq_pos h1 h2 hr
  rw [convergent_eq (fun n => (completeQuotient_eq h1 h2 hr n).2) ha] at hk
  have hB := (den_pos ha k).2.2.1
  have hgcd' : Nat.Coprime (num (sq d r) (k + 1)).natAbs (den (sq d r) (k + 1)).natAbs :=
    Int.isCoprime_iff_gcd_eq_one.1 (coprime (k + 1))
  have hden' := Rat.den_div_eq_of_coprime hB hgcd'
  have hnum' := Rat.num_div_eq_of_coprime hB hgcd'
  have hk' : (x : ℚ) / (y : ℚ) = (num (sq d r) (k + 1) : ℚ) / (den (sq d r) (k + 1) : ℚ) := hk
  rw [← hk'] at hden' hnum'
  exact ⟨hnum.symm.trans hnum', hden.symm.trans hden'⟩

/-! ## The attributes of the object -/

/-- The object for the square root of `d`. -/
noncomputable def sqrtIrr (d r : ℤ) : QuadIrr :=
  ⟨Function.minimalPeriod (step d r) (r, 1), [r],
    (List.range' 1 (Function.minimalPeriod (step d r) (r, 1))).map (sq d r)⟩

theorem quadraticIrrational_eq {r : ℕ} (h1 : (r : ℤ) * r < d) (h2 : d < ((r : ℤ) + 1) * (r + 1)) (hr : (1 : ℤ) ≤ r)
    (hint : Core.integerSqrt d = .ok r) : quadraticIrrational d = some (.ok (sqrtIrr d r)) := by
  have h := sqrtLoop_spec h1 h2 hr (Function.minimalPeriod (step d r) (r, 1)) 0 [] (by omega)
  rw [state, if_pos rfl] at h
  dsimp only at h
  rw [quadraticIrrational, if_pos ⟨rfl, rfl⟩, initSqrt, hint]
  dsimp only
  rw [if_neg (by omega), h]
  simp only [List.nil_append, List.length_map, List.length_range', Nat.add_sub_cancel]
  rw [show List.range' 0 (Function.minimalPeriod (step d r) ((r : ℤ), 1) + 1) =
    0 :: List.range' 1 (Function.minimalPeriod (step d r) ((r : ℤ), 1)) from List.range'_succ]
  rfl

theorem state_period (h1 : r * r < d) (h2 : d < (r + 1) * (r + 1)) (hr : 1 ≤ r) {n : ℕ} (hn : 0 < n) :
    state d r n = state d r ((n - 1) % Function.minimalPeriod (step d r) (r, 1) + 1) := by
  have hL := periodic h1 h2 hr
  rw [state, if_neg (by omega), state, if_neg (by omega)]
  have e : n = (n - 1) + 1 := by omega
  conv_lhs => rw [e, Function.iterate_succ_apply']
  rw [Function.iterate_succ_apply', Function.iterate_mod_minimalPeriod_eq]

theorem partialQuotient_eq (h1 : r * r < d) (h2 : d < (r + 1) * (r + 1)) (hr : 1 ≤ r) (n : ℕ) :
    partialQuotient (sqrtIrr d r) n = sq d r n := by
  have hL := periodic h1 h2 hr
  rw [partialQuotient, sqrtIrr]
  dsimp only [List.length_singleton]
  rcases Nat.eq_zero_or_pos n with rfl | hn
  · rw [if_pos (by omega)]
    simp [sq, state, quot]
  · rw [if_neg (by omega), List.length_map, List.length_range']
    have hlt := Nat.mod_lt (n - 1) hL
    rw [List.getD_eq_getElem _ _ (by rw [List.length_map, List.length_range']; exact hlt), List.getElem_map,
      List.getElem_range', sq, sq, state_period h1 h2 hr hn]
    congr 2
    omega

theorem convergentState_congr {a b : ℕ → ℤ} (h : ∀ n, a n = b n) (n : ℕ) : convergentState a n = convergentState b n := by
  rw [funext h]

theorem convergent_eq_num (h1 : r * r < d) (h2 : d < (r + 1) * (r + 1)) (hr : 1 ≤ r) (n : ℕ) :
    convergent (sqrtIrr d r) n = (num (sq d r) (n + 1), den (sq d r) (n + 1)) := by
  rw [convergent, convergentState_congr (partialQuotient_eq h1 h2 hr)]
  rfl

/-! ## The search -/

theorem searchConvergents_spec (c : QuadIrr) (D n : ℤ) (m k : ℕ)
    (hk : (convergent c (k + m)).1 * (convergent c (k + m)).1 - D * (convergent c (k + m)).2 * (convergent c (k + m)).2 = n)
    (hmin : ∀ i, k ≤ i → i < k + m →
      (convergent c i).1 * (convergent c i).1 - D * (convergent c i).2 * (convergent c i).2 ≠ n) :
    searchConvergents c D n k = some (convergent c (k + m)) := by
  induction m generalizing k with
  | zero =>
    rw [searchConvergents.eq_def]
    dsimp only
    rw [Nat.add_zero] at hk
    rw [if_pos hk]
    rfl
  | succ m ih =>
    rw [searchConvergents.eq_def]
    dsimp only
    rw [if_neg (hmin k le_rfl (by omega))]
    have e : k + (m + 1) = k + 1 + m := by omega
    rw [e] at hk ⊢
    exact ih (k + 1) hk (fun i h3 h4 => hmin i (by omega) (by omega))

/-- The search finds the least positive solution when there is one among the convergents. -/
theorem search_least (h1 : r * r < d) (h2 : d < (r + 1) * (r + 1)) (hr : 1 ≤ r) {n : ℤ} (hn : n = 1 ∨ n = -1)
    (hex : ∃ k, (-1) ^ (k + 1) * (state d r (k + 1)).2 = n) :
    ∃ x y, searchConvergents (sqrtIrr d r) d n 0 = some (x, y) ∧ 0 < x ∧ 0 < y ∧ x * x - d * y * y = n ∧
      ∀ x' y', 0 < x' → 0 < y' → x' * x' - d * y' * y' = n → x ≤ x' ∧ y ≤ y' := by
  classical
  have ha := sq_pos h1 h2 hr
  have hnorm : ∀ k, (convergent (sqrtIrr d r) k).1 * (convergent (sqrtIrr d r) k).1 -
      d * (convergent (sqrtIrr d r) k).2 * (convergent (sqrtIrr d r) k).2 = (-1) ^ (k + 1) * (state d r (k + 1)).2 := by
    intro k
    rw [convergent_eq_num h1 h2 hr]
    exact norm_eq h1 h2 hr (k + 1)
  have hspec := Nat.find_spec hex
  have hmin := fun i => Nat.find_min (m := i) hex
  set k := Nat.find hex with hk
  have hs := searchConvergents_spec (sqrtIrr d r) d n k 0 (by rw [Nat.zero_add, hnorm]; exact hspec)
    (fun i _ h4 => by rw [hnorm]; exact hmin i (by omega))
  rw [Nat.zero_add, convergent_eq_num h1 h2 hr] at hs
  refine ⟨_, _, hs, (num_pos ha (k + 1)).1, (den_pos ha k).2.2.1, (norm_eq h1 h2 hr (k + 1)).trans hspec, ?_⟩
  intro x' y' hx' hy' he
  obtain ⟨j, e1, e2⟩ := pell_is_convergent h1 h2 hr hx' hy' hn he
  have hj : (-1) ^ (j + 1) * (state d r (j + 1)).2 = n := by
    rw [← norm_eq h1 h2 hr (j + 1), ← e1, ← e2]; exact he
  have hkj : k ≤ j := by
    by_contra hlt
    exact hmin j (by omega) hj
  rw [e1, e2]
  exact ⟨num_mono ha (by omega), den_mono ha (by omega)⟩

theorem exists_pos (h1 : r * r < d) (h2 : d < (r + 1) * (r + 1)) (hr : 1 ≤ r) :
    ∃ k, (-1) ^ (k + 1) * (state d r (k + 1)).2 = 1 := by
  have hL := periodic h1 h2 hr
  set L := Function.minimalPeriod (step d r) (r, 1) with hLdef
  refine ⟨2 * L - 1, ?_⟩
  have e : 2 * L - 1 + 1 = 2 * L := by omega
  rw [e, (state_one_iff h1 h2 hr (by omega)).2 (dvd_mul_left _ _), pow_mul]
  simp

theorem exists_neg_iff (h1 : r * r < d) (h2 : d < (r + 1) * (r + 1)) (hr : 1 ≤ r) :
    (∃ k, (-1) ^ (k + 1) * (state d r (k + 1)).2 = -1) ↔ Function.minimalPeriod (step d r) (r, 1) % 2 = 1 := by
  have hL := periodic h1 h2 hr
  constructor
  · rintro ⟨k, hk⟩
    have hQ := (state_facts h1 h2 hr (k + 1)).1
    rcases Nat.even_or_odd (k + 1) with he | ho
    · rw [he.neg_one_pow] at hk; omega
    · rw [ho.neg_one_pow] at hk
      have h3 := (state_one_iff h1 h2 hr (n := k + 1) (by omega)).1 (by omega)
      obtain ⟨t, ht⟩ := h3
      rw [ht] at ho
      exact Nat.odd_iff.1 (Nat.Odd.of_mul_left ho)
  · intro h
    refine ⟨Function.minimalPeriod (step d r) (r, 1) - 1, ?_⟩
    rw [Nat.sub_add_cancel hL, (state_one_iff h1 h2 hr hL).2 dvd_rfl, (Nat.odd_iff.2 h).neg_one_pow]
    ring

/-! ## The period -/

theorem state_period_zero (d r : ℤ) : state d r 0 = (0, 1) := by rw [state, if_pos rfl]

theorem state_L (h1 : r * r < d) (h2 : d < (r + 1) * (r + 1)) (hr : 1 ≤ r) :
    state d r (Function.minimalPeriod (step d r) (r, 1)) = (r, 1) := by
  have hL := periodic h1 h2 hr
  rw [state, if_neg (by omega)]
  exact Function.iterate_minimalPeriod

theorem state_fst_one (d r : ℤ) : (state d r 1).1 = r := by
  rw [show (1 : ℕ) = 0 + 1 from rfl, state_succ, state_period_zero, step]
  dsimp only
  rw [Int.ediv_one]; ring

/-- The expansion read backwards. -/
theorem palindrome_aux (h1 : r * r < d) (h2 : d < (r + 1) * (r + 1)) (hr : 1 ≤ r) (i j : ℕ)
    (hij : i + j = Function.minimalPeriod (step d r) (r, 1)) (hj : 0 < j) :
    (state d r (i + 1)).1 = (state d r j).1 ∧ (state d r i).2 = (state d r j).2 := by
  induction i generalizing j with
  | zero =>
    rw [Nat.zero_add] at hij ⊢
    rw [hij, state_L h1 h2 hr, state_fst_one, state_period_zero]
    exact ⟨rfl, rfl⟩
  | succ i ih =>
    obtain ⟨e1, e2⟩ := ih (j + 1) (by omega) (by omega)
    obtain ⟨hQi, hdi, -⟩ := state_facts h1 h2 hr i
    obtain ⟨hQi1, hdi1, -⟩ := state_facts h1 h2 hr (i + 1)
    obtain ⟨hQj, hdj, -⟩ := state_facts h1 h2 hr j
    obtain ⟨-, -, f3, -⟩ := step_facts (d := d) (r := r) hQi hdi
    obtain ⟨-, -, -, f4⟩ := step_facts (d := d) (r := r) hQi1 hdi1
    obtain ⟨-, -, g3, g4⟩ := step_facts (d := d) (r := r) hQj hdj
    rw [Prod.mk.eta, ← state_succ] at f3 f4 g3 g4
    have hred : Reduced d r (state d r j) := by
      rw [state, if_neg (by omega)]; exact reduced_iterate h1 h2 hr j
    have hQ : (state d r (i + 1)).2 = (state d r j).2 := by
      apply mul_left_cancel₀ (ne_of_gt hQi)
      rw [f3, e1, e2, ← g3, mul_comm]
    refine ⟨?_, hQ⟩
    have hq : ((state d r (i + 1)).1 + r) / (state d r (i + 1)).2 = ((state d r j).1 + r) / (state d r j).2 := by
      have e3 : (state d r (j + 1)).1 + r = (r - (state d r j).1) +
          ((state d r j).1 + r) / (state d r j).2 * (state d r j).2 := by omega
      have l1 := hred.lt
      have l2 := hred.le
      rw [hQ, e1, e3, Int.add_mul_ediv_right _ _ (ne_of_gt hQj), Int.ediv_eq_zero_of_lt (by omega) l1, zero_add]
    rw [hq, hQ, ← g4, e1] at f4
    omega

/-- The period without its last quotient is a palindrome. -/
theorem palindrome (h1 : r * r < d) (h2 : d < (r + 1) * (r + 1)) (hr : 1 ≤ r) (i j : ℕ)
    (hij : i + j = Function.minimalPeriod (step d r) (r, 1)) (hi : 0 < i) (hj : 0 < j) : sq d r i = sq d r j := by
  obtain ⟨i, rfl⟩ : ∃ k, i = k + 1 := ⟨i - 1, by omega⟩
  obtain ⟨e1, e2⟩ := palindrome_aux h1 h2 hr i (j + 1) (by omega) (by omega)
  obtain ⟨e3, e4⟩ := palindrome_aux h1 h2 hr (i + 1) j (by omega) (by omega)
  obtain ⟨hQj, hdj, -⟩ := state_facts h1 h2 hr j
  obtain ⟨-, -, -, g4⟩ := step_facts (d := d) (r := r) hQj hdj
  obtain ⟨hQi, hdi, -⟩ := state_facts h1 h2 hr (i + 1)
  obtain ⟨-, -, -, f4⟩ := step_facts (d := d) (r := r) hQi hdi
  rw [Prod.mk.eta, ← state_succ] at g4 f4
  apply mul_right_cancel₀ (ne_of_gt hQj)
  have f4' : sq d r (i + 1) * (state d r (i + 1)).2 = (state d r (i + 1)).1 + (state d r (i + 1 + 1)).1 := f4.symm
  have g4' : sq d r j * (state d r j).2 = (state d r j).1 + (state d r (j + 1)).1 := g4.symm
  rw [← e4, f4', e4, g4', e1, e3]
  ring

/-- The quotient `2 r` ends a period and nothing else. -/
theorem sq_eq_iff (h1 : r * r < d) (h2 : d < (r + 1) * (r + 1)) (hr : 1 ≤ r) (n : ℕ) :
    sq d r n = 2 * r ↔ 0 < n ∧ Function.minimalPeriod (step d r) (r, 1) ∣ n := by
  rcases Nat.eq_zero_or_pos n with rfl | hn
  · rw [sq, state_period_zero, quot]
    dsimp only
    rw [Int.ediv_one]
    constructor
    · intro h; omega
    · intro h; omega
  · rw [← Function.isPeriodicPt_iff_minimalPeriod_dvd]
    have hred := reduced_iterate h1 h2 hr n
    rw [sq, state, if_neg (by omega), quot_eq_iff hr hred]
    exact ⟨fun h => ⟨hn, h⟩, fun h => h.2⟩

/-! ## A loop that does not end -/

theorem sqrtLoop_diverges (d r : ℤ) (C : List (ℤ × ℤ))
    (hC : ∀ s ∈ C, s.2 ≠ 0 ∧ (s.1 + r).fdiv s.2 ≠ 2 * r ∧
      ((s.1 + r).fdiv s.2 * s.2 - s.1,
        (d - ((s.1 + r).fdiv s.2 * s.2 - s.1) * ((s.1 + r).fdiv s.2 * s.2 - s.1)).fdiv s.2) ∈ C)
    (P Q : ℤ) (terms : List ℤ) (h : (P, Q) ∈ C) : sqrtLoop d r P Q terms = none := by
  have key := sqrtLoop.partial_correctness d r (motive := fun P Q _ _ => (P, Q) ∉ C) (by
    intro f ih P Q terms res hres hmem
    obtain ⟨c1, c2, c3⟩ := hC _ hmem
    dsimp only at c1 c2 c3 hres
    rw [if_neg c1, if_neg c2] at hres
    exact ih _ _ _ _ hres c3)
  cases he : sqrtLoop d r P Q terms with
  | none => rfl
  | some res => exact absurd h (key P Q terms res he)

end Rosemary.ContinuedFractions
