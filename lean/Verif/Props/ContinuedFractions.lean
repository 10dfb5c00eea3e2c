import Verif.Lemmas.SqrtPell
import Verif.Props.Core
import Verif.Props.Primality

/-!
# C39, C40: continued fractions of square roots and Pell's equation

`integer_sqrt` is one too large on some arguments between `4503599761588224` and `2^60` (C09).  The theorems below hold
for every other argument; on those the constructor may run forever and the solution may be wrong
(`C40_diverges_violation`, `C39_pell_violation`).
-/

namespace Rosemary.Props

open Rosemary.ContinuedFractions Rosemary.Core Rosemary.Classification Rosemary.Spec

private theorem root_of {d : ℤ} (hd : 0 < d) (hns : ∀ k : ℤ, k ^ 2 ≠ d)
    (h : d < 4503599761588224 ∨ 2 ^ 60 < d ∨ ∀ r : ℕ, integerSqrt d = .ok r → (r : ℤ) ^ 2 ≤ d) :
    ∃ r : ℕ, integerSqrt d = .ok r ∧ (r : ℤ) * r < d ∧ d < ((r : ℤ) + 1) * (r + 1) ∧ (1 : ℤ) ≤ r := by
  have key : ∃ r : ℕ, integerSqrt d = .ok r ∧ (r : ℤ) ^ 2 ≤ d ∧ d < ((r : ℤ) + 1) ^ 2 := by
    rcases h with h | h | h
    · exact C09_integer_sqrt_partial d hd.le (Or.inl h)
    · exact C09_integer_sqrt_partial d hd.le (Or.inr h)
    · obtain ⟨r, h1, h2, -, -⟩ := C09_integer_sqrt_bounds d hd.le
      exact ⟨r, h1, h r h1, h2⟩
  obtain ⟨r, h1, h2, h3⟩ := key
  have hne := hns r
  refine ⟨r, h1, ?_, by rw [← pow_two]; exact h3, ?_⟩
  · rw [← pow_two]; exact lt_of_le_of_ne h2 hne
  · rcases Nat.eq_zero_or_pos r with rfl | hr
    · norm_num at h3; omega
    · exact_mod_cast hr

/-! ## C40 -/

private theorem floor_sqrt {d r : ℤ} (h1 : r * r < d) (h2 : d < (r + 1) * (r + 1)) (hr : 1 ≤ r) : ⌊√(d : ℝ)⌋ = r := by
  obtain ⟨b1, b2⟩ := sqrt_bounds h1 h2 hr
  exact Int.floor_eq_iff.2 ⟨b1.le, b2⟩

/-- The values of `partial_quotients` are the partial quotients of the continued fraction of `√d`, and the computed period
is the least one; it ends with `2⌊√d⌋`, which does not occur before, and is a palindrome up to there.  Missing: the `d`
for which `integer_sqrt` is too large. -/
theorem C40_partial_quotients_partial (d : ℤ) (hd : 0 < d) (hns : ∀ k : ℤ, k ^ 2 ≠ d)
    (h : d < 4503599761588224 ∨ 2 ^ 60 < d ∨ ∀ r : ℕ, integerSqrt d = .ok r → (r : ℤ) ^ 2 ≤ d) :
    ∃ c, quadraticIrrational d = some (.ok c) ∧
      (∀ n, partialQuotient c n = cfQuotient (√(d : ℝ)) n) ∧
      c.prePeriod = [⌊√(d : ℝ)⌋] ∧ 0 < c.periodLength ∧ c.fundamentalPeriod.length = c.periodLength ∧
      (∃ l, c.fundamentalPeriod = l ++ [2 * ⌊√(d : ℝ)⌋] ∧ l.reverse = l ∧ 2 * ⌊√(d : ℝ)⌋ ∉ l) ∧
      ∀ t, (∀ n, 0 < n → cfQuotient (√(d : ℝ)) (n + t) = cfQuotient (√(d : ℝ)) n) ↔ c.periodLength ∣ t := by
  obtain ⟨r, hint, h1, h2, hr⟩ := root_of hd hns h
  have hL := periodic h1 h2 hr
  have hq : ∀ n, cfQuotient (√(d : ℝ)) n = ContinuedFractions.sq d r n := fun n => (completeQuotient_eq h1 h2 hr n).2
  rw [floor_sqrt h1 h2 hr]
  refine ⟨sqrtIrr d r, quadraticIrrational_eq h1 h2 hr hint, fun n => (partialQuotient_eq h1 h2 hr n).trans (hq n).symm,
    rfl, hL, by simp [sqrtIrr], ?_, ?_⟩
  · refine ⟨(List.range' 1 (Function.minimalPeriod (step d r) (r, 1) - 1)).map (ContinuedFractions.sq d r), ?_, ?_, ?_⟩
    · rw [sqrtIrr]
      dsimp only
      conv_lhs => rw [show Function.minimalPeriod (step d r) ((r : ℤ), 1) = (Function.minimalPeriod (step d r) ((r : ℤ), 1) - 1) + 1 by omega,
        List.range'_concat, List.map_append]
      congr 1
      rw [List.map_singleton]
      congr 1
      exact (sq_eq_iff h1 h2 hr _).2 ⟨by omega, by
        rw [show 1 + 1 * (Function.minimalPeriod (step d r) ((r : ℤ), 1) - 1) = Function.minimalPeriod (step d r) ((r : ℤ), 1) by omega]⟩
    · apply List.ext_getElem (by simp)
      intro i hi1 hi2
      simp only [List.length_reverse, List.length_map, List.length_range'] at hi1
      rw [List.getElem_reverse, List.getElem_map, List.getElem_map, List.getElem_range', List.getElem_range']
      simp only [List.length_map, List.length_range']
      exact palindrome h1 h2 hr _ _ (by omega) (by omega) (by omega)
    · rw [List.mem_map]
      rintro ⟨i, hi, he⟩
      rw [List.mem_range'_1] at hi
      have := Nat.le_of_dvd (by omega) ((sq_eq_iff h1 h2 hr i).1 he).2
      omega
  · intro t
    simp only [hq]
    constructor
    · intro ht
      have h3 := ht _ hL
      rw [(sq_eq_iff h1 h2 hr (Function.minimalPeriod (step d r) (r, 1))).2 ⟨hL, dvd_rfl⟩] at h3
      exact (Nat.dvd_add_right dvd_rfl).1 ((sq_eq_iff h1 h2 hr _).1 h3).2
    · rintro ⟨k, rfl⟩ n hn
      rw [ContinuedFractions.sq, ContinuedFractions.sq, state_period h1 h2 hr (n := n + _) (by omega),
        state_period h1 h2 hr hn]
      congr 3
      change (n + Function.minimalPeriod (step d r) ((r : ℤ), 1) * k - 1) % _ = _
      rw [show n + Function.minimalPeriod (step d r) ((r : ℤ), 1) * k - 1 =
        (n - 1) + Function.minimalPeriod (step d r) ((r : ℤ), 1) * k by omega, Nat.add_mul_mod_self_left]

/-- The pairs of `convergents` are the numerators and denominators in lowest terms of the convergents of `√d`. -/
theorem C40_convergents_partial (d : ℤ) (hd : 0 < d) (hns : ∀ k : ℤ, k ^ 2 ≠ d)
    (h : d < 4503599761588224 ∨ 2 ^ 60 < d ∨ ∀ r : ℕ, integerSqrt d = .ok r → (r : ℤ) ^ 2 ≤ d) :
    ∃ c, quadraticIrrational d = some (.ok c) ∧
      ∀ n, (convergent c n).1 = ((√(d : ℝ)).convergent n).num ∧ (convergent c n).2 = ((√(d : ℝ)).convergent n).den := by
  obtain ⟨r, hint, h1, h2, hr⟩ := root_of hd hns h
  refine ⟨sqrtIrr d r, quadraticIrrational_eq h1 h2 hr hint, fun n => ?_⟩
  have ha := sq_pos h1 h2 hr
  rw [convergent_eq_num h1 h2 hr, convergent_eq (fun n => (completeQuotient_eq h1 h2 hr n).2) ha]
  have hB := (den_pos ha n).2.2.1
  have hgcd := Int.isCoprime_iff_gcd_eq_one.1 (coprime (a := ContinuedFractions.sq d r) (n + 1))
  exact ⟨(Rat.num_div_eq_of_coprime hB hgcd).symm, (Rat.den_div_eq_of_coprime hB hgcd).symm⟩

/-- The constructor raises `ValueError` for squares and negative numbers, without exception. -/
theorem C40_valueError (d : ℤ) : quadraticIrrational d = some (.error .valueError) ↔ d < 0 ∨ ∃ k : ℤ, k ^ 2 = d := by
  rw [quadraticIrrational, if_pos ⟨rfl, rfl⟩, initSqrt]
  by_cases hd : d < 0
  · rw [(C09_integer_sqrt_error d).2 hd]
    exact ⟨fun _ => Or.inl hd, fun _ => rfl⟩
  · obtain ⟨r, h1, -, -, h4⟩ := C09_integer_sqrt_bounds d (by omega)
    rw [h1]
    dsimp only
    by_cases hsq : (r : ℤ) * r = d
    · rw [if_pos hsq]
      exact ⟨fun _ => Or.inr ⟨r, by rw [pow_two]; exact hsq⟩, fun _ => rfl⟩
    · rw [if_neg hsq]
      constructor
      · intro h
        exfalso
        cases hl : sqrtLoop d r 0 1 [] with
        | none => rw [hl] at h; exact absurd h (by simp)
        | some res =>
          have key := sqrtLoop.partial_correctness d r (motive := fun _ _ _ res => res ≠ .error .valueError) (by
            intro f ih P Q terms res hres
            dsimp only at hres
            split at hres
            · cases hres; simp
            · split at hres
              · cases hres; simp
              · exact ih _ _ _ _ hres) 0 1 [] res hl
          rw [hl] at h
          cases res with
          | error e => simp only [Option.some.injEq, Except.error.injEq] at h; exact key (by rw [h])
          | ok t => simp at h
      · rintro (h | ⟨k, hk⟩)
        · exact absurd h hd
        · have := h4 k.natAbs (by rw [← hk, Int.natAbs_sq])
          exfalso
          apply hsq
          rw [this, ← hk, ← pow_two, Int.natAbs_sq]

/-- Where `integer_sqrt` is too large the constructor can give a wrong expansion: that of the square root of
`67108865^2 - 1` is `[67108864; 1, 134217728, …]`. -/
theorem C40_partial_quotients_violation :
    initSqrt 4503599761588224 = some (.ok ⟨2, [67108865], [-134217730, 134217730]⟩) ∧
      cfQuotient (√((4503599761588224 : ℤ) : ℝ)) 0 = 67108864 := by
  constructor
  · rw [initSqrt, show integerSqrt 4503599761588224 = .ok 67108865 by decide +kernel]
    dsimp only
    rw [if_neg (by decide), sqrtLoop.eq_def, if_neg (by decide)]
    dsimp only
    rw [if_neg (by decide), sqrtLoop.eq_def, if_neg (by decide)]
    dsimp only
    rw [if_neg (by decide), sqrtLoop.eq_def, if_neg (by decide)]
    dsimp only
    rw [if_pos (by decide)]
    decide +kernel
  · exact floor_sqrt (r := 67108864) (by norm_num) (by norm_num) (by norm_num)

/-- It can also run forever. -/
theorem C40_diverges_violation : quadraticIrrational 1152921498164396037 = none := by
  rw [quadraticIrrational, if_pos ⟨rfl, rfl⟩, initSqrt,
    show integerSqrt 1152921498164396037 = .ok 1073741821 by decide +kernel]
  dsimp only
  rw [if_neg (by decide), sqrtLoop_diverges _ _ [(0, 1), (1073741821, -4), (1073741823, 1073741823), (0, 1073741819),
    (1073741819, 4), (1073741821, -1), (1073741821, 4), (1073741819, 1073741819)] (by decide +kernel) 0 1 [] (by decide)]

/-! ## C39 -/

private theorem pell_unfold (D n : ℤ) (hd : 0 < D) (hns : ∀ k : ℤ, k ^ 2 ≠ D) (hn : n = 1 ∨ n = -1) {r : ℕ}
    (hint : integerSqrt D = .ok r) (h1 : (r : ℤ) * r < D) (h2 : D < ((r : ℤ) + 1) * (r + 1)) (hr : (1 : ℤ) ≤ r) :
    pellFundamentalSolution D n =
      if n = -1 ∧ Function.minimalPeriod (step D r) ((r : ℤ), 1) % 2 = 0 then some (.error .valueError)
      else (searchConvergents (sqrtIrr D r) D n 0).map .ok := by
  rw [pellFundamentalSolution, if_neg (by omega)]
  rcases C14_is_square D with ⟨s, -, hs⟩ | ⟨hs, -⟩
  · exact absurd hs (hns s)
  · rw [hs]
    dsimp only
    rw [if_neg (by rcases hn with rfl | rfl <;> simp), quadraticIrrational_eq h1 h2 hr hint]
    rfl

/-- `pell_fundamental_solution(D)` terminates and returns the least positive solution of `x² - D y² = 1`.  Missing: the
`D` for which `integer_sqrt` is too large. -/
theorem C39_pell_fundamental_partial (D : ℤ) (hd : 0 < D) (hns : ∀ k : ℤ, k ^ 2 ≠ D)
    (h : D < 4503599761588224 ∨ 2 ^ 60 < D ∨ ∀ r : ℕ, integerSqrt D = .ok r → (r : ℤ) ^ 2 ≤ D) :
    ∃ x y, pellFundamentalSolution D = some (.ok (x, y)) ∧ 0 < x ∧ 0 < y ∧ x ^ 2 - D * y ^ 2 = 1 ∧
      ∀ x' y', 0 < x' → 0 < y' → x' ^ 2 - D * y' ^ 2 = 1 → x ≤ x' ∧ y ≤ y' := by
  obtain ⟨r, hint, h1, h2, hr⟩ := root_of hd hns h
  obtain ⟨x, y, s1, s2, s3, s4, s5⟩ := search_least h1 h2 hr (Or.inl rfl) (exists_pos h1 h2 hr)
  refine ⟨x, y, ?_, s2, s3, by rw [← s4]; ring, fun x' y' hx hy he => s5 x' y' hx hy (by rw [← he]; ring)⟩
  rw [pell_unfold D 1 hd hns (Or.inl rfl) hint h1 h2 hr, if_neg (by omega), s1]
  rfl

/-- `pell_fundamental_solution(D, -1)` returns the least positive solution of `x² - D y² = -1` if there is a solution and
raises `ValueError` otherwise. -/
theorem C39_pell_negative_partial (D : ℤ) (hd : 0 < D) (hns : ∀ k : ℤ, k ^ 2 ≠ D)
    (h : D < 4503599761588224 ∨ 2 ^ 60 < D ∨ ∀ r : ℕ, integerSqrt D = .ok r → (r : ℤ) ^ 2 ≤ D) :
    (∃ x y, pellFundamentalSolution D (-1) = some (.ok (x, y)) ∧ 0 < x ∧ 0 < y ∧ x ^ 2 - D * y ^ 2 = -1 ∧
      ∀ x' y', 0 < x' → 0 < y' → x' ^ 2 - D * y' ^ 2 = -1 → x ≤ x' ∧ y ≤ y') ∨
    (pellFundamentalSolution D (-1) = some (.error .valueError) ∧ ¬ ∃ x y : ℤ, x ^ 2 - D * y ^ 2 = -1) := by
  obtain ⟨r, hint, h1, h2, hr⟩ := root_of hd hns h
  rw [pell_unfold D (-1) hd hns (Or.inr rfl) hint h1 h2 hr]
  by_cases hp : Function.minimalPeriod (step D r) ((r : ℤ), 1) % 2 = 0
  · right
    refine ⟨if_pos ⟨rfl, hp⟩, ?_⟩
    rintro ⟨x, y, he⟩
    have hy : y ≠ 0 := by
      rintro rfl
      have := sq_nonneg x
      omega
    have hx : x ≠ 0 := by
      rintro rfl
      exact hns 1 (by have h3 : D * y ^ 2 = 1 := by linarith
                      have := Int.eq_one_of_mul_eq_one_right hd.le h3; omega)
    obtain ⟨k, e1, e2⟩ := pell_is_convergent h1 h2 hr (x := |x|) (y := |y|) (abs_pos.2 hx) (abs_pos.2 hy) (Or.inr rfl)
      (by rw [mul_assoc, abs_mul_abs_self, abs_mul_abs_self, ← he]; ring)
    have h3 := (exists_neg_iff h1 h2 hr).1 ⟨k, by
      rw [← norm_eq h1 h2 hr (k + 1), ← e1, ← e2, mul_assoc, abs_mul_abs_self, abs_mul_abs_self, ← he]; ring⟩
    omega
  · left
    obtain ⟨x, y, s1, s2, s3, s4, s5⟩ := search_least h1 h2 hr (Or.inr rfl) ((exists_neg_iff h1 h2 hr).2 (by omega))
    refine ⟨x, y, ?_, s2, s3, by rw [← s4]; ring, fun x' y' hx hy he => s5 x' y' hx hy (by rw [← he]; ring)⟩
    rw [if_neg (by omega), s1]
    rfl

/-- Nonpositive and square `D`, and numbers other than `1` and `-1`, are rejected. -/
theorem C39_pell_error (D n : ℤ) (h : D ≤ 0 ∨ (∃ k : ℤ, k ^ 2 = D) ∨ (n ≠ 1 ∧ n ≠ -1)) :
    pellFundamentalSolution D n = some (.error .valueError) := by
  rw [pellFundamentalSolution]
  by_cases hD : D ≤ 0
  · rw [if_pos hD]
  · rw [if_neg hD]
    rcases C14_is_square D with ⟨s, hs, hsq⟩ | ⟨hs, hns⟩
    · rw [hs]
      dsimp only
      rw [if_pos]
      left
      have : s ≠ 0 := by rintro rfl; apply hD; rw [← hsq]; simp
      simp [this]
    · rw [hs]
      dsimp only
      rw [if_pos]
      right
      rcases h with h | ⟨k, hk⟩ | h
      · exact absurd h hD
      · exact absurd hk (hns k)
      · exact h

/-- Whatever is returned solves the equation, for every argument. -/
theorem C39_pell_sound (D n x y : ℤ) (h : pellFundamentalSolution D n = some (.ok (x, y))) :
    x ^ 2 - D * y ^ 2 = n ∧ (n = 1 ∨ n = -1) := by
  have key := fun c => searchConvergents.partial_correctness c D n
    (motive := fun _ r => r.1 * r.1 - D * r.2 * r.2 = n) (by
      intro f ih k r hr
      dsimp only at hr
      split at hr
      · rename_i he; cases hr; exact he
      · exact ih _ _ hr)
  have hn : n = 1 ∨ n = -1 := by
    by_contra hn
    push Not at hn
    rw [C39_pell_error D n (Or.inr (Or.inr hn))] at h
    exact absurd h (by simp)
  refine ⟨?_, hn⟩
  rw [pellFundamentalSolution] at h
  by_cases hD : D ≤ 0
  · rw [if_pos hD] at h; exact absurd h (by simp)
  rw [if_neg hD] at h
  rcases hs : isSquare D with e | s
  · rw [hs] at h; exact absurd h (by simp)
  rw [hs] at h
  dsimp only at h
  rw [ite_eq_iff] at h
  rcases h with ⟨-, h⟩ | ⟨-, h⟩
  · exact absurd h (by simp)
  rcases hq : quadraticIrrational D with - | e | c
  · rw [hq] at h; exact absurd h (by simp)
  · rw [hq] at h; exact absurd h (by simp)
  · rw [hq] at h
    dsimp only at h
    rw [ite_eq_iff] at h
    rcases h with ⟨-, h⟩ | ⟨-, h⟩
    · exact absurd h (by simp)
    rw [Option.map_eq_some_iff] at h
    obtain ⟨p, hp, he⟩ := h
    cases he
    rw [← key _ _ _ hp]; ring

/-- Where `integer_sqrt` is too large the pair need not be positive, so not the least positive solution. -/
theorem C39_pell_violation : pellFundamentalSolution 1152921502459363327 =
    some (.ok (-1152921502459363328, -1073741823)) := by
  have hq : quadraticIrrational 1152921502459363327 = some (.ok ⟨2, [1073741823], [-1073741823, 2147483646]⟩) := by
    rw [quadraticIrrational, if_pos ⟨rfl, rfl⟩, initSqrt,
      show integerSqrt 1152921502459363327 = .ok 1073741823 by decide +kernel]
    dsimp only
    rw [if_neg (by decide), sqrtLoop.eq_def, if_neg (by decide)]
    dsimp only
    rw [if_neg (by decide), sqrtLoop.eq_def, if_neg (by decide)]
    dsimp only
    rw [if_neg (by decide), sqrtLoop.eq_def, if_neg (by decide)]
    dsimp only
    rw [if_pos (by decide)]
    decide +kernel
  rw [pellFundamentalSolution, if_neg (by decide),
    show isSquare 1152921502459363327 = .ok none by decide +kernel]
  dsimp only
  rw [if_neg (by decide), hq]
  dsimp only
  rw [if_neg (by decide), searchConvergents_spec _ _ _ 1 0 (by decide +kernel)
    (fun i _ hi => by rw [show i = 0 by omega]; decide +kernel)]
  decide +kernel

example : ∃ c, quadraticIrrational 13 = some (.ok c) ∧ c.prePeriod = [3] ∧ c.fundamentalPeriod = [1, 1, 1, 1, 6] := by
  refine ⟨⟨5, [3], [1, 1, 1, 1, 6]⟩, ?_, rfl, rfl⟩
  rw [quadraticIrrational, if_pos ⟨rfl, rfl⟩, initSqrt, show integerSqrt 13 = .ok 3 by decide +kernel]
  dsimp only
  rw [if_neg (by decide)]
  iterate 5 rw [sqrtLoop.eq_def, if_neg (by decide)]; dsimp only; rw [if_neg (by decide)]
  rw [sqrtLoop.eq_def, if_neg (by decide)]
  dsimp only
  rw [if_pos (by decide)]
  decide +kernel

example : pellFundamentalSolution 13 = some (.ok (649, 180)) ∧ pellFundamentalSolution 13 (-1) = some (.ok (18, 5)) ∧
    pellFundamentalSolution 16 = some (.error .valueError) ∧ pellFundamentalSolution 13 2 = some (.error .valueError) := by
  have hc : quadraticIrrational 13 = some (.ok ⟨5, [3], [1, 1, 1, 1, 6]⟩) := by
    rw [quadraticIrrational, if_pos ⟨rfl, rfl⟩, initSqrt, show integerSqrt 13 = .ok 3 by decide +kernel]
    dsimp only
    rw [if_neg (by decide)]
    iterate 5 rw [sqrtLoop.eq_def, if_neg (by decide)]; dsimp only; rw [if_neg (by decide)]
    rw [sqrtLoop.eq_def, if_neg (by decide)]
    dsimp only
    rw [if_pos (by decide)]
    decide +kernel
  refine ⟨?_, ?_, C39_pell_error _ _ (Or.inr (Or.inl ⟨4, by norm_num⟩)), C39_pell_error _ _ (by omega)⟩
  · rw [pellFundamentalSolution, if_neg (by decide), show isSquare 13 = .ok none by decide +kernel]
    dsimp only
    rw [if_neg (by decide), hc]
    dsimp only
    rw [if_neg (by decide), searchConvergents_spec _ _ _ 9 0 (by decide +kernel) (by decide +kernel)]
    decide +kernel
  · rw [pellFundamentalSolution, if_neg (by decide), show isSquare 13 = .ok none by decide +kernel]
    dsimp only
    rw [if_neg (by decide), hc]
    dsimp only
    rw [if_neg (by decide), searchConvergents_spec _ _ _ 4 0 (by decide +kernel) (by decide +kernel)]
    decide +kernel

/-- `18^2 - 13 * 5^2 = -1` is the least solution, and `x^2 - 3 y^2 = -1` has none. -/
example : (18 : ℤ) ^ 2 - 13 * 5 ^ 2 = -1 ∧ ¬ ∃ x y : ℤ, x ^ 2 - 3 * y ^ 2 = -1 := by
  refine ⟨by norm_num, ?_⟩
  rintro ⟨x, y, h⟩
  have h3 : (x ^ 2 + 1) % 3 = 0 := by omega
  have : x % 3 = 0 ∨ x % 3 = 1 ∨ x % 3 = 2 := by omega
  rcases this with h | h | h <;> simp [pow_two, Int.add_emod, Int.mul_emod, h] at h3

end Rosemary.Props
