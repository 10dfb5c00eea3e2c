import Verif.Lemmas.Polynomials
import Mathlib.Combinatorics.Enumerative.Pentagonal.PowerSeries
import Mathlib.RingTheory.PowerSeries.Basic
import Mathlib.RingTheory.PowerSeries.Order

/-!
# Euler's pentagonal number theorem for the finite products, and `eta_series`
-/

namespace Rosemary.Polys

open Polynomial Finset

/-- The product `(1 - x)(1 - x^2)...(1 - x^N)`. -/
noncomputable def eulerProd (N : Nat) : ℤ[X] := ∏ n ∈ range N, (1 - X ^ (n + 1))

theorem eulerProd_coeff_succ (N i : Nat) (h : i < N + 1) :
    (eulerProd (N + 1)).coeff i = (eulerProd N).coeff i := by
  unfold eulerProd
  rw [prod_range_succ, mul_sub, mul_one, coeff_sub, coeff_mul_X_pow', if_neg (by omega), sub_zero]

theorem eulerProd_coeff_le (N M i : Nat) (h : i ≤ N) (hM : N ≤ M) :
    (eulerProd M).coeff i = (eulerProd N).coeff i := by
  induction M, hM using Nat.le_induction with
  | base => rfl
  | succ M hM ih => rw [eulerProd_coeff_succ M i (by omega), ih]

theorem eulerProd_pentagonal (N i : Nat) (h : i ≤ N) :
    (eulerProd N).coeff i = (PowerSeries.pentagonalSeries ℤ).coeff i := by
  have he := PowerSeries.coeff_prod_one_sub_X_pow_eventually_eq ℤ i
  rw [Filter.eventually_atTop] at he
  obtain ⟨s, hs⟩ := he
  have hsub : s ⊆ range (max N (s.sup id + 1)) := by
    intro x hx
    rw [mem_range]
    have : x ≤ s.sup id := le_sup (f := id) hx
    omega
  have h1 := hs _ hsub
  rw [← h1, ← eulerProd_coeff_le N (max N (s.sup id + 1)) i h (by omega)]
  have : (∏ n ∈ range (max N (s.sup id + 1)), (1 - PowerSeries.X ^ (n + 1) : PowerSeries ℤ)) =
      ((eulerProd (max N (s.sup id + 1)) : ℤ[X]) : PowerSeries ℤ) := by
    unfold eulerProd
    induction (max N (s.sup id + 1)) with
    | zero => simp
    | succ M ih => rw [prod_range_succ, prod_range_succ, ih, Polynomial.coe_mul]; simp
  rw [this, Polynomial.coeff_coe]

/-- The coefficients of the pentagonal series. -/
theorem pent_coeff_pos (n : Nat) (hn : 1 ≤ n) :
    (PowerSeries.pentagonalSeries ℤ).coeff (n * (3 * n - 1) / 2) = if n % 2 = 1 then -1 else 1 := by
  have : n * (3 * n - 1) / 2 = pentagonal n := by
    rw [← Nat.cast_inj (R := ℤ), natCast_pentagonal]
    push_cast [Nat.cast_sub (show 1 ≤ 3 * n by omega)]
    rfl
  rw [this, PowerSeries.coeff_pentagonalSeries_pentagonal]
  rcases Nat.mod_two_eq_zero_or_one n with h | h
  · rw [if_neg (by omega), Int.negOnePow_even _ (by rw [Int.even_iff]; omega)]; simp
  · rw [if_pos h, Int.negOnePow_odd _ (by rw [Int.odd_iff]; omega)]; simp

theorem pent_coeff_neg (n : Nat) :
    (PowerSeries.pentagonalSeries ℤ).coeff (n * (3 * n + 1) / 2) = if n % 2 = 1 then -1 else 1 := by
  have : n * (3 * n + 1) / 2 = pentagonal (-n) := by
    rw [pentagonal_neg]
    rw [← Nat.cast_inj (R := ℤ), Int.toNat_of_nonneg (by positivity)]
    push_cast
    rfl
  rw [this, PowerSeries.coeff_pentagonalSeries_pentagonal]
  rcases Nat.mod_two_eq_zero_or_one n with h | h
  · rw [if_neg (by omega), Int.negOnePow_even _ (by rw [Int.even_iff]; omega)]; simp
  · rw [if_pos h, Int.negOnePow_odd _ (by rw [Int.odd_iff]; omega)]; simp

theorem two_mul_g (n : Nat) (hn : 1 ≤ n) : 2 * (n * (3 * n - 1) / 2) = n * (3 * n - 1) := by
  rw [Nat.mul_div_cancel']
  rcases Nat.even_or_odd' n with ⟨m, rfl | rfl⟩
  · exact ⟨m * (3 * (2 * m) - 1), by ring⟩
  · exact ⟨(2 * m + 1) * (3 * m + 1), by rw [show 3 * (2 * m + 1) - 1 = 2 * (3 * m + 1) by omega]; ring⟩

theorem two_mul_h (n : Nat) : 2 * (n * (3 * n + 1) / 2) = n * (3 * n + 1) := by
  rw [Nat.mul_div_cancel']
  rcases Nat.even_or_odd' n with ⟨m, rfl | rfl⟩
  · exact ⟨m * (3 * (2 * m) + 1), by ring⟩
  · exact ⟨(2 * m + 1) * (3 * m + 2), by ring⟩

/-- Between consecutive generalised pentagonal numbers the coefficients vanish. -/
theorem pent_coeff_between (n i : Nat) (hn : 1 ≤ n)
    (h : (n * (3 * n - 1) / 2 < i ∧ i < n * (3 * n + 1) / 2) ∨
      (n * (3 * n + 1) / 2 < i ∧ i < (n + 1) * (3 * (n + 1) - 1) / 2)) :
    (PowerSeries.pentagonalSeries ℤ).coeff i = 0 := by
  apply PowerSeries.coeff_pentagonalSeries_eq_zero
  rintro ⟨k, hk⟩
  have h2 := two_mul_natCast_pentagonal k
  rw [hk] at h2
  have t1 := two_mul_g n hn
  have t2 := two_mul_h n
  have t3 := two_mul_g (n + 1) (by omega)
  generalize n * (3 * n - 1) / 2 = G at *
  generalize n * (3 * n + 1) / 2 = H at *
  generalize (n + 1) * (3 * (n + 1) - 1) / 2 = G' at *
  have g1 : (2 * (G : ℤ)) = n * (3 * n - 1) := by
    have := congrArg (Nat.cast : ℕ → ℤ) t1
    push_cast [Nat.cast_sub (show 1 ≤ 3 * n by omega)] at this
    exact this
  have g2 : (2 * (H : ℤ)) = n * (3 * n + 1) := by
    have := congrArg (Nat.cast : ℕ → ℤ) t2
    push_cast at this
    exact this
  have g3 : (2 * (G' : ℤ)) = (n + 1) * (3 * (n + 1) - 1) := by
    have := congrArg (Nat.cast : ℕ → ℤ) t3
    push_cast [Nat.cast_sub (show 1 ≤ 3 * (n + 1) by omega)] at this
    exact this
  have hn' : (1 : ℤ) ≤ n := by exact_mod_cast hn
  rcases h with ⟨ha, hb⟩ | ⟨ha, hb⟩
  · have ha' : (n : ℤ) * (3 * n - 1) < k * (3 * k - 1) := by rw [← g1, ← h2]; exact_mod_cast (by omega)
    have hb' : k * (3 * k - 1) < (n : ℤ) * (3 * n + 1) := by rw [← g2, ← h2]; exact_mod_cast (by omega)
    rcases lt_trichotomy k 0 with hk | hk | hk
    · rcases le_or_gt (n : ℤ) (-k) with h | h
      · nlinarith
      · have : -k ≤ (n : ℤ) - 1 := by omega
        nlinarith
    · subst hk; nlinarith
    · rcases le_or_gt k (n : ℤ) with h | h
      · nlinarith
      · have : (n : ℤ) + 1 ≤ k := by omega
        nlinarith
  · have ha' : (n : ℤ) * (3 * n + 1) < k * (3 * k - 1) := by rw [← g2, ← h2]; exact_mod_cast (by omega)
    have hb' : k * (3 * k - 1) < ((n : ℤ) + 1) * (3 * (n + 1) - 1) := by
      rw [← g3, ← h2]; exact_mod_cast (by omega)
    rcases lt_trichotomy k 0 with hk | hk | hk
    · rcases le_or_gt (-k) (n : ℤ) with h | h
      · nlinarith
      · have : (n : ℤ) + 1 ≤ -k := by omega
        nlinarith
    · subst hk; nlinarith
    · rcases le_or_gt k (n : ℤ) with h | h
      · nlinarith
      · have : (n : ℤ) + 1 ≤ k := by omega
        nlinarith

theorem etaLoop_spec (prec n : Nat) (hn : 1 ≤ n) (L : List Int) (hl : L.length = prec)
    (hL : ∀ i, i < prec → L.getD i 0 = if i < n * (3 * n - 1) / 2 then
      (PowerSeries.pentagonalSeries ℤ).coeff i else 0) :
    (etaLoop prec n L).length = prec ∧
      ∀ i, i < prec → (etaLoop prec n L).getD i 0 = (PowerSeries.pentagonalSeries ℤ).coeff i := by
  induction hm : prec - n using Nat.strong_induction_on generalizing n L with
  | _ m ih =>
    have t1 := two_mul_g n hn
    have t2 := two_mul_h n
    have t3 := two_mul_g (n + 1) (by omega)
    have o1 : n * (3 * n - 1) / 2 < n * (3 * n + 1) / 2 := by
      have : n * (3 * n - 1) < n * (3 * n + 1) := Nat.mul_lt_mul_of_pos_left (by omega) (by omega)
      omega
    have o2 : n * (3 * n + 1) / 2 < (n + 1) * (3 * (n + 1) - 1) / 2 := by
      have : n * (3 * n + 1) + 2 ≤ (n + 1) * (3 * (n + 1) - 1) := by
        rw [show 3 * (n + 1) - 1 = 3 * n + 2 by omega]; nlinarith
      omega
    have o3 : n ≤ n * (3 * n - 1) / 2 := by
      have : n * 2 ≤ n * (3 * n - 1) := Nat.mul_le_mul_left _ (by omega)
      omega
    rw [etaLoop]
    dsimp only
    generalize hsg : (if n % 2 = 1 then (-1 : ℤ) else 1) = sg
    by_cases h : n * (3 * n - 1) / 2 ≥ prec
    · rw [if_pos h]
      exact ⟨hl, fun i hi => by rw [hL i hi, if_pos (by omega)]⟩
    · rw [if_neg h]
      have hL1 : ∀ i, i < prec → (L.set (n * (3 * n - 1) / 2) sg).getD i 0 =
          if i < n * (3 * n + 1) / 2 then (PowerSeries.pentagonalSeries ℤ).coeff i else 0 := by
        intro i hi
        rw [getD_set (by omega)]
        by_cases he : i = n * (3 * n - 1) / 2
        · rw [if_pos he, if_pos (by omega), he, pent_coeff_pos n hn, hsg]
        · rw [if_neg he, hL i hi]
          by_cases h1 : i < n * (3 * n - 1) / 2
          · rw [if_pos h1, if_pos (by omega)]
          · rw [if_neg h1]
            by_cases h2 : i < n * (3 * n + 1) / 2
            · rw [if_pos h2, pent_coeff_between n i hn (.inl ⟨by omega, h2⟩)]
            · rw [if_neg h2]
      by_cases h' : n * (3 * n + 1) / 2 ≥ prec
      · rw [if_pos h']
        exact ⟨by rw [List.length_set, hl], fun i hi => by rw [hL1 i hi, if_pos (by omega)]⟩
      · rw [if_neg h', dif_pos (by omega)]
        apply ih (prec - (n + 1)) (by omega) (n + 1) (by omega) _ (by
          rw [List.length_set, List.length_set, hl]) _ rfl
        intro i hi
        rw [getD_set (by rw [List.length_set]; omega)]
        by_cases he : i = n * (3 * n + 1) / 2
        · rw [if_pos he, if_pos (by omega), he, pent_coeff_neg n, hsg]
        · rw [if_neg he, hL1 i hi]
          by_cases h1 : i < n * (3 * n + 1) / 2
          · rw [if_pos h1, if_pos (by omega)]
          · rw [if_neg h1]
            by_cases h2 : i < (n + 1) * (3 * (n + 1) - 1) / 2
            · rw [if_pos h2, pent_coeff_between n i hn (.inr ⟨by omega, h2⟩)]
            · rw [if_neg h2]

theorem etaSeries_spec (prec : Nat) (h : 1 ≤ prec) :
    ∃ L, etaSeries prec = .ok L ∧ L.length = prec ∧
      ∀ i, i < prec → L.getD i 0 = (eulerProd prec).coeff i := by
  unfold etaSeries
  rw [if_neg (by omega)]
  obtain ⟨h1, h2⟩ := etaLoop_spec prec 1 (le_refl _) ((List.replicate prec 0).set 0 1) (by simp) (by
    intro i hi
    rw [getD_set (by simp; omega)]
    by_cases h0 : i = 0
    · subst h0
      have := pent_coeff_neg 0
      rw [if_pos rfl, if_pos (by norm_num)]
      simpa using this.symm
    · rw [if_neg h0, if_neg (by omega)]
      simp only [List.getD_eq_getElem?_getD, List.getElem?_replicate]
      split <;> rfl)
  refine ⟨_, rfl, h1, fun i hi => ?_⟩
  rw [h2 i hi, eulerProd_pentagonal prec i (by omega)]

end Rosemary.Polys
