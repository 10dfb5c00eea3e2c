import Verif.Lemmas.RootCosts
import Verif.Props.Core

/-!
# C163: the work done by the binary and iterative methods of `number_theory/core.py`
-/

namespace Rosemary.Props
open Rosemary.Core Rosemary.RootCosts

/-- `power_mod` multiplies modulo `m` at most twice, and if it enters the loop at least once, per binary digit of `k`. -/
theorem C163_power_mod (a k m : ℤ) :
    (powerModC a k m).1 = powerMod a k m ∧ (powerModC a k m).2 ≤ 2 * k.toNat.size ∧
      (0 ≤ a → 0 ≤ k → 1 ≤ m → ¬ m ∣ a → k.toNat.size ≤ (powerModC a k m).2) := by
  unfold powerModC powerMod
  by_cases h1 : a < 0
  · rw [if_pos h1, if_pos h1]; exact ⟨rfl, Nat.zero_le _, fun h => by omega⟩
  rw [if_neg h1, if_neg h1]
  by_cases h2 : k < 0
  · rw [if_pos h2, if_pos h2]; exact ⟨rfl, Nat.zero_le _, fun _ h => by omega⟩
  rw [if_neg h2, if_neg h2]
  by_cases h3 : m < 1
  · rw [if_pos h3, if_pos h3]; exact ⟨rfl, Nat.zero_le _, fun _ _ h => by omega⟩
  rw [if_neg h3, if_neg h3]
  by_cases h4 : a.fmod m = 0
  · rw [if_pos h4, if_pos h4]
    refine ⟨rfl, Nat.zero_le _, fun _ _ _ h => absurd ?_ h⟩
    rw [Int.fmod_eq_emod_of_nonneg _ (by omega)] at h4
    exact Int.dvd_of_emod_eq_zero h4
  rw [if_neg h4, if_neg h4]
  by_cases h5 : k = 0
  · rw [if_pos h5, if_pos h5]; subst h5; exact ⟨rfl, Nat.zero_le _, fun _ _ _ _ => by simp⟩
  rw [if_neg h5, if_neg h5]
  have hc := powerModLoopC_cost m.toNat (a.fmod m).toNat 1 k.toNat
  exact ⟨by simp only [powerModLoopC_fst], hc.2, fun _ _ _ _ => hc.1⟩

example : powerModC 2 45 17 = (.ok 15, 10) ∧ (45 : ℤ).toNat.size = 6 := by decide +kernel

/-- `integer_log` finds the logarithm `r` with at most `2 * log₂ r + 1` passes of its two loops together. -/
theorem C163_integer_log (b n : ℤ) :
    (integerLogC b n).1 = integerLog b n ∧
      ∀ r, integerLog b n = .ok r → (integerLogC b n).2 ≤ 2 * Nat.log 2 r + 1 := by
  have hres : (integerLogC b n).1 = integerLog b n := by
    unfold integerLogC integerLog
    by_cases hb : b ≤ 1
    · rw [dif_pos hb, dif_pos hb]
    rw [dif_neg hb, dif_neg hb]
    by_cases h1 : n ≤ 0
    · rw [if_pos h1, if_pos h1]
    rw [if_neg h1, if_neg h1]
    by_cases h2 : n < b
    · rw [if_pos h2, if_pos h2]
    rw [if_neg h2, if_neg h2]
    by_cases h3 : b = 2
    · rw [if_pos h3, if_pos h3]
    rw [if_neg h3, if_neg h3]
    simp only [logBisectC_fst, logUpC_fst]
  refine ⟨hres, ?_⟩
  intro r hr
  unfold integerLogC
  by_cases hb : b ≤ 1
  · rw [dif_pos hb]; exact Nat.zero_le _
  rw [dif_neg hb]
  by_cases h1 : n ≤ 0
  · rw [if_pos h1]; exact Nat.zero_le _
  rw [if_neg h1]
  by_cases h2 : n < b
  · rw [if_pos h2]; exact Nat.zero_le _
  rw [if_neg h2]
  by_cases h3 : b = 2
  · rw [if_pos h3]; exact Nat.zero_le _
  rw [if_neg h3]
  have hup := logUpC_cost b.toNat n.toNat b.toNat 0 1 0 (by omega) (by simp) (by simp) (by simp)
  obtain ⟨r', hr', hle, hlt⟩ := C07_integer_log b n (by omega) (by omega)
  rw [hr] at hr'
  obtain rfl : r = r' := by injection hr'
  dsimp only
  generalize logUpC n.toNat b.toNat 0 1 (by omega) = q at hup
  obtain ⟨⟨lo, hi⟩, u⟩ := q
  simp only [Nat.zero_add] at hup
  obtain ⟨e1, e2⟩ := hup
  dsimp only
  by_cases hu : u = 0
  · subst hu
    have := logBisectC_cost b.toNat n.toNat lo hi 0 (by simp at e1 ⊢; omega)
    omega
  · obtain ⟨v, rfl⟩ := Nat.exists_eq_succ_of_ne_zero hu
    obtain ⟨e3, e4⟩ := e2 hu
    rw [Nat.succ_eq_add_one, pow_succ] at e1
    have hlo : lo = 2 ^ v := by omega
    have hbis := logBisectC_cost b.toNat n.toNat lo hi v (by omega)
    have hvr : 2 ^ v ≤ r := by
      have h5 : b ^ lo < b ^ (r + 1) := by
        refine lt_of_le_of_lt ?_ hlt
        have h6 : ((b.toNat ^ lo : ℕ) : ℤ) ≤ (n.toNat : ℤ) := by exact_mod_cast e4
        rw [Nat.cast_pow, Int.toNat_of_nonneg (by omega), Int.toNat_of_nonneg (by omega)] at h6
        exact h6
      have := (pow_lt_pow_iff_right₀ (show (1 : ℤ) < b by omega)).1 h5
      omega
    have hv := Nat.le_log_of_pow_le (by norm_num) hvr
    omega

example : integerLogC 3 (3 ^ 100) = (.ok 100, 11) ∧ 2 * Nat.log 2 100 + 1 = 13 := by decide +kernel

/-- `valuation` finds the exponent `v` with at most `2 * log₂ v + 1` passes of its two loops together. -/
theorem C163_valuation (p : ℕ) (n : ℤ) (hp : 2 ≤ p) :
    (valuationC p n hp).1 = valuation p n hp ∧
      (valuationC p n hp).2 ≤ 2 * Nat.log 2 (valuation p n hp) + 1 := by
  unfold valuationC valuation
  by_cases h : n.fmod p ≠ 0 ∨ (p : ℤ) > n
  · rw [dif_pos h, dif_pos h]; exact ⟨rfl, Nat.zero_le _⟩
  rw [dif_neg h, dif_neg h]
  have hup := valUpC_cost p n.natAbs p 0 1 0 (by omega) hp (by simp) (by simp) (by simp)
  have hn : 0 < n.natAbs := by omega
  have hdvd : n.natAbs % p = 0 := by
    push Not at h
    have h1 := h.1
    rw [Int.fmod_eq_emod_of_nonneg _ (by positivity)] at h1
    have h2 : (p : ℤ) ∣ n := Int.dvd_of_emod_eq_zero h1
    exact Nat.mod_eq_zero_of_dvd (Int.natCast_dvd.1 h2)
  have hs := valUp_spec p n.natAbs p 0 1 hn hp (by simp) (Or.inl hdvd) (by norm_num)
  rw [← valUpC_fst] at hs ⊢
  dsimp only
  rw [← valBisectC_fst]
  refine ⟨rfl, ?_⟩
  generalize valUpC n.natAbs p 0 1 hn hp = q at hup hs
  obtain ⟨⟨lo, hi⟩, u⟩ := q
  simp only [Nat.zero_add] at hup hs
  obtain ⟨e1, e2⟩ := hup
  have hb := valBisect_spec p n.natAbs lo hi hs.1 hs.2.1 hs.2.2
  rw [← valBisectC_fst] at hb
  dsimp only
  by_cases hu : u = 0
  · subst hu
    have := valBisectC_cost p n.natAbs lo hi 0 (by simp at e1 ⊢; omega)
    omega
  · obtain ⟨v, rfl⟩ := Nat.exists_eq_succ_of_ne_zero hu
    obtain ⟨e3, e4⟩ := e2 hu
    rw [Nat.succ_eq_add_one, pow_succ] at e1
    have hlo : lo = 2 ^ v := by omega
    have hbis := valBisectC_cost p n.natAbs lo hi v (by omega)
    have hvr : 2 ^ v ≤ (valBisectC p n.natAbs lo hi).1 := by
      by_contra hc
      exact hb.2 ((pow_dvd_pow p (by omega)).trans e4)
    have hv := Nat.le_log_of_pow_le (by norm_num) hvr
    omega

example : valuationC 6 (6 ^ 37 * 5) (by norm_num) = (37, 11) ∧ 2 * Nat.log 2 37 + 1 = 11 := by decide +kernel

/-- The step of the loop of `integer_sqrt`: with `a` the real root, the next value lies above the integer part of `a`, and its
distance above `a` is at most `(x - a)² / (2x)`. -/
theorem C163_newton_step (n x : ℕ) (hx : 0 < x) :
    n.sqrt ≤ (x + n / x) / 2 ∧
      (((x + n / x) / 2 : ℕ) : ℝ) - Real.sqrt n ≤ (x - Real.sqrt n) ^ 2 / (2 * x) :=
  ⟨newton_step_ge n x n.sqrt hx (Nat.sqrt_le n),
    newton_quadratic n x hx _ (Real.sqrt_nonneg _) (Real.sq_sqrt (by positivity))⟩

example : (100 + 5000 / 100) / 2 = 75 ∧ Nat.sqrt 5000 = 70 := by decide +kernel

/-- `integer_sqrt` makes at most `⌈log₂ (bits + 2)⌉ + 1` passes, where `bits` is the bit length of `n`; none up to `2^60`. -/
theorem C163_integer_sqrt (n : ℤ) :
    (integerSqrtC n).1 = integerSqrt n ∧
      (integerSqrtC n).2 ≤ Nat.clog 2 (n.toNat.size + 2) + 1 ∧ (n ≤ 2 ^ 60 → (integerSqrtC n).2 = 0) := by
  unfold integerSqrtC integerSqrt
  by_cases h1 : n < 0
  · rw [if_pos h1, if_pos h1]; exact ⟨rfl, Nat.zero_le _, fun _ => rfl⟩
  rw [if_neg h1, if_neg h1]
  by_cases h2 : n = 0 ∨ n = 1
  · rw [if_pos h2, if_pos h2]; exact ⟨rfl, Nat.zero_le _, fun _ => rfl⟩
  rw [if_neg h2, if_neg h2]
  by_cases h3 : n ≤ 2 ^ 60
  · rw [if_pos h3, if_pos h3]; exact ⟨rfl, Nat.zero_le _, fun _ => rfl⟩
  rw [if_neg h3, if_neg h3]
  refine ⟨by simp only [newtonLoopC_fst], ?_, fun h => absurd h h3⟩
  exact newton_total n.toNat (by norm_num at h3; omega)

example : integerSqrtC (10 ^ 40 + 12345) = (.ok (10 ^ 20), 6) ∧ Nat.clog 2 ((10 ^ 40 + 12345 : ℤ).toNat.size + 2) + 1 = 9 := by
  decide +kernel

/-- The step of the loop of `integer_nth_root`, `n ≥ 3`: from `x` above the real root `a`, the next value lies above the integer
part of `a`, and its distance above `a` is at most `n (n-1) / 6 * (x - a)³ / x²`. -/
theorem C163_halley_step (n m x r : ℕ) (hn : 3 ≤ n) (hm : 0 < m) (hr : r ^ n ≤ m) (a : ℝ) (ha : 0 ≤ a) (ham : a ^ n = m)
    (hax : a ≤ x) :
    let y := x * ((n - 1) * x ^ n + (n + 1) * m) / ((n - 1) * x ^ n + (n + 1) * m + 2 * x ^ n - 2 * m)
    r ≤ y ∧ (y : ℝ) - a ≤ n * (n - 1) / 6 * (x - a) ^ 3 / x ^ 2 := by
  intro y
  have hra : (r : ℝ) ≤ a := by
    refine le_of_pow_le_pow_left₀ (n := n) (by omega) ha ?_
    rw [ham]; exact_mod_cast hr
  have hrx : r ≤ x := by exact_mod_cast hra.trans hax
  refine ⟨halley_step_ge n m x r (by omega) hm hr hrx, ?_⟩
  obtain ⟨k, rfl⟩ : ∃ k, n = k + 3 := ⟨n - 3, by omega⟩
  have hx : 0 < x := by
    rcases Nat.eq_zero_or_pos x with h | h
    · subst h
      exfalso
      have : a = 0 := le_antisymm (by simpa using hax) ha
      rw [this, zero_pow (by omega)] at ham
      have : m = 0 := by exact_mod_cast ham.symm
      omega
    · exact h
  have := halley_cubic k m x hm hx a ha hax ham
  refine this.trans (le_of_eq ?_)
  push_cast
  ring

example : (10 : ℕ) ≤ halleyStep 3 1000 32 ∧ (halleyStep 3 1000 32 : ℝ) - 10 ≤ 3 * (3 - 1) / 6 * (32 - 10) ^ 3 / 32 ^ 2 :=
  C163_halley_step 3 1000 32 10 (by norm_num) (by norm_num) (by norm_num) 10 (by norm_num) (by norm_num) (by norm_num)

example : halleyStep 3 1000 32 = 16 := by decide +kernel

/-- `integer_nth_root` with `n ≥ 3` makes at most `2n + ⌈log₃ (bits / n + 1)⌉ + 2` passes, where `bits` is the bit length of
`m`; for `n = 2` the passes are those of `integer_sqrt`. -/
theorem C163_integer_nth_root (n m : ℤ) :
    (integerNthRootC n m).1 = integerNthRoot n m ∧
      (n ≠ 2 → (integerNthRootC n m).2 ≤ 2 * n.toNat + Nat.clog 3 (m.toNat.size / n.toNat + 1) + 2) ∧
      (n = 2 → (integerNthRootC n m).2 ≤ Nat.clog 2 (m.toNat.size + 2) + 1) := by
  unfold integerNthRootC integerNthRoot
  by_cases h1 : m < 0
  · rw [if_pos h1, if_pos h1]; exact ⟨rfl, fun _ => Nat.zero_le _, fun _ => Nat.zero_le _⟩
  rw [if_neg h1, if_neg h1]
  by_cases h2 : n < 1
  · rw [if_pos h2, if_pos h2]; exact ⟨rfl, fun _ => Nat.zero_le _, fun _ => Nat.zero_le _⟩
  rw [if_neg h2, if_neg h2]
  by_cases h3 : n = 1
  · rw [if_pos h3, if_pos h3]; exact ⟨rfl, fun _ => Nat.zero_le _, fun _ => Nat.zero_le _⟩
  rw [if_neg h3, if_neg h3]
  by_cases h4 : n = 2
  · rw [if_pos h4, if_pos h4]
    have := C163_integer_sqrt m
    exact ⟨this.1, fun h => absurd h4 h, fun _ => this.2.1⟩
  rw [if_neg h4, if_neg h4]
  by_cases h5 : m = 0 ∨ m = 1
  · rw [if_pos h5, if_pos h5]; exact ⟨rfl, fun _ => Nat.zero_le _, fun _ => Nat.zero_le _⟩
  rw [if_neg h5, if_neg h5]
  dsimp only
  by_cases h6 : n.toNat ≥ m.toNat.size
  · rw [if_pos h6, if_pos h6]; exact ⟨rfl, fun _ => Nat.zero_le _, fun _ => Nat.zero_le _⟩
  rw [if_neg h6, if_neg h6]
  refine ⟨by simp only [halleyLoopC_fst], fun _ => ?_, fun h => absurd h h4⟩
  obtain ⟨k, hk⟩ : ∃ k, n.toNat = k + 3 := ⟨n.toNat - 3, by omega⟩
  rw [hk] at h6 ⊢
  exact halley_total k m.toNat (by omega)

example : integerNthRootC 3 (10 ^ 60 + 7) = (.ok (10 ^ 20), 5) ∧
    2 * 3 + Nat.clog 3 ((10 ^ 60 + 7 : ℤ).toNat.size / 3 + 1) + 2 = 12 := by
  decide +kernel

end Rosemary.Props
