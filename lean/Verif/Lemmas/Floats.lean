import Verif.Model.Floats
import Mathlib.Data.Int.Log
import Mathlib.Analysis.SpecialFunctions.Exponential
import Mathlib.Analysis.Complex.ExponentialBounds
import Mathlib.Tactic.LinearCombination

/-! Lemmas about rounded roots. -/

namespace Rosemary.Floats

variable {rnd : ℝ → ℝ}

theorem isDouble_int (m : ℤ) (h : |m| ≤ 2 ^ 53) : IsDouble m := ⟨m, 0, h, by simp⟩

theorem isDouble_nat (m : ℕ) (h : m ≤ 2 ^ 53) : IsDouble m :=
  ⟨m, 0, by rw [abs_of_nonneg (by positivity)]; exact_mod_cast h, by simp⟩

theorem isDouble_half (m : ℤ) (h : |m| ≤ 2 ^ 53) : IsDouble ((m : ℝ) / 2) := ⟨m, -1, h, by
  rw [zpow_neg_one]; ring⟩

theorem _root_.Rosemary.Floats.IsRounding.exact (h : IsRounding rnd) (x : ℝ) (hx : IsDouble x) : rnd x = x :=
  le_antisymm (h.upper x x hx le_rfl) (h.lower x x hx le_rfl)

/-- A monotone function that fixes the numbers with a 53 bit significand is faithful. -/
theorem isRounding_of_monotone (hm : Monotone rnd) (he : ∀ x, IsDouble x → rnd x = x) : IsRounding rnd :=
  ⟨fun d x hd hx => by rw [← he d hd]; exact hm hx, fun d x hd hx => by rw [← he d hd]; exact hm hx⟩

theorem nat_le_rnd (h : IsRounding rnd) {m : ℕ} {x : ℝ} (hm : m ≤ 2 ^ 53) (hx : (m : ℝ) ≤ x) : (m : ℝ) ≤ rnd x :=
  h.lower _ _ (isDouble_nat m hm) hx

theorem rnd_nat (h : IsRounding rnd) (m : ℕ) (hm : m ≤ 2 ^ 53) : rnd m = m := h.exact _ (isDouble_nat m hm)

/-- Rounding down to the next number with a 53 bit significand is a rounding. -/
theorem roundDown : IsRounding (fun x => sSup {y | y ≤ x ∧ IsDouble y}) := by
  have hne : ∀ x : ℝ, {y | y ≤ x ∧ IsDouble y}.Nonempty := by
    intro x
    obtain ⟨n, hn⟩ := pow_unbounded_of_one_lt (-x) (one_lt_two (α := ℝ))
    refine ⟨-(2 : ℝ) ^ n, by linarith, -1, n, by norm_num, by simp⟩
  have hbdd : ∀ x : ℝ, BddAbove {y | y ≤ x ∧ IsDouble y} := fun x => ⟨x, fun y hy => hy.1⟩
  refine isRounding_of_monotone (fun a b hab => csSup_le_csSup (hbdd b) (hne a) (fun y hy => ⟨hy.1.trans hab, hy.2⟩)) ?_
  intro x hx
  exact le_antisymm (csSup_le (hne x) (fun y hy => hy.1)) (le_csSup (hbdd x) ⟨le_refl x, hx⟩)

/-- Every faithful rounding has a relative error of at most `2^-52`. -/
theorem relative_error (h : IsRounding rnd) {x : ℝ} (hx : 0 < x) :
    |rnd x - x| ≤ (2 : ℝ)⁻¹ ^ 52 * x := by
  set e := Int.log 2 x with he
  have h1 : (2 : ℝ) ^ e ≤ x := by exact_mod_cast Int.zpow_log_le_self (b := 2) one_lt_two hx
  have h2 : x < (2 : ℝ) ^ (e + 1) := by exact_mod_cast Int.lt_zpow_succ_log_self (b := 2) one_lt_two x
  have hs : (0 : ℝ) < 2 ^ (52 - e) := by positivity
  set k := ⌊x * 2 ^ (52 - e)⌋ with hk
  have k1 : (k : ℝ) ≤ x * 2 ^ (52 - e) := Int.floor_le _
  have k2 : x * 2 ^ (52 - e) < k + 1 := Int.lt_floor_add_one _
  have e1 : (2 : ℝ) ^ (52 - e) * 2 ^ (e - 52) = 1 := by
    rw [← zpow_add₀ two_ne_zero]; simp
  have e2 : (2 : ℝ) ^ (e + 1) * 2 ^ (52 - e) = 2 ^ 53 := by
    rw [← zpow_add₀ two_ne_zero, show e + 1 + (52 - e) = ((53 : ℕ) : ℤ) by push_cast; ring, zpow_natCast]
  have hu : x * 2 ^ (52 - e) < 2 ^ 53 := by
    calc x * 2 ^ (52 - e) < 2 ^ (e + 1) * 2 ^ (52 - e) := mul_lt_mul_of_pos_right h2 hs
      _ = 2 ^ 53 := e2
  have hk0 : 0 ≤ k := Int.floor_nonneg.2 (by positivity)
  have hk3 : k + 1 ≤ 2 ^ 53 := by
    have : (k : ℝ) < 2 ^ 53 := lt_of_le_of_lt k1 hu
    have : k < 2 ^ 53 := by exact_mod_cast this
    omega
  have hp : (0 : ℝ) < 2 ^ (e - 52) := by positivity
  have l1 : (k : ℝ) * 2 ^ (e - 52) ≤ rnd x := by
    refine h.lower _ _ ⟨k, e - 52, by rw [abs_of_nonneg hk0]; omega, rfl⟩ ?_
    calc (k : ℝ) * 2 ^ (e - 52) ≤ x * 2 ^ (52 - e) * 2 ^ (e - 52) := mul_le_mul_of_nonneg_right k1 hp.le
      _ = x := by rw [mul_assoc, e1, mul_one]
  have l2 : rnd x ≤ ((k + 1 : ℤ) : ℝ) * 2 ^ (e - 52) := by
    refine h.upper _ _ ⟨k + 1, e - 52, by rw [abs_of_nonneg (by omega)]; exact hk3, rfl⟩ ?_
    push_cast
    calc x = x * 2 ^ (52 - e) * 2 ^ (e - 52) := by rw [mul_assoc, e1, mul_one]
      _ ≤ (k + 1) * 2 ^ (e - 52) := mul_le_mul_of_nonneg_right k2.le hp.le
  have m1 : (k : ℝ) * 2 ^ (e - 52) ≤ x := by
    calc (k : ℝ) * 2 ^ (e - 52) ≤ x * 2 ^ (52 - e) * 2 ^ (e - 52) := mul_le_mul_of_nonneg_right k1 hp.le
      _ = x := by rw [mul_assoc, e1, mul_one]
  have m2 : x ≤ (k + 1) * 2 ^ (e - 52) := by
    calc x = x * 2 ^ (52 - e) * 2 ^ (e - 52) := by rw [mul_assoc, e1, mul_one]
      _ ≤ (k + 1) * 2 ^ (e - 52) := mul_le_mul_of_nonneg_right k2.le hp.le
  push_cast at l2
  have e3 : (2 : ℝ) ^ (e - 52) = (2 : ℝ)⁻¹ ^ 52 * 2 ^ e := by
    rw [sub_eq_add_neg, zpow_add₀ two_ne_zero, mul_comm]
    congr 1
    rw [show (-52 : ℤ) = -((52 : ℕ) : ℤ) by norm_num, zpow_neg, zpow_natCast, inv_pow]
  have m3 : (2 : ℝ) ^ (e - 52) ≤ (2 : ℝ)⁻¹ ^ 52 * x := by
    rw [e3]; exact mul_le_mul_of_nonneg_left h1 (by positivity)
  rw [abs_le]
  constructor <;> linarith

theorem rnd_le (h : IsRounding rnd) {x : ℝ} (hx : 0 < x) : rnd x ≤ (1 + (2 : ℝ)⁻¹ ^ 52) * x := by
  have := (abs_le.1 (relative_error h hx)).2; linarith

/-- The integer part of a rounded number that is not too close below an integer. -/
theorem floor_rnd (h : IsRounding rnd) {y : ℝ} {r : ℕ} (hr : r ≤ 2 ^ 53) (hy : 0 < y) (h1 : (r : ℝ) ≤ y)
    (h2 : (1 + (2 : ℝ)⁻¹ ^ 52) * y < r + 1) : ⌊rnd y⌋₊ = r := by
  have l1 : (r : ℝ) ≤ rnd y := nat_le_rnd h hr h1
  rw [Nat.floor_eq_iff (le_trans (Nat.cast_nonneg r) l1)]
  exact ⟨l1, lt_of_le_of_lt (rnd_le h hy) h2⟩

theorem rnd_half (h : IsRounding rnd) : rnd 0.5 = 1 / 2 := by
  have := h.exact _ (isDouble_half 1 (by norm_num))
  norm_num at this ⊢
  exact this

/-- The rounded square root of `a`, away from the next square by at least one half. -/
theorem floor_sqrt (h : IsRounding rnd) {a : ℝ} {r : ℕ} (ha : 0 < a) (hr : r + 1 ≤ 2 ^ 25)
    (h1 : (r : ℝ) ^ 2 ≤ a) (h2 : a + 1 / 2 ≤ (r + 1 : ℝ) ^ 2) : ⌊rnd (a ^ (rnd 0.5))⌋₊ = r := by
  rw [rnd_half h, ← Real.sqrt_eq_rpow]
  have hs : 0 < √a := Real.sqrt_pos.2 ha
  have hr' : ((r : ℝ) + 1) ≤ 2 ^ 25 := by exact_mod_cast hr
  refine floor_rnd h (by omega) hs (Real.le_sqrt_of_sq_le h1) ?_
  have hsq : √a ^ 2 = a := Real.sq_sqrt ha.le
  have hb : (0 : ℝ) ≤ (r : ℝ) + 1 := by positivity
  by_contra hc
  rw [not_lt] at hc
  have h3 : ((r : ℝ) + 1) ^ 2 ≤ ((1 + (2 : ℝ)⁻¹ ^ 52) * √a) ^ 2 := pow_le_pow_left₀ hb hc 2
  rw [mul_pow, hsq] at h3
  have h4 : ((r : ℝ) + 1) ^ 2 ≤ (2 ^ 25) ^ 2 := pow_le_pow_left₀ hb hr' 2
  norm_num at h3 h4
  nlinarith

/-- Powers with nearly equal exponents. -/
theorem pow_near {a c q η θ : ℝ} (h1 : 1 ≤ a) (h2 : a ≤ 2 ^ 44) (hc : |c - q| ≤ η) (hθ : 62 * η ≤ θ)
    (hθ1 : θ ≤ 1) : |a ^ c - a ^ q| ≤ θ * a ^ q := by
  have ha : 0 < a := by linarith
  have hq : 0 < a ^ q := Real.rpow_pos_of_pos ha q
  have hη : 0 ≤ η := le_trans (abs_nonneg _) hc
  have e1 : a ^ c = a ^ q * Real.exp ((c - q) * Real.log a) := by
    rw [mul_comm (c - q), ← Real.rpow_def_of_pos ha, ← Real.rpow_add ha]; congr 1; ring
  have hl0 : 0 ≤ Real.log a := Real.log_nonneg h1
  have hl : Real.log a ≤ 31 := by
    have : Real.log a ≤ Real.log (2 ^ 44) := Real.log_le_log ha h2
    rw [Real.log_pow] at this
    have h3 := Real.log_two_lt_d9
    push_cast at this
    linarith
  have ht : |(c - q) * Real.log a| ≤ θ / 2 := by
    rw [abs_mul, abs_of_nonneg hl0]
    calc |c - q| * Real.log a ≤ η * 31 := mul_le_mul hc hl hl0 hη
      _ ≤ θ / 2 := by linarith
  have h4 := Real.abs_exp_sub_one_le (x := (c - q) * Real.log a) (by linarith)
  rw [e1, show a ^ q * Real.exp ((c - q) * Real.log a) - a ^ q =
    a ^ q * (Real.exp ((c - q) * Real.log a) - 1) by ring, abs_mul, abs_of_pos hq, mul_comm]
  exact mul_le_mul_of_nonneg_right (by linarith) hq.le

/-- The integer part of a rounded approximation `y` of `z`, from bounds of the cube of `z`. -/
theorem floor_third (h : IsRounding rnd) {y z θ g : ℝ} {r : ℕ} (hr : r ≤ 2 ^ 53) (hz : 0 < z)
    (hθ : (2 : ℝ)⁻¹ ^ 49 ≤ θ) (hθ1 : θ ≤ (2 : ℝ)⁻¹ ^ 20) (hy : |y - z| ≤ θ * z)
    (h1 : (r : ℝ) ^ 3 + g ≤ z ^ 3) (h2 : z ^ 3 + g ≤ (r + 1 : ℝ) ^ 3) (hg : 4 * θ * z ^ 3 < g) :
    ⌊rnd y⌋₊ = r := by
  obtain ⟨y1, y2⟩ := abs_le.1 hy
  norm_num at hθ hθ1
  have hz3 : 0 < z ^ 3 := by positivity
  have hθ0 : 0 < θ := by linarith
  have hy0 : 0 < y := by nlinarith
  refine floor_rnd h hr hy0 ?_ ?_
  · by_contra hc
    rw [not_le] at hc
    have h3 : (1 - θ) * z < r := by linarith
    have h4 : ((1 - θ) * z) ^ 3 < (r : ℝ) ^ 3 := pow_lt_pow_left₀ h3 (by nlinarith) (by norm_num)
    rw [mul_pow] at h4
    have h5 : 1 - 3 * θ ≤ (1 - θ) ^ 3 := by nlinarith [mul_pos hθ0 hθ0]
    nlinarith
  · by_contra hc
    rw [not_lt] at hc
    have h3 : (r + 1 : ℝ) ≤ ((1 + θ / 8) * (1 + θ)) * z := by
      calc (r + 1 : ℝ) ≤ (1 + (2 : ℝ)⁻¹ ^ 52) * y := hc
        _ ≤ (1 + θ / 8) * ((1 + θ) * z) := by
          apply mul_le_mul _ (by linarith) hy0.le (by linarith)
          norm_num
          linarith
        _ = _ := by ring
    have h4 : (r + 1 : ℝ) ^ 3 ≤ (((1 + θ / 8) * (1 + θ)) * z) ^ 3 := pow_le_pow_left₀ (by positivity) h3 3
    rw [mul_pow] at h4
    have h6 : (1 + θ / 8) * (1 + θ) ≤ 1 + 5 / 4 * θ := by nlinarith
    have h7 : ((1 + θ / 8) * (1 + θ)) ^ 3 ≤ (1 + 5 / 4 * θ) ^ 3 := pow_le_pow_left₀ (by positivity) h6 3
    have h5 : (1 + 5 / 4 * θ) ^ 3 ≤ 1 + 4 * θ := by nlinarith [mul_pos hθ0 hθ0]
    nlinarith

theorem rnd_third (h : IsRounding rnd) : |rnd (1.0 / 3.0) - 1 / 3| ≤ (2 : ℝ)⁻¹ ^ 53 := by
  have := relative_error h (x := 1 / 3) (by norm_num)
  norm_num at this ⊢
  linarith

theorem rnd_two_thirds (h : IsRounding rnd) : |rnd (2.0 / 3.0) - 2 / 3| ≤ (2 : ℝ)⁻¹ ^ 52 := by
  have := relative_error h (x := 2 / 3) (by norm_num)
  norm_num at this ⊢
  linarith

theorem rnd_near_third (h : IsRounding rnd) :
    rnd 0.33333333333333 < 1 / 3 - (2 : ℝ)⁻¹ ^ 49 ∧ |rnd 0.33333333333333 - 1 / 3| ≤ (2 : ℝ)⁻¹ ^ 48 := by
  obtain ⟨h1, h2⟩ := abs_le.1 (relative_error h (x := 0.33333333333333) (by norm_num))
  norm_num at h1 h2 ⊢
  refine ⟨by linarith, abs_le.2 ⟨by linarith, by linarith⟩⟩

end Rosemary.Floats
