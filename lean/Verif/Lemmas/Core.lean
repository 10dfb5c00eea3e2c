import Verif.Model.Core
import Mathlib.Data.Int.GCD
import Mathlib.Algebra.GCDMonoid.Nat
import Mathlib.Data.Int.ModEq
import Mathlib.Data.Nat.Log
import Mathlib.NumberTheory.LegendreSymbol.JacobiSymbol
import Mathlib.Tactic.LinearCombination
import Mathlib.Tactic.IntervalCases
import Mathlib.Tactic.Positivity

/-!
# Helper lemmas about the model of `core.py`
-/

namespace Rosemary.Core

/-! ## gcd -/

theorem gcdLoop_eq (x y : Nat) : gcdLoop x y = Nat.gcd x y := by
  fun_induction gcdLoop x y with
  | case1 x => simp
  | case2 x y h ih => rw [ih, Nat.gcd_comm x y, Nat.gcd_rec y x, Nat.gcd_comm]

theorem gcd_eq (x y : Int) : gcd x y = (Int.gcd x y : Int) := by
  unfold gcd
  simp only [gcdLoop_eq]
  split
  · rw [Nat.gcd_comm]; rfl
  · rfl

theorem foldl_gcd_dvd (rest : List Int) (g : Int) :
    rest.foldl gcd g ∣ g ∧ ∀ a ∈ rest, rest.foldl gcd g ∣ a := by
  induction rest generalizing g with
  | nil => simp
  | cons b rest ih =>
    simp only [List.foldl_cons]
    obtain ⟨h1, h2⟩ := ih (gcd g b)
    rw [gcd_eq] at h1 h2 ⊢
    refine ⟨h1.trans (Int.gcd_dvd_left ..), ?_⟩
    intro a ha
    rcases List.mem_cons.1 ha with rfl | ha
    · exact h1.trans (Int.gcd_dvd_right ..)
    · exact h2 a ha

theorem dvd_foldl_gcd (rest : List Int) (g c : Int) (hg : c ∣ g) (h : ∀ a ∈ rest, c ∣ a) :
    c ∣ rest.foldl gcd g := by
  induction rest generalizing g with
  | nil => simpa
  | cons b rest ih =>
    simp only [List.foldl_cons]
    apply ih
    · rw [gcd_eq]; exact Int.dvd_coe_gcd hg (h b (by simp))
    · intro a ha; exact h a (by simp [ha])

theorem foldl_gcd_nonneg (rest : List Int) (g : Int) (hg : 0 ≤ g) : 0 ≤ rest.foldl gcd g := by
  induction rest generalizing g with
  | nil => simpa
  | cons b rest ih => exact ih _ (by rw [gcd_eq]; positivity)

/-! ## ext_gcd -/

theorem extGcdLoop_spec (X Y : Int) (a b : Int) (d : Nat) (u v : Int) (w : Nat)
    (h1 : a * X + b * Y = d) (h2 : u * X + v * Y = w) :
    (extGcdLoop a b d u v w).1 * X + (extGcdLoop a b d u v w).2.1 * Y
        = (extGcdLoop a b d u v w).2.2 ∧
      (extGcdLoop a b d u v w).2.2 = Nat.gcd d w := by
  fun_induction extGcdLoop a b d u v w with
  | case1 a b d u v => simp [h1]
  | case2 a b d u v w h q ih =>
    have hle : q * w ≤ d := Nat.div_mul_le_self d w
    have hmod : d - q * w = d % w := by
      have := Nat.div_add_mod d w
      have : d / w * w = w * (d / w) := Nat.mul_comm _ _
      simp only [q]; omega
    have h3 : (a - q * u) * X + (b - q * v) * Y = ((d - q * w : Nat) : Int) := by
      push_cast [Nat.cast_sub hle]
      linear_combination h1 - q * h2
    obtain ⟨i1, i2⟩ := ih h2 h3
    refine ⟨i1, ?_⟩
    rw [i2, hmod, Nat.gcd_comm d w, Nat.gcd_rec w d, Nat.gcd_comm]

theorem pySign_mul_natAbs (x : Int) : pySign x * x = x.natAbs := by
  unfold pySign; split <;> omega

theorem extGcd_spec (x y : Int) :
    (extGcd x y).1 * x + (extGcd x y).2.1 * y = (extGcd x y).2.2 ∧
      (extGcd x y).2.2 = (Int.gcd x y : Int) := by
  unfold extGcd
  by_cases hxy : x < y
  · simp only [hxy, decide_true, if_true]
    obtain ⟨h1, h2⟩ := extGcdLoop_spec y.natAbs x.natAbs 1 0 y.natAbs 0 1 x.natAbs
      (by simp) (by simp)
    refine ⟨?_, by rw [h2, Nat.gcd_comm]; rfl⟩
    have e1 := pySign_mul_natAbs x
    have e2 := pySign_mul_natAbs y
    linear_combination h1 + (extGcdLoop 1 0 y.natAbs 0 1 x.natAbs).2.1 * e1
      + (extGcdLoop 1 0 y.natAbs 0 1 x.natAbs).1 * e2
  · simp only [hxy, decide_false, Bool.false_eq_true, if_false]
    obtain ⟨h1, h2⟩ := extGcdLoop_spec x.natAbs y.natAbs 1 0 x.natAbs 0 1 y.natAbs
      (by simp) (by simp)
    refine ⟨?_, by rw [h2]; rfl⟩
    have e1 := pySign_mul_natAbs x
    have e2 := pySign_mul_natAbs y
    linear_combination h1 + (extGcdLoop 1 0 x.natAbs 0 1 y.natAbs).1 * e1
      + (extGcdLoop 1 0 x.natAbs 0 1 y.natAbs).2.1 * e2

/-! ## lcm -/

theorem lcm_eq (x y : Int) : lcm x y = (Int.lcm x y : Int) := by
  unfold lcm
  split
  · rename_i h
    rcases mul_eq_zero.1 h with rfl | rfl <;> simp
  · simp only [gcd_eq]
    rw [Int.fdiv_eq_ediv_of_nonneg _ (by positivity)]
    simp only [Int.lcm_def, Int.gcd_def, Int.natAbs_natCast, Nat.lcm]
    push_cast
    rfl

theorem foldl_lcm_dvd (rest : List Int) (g : Int) :
    g ∣ rest.foldl lcm g ∧ ∀ a ∈ rest, a ∣ rest.foldl lcm g := by
  induction rest generalizing g with
  | nil => simp
  | cons b rest ih =>
    simp only [List.foldl_cons]
    obtain ⟨h1, h2⟩ := ih (lcm g b)
    rw [lcm_eq] at h1 h2 ⊢
    refine ⟨(Int.dvd_lcm_left ..).trans h1, ?_⟩
    intro a ha
    rcases List.mem_cons.1 ha with rfl | ha
    · exact (Int.dvd_lcm_right ..).trans h1
    · exact h2 a ha

theorem dvd_foldl_lcm (rest : List Int) (g c : Int) (hg : g ∣ c) (h : ∀ a ∈ rest, a ∣ c) :
    rest.foldl lcm g ∣ c := by
  induction rest generalizing g with
  | nil => simpa
  | cons b rest ih =>
    simp only [List.foldl_cons]
    apply ih
    · rw [lcm_eq]; exact Int.coe_lcm_dvd hg (h b (by simp))
    · intro a ha; exact h a (by simp [ha])

theorem foldl_lcm_nonneg (rest : List Int) (g : Int) (hg : 0 ≤ g) : 0 ≤ rest.foldl lcm g := by
  induction rest generalizing g with
  | nil => simpa
  | cons b rest ih => exact ih _ (by rw [lcm_eq]; positivity)

/-! ## power_mod -/

theorem powerModLoop_modEq (m a t k : Nat) : powerModLoop m a t k ≡ t * a ^ k [MOD m] := by
  fun_induction powerModLoop m a t k with
  | case1 a t => simp; rfl
  | case2 a t k h ih =>
    simp only [dite_eq_ite] at ih
    refine ih.trans ?_
    have h1 : (a * a % m) ^ (k / 2) ≡ (a * a) ^ (k / 2) [MOD m] :=
      (Nat.mod_modEq _ _).pow _
    have hk := Nat.div_add_mod k 2
    rcases Nat.mod_two_eq_zero_or_one k with h0 | h0
    · rw [if_neg (by omega)]
      have : a ^ k = (a * a) ^ (k / 2) := by
        rw [← pow_two, ← pow_mul]; congr 1; omega
      rw [this]
      exact Nat.ModEq.mul_left _ h1
    · rw [if_pos h0]
      have : t * a ^ k = (a * t) * (a * a) ^ (k / 2) := by
        rw [← pow_two, ← pow_mul]
        have : a ^ k = a ^ (2 * (k / 2)) * a := by rw [← pow_succ]; congr 1; omega
        rw [this]; ring
      rw [this]
      exact Nat.ModEq.mul (Nat.mod_modEq _ _) h1

theorem powerModLoop_lt (m a t k : Nat) (hm : 1 < m) (ht : t < m) : powerModLoop m a t k < m := by
  fun_induction powerModLoop m a t k with
  | case1 a t => exact ht
  | case2 a t k h ih =>
    simp only [dite_eq_ite] at ih
    apply ih
    split
    · exact Nat.mod_lt _ (by omega)
    · exact ht

/-! ## bit_count -/

theorem land_pred_odd (k : Nat) : (2 * k + 1) &&& (2 * k + 1 - 1) = 2 * k := by
  apply Nat.eq_of_testBit_eq
  intro i
  rw [Nat.testBit_and]
  cases i with
  | zero => simp
  | succ i => 
    simp only [Nat.testBit_succ]
    have : (2 * k + 1) / 2 = k := by omega
    have : (2 * k + 1 - 1) / 2 = k := by omega
    have : (2 * k) / 2 = k := by omega
    simp [*]

theorem land_pred_even (k : Nat) (hk : 0 < k) :
    (2 * k) &&& (2 * k - 1) = 2 * (k &&& (k - 1)) := by
  apply Nat.eq_of_testBit_eq
  intro i
  rw [Nat.testBit_and]
  cases i with
  | zero => simp
  | succ i =>
    simp only [Nat.testBit_succ]
    have h1 : (2 * k) / 2 = k := by omega
    have h2 : (2 * k - 1) / 2 = k - 1 := by omega
    have h3 : (2 * (k &&& (k - 1))) / 2 = (k &&& (k - 1)) := by omega
    simp [h1, h2, h3, Nat.testBit_and]

theorem count_bits_land_pred (n : Nat) (h : n ≠ 0) :
    (Nat.digits 2 n).count 1 = (Nat.digits 2 (n &&& (n - 1))).count 1 + 1 := by
  induction n using Nat.strong_induction_on with
  | _ n ih =>
    rcases Nat.even_or_odd' n with ⟨k, rfl | rfl⟩
    · have hk : 0 < k := by omega
      rw [land_pred_even k hk]
      have e : ∀ j, (Nat.digits 2 (2 * j)).count 1 = (Nat.digits 2 j).count 1 := by
        intro j
        rcases Nat.eq_zero_or_pos j with rfl | hj
        · simp
        · rw [Nat.digits_def' (by norm_num) (by omega)]
          simp
      rw [e, e, ih k (by omega) (by omega)]
    · rw [land_pred_odd k]
      rw [Nat.digits_def' (by norm_num) (by omega)]
      have h1 : (2 * k + 1) % 2 = 1 := by omega
      have h2 : (2 * k + 1) / 2 = k := by omega
      rw [h1, h2]
      rcases Nat.eq_zero_or_pos k with rfl | hj
      · simp
      · rw [Nat.digits_def' (by norm_num) (by omega : 0 < 2 * k)]
        simp

theorem bitCountLoop_eq (n c : Nat) : bitCountLoop n c = (Nat.digits 2 n).count 1 + c := by
  fun_induction bitCountLoop n c with
  | case1 c => simp
  | case2 n c h ih => rw [ih, count_bits_land_pred n h]; omega

/-! ## integer_log -/

theorem logUp_spec (b n p lo hi : Nat) (hp : 2 ≤ p) (hb : p = b ^ hi)
    (hlo : p ≤ n ∨ (b ^ lo ≤ n ∧ lo < hi)) (hhi : 0 < hi) :
    b ^ (logUp n p lo hi hp).1 ≤ n ∧ n < b ^ (logUp n p lo hi hp).2 ∧
      (logUp n p lo hi hp).1 < (logUp n p lo hi hp).2 := by
  fun_induction logUp n p lo hi hp with
  | case1 p lo hi hp h ih =>
    apply ih
    · rw [hb, ← pow_add]; congr 1; omega
    · right; exact ⟨by rw [← hb]; exact h, by omega⟩
    · omega
  | case2 p lo hi hp h =>
    rcases hlo with h' | ⟨h', h''⟩
    · exact absurd h' h
    · exact ⟨h', by rw [← hb]; omega, h''⟩

theorem logBisect_spec (b n lo hi : Nat) (hb : 2 ≤ b) (h1 : b ^ lo ≤ n) (h2 : n < b ^ hi)
    (h3 : lo < hi) :
    b ^ (logBisect b n lo hi) ≤ n ∧ n < b ^ (logBisect b n lo hi + 1) := by
  fun_induction logBisect b n lo hi with
  | case1 lo hi h mid power hgt ih => exact ih h1 hgt (by omega)
  | case2 lo hi h mid power hgt hlt ih => exact ih (le_of_lt hlt) h2 (by omega)
  | case3 lo hi h mid power hgt hlt =>
    have : b ^ mid = n := by simp only [power] at *; omega
    refine ⟨this.le, ?_⟩
    rw [← this]
    exact Nat.pow_lt_pow_right (by omega) (by omega)
  | case4 lo hi h =>
    have : hi = lo + 1 := by omega
    subst this
    exact ⟨h1, h2⟩

/-! ## Newton square root -/

theorem newton_step_ge (n x s : Nat) (hx : 0 < x) (hs : s * s ≤ n) : s ≤ (x + n / x) / 2 := by
  have h1 : 2 * s ≤ x + n / x := by
    rcases Nat.lt_or_ge (2 * s) x with hx2 | hx2
    · exact le_trans hx2.le (Nat.le_add_right _ _)
    by_contra hlt
    push Not at hlt
    -- n / x < 2s - x, so n < (2s - x) * x ≤ s^2
    have h2 : n / x < 2 * s - x := by omega
    have h3 : n < (2 * s - x) * x := (Nat.div_lt_iff_lt_mul hx).1 h2
    have h4 : x ≤ 2 * s := by omega
    obtain ⟨d, hd⟩ := Nat.exists_eq_add_of_le h4
    have h5 : 2 * s - x = d := by omega
    rw [h5] at h3
    nlinarith [sq_nonneg ((d : ℤ) - x), h3, hs, hd,
      (by exact_mod_cast hd : (2 * s : ℤ) = x + d), sq_nonneg ((s : ℤ) - x)]
  omega

theorem newtonLoop_spec (n x : Nat) (hx : 0 < x) (hge : n.sqrt ≤ x) (hn : 0 < n) :
    newtonLoop n x = n.sqrt := by
  fun_induction newtonLoop n x with
  | case1 x y h =>
    -- y ≥ x, so n / x ≥ x, so x^2 ≤ n
    have h1 : x ≤ n / x := by simp only [y] at h; omega
    have h2 : x * x ≤ n := (Nat.le_div_iff_mul_le hx).1 h1
    have h3 : x ≤ n.sqrt := Nat.le_sqrt.2 h2
    omega
  | case2 x y h ih =>
    have hs : n.sqrt ≤ y := newton_step_ge n x n.sqrt hx (Nat.sqrt_le n)
    have : 0 < n.sqrt := Nat.sqrt_pos.2 hn
    exact ih (by omega) hs

theorem newton_start (n : Nat) : n.sqrt ≤ 2 ^ (n.size / 2 + 1) := by
  have h1 : n < 2 ^ n.size := Nat.lt_size_self n
  have h2 : n < 2 ^ (n.size / 2 + 1) * 2 ^ (n.size / 2 + 1) := by
    rw [← pow_add]
    exact lt_of_lt_of_le h1 (Nat.pow_le_pow_right (by norm_num) (by omega))
  exact (Nat.sqrt_lt.2 h2).le

/-! ## Halley root -/

theorem bernoulli_poly (n : Nat) (x s : ℤ) (hs : 0 ≤ s) (hx : s ≤ x) :
    0 ≤ x ^ (n + 1) - (n + 1) * s ^ n * x + n * s ^ (n + 1) := by
  induction n with
  | zero => simp
  | succ n ih =>
    have h0 : 0 ≤ x := hs.trans hx
    have h1 : x ^ (n + 1 + 1) - ((n + 1 : ℕ) + 1) * s ^ (n + 1) * x + (n + 1 : ℕ) * s ^ (n + 1 + 1)
        = x * (x ^ (n + 1) - (n + 1) * s ^ n * x + n * s ^ (n + 1))
          + (n + 1) * s ^ n * (x - s) ^ 2 := by
      push_cast; ring
    rw [h1]
    have : 0 ≤ s ^ n := pow_nonneg hs n
    positivity

theorem halley_poly (n : Nat) (x s : ℤ) (hs : 0 ≤ s) (hx : s ≤ x) :
    0 ≤ n * x ^ (n + 2) - (n + 2) * s * x ^ (n + 1) + (n + 2) * s ^ (n + 1) * x
      - n * s ^ (n + 2) := by
  induction n with
  | zero => simp
  | succ n ih =>
    have h0 : 0 ≤ x := hs.trans hx
    have hb := bernoulli_poly (n + 1) x s hs hx
    have e : ((n + 1 : ℕ) : ℤ) * x ^ (n + 1 + 2) - ((n + 1 : ℕ) + 2) * s * x ^ (n + 1 + 1)
        + ((n + 1 : ℕ) + 2) * s ^ (n + 1 + 1) * x - (n + 1 : ℕ) * s ^ (n + 1 + 2)
        = x * (n * x ^ (n + 2) - (n + 2) * s * x ^ (n + 1) + (n + 2) * s ^ (n + 1) * x
            - n * s ^ (n + 2))
          + (x - s) * (x ^ (n + 1 + 1) - ((n + 1 : ℕ) + 1) * s ^ (n + 1) * x
            + (n + 1 : ℕ) * s ^ (n + 1 + 1)) := by
      push_cast; ring
    rw [e]
    have : 0 ≤ x - s := by linarith
    positivity

/-- One Halley step from above never falls below an `s` with `s ^ n ≤ m`. -/
theorem halley_step_ge (n m x s : Nat) (hn : 2 ≤ n) (hm : 0 < m) (hs : s ^ n ≤ m) (hx : s ≤ x) :
    s ≤ x * ((n - 1) * x ^ n + (n + 1) * m) /
      ((n - 1) * x ^ n + (n + 1) * m + 2 * x ^ n - 2 * m) := by
  obtain ⟨k, rfl⟩ : ∃ k, n = k + 1 := ⟨n - 1, by omega⟩
  have hden : (k + 1 - 1) * x ^ (k + 1) + (k + 1 + 1) * m + 2 * x ^ (k + 1) - 2 * m
      = (k + 2) * x ^ (k + 1) + k * m := by
    have : (k + 1 + 1) * m = k * m + 2 * m := by ring
    have h2 : (k + 2) * x ^ (k + 1) = k * x ^ (k + 1) + 2 * x ^ (k + 1) := by ring
    rw [this, h2, Nat.add_sub_cancel]
    omega
  rw [hden]
  have hm' : 0 < (k + 2) * x ^ (k + 1) + k * m := by
    have : 0 < k * m := Nat.mul_pos (by omega) hm
    omega
  rw [Nat.le_div_iff_mul_le hm']
  have hp := halley_poly k x s (by positivity) (by exact_mod_cast hx)
  have hs' : (s : ℤ) ^ (k + 1) ≤ m := by exact_mod_cast hs
  have hx' : (s : ℤ) ≤ x := by exact_mod_cast hx
  zify
  push_cast [Nat.add_sub_cancel]
  have hcoef : (0 : ℤ) ≤ (k + 2) * x - k * s := by
    have : (k : ℤ) * s ≤ k * x := mul_le_mul_of_nonneg_left hx' (by positivity)
    nlinarith [Int.natCast_nonneg x]
  have hmul := mul_le_mul_of_nonneg_left hs' hcoef
  have e1 : (x : ℤ) ^ (k + 2) = x * x ^ (k + 1) := by ring
  have e2 : (s : ℤ) ^ (k + 2) = s * s ^ (k + 1) := by ring
  rw [e1, e2] at hp
  nlinarith [hmul, hp]


theorem halleyLoop_spec (n m x r : Nat) (hn : 2 ≤ n) (hm : 0 < m) (hr : r ^ n ≤ m)
    (hr' : m < (r + 1) ^ n) (hx : r ≤ x) : halleyLoop n m x = r := by
  fun_induction halleyLoop n m x with
  | case1 x xn num den y h =>
    -- y ≥ x forces x ^ n ≤ m
    by_contra hne
    have hlt : r + 1 ≤ x := by omega
    have h1 : m < x ^ n := lt_of_lt_of_le hr' (Nat.pow_le_pow_left hlt n)
    have h2 : x * num < x * den := by
      apply Nat.mul_lt_mul_of_pos_left _ (by omega)
      simp only [den, num, xn]; omega
    have h3 : 0 < den := by
      by_contra h0
      have : den = 0 := by omega
      rw [this] at h2; simp at h2
    have h4 : y < x := (Nat.div_lt_iff_lt_mul h3).2 h2
    omega
  | case2 x xn num den y h ih =>
    apply ih
    exact halley_step_ge n m x r hn hm hr hx

theorem halley_start (n m : Nat) (hn : 0 < n) : m < (2 ^ (m.size / n + 1)) ^ n := by
  rw [← pow_mul]
  refine lt_of_lt_of_le (Nat.lt_size_self m) (Nat.pow_le_pow_right (by norm_num) ?_)
  have h1 := Nat.div_add_mod m.size n
  have h2 := Nat.mod_lt m.size hn
  nlinarith

/-! ## The floating point square root -/

theorem size_le_of_lt {n k : Nat} (h : n < 2 ^ k) : n.size ≤ k := Nat.size_le.2 h

theorem pow_size_pred_le {n : Nat} (h : 0 < n) : 2 ^ (n.size - 1) ≤ n := by
  have : n.size - 1 < n.size := by
    have := Nat.size_pos.2 h; omega
  exact Nat.lt_size.1 this

theorem roundToDouble_small {n : Nat} (h : n < 2 ^ 53) : roundToDouble n = n := by
  have h1 := size_le_of_lt h
  have : n.size - 53 = 0 := by omega
  simp [roundToDouble, this, Nat.mod_one]

theorem roundSqrt_cases (N : Nat) : roundSqrt N = N.sqrt ∨ roundSqrt N = N.sqrt + 1 := by
  unfold roundSqrt; dsimp only; split <;> simp

/-- The nearest integer to `sqrt N` is at least `v` iff `sqrt N ≥ v - 1/2`. -/
theorem le_roundSqrt_iff (N v : Nat) (hv : 0 < v) : v ≤ roundSqrt N ↔ v * v - v < N := by
  obtain ⟨w, rfl⟩ : ∃ w, v = w + 1 := ⟨v - 1, by omega⟩
  have e : (w + 1) * (w + 1) - (w + 1) = w * w + w := by
    have : (w + 1) * (w + 1) = w * w + w + (w + 1) := by ring
    omega
  rw [e]
  have hs1 := Nat.sqrt_le N
  have hs2 := Nat.sqrt_lt' (m := N) (n := N.sqrt + 1) |>.1 (Nat.lt_succ_self _)
  unfold roundSqrt
  dsimp only
  constructor
  · intro h
    split at h
    · rename_i hgt
      have : w * w ≤ N.sqrt * N.sqrt := Nat.mul_le_mul (by omega) (by omega)
      omega
    · have h1 : w + 1 ≤ N.sqrt := h
      have : (w + 1) * (w + 1) ≤ N.sqrt * N.sqrt := Nat.mul_le_mul h1 h1
      nlinarith
  · intro h
    rcases Nat.lt_trichotomy w N.sqrt with h1 | h1 | h1
    · split <;> omega
    · rw [if_pos]
      · omega
      · rw [h1] at h; omega
    · exfalso
      have : (N.sqrt + 1) ^ 2 ≤ w ^ 2 := Nat.pow_le_pow_left h1 2
      nlinarith

theorem le_floatDiv_iff (x k v : Nat) (hv : 0 < v) :
    v ≤ roundSqrt (x * 4 ^ k) / 2 ^ k ↔ v * v * 2 ^ k < x * 2 ^ k + v := by
  have h2 : 0 < 2 ^ k := by positivity
  rw [Nat.le_div_iff_mul_le h2, le_roundSqrt_iff _ _ (by positivity)]
  have e4 : (4 : Nat) ^ k = 2 ^ k * 2 ^ k := by rw [← mul_pow]; norm_num
  rw [e4]
  have hle : v * 2 ^ k ≤ v * 2 ^ k * (v * 2 ^ k) := Nat.le_mul_of_pos_left _ (by positivity)
  rw [Nat.sub_lt_iff_lt_add hle]
  constructor
  · intro h
    by_contra hc
    push Not at hc
    have := Nat.mul_le_mul_right (2 ^ k) hc
    nlinarith
  · intro h
    have := Nat.mul_lt_mul_of_pos_right h h2
    nlinarith


theorem roundToDouble_bounds (n : Nat) :
    2 * roundToDouble n ≤ 2 * n + 2 ^ (n.size - 53) ∧
      2 * n ≤ 2 * roundToDouble n + 2 ^ (n.size - 53) ∧
      n / 2 ^ (n.size - 53) * 2 ^ (n.size - 53) ≤ roundToDouble n := by
  unfold roundToDouble
  dsimp only
  generalize hE : 2 ^ (n.size - 53) = E
  have hEpos : 0 < E := by rw [← hE]; positivity
  have h1 := Nat.div_add_mod n E
  have h2 := Nat.mod_lt n hEpos
  have h3 : E * (n / E) = n / E * E := Nat.mul_comm _ _
  have h4 : (n / E + 1) * E = n / E * E + E := by ring
  split
  · omega
  · split
    · rw [h4]; omega
    · split
      · omega
      · rw [h4]; omega

theorem floatSqrtInt_exact (n : Nat) (h : n < 4503599761588224) : floatSqrtInt n = n.sqrt := by
  unfold floatSqrtInt
  have hx : roundToDouble n = n := roundToDouble_small (by omega)
  rw [hx]
  dsimp only
  generalize hk : 53 - n.sqrt.size = k
  have hs1 := Nat.sqrt_le n
  have hs2 := Nat.lt_succ_sqrt n
  simp only [Nat.succ_eq_add_one] at hs2
  apply le_antisymm
  · rw [← Nat.lt_succ_iff, ← not_le, Nat.succ_eq_add_one, le_floatDiv_iff _ _ _ (by omega), not_lt]
    rcases Nat.lt_or_ge n.sqrt (2 ^ 26) with hlt | hge
    · have h1 := size_le_of_lt hlt
      have h2 : 2 ^ 27 ≤ 2 ^ k := Nat.pow_le_pow_right (by norm_num) (by omega)
      have h3 : n + 1 ≤ (n.sqrt + 1) * (n.sqrt + 1) := hs2
      have h4 := Nat.mul_le_mul_right (2 ^ k) h3
      have h5 : (n + 1) * 2 ^ k = n * 2 ^ k + 2 ^ k := by ring
      have : (2 : Nat) ^ 26 ≤ 2 ^ 27 := by norm_num
      omega
    · have h1 : n.sqrt < 2 ^ 26 + 1 := Nat.sqrt_lt.2 (by norm_num; omega)
      have h2 : n.sqrt = 2 ^ 26 := by omega
      have h3 : k = 26 := by
        rw [← hk, h2, Nat.size_pow]
      subst h3
      rw [h2]
      norm_num
      omega
  · rcases Nat.eq_zero_or_pos n.sqrt with h0 | h0
    · rw [h0]; exact Nat.zero_le _
    · rw [le_floatDiv_iff _ _ _ h0]
      have h4 := Nat.mul_le_mul_right (2 ^ k) hs1
      omega

theorem floatSqrtInt_bounds (n : Nat) (h : n ≤ 2 ^ 60) :
    n.sqrt ≤ floatSqrtInt n ∧ floatSqrtInt n ≤ n.sqrt + 1 ∧
      (n.sqrt * n.sqrt = n → floatSqrtInt n = n.sqrt) := by
  rcases Nat.lt_or_ge n (2 ^ 52) with hlt | hge
  · rw [floatSqrtInt_exact n (by norm_num at hlt; omega)]
    simp
  obtain ⟨b1, b2, b3⟩ := roundToDouble_bounds n
  have hsize : n.size ≤ 61 := size_le_of_lt (by norm_num at h ⊢; omega)
  have hE : 2 ^ (n.size - 53) ≤ 2 ^ 8 := Nat.pow_le_pow_right (by norm_num) (by omega)
  norm_num at hE
  generalize hs : n.sqrt = s at *
  have hs1 : s * s ≤ n := hs ▸ Nat.sqrt_le n
  have hs2 : n < (s + 1) * (s + 1) := hs ▸ Nat.lt_succ_sqrt n
  have hsge : 2 ^ 26 ≤ s := by rw [← hs]; exact Nat.le_sqrt.2 (by norm_num at hge ⊢; omega)
  have hsle : s ≤ 2 ^ 30 := by
    rw [← hs]
    have : n.sqrt < 2 ^ 30 + 1 := Nat.sqrt_lt.2 (by norm_num at h ⊢; omega)
    omega
  unfold floatSqrtInt
  dsimp only
  generalize hx : roundToDouble n = x at *
  generalize hk : 53 - x.sqrt.size = k
  have hxle : x ≤ n + 128 := by omega
  have hP : 0 < 2 ^ k := by positivity
  -- upper bounds: `v` is not reached if it is well above
  have upper : ∀ v, 0 < v → x + v ≤ v * v → roundSqrt (x * 4 ^ k) / 2 ^ k < v := by
    intro v hv hle
    rw [← not_le, le_floatDiv_iff _ _ _ hv, not_lt]
    have h4 := Nat.mul_le_mul_right (2 ^ k) hle
    have h5 : (x + v) * 2 ^ k = x * 2 ^ k + v * 2 ^ k := by ring
    have h6 : v ≤ v * 2 ^ k := Nat.le_mul_of_pos_right _ hP
    omega
  have lower : s ≤ roundSqrt (x * 4 ^ k) / 2 ^ k := by
    rw [le_floatDiv_iff _ _ _ (by omega)]
    rcases Nat.lt_or_ge x (s * s) with hxs | hxs
    · -- rounding to double went below `s ^ 2`
      have hxsq : x.sqrt = s - 1 := by
        have h1 : x.sqrt < s := Nat.sqrt_lt.2 hxs
        have h2 : s - 1 ≤ x.sqrt := by
          apply Nat.le_sqrt.2
          obtain ⟨u, rfl⟩ : ∃ u, s = u + 1 := ⟨s - 1, by omega⟩
          simp only [Nat.add_sub_cancel]
          nlinarith
        omega
      rw [hxsq] at hk
      generalize hb : (s - 1).size = b at *
      have hsb : s - 1 < 2 ^ b := hb ▸ Nat.lt_size_self _
      have hsb' : 2 ^ (b - 1) ≤ s - 1 := hb ▸ pow_size_pred_le (by omega)
      have hb27 : b ≤ 30 := hb ▸ size_le_of_lt (by omega)
      have hb26 : 26 ≤ b := by
        by_contra hc
        have : 2 ^ b ≤ 2 ^ 25 := Nat.pow_le_pow_right (by norm_num) (by omega)
        norm_num at this hsge
        omega
      rcases Nat.lt_or_ge s (2 ^ b) with hsb2 | hsb2
      · have hn : n < 2 ^ (2 * b) := by
          have : (s + 1) * (s + 1) ≤ 2 ^ b * 2 ^ b := Nat.mul_le_mul hsb2 hsb2
          rw [← pow_add, ← two_mul] at this
          omega
        have hns := size_le_of_lt hn
        have hE2 : 2 ^ (n.size - 53) * 2 ^ k ≤ 2 ^ b := by
          rw [← pow_add]
          rcases Nat.lt_or_ge n.size 53 with h53 | h53
          · apply Nat.pow_le_pow_right (by norm_num)
            exfalso
            have : n < 2 ^ 52 := by
              have := Nat.lt_size_self n
              exact lt_of_lt_of_le this (Nat.pow_le_pow_right (by norm_num) (by omega))
            omega
          · exact Nat.pow_le_pow_right (by norm_num) (by omega)
        have hpb : 2 ^ b = 2 * 2 ^ (b - 1) := by
          rw [← pow_succ']; congr 1; omega
        have h7 : 2 * (s * s) ≤ 2 * x + 2 ^ (n.size - 53) := by omega
        have h8 := Nat.mul_le_mul_right (2 ^ k) h7
        have h9 : (2 * x + 2 ^ (n.size - 53)) * 2 ^ k
          = 2 * (x * 2 ^ k) + 2 ^ (n.size - 53) * 2 ^ k := by ring
        have h10 : 2 * (s * s) * 2 ^ k = 2 * (s * s * 2 ^ k) := by ring
        omega
      · exfalso
        have hseq : s = 2 ^ b := by omega
        have hn : n < 2 ^ (2 * b + 2) := by
          have h1 : (s + 1) * (s + 1) ≤ (2 ^ (b + 1)) * (2 ^ (b + 1)) := by
            have : s + 1 ≤ 2 ^ (b + 1) := by rw [pow_succ, ← hseq]; omega
            exact Nat.mul_le_mul this this
          rw [← pow_add] at h1
          have : b + 1 + (b + 1) = 2 * b + 2 := by ring
          rw [this] at h1
          omega
        have hns := size_le_of_lt hn
        have h1 : 2 ^ (2 * b) ≤ n := by rw [two_mul, pow_add, ← hseq]; exact hs1
        have h2 : 2 ^ (2 * b - (n.size - 53)) ≤ n / 2 ^ (n.size - 53) := by
          rw [Nat.le_div_iff_mul_le (by positivity), ← pow_add]
          convert h1 using 2
          omega
        have h3 := Nat.mul_le_mul_right (2 ^ (n.size - 53)) h2
        rw [← pow_add] at h3
        have h4 : 2 * b - (n.size - 53) + (n.size - 53) = b + b := by omega
        rw [h4, pow_add, ← hseq] at h3
        omega
    · have h4 := Nat.mul_le_mul_right (2 ^ k) hxs
      omega
  refine ⟨lower, ?_, ?_⟩
  · have := upper (s + 2) (by omega) (by nlinarith)
    omega
  · intro hsq
    apply le_antisymm
    · have := upper (s + 1) (by omega) (by nlinarith)
      omega
    · exact lower


/-! ## chinese -/

/-- `integer_sqrt` in natural number form: floor root or one more, exact on squares. -/
theorem integerSqrt_nat (N : Nat) : ∃ r, integerSqrt N = .ok r ∧ N.sqrt ≤ r ∧ r ≤ N.sqrt + 1 ∧
    (N.sqrt * N.sqrt = N → r = N.sqrt) := by
  unfold integerSqrt
  rw [if_neg (by omega)]
  simp only [Int.toNat_natCast]
  split
  · rename_i h
    have : N = 0 ∨ N = 1 := by omega
    rcases this with rfl | rfl <;> simp
  · split
    · rename_i h
      obtain ⟨h1, h2, h3⟩ := floatSqrtInt_bounds N (by exact_mod_cast h)
      exact ⟨_, rfl, h1, h2, h3⟩
    · rw [newtonLoop_spec N _ (by positivity) (newton_start N) (by omega)]
      simp

theorem fmod_modEq (a m : Int) : a.fmod m ≡ a [ZMOD m] := by
  have h := Int.mul_fdiv_add_fmod a m
  apply Int.modEq_iff_dvd.2
  exact ⟨a.fdiv m, by linarith⟩

theorem chineseLoop_ok (cs : List (Int × Int)) (x m : Int) (hm : 0 < m)
    (hpos : ∀ c ∈ cs, 0 < c.2)
    (hco : ∀ c ∈ cs, IsCoprime m c.2) (hpw : (cs.map Prod.snd).Pairwise IsCoprime) :
    ∃ y, chineseLoop x m cs = .ok y ∧ y ≡ x [ZMOD m] ∧ (∀ c ∈ cs, y ≡ c.1 [ZMOD c.2]) ∧
      (cs ≠ [] → 0 ≤ y ∧ y < m * (cs.map Prod.snd).prod) := by
  induction cs generalizing x m with
  | nil => exact ⟨x, rfl, Int.ModEq.refl _, by simp, by simp⟩
  | cons c cs ih =>
    obtain ⟨xi, mi⟩ := c
    have hmi : 0 < mi := hpos (xi, mi) (by simp)
    have hc : IsCoprime m mi := hco (xi, mi) (by simp)
    obtain ⟨e1, e2⟩ := extGcd_spec m mi
    have hg : Int.gcd m mi = 1 := Int.isCoprime_iff_gcd_eq_one.1 hc
    rw [hg] at e2
    have hmm : 0 < m * mi := mul_pos hm hmi
    have hpw' := List.pairwise_cons.1 (show List.Pairwise IsCoprime (mi :: cs.map Prod.snd) from hpw)
    simp only [chineseLoop, e2, Nat.cast_one, ne_eq, not_true_eq_false, if_false, hmm.ne']
    set u := (extGcd m mi).1
    set v := (extGcd m mi).2.1
    set x' := u * m * xi + v * mi * x
    rw [e2] at e1
    obtain ⟨y, hy, h1, h2, h3⟩ := ih (x'.fmod (m * mi)) (m * mi) hmm
      (fun c hc => hpos c (by simp [hc]))
      (fun c hc => IsCoprime.mul_left (hco c (by simp [hc]))
        (hpw'.1 c.2 (List.mem_map_of_mem hc))) hpw'.2
    have hy' : y ≡ x' [ZMOD m * mi] := h1.trans (fmod_modEq _ _)
    have hx1 : x' ≡ x [ZMOD m] := by
      apply Int.modEq_iff_dvd.2
      refine ⟨u * (x - xi), ?_⟩
      push_cast at e1
      linear_combination -x * e1
    have hx2 : x' ≡ xi [ZMOD mi] := by
      apply Int.modEq_iff_dvd.2
      refine ⟨v * (xi - x), ?_⟩
      push_cast at e1
      linear_combination -xi * e1
    refine ⟨y, hy, (hy'.of_mul_right mi).trans hx1, ?_, ?_⟩
    · intro c hc
      rcases List.mem_cons.1 hc with rfl | hc
      · exact (hy'.of_mul_left m).trans hx2
      · exact h2 c hc
    · intro _
      cases cs with
      | nil =>
        simp only [chineseLoop, Except.ok.injEq] at hy
        subst hy
        simp only [List.map_cons, List.map_nil, List.prod_cons, List.prod_nil, mul_one]
        exact ⟨Int.fmod_nonneg_of_pos _ hmm, Int.fmod_lt_of_pos _ hmm⟩
      | cons c cs =>
        have := h3 (by simp)
        simp only [List.map_cons, List.prod_cons] at this ⊢
        rwa [mul_assoc] at this

/-- If some pair of the moduli (including the accumulated one) is not coprime, the loop
raises `ValueError`. -/
theorem chineseLoop_error (cs : List (Int × Int)) (x m : Int) (hm : 0 < m)
    (hpos : ∀ c ∈ cs, 0 < c.2)
    (hbad : ¬ ((∀ c ∈ cs, IsCoprime m c.2) ∧ (cs.map Prod.snd).Pairwise IsCoprime)) :
    chineseLoop x m cs = .error .valueError := by
  induction cs generalizing x m with
  | nil => simp at hbad
  | cons c cs ih =>
    obtain ⟨xi, mi⟩ := c
    have hmi : 0 < mi := hpos (xi, mi) (by simp)
    obtain ⟨e1, e2⟩ := extGcd_spec m mi
    have hmm : 0 < m * mi := mul_pos hm hmi
    by_cases hc : IsCoprime m mi
    · have hg : Int.gcd m mi = 1 := Int.isCoprime_iff_gcd_eq_one.1 hc
      rw [hg] at e2
      simp only [chineseLoop, e2, Nat.cast_one, ne_eq, not_true_eq_false, if_false, hmm.ne']
      apply ih _ _ hmm (fun c hc => hpos c (by simp [hc]))
      rintro ⟨g1, g2⟩
      apply hbad
      refine ⟨?_, ?_⟩
      · intro c hc'
        rcases List.mem_cons.1 hc' with rfl | hc'
        · exact hc
        · exact (g1 c hc').of_mul_left_left
      · simp only [List.map_cons, List.pairwise_cons]
        refine ⟨?_, g2⟩
        intro b hb
        obtain ⟨c, hc', rfl⟩ := List.mem_map.1 hb
        exact (g1 c hc').of_mul_left_right
    · have hg : (extGcd m mi).2.2 ≠ 1 := by
        rw [e2]
        intro h
        exact hc (Int.isCoprime_iff_gcd_eq_one.2 (by exact_mod_cast h))
      simp [chineseLoop, hg]

/-! ## inverse_mod and Garner -/

theorem inverseMod_ok {a m : Int} (hm : 2 ≤ m) (h : IsCoprime a m) :
    ∃ b, inverseMod a m = .ok b ∧ 0 ≤ b ∧ b < m ∧ a * b ≡ 1 [ZMOD m] := by
  obtain ⟨e1, e2⟩ := extGcd_spec a m
  rw [Int.isCoprime_iff_gcd_eq_one.1 h] at e2
  refine ⟨(extGcd a m).1.fmod m, ?_, Int.fmod_nonneg_of_pos _ (by omega),
    Int.fmod_lt_of_pos _ (by omega), ?_⟩
  · simp [inverseMod, e2, show ¬ m < 2 by omega]
  · have h1 := (fmod_modEq (extGcd a m).1 m).mul_left a
    refine h1.trans ?_
    apply Int.modEq_iff_dvd.2
    refine ⟨(extGcd a m).2.1, ?_⟩
    rw [e2] at e1
    push_cast at e1
    linear_combination -e1

theorem inverseMod_error {a m : Int} (h : m < 2 ∨ ¬ IsCoprime a m) :
    inverseMod a m = .error .valueError := by
  unfold inverseMod
  split
  · rfl
  · rename_i hm
    have hc : ¬ IsCoprime a m := by
      rcases h with h | h
      · exact absurd h hm
      · exact h
    have e2 := (extGcd_spec a m).2
    have : (extGcd a m).2.2 ≠ 1 := by
      rw [e2]
      intro h1
      exact hc (Int.isCoprime_iff_gcd_eq_one.2 (by exact_mod_cast h1))
    simp [this]

/-- Specification of the tables built by `crtLoop`, relating the three lists. -/
inductive CrtTable : Int → Int → List Int → List Int → List Int → Int → Prop
  | nil (pp m : Int) : CrtTable pp m [] [] [] (pp * m)
  | cons (pp m mi inv : Int) (ms pps invs : List Int) (prod : Int)
      (hinv : pp * m * inv ≡ 1 [ZMOD mi]) (h : CrtTable (pp * m) mi ms pps invs prod) :
      CrtTable pp m (mi :: ms) (pp * m :: pps) (inv :: invs) prod

theorem crtLoop_ok (ms : List Int) (pp m : Int) (h2 : ∀ c ∈ ms, 2 ≤ c)
    (hco : ∀ c ∈ ms, IsCoprime (pp * m) c) (hpw : ms.Pairwise IsCoprime) :
    ∃ pps invs, crtLoop pp m ms = .ok (pps, invs, pp * m * ms.prod) ∧
      CrtTable pp m ms pps invs (pp * m * ms.prod) := by
  induction ms generalizing pp m with
  | nil => exact ⟨[], [], by simp [crtLoop], by simpa using CrtTable.nil pp m⟩
  | cons mi ms ih =>
    obtain ⟨p1, p2⟩ := List.pairwise_cons.1 hpw
    obtain ⟨inv, hinv, _, _, hmul⟩ := inverseMod_ok (h2 mi (by simp)) (hco mi (by simp))
    obtain ⟨pps, invs, h3, h4⟩ := ih (pp * m) mi (fun c hc => h2 c (by simp [hc]))
      (fun c hc => IsCoprime.mul_left (hco c (by simp [hc])) (p1 c hc)) p2
    have e : pp * m * mi * ms.prod = pp * m * (mi :: ms).prod := by
      rw [List.prod_cons]; ring
    rw [e] at h3 h4
    exact ⟨pp * m :: pps, inv :: invs, by simp [crtLoop, hinv, h3], CrtTable.cons _ _ _ _ _ _ _ _ hmul h4⟩

theorem garnerLoop_ok {pp m : Int} {ms pps invs : List Int} {prod : Int}
    (ht : CrtTable pp m ms pps invs prod) (res : List Int) (x : Int)
    (hlen : res.length = ms.length) :
    ∃ y, garnerLoop x res ms invs pps = .ok y ∧ y ≡ x [ZMOD pp * m] ∧
      List.Forall₂ (fun a mi => y ≡ a [ZMOD mi]) res ms := by
  induction ht generalizing res x with
  | nil pp m =>
    have : res = [] := List.eq_nil_of_length_eq_zero (by simpa using hlen)
    subst this
    exact ⟨x, by simp [garnerLoop], Int.ModEq.refl _, List.Forall₂.nil⟩
  | cons pp m mi inv ms pps invs prod hinv h ih =>
    cases res with
    | nil => simp at hlen
    | cons a res =>
      set x' := x + ((a - x) * inv).fmod mi * (pp * m)
      obtain ⟨y, h1, h2, h3⟩ := ih res x' (by simpa using hlen)
      refine ⟨y, by simpa [garnerLoop] using h1, ?_, ?_⟩
      · refine (h2.of_mul_right mi).trans ?_
        apply Int.modEq_iff_dvd.2
        exact ⟨-((a - x) * inv).fmod mi, by simp only [x']; ring⟩
      · refine List.Forall₂.cons ?_ h3
        refine (h2.of_mul_left (pp * m)).trans ?_
        have h4 : ((a - x) * inv).fmod mi * (pp * m) ≡ (a - x) * inv * (pp * m) [ZMOD mi] :=
          (fmod_modEq _ _).mul_right _
        have h5 : (a - x) * inv * (pp * m) ≡ (a - x) * 1 [ZMOD mi] := by
          have := hinv.mul_left (a - x)
          rwa [show (a - x) * (pp * m * inv) = (a - x) * inv * (pp * m) by ring] at this
        have h6 := (h4.trans h5).add_left x
        simpa [x'] using h6

/-! ## jacobi_symbol -/

theorem jacobiStrip_spec (m a : Nat) (t : Int) (hm : m % 2 = 1) (ha : 0 < a) :
    (jacobiStrip m a t).1 % 2 = 1 ∧
      (jacobiStrip m a t).2 * jacobiSym (jacobiStrip m a t).1 m = t * jacobiSym a m := by
  fun_induction jacobiStrip m a t with
  | case1 a t h ih =>
    simp only [dite_eq_ite] at ih
    obtain ⟨i1, i2⟩ := ih (by omega)
    refine ⟨i1, ?_⟩
    rw [i2]
    have hodd : Odd m := Nat.odd_iff.2 hm
    have ea : (a : ℤ) = 2 * ((a / 2 : ℕ) : ℤ) := by omega
    rw [ea, jacobiSym.mul_left, jacobiSym.at_two hodd, ZMod.χ₈_nat_eq_if_mod_eight]
    have : m % 8 = 1 ∨ m % 8 = 3 ∨ m % 8 = 5 ∨ m % 8 = 7 := by omega
    rcases this with h8 | h8 | h8 | h8 <;> simp [h8, hm]
  | case2 a t h => exact ⟨by omega, rfl⟩

theorem jacobiLoop_spec (a m : Nat) (t : Int) (hm : m % 2 = 1) :
    jacobiLoop a m t = t * jacobiSym a m := by
  fun_induction jacobiLoop a m t with
  | case1 t => simp
  | case2 m t h =>
    rw [Nat.cast_zero, jacobiSym.zero_left (by omega)]; simp
  | case3 a m t h s t' ih =>
    have hs := jacobiStrip_spec m a t hm (by omega)
    obtain ⟨h1, h2⟩ := hs
    have ih' := ih h1
    rw [ih', ← h2]
    have hodd : Odd m := Nat.odd_iff.2 hm
    have hodd' : Odd s.1 := Nat.odd_iff.2 h1
    have hmod : jacobiSym ((m % s.1 : ℕ) : ℤ) s.1 = jacobiSym (m : ℤ) s.1 := by
      rw [Int.natCast_mod, ← jacobiSym.mod_left]
    rw [hmod]
    simp only [t', dite_eq_ite]
    split
    · rename_i h3
      rw [jacobiSym.quadratic_reciprocity_three_mod_four h3.2 h3.1]
      simp [s]
    · rename_i h3
      have h1' : s.1 % 2 = 1 := h1
      have h4 : s.1 % 4 = 1 ∨ m % 4 = 1 := by omega
      rcases h4 with h4 | h4
      · rw [← jacobiSym.quadratic_reciprocity_one_mod_four h4 hodd]
      · rw [jacobiSym.quadratic_reciprocity_one_mod_four h4 hodd']

/-! ## valuation -/

theorem valUp_spec (p n pk lo hi : Nat) (hn : 0 < n) (hp : 2 ≤ pk) (hb : pk = p ^ hi)
    (hlo : n % pk = 0 ∨ (p ^ lo ∣ n ∧ lo < hi)) (hhi : 0 < hi) :
    p ^ (valUp n pk lo hi hn hp).1 ∣ n ∧ ¬ p ^ (valUp n pk lo hi hn hp).2 ∣ n ∧
      (valUp n pk lo hi hn hp).1 < (valUp n pk lo hi hn hp).2 := by
  fun_induction valUp n pk lo hi hn hp with
  | case1 pk lo hi hp h ih =>
    apply ih
    · rw [hb, ← pow_add]; congr 1; omega
    · right; exact ⟨by rw [← hb]; exact Nat.dvd_of_mod_eq_zero h, by omega⟩
    · omega
  | case2 pk lo hi hp h =>
    rcases hlo with h' | ⟨h', h''⟩
    · exact absurd h' h
    · exact ⟨h', by rw [← hb]; intro hd; exact h (Nat.mod_eq_zero_of_dvd hd), h''⟩

theorem valBisect_spec (p n lo hi : Nat) (h1 : p ^ lo ∣ n) (h2 : ¬ p ^ hi ∣ n) (h3 : lo < hi) :
    p ^ (valBisect p n lo hi) ∣ n ∧ ¬ p ^ (valBisect p n lo hi + 1) ∣ n := by
  fun_induction valBisect p n lo hi with
  | case1 lo hi h mid hd ih => exact ih (Nat.dvd_of_mod_eq_zero hd) h2 (by omega)
  | case2 lo hi h mid hd ih =>
    exact ih h1 (fun hdv => hd (Nat.mod_eq_zero_of_dvd hdv)) (by omega)
  | case3 lo hi h =>
    have : hi = lo + 1 := by omega
    subst this
    exact ⟨h1, h2⟩

end Rosemary.Core
