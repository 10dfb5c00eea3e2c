import Verif.Model.RootCosts
import Verif.Lemmas.Core
import Mathlib.Analysis.SpecialFunctions.Pow.Real
import Mathlib.Analysis.Complex.ExponentialBounds
import Mathlib.Tactic.FieldSimp
import Mathlib.Tactic.Positivity

/-!
# Lemmas about the work of the binary and iterative methods
-/

namespace Rosemary.RootCosts

open Rosemary.Core

/-! ## The counted functions compute the same -/

theorem powerModLoopC_fst (m a t k : Nat) : (powerModLoopC m a t k).1 = powerModLoop m a t k := by
  fun_induction powerModLoop m a t k with
  | case1 => unfold powerModLoopC; simp
  | case2 a t k h ih => rw [powerModLoopC, dif_neg h]; exact ih

theorem logUpC_fst (n p lo hi : Nat) (hp : 2 ≤ p) : (logUpC n p lo hi hp).1 = logUp n p lo hi hp := by
  fun_induction logUp n p lo hi hp with
  | case1 p lo hi hp h ih => rw [logUpC, dif_pos h]; exact ih
  | case2 p lo hi hp h => rw [logUpC, dif_neg h]

theorem logBisectC_fst (b n lo hi : Nat) : (logBisectC b n lo hi).1 = logBisect b n lo hi := by
  fun_induction logBisect b n lo hi with
  | case1 lo hi h mid power h1 ih =>
    rw [logBisectC, dif_pos h]; dsimp only
    rw [if_pos h1]; exact ih
  | case2 lo hi h mid power h1 h2 ih =>
    rw [logBisectC, dif_pos h]; dsimp only
    rw [if_neg h1, if_pos h2]; exact ih
  | case3 lo hi h mid power h1 h2 =>
    rw [logBisectC, dif_pos h]; dsimp only
    rw [if_neg h1, if_neg h2]
  | case4 lo hi h => rw [logBisectC, dif_neg h]

theorem valUpC_fst (n pk lo hi : Nat) (hn : 0 < n) (hp : 2 ≤ pk) :
    (valUpC n pk lo hi hn hp).1 = valUp n pk lo hi hn hp := by
  fun_induction valUp n pk lo hi hn hp with
  | case1 p lo hi hp h ih => rw [valUpC, dif_pos h]; exact ih
  | case2 p lo hi hp h => rw [valUpC, dif_neg h]

theorem valBisectC_fst (p n lo hi : Nat) : (valBisectC p n lo hi).1 = valBisect p n lo hi := by
  fun_induction valBisect p n lo hi with
  | case1 lo hi h mid h1 ih =>
    rw [valBisectC, dif_pos h]; dsimp only
    rw [if_pos h1]; exact ih
  | case2 lo hi h mid h1 ih =>
    rw [valBisectC, dif_pos h]; dsimp only
    rw [if_neg h1]; exact ih
  | case3 lo hi h => rw [valBisectC, dif_neg h]

theorem newtonLoopC_fst (n x : Nat) : (newtonLoopC n x).1 = newtonLoop n x := by
  fun_induction newtonLoop n x with
  | case1 x y h => rw [newtonLoopC, dif_pos h]
  | case2 x y h ih => rw [newtonLoopC, dif_neg h]; exact ih

theorem halleyLoopC_fst (n m x : Nat) : (halleyLoopC n m x).1 = halleyLoop n m x := by
  fun_induction halleyLoop n m x with
  | case1 x xn num den y h => rw [halleyLoopC]; dsimp only; rw [dif_pos h]
  | case2 x xn num den y h ih => rw [halleyLoopC]; dsimp only; rw [dif_neg h]; exact ih

/-! ## Powers and logarithms -/

theorem powerModLoopC_cost (m a t k : Nat) : k.size ≤ (powerModLoopC m a t k).2 ∧ (powerModLoopC m a t k).2 ≤ 2 * k.size := by
  induction k using Nat.strong_induction_on generalizing a t with
  | _ k ih =>
    by_cases h : k = 0
    · subst h; unfold powerModLoopC; simp
    · have hs : k.size = (k / 2).size + 1 := by
        conv_lhs => rw [← Nat.bit_bodd_div2 k]
        rw [Nat.size_bit (by rw [Nat.bit_bodd_div2]; exact h), Nat.div2_val]
      have h1 := ih (k / 2) (by omega) (a * a % m) (if k % 2 = 1 then a * t % m else t)
      rw [powerModLoopC, dif_neg h]
      dsimp only
      by_cases h2 : k % 2 = 1
      · simp only [if_pos h2] at h1 ⊢; omega
      · simp only [if_neg h2] at h1 ⊢; omega

/-- A bisection of an interval of length at most `2^k` takes at most `k` passes. -/
theorem logBisectC_cost (b n lo hi k : Nat) (h : hi ≤ lo + 2 ^ k) : (logBisectC b n lo hi).2 ≤ k := by
  induction k generalizing lo hi with
  | zero =>
    rw [logBisectC, dif_neg (by simp at h; omega)]
  | succ k ih =>
    rw [pow_succ] at h
    rw [logBisectC]
    split
    · dsimp only
      split
      · have := ih lo ((lo + hi) / 2) (by omega)
        dsimp only; omega
      · split
        · have := ih ((lo + hi) / 2) hi (by omega)
          dsimp only; omega
        · dsimp only; omega
    · dsimp only; omega

theorem valBisectC_cost (p n lo hi k : Nat) (h : hi ≤ lo + 2 ^ k) : (valBisectC p n lo hi).2 ≤ k := by
  induction k generalizing lo hi with
  | zero =>
    rw [valBisectC, dif_neg (by simp at h; omega)]
  | succ k ih =>
    rw [pow_succ] at h
    rw [valBisectC]
    split
    · dsimp only
      split
      · have := ih ((lo + hi) / 2) hi (by omega)
        dsimp only; omega
      · have := ih lo ((lo + hi) / 2) (by omega)
        dsimp only; omega
    · dsimp only; omega

/-- After `u` doublings the interval is `[2^(u-1), 2^u]`, and `b^(2^(u-1)) ≤ n`. -/
theorem logUpC_cost (b n p lo hi j : Nat) (hp : 2 ≤ p) (hb : p = b ^ 2 ^ j) (hhi : hi = 2 ^ j)
    (hlo : j ≠ 0 → 2 * lo = hi ∧ b ^ lo ≤ n) :
    (logUpC n p lo hi hp).1.2 = 2 ^ (j + (logUpC n p lo hi hp).2) ∧
    (j + (logUpC n p lo hi hp).2 ≠ 0 →
      2 * (logUpC n p lo hi hp).1.1 = (logUpC n p lo hi hp).1.2 ∧ b ^ (logUpC n p lo hi hp).1.1 ≤ n) := by
  fun_induction logUp n p lo hi hp generalizing j with
  | case1 p lo hi hp h ih =>
    rw [logUpC, dif_pos h]
    dsimp only
    have := ih (j + 1) (by rw [hb, ← pow_add, pow_succ, mul_two]) (by rw [hhi, pow_succ, mul_comm])
      (fun _ => ⟨rfl, by rw [hhi, ← hb]; exact h⟩)
    rw [show j + 1 + (logUpC n (p * p) hi (2 * hi) (by nlinarith)).2 =
      j + ((logUpC n (p * p) hi (2 * hi) (by nlinarith)).2 + 1) by omega] at this
    exact this
  | case2 p lo hi hp h =>
    rw [logUpC, dif_neg h]
    dsimp only
    exact ⟨by simpa using hhi, by simpa using hlo⟩

theorem valUpC_cost (b n p lo hi j : Nat) (hn : 0 < n) (hp : 2 ≤ p) (hb : p = b ^ 2 ^ j) (hhi : hi = 2 ^ j)
    (hlo : j ≠ 0 → 2 * lo = hi ∧ b ^ lo ∣ n) :
    (valUpC n p lo hi hn hp).1.2 = 2 ^ (j + (valUpC n p lo hi hn hp).2) ∧
    (j + (valUpC n p lo hi hn hp).2 ≠ 0 →
      2 * (valUpC n p lo hi hn hp).1.1 = (valUpC n p lo hi hn hp).1.2 ∧ b ^ (valUpC n p lo hi hn hp).1.1 ∣ n) := by
  fun_induction valUp n p lo hi hn hp generalizing j with
  | case1 p lo hi hp h ih =>
    rw [valUpC, dif_pos h]
    dsimp only
    have := ih (j + 1) (by rw [hb, ← pow_add, pow_succ, mul_two]) (by rw [hhi, pow_succ, mul_comm])
      (fun _ => ⟨rfl, by rw [hhi, ← hb]; exact Nat.dvd_of_mod_eq_zero h⟩)
    rw [show j + 1 + (valUpC n (p * p) hi (2 * hi) hn (by nlinarith)).2 =
      j + ((valUpC n (p * p) hi (2 * hi) hn (by nlinarith)).2 + 1) by omega] at this
    exact this
  | case2 p lo hi hp h =>
    rw [valUpC, dif_neg h]
    dsimp only
    exact ⟨by simpa using hhi, by simpa using hlo⟩

/-! ## Newton's method -/

/-- Quadratic convergence. -/
theorem newton_quadratic (n x : Nat) (hx : 0 < x) (a : ℝ) (ha : 0 ≤ a) (han : a ^ 2 = n) :
    (((x + n / x) / 2 : ℕ) : ℝ) - a ≤ (x - a) ^ 2 / (2 * x) := by
  have hx' : (0 : ℝ) < x := by exact_mod_cast hx
  have h1 : (((x + n / x) / 2 : ℕ) : ℝ) ≤ (x + n / x : ℝ) / 2 := by
    have h2 : (((x + n / x) / 2 : ℕ) : ℝ) ≤ ((x + n / x : ℕ) : ℝ) / 2 := by
      have := Nat.cast_div_le (α := ℝ) (m := x + n / x) (n := 2)
      simpa using this
    have h3 : ((n / x : ℕ) : ℝ) ≤ (n : ℝ) / x := Nat.cast_div_le
    push_cast at h2
    linarith
  have h4 : (x - a) ^ 2 / (2 * x) = (x + n / x : ℝ) / 2 - a := by
    rw [← han]
    field_simp
    ring
  rw [h4]
  linarith

theorem newton_stop (n x : Nat) (hn : 0 < n) (hx : 0 < x) (hge : n.sqrt ≤ x) (hle : x ≤ n.sqrt + 1) : (newtonLoopC n x).2 ≤ 2 := by
  have hs := newton_step_ge n x n.sqrt hx (Nat.sqrt_le n)
  rw [newtonLoopC]
  dsimp only
  split
  · dsimp only; omega
  · rename_i h
    have hy : (x + n / x) / 2 = n.sqrt := by omega
    have hpos := Nat.sqrt_pos.2 hn
    have hs' := newton_step_ge n n.sqrt n.sqrt hpos (Nat.sqrt_le n)
    rw [hy, newtonLoopC, dif_pos hs']

theorem newton_rounds (n : Nat) (hn : 0 < n) (K k x : Nat) (hx : 0 < x) (hge : n.sqrt ≤ x) (a : ℝ) (ha : 0 < a) (han : a ^ 2 = n)
    (hxa : (x : ℝ) ≤ a + 2 * a / 2 ^ 2 ^ k) (hK : 2 * a ≤ 2 ^ 2 ^ (k + K)) : (newtonLoopC n x).2 ≤ K + 2 := by
  induction K generalizing k x with
  | zero =>
    rw [Nat.add_zero] at hK
    have h1 : 2 * a / 2 ^ 2 ^ k ≤ 1 := by rw [div_le_one (by positivity)]; exact hK
    refine newton_stop n x hn hx hge ?_
    have h2 : (a : ℝ) < (n.sqrt + 1 : ℕ) := by
      have h3 : n < (n.sqrt + 1) * (n.sqrt + 1) := Nat.lt_succ_sqrt n
      have h4 : a ^ 2 < ((n.sqrt + 1 : ℕ) : ℝ) ^ 2 := by rw [han, sq]; exact_mod_cast h3
      exact lt_of_pow_lt_pow_left₀ 2 (by positivity) h4
    have h5 : (x : ℝ) < ((n.sqrt + 1 + 1 : ℕ) : ℝ) := by push_cast at h2 ⊢; linarith
    have : x < n.sqrt + 1 + 1 := by exact_mod_cast h5
    omega
  | succ K ih =>
    rw [newtonLoopC]
    dsimp only
    split
    · dsimp only; omega
    · rename_i h
      have hs := newton_step_ge n x n.sqrt hx (Nat.sqrt_le n)
      have hpos := Nat.sqrt_pos.2 hn
      have hq := newton_quadratic n x hx a ha.le han
      have hx' : (0 : ℝ) < x := by exact_mod_cast hx
      -- the loop continues, so x is above the root
      have hax : a < x := by
        have h6 : n / x < x := by omega
        have h7 : n < x * x := (Nat.div_lt_iff_lt_mul hx).1 h6
        have h8 : a ^ 2 < (x : ℝ) ^ 2 := by rw [han, sq]; exact_mod_cast h7
        exact lt_of_pow_lt_pow_left₀ 2 (by positivity) h8
      have := ih (k + 1) ((x + n / x) / 2) (by omega) hs (by
        have e : (2 : ℝ) ^ 2 ^ (k + 1) = 2 ^ 2 ^ k * 2 ^ 2 ^ k := by rw [pow_succ, mul_two, pow_add]
        have h9 : ((x : ℝ) - a) ^ 2 ≤ (2 * a / 2 ^ 2 ^ k) ^ 2 := by
          refine pow_le_pow_left₀ (by linarith) (by linarith) 2
        have h10 : ((x : ℝ) - a) ^ 2 / (2 * x) ≤ (2 * a / 2 ^ 2 ^ k) ^ 2 / (2 * a) := by
          refine div_le_div₀ (by positivity) h9 (by positivity) (by linarith)
        have h11 : (2 * a / 2 ^ 2 ^ k) ^ 2 / (2 * a) = 2 * a / 2 ^ 2 ^ (k + 1) := by
          rw [e]; field_simp
        linarith) (by rw [show k + 1 + K = k + (K + 1) by omega]; exact hK)
      dsimp only
      omega

/-- One step brings `x ≤ c a` down to `1 + (c-1)²/(2c)` times the root. -/
theorem newton_far (n x : Nat) (hx : 0 < x) (a : ℝ) (ha : 0 < a) (han : a ^ 2 = n) (hax : a ≤ x) (r q : ℝ) (hr : 0 ≤ r)
    (hxr : (x : ℝ) ≤ a * (1 + r)) (hq : r ^ 2 ≤ q * (2 * (1 + r))) :
    (((x + n / x) / 2 : ℕ) : ℝ) ≤ a * (1 + q) := by
  have h1 := newton_quadratic n x hx a ha.le han
  have hx' : (0 : ℝ) < x := by exact_mod_cast hx
  have h2 : ((x : ℝ) - a) ^ 2 / (2 * x) ≤ a * q := by
    rw [div_le_iff₀ (by positivity)]
    have hq0 : 0 ≤ q := by
      by_contra hc
      push Not at hc
      nlinarith [sq_nonneg r]
    -- (x - a)² / x is increasing in x ≥ a
    obtain ⟨e, he⟩ : ∃ e, (x : ℝ) = a + e := ⟨x - a, by ring⟩
    have he0 : 0 ≤ e := by linarith
    have her : e ≤ a * r := by nlinarith
    rw [he]
    have h3 : e * e ≤ e * (a * r) := mul_le_mul_of_nonneg_left her he0
    -- e² (1 + r) ≤ a r² (a + e)
    have h4 : e ^ 2 * (1 + r) ≤ a * r ^ 2 * (a + e) := by
      nlinarith [mul_nonneg he0 hr, mul_nonneg (sub_nonneg.2 her) he0, mul_nonneg (sub_nonneg.2 her) (mul_nonneg ha.le hr),
        mul_nonneg (mul_nonneg (sub_nonneg.2 her) he0) hr]
    have h5 : a * (a + e) * r ^ 2 ≤ a * (a + e) * (q * (2 * (1 + r))) :=
      mul_le_mul_of_nonneg_left hq (by positivity)
    have h6 : e ^ 2 * (1 + r) ≤ (a * q * (2 * (a + e))) * (1 + r) := by nlinarith
    have h7 := le_of_mul_le_mul_right h6 (by linarith)
    calc (a + e - a) ^ 2 = e ^ 2 := by ring
      _ ≤ _ := h7
  linarith

/-- If the loop goes on, `x` is above the root. -/
theorem newton_continue (n x : Nat) (hx : 0 < x) (h : ¬ (x + n / x) / 2 ≥ x) (a : ℝ) (han : a ^ 2 = n) : a < x := by
  have h6 : n / x < x := by omega
  have h7 : n < x * x := (Nat.div_lt_iff_lt_mul hx).1 h6
  have h8 : a ^ 2 < (x : ℝ) ^ 2 := by rw [han, sq]; exact_mod_cast h7
  exact lt_of_pow_lt_pow_left₀ 2 (by positivity) h8

theorem newton_total (n : Nat) (hn : 64 ≤ n) :
    (newtonLoopC n (2 ^ (n.size / 2 + 1))).2 ≤ Nat.clog 2 (n.size + 2) + 1 := by
  obtain ⟨a, ha0, han⟩ : ∃ a : ℝ, 0 < a ∧ a ^ 2 = n :=
    ⟨Real.sqrt n, Real.sqrt_pos.2 (by exact_mod_cast (by omega : 0 < n)), Real.sq_sqrt (by positivity)⟩
  have hsz : 7 ≤ n.size := by
    by_contra h
    have h1 : n.size ≤ 6 := by omega
    have h2 := Nat.lt_size_self n
    have h3 : 2 ^ n.size ≤ 2 ^ 6 := Nat.pow_le_pow_right (by norm_num) h1
    omega
  have hJ : 4 ≤ Nat.clog 2 (n.size + 2) := by
    by_contra h
    have h1 : n.size + 2 ≤ 2 ^ Nat.clog 2 (n.size + 2) := Nat.le_pow_clog (by norm_num) _
    have h2 : 2 ^ Nat.clog 2 (n.size + 2) ≤ 2 ^ 3 := Nat.pow_le_pow_right (by norm_num) (by omega)
    omega
  have h2a : 2 * a ≤ 2 ^ 2 ^ (2 + (Nat.clog 2 (n.size + 2) - 3)) := by
    have h1 : n.size + 2 ≤ 2 ^ Nat.clog 2 (n.size + 2) := Nat.le_pow_clog (by norm_num) _
    obtain ⟨J, hJ'⟩ : ∃ J, Nat.clog 2 (n.size + 2) = J + 3 := ⟨_, (Nat.sub_add_cancel (by omega)).symm⟩
    rw [hJ'] at h1 ⊢
    rw [Nat.add_sub_cancel]
    refine le_of_lt (lt_of_pow_lt_pow_left₀ 2 (by positivity) ?_)
    rw [← pow_mul, ← pow_succ, mul_pow, han, show 2 + J + 1 = J + 3 by omega]
    have h2 := Nat.lt_size_self n
    have h3 : 2 ^ (n.size + 2) ≤ 2 ^ 2 ^ (J + 3) := Nat.pow_le_pow_right (by norm_num) h1
    have h4 : 2 ^ 2 * n < 2 ^ 2 ^ (J + 3) := by
      refine lt_of_lt_of_le ?_ h3
      rw [pow_add]; omega
    exact_mod_cast h4
  have hs0 := newton_start n
  have hx0 : 0 < 2 ^ (n.size / 2 + 1) := by positivity
  have hx0a : ((2 ^ (n.size / 2 + 1) : ℕ) : ℝ) ≤ a * (1 + 1.83) := by
    refine le_of_lt (lt_of_pow_lt_pow_left₀ 2 (by positivity) ?_)
    rw [mul_pow, han]
    have h1 : (2 ^ (n.size / 2 + 1)) ^ 2 ≤ 8 * n := by
      have h2 := pow_size_pred_le (show 0 < n by omega)
      have h3 : (2 ^ (n.size / 2 + 1)) ^ 2 ≤ 2 ^ (3 + (n.size - 1)) := by
        rw [← pow_mul]
        exact Nat.pow_le_pow_right (by norm_num) (by omega)
      rw [pow_add 2 3] at h3
      omega
    have h4 : (((2 ^ (n.size / 2 + 1) : ℕ) : ℝ)) ^ 2 ≤ 8 * n := by exact_mod_cast h1
    have h5 : (64 : ℝ) ≤ n := by exact_mod_cast hn
    nlinarith
  generalize 2 ^ (n.size / 2 + 1) = x0 at hx0 hx0a hs0
  have hpos := Nat.sqrt_pos.2 (show 0 < n by omega)
  rw [newtonLoopC]
  dsimp only
  split
  · dsimp only; omega
  · rename_i hc0
    have hc0' := newton_continue n x0 hx0 hc0 a han
    have h1 := newton_far n x0 hx0 a ha0 han hc0'.le 1.83 0.6 (by norm_num) hx0a (by norm_num)
    have hs1 := newton_step_ge n x0 n.sqrt hx0 (Nat.sqrt_le n)
    generalize (x0 + n / x0) / 2 = x1 at h1 hs1
    have hx1 : 0 < x1 := by omega
    rw [newtonLoopC]
    dsimp only
    split
    · dsimp only; omega
    · rename_i hc1
      have hc1' := newton_continue n x1 hx1 hc1 a han
      have h2 := newton_far n x1 hx1 a ha0 han hc1'.le 0.6 0.125 (by norm_num) h1 (by norm_num)
      have hs2 := newton_step_ge n x1 n.sqrt hx1 (Nat.sqrt_le n)
      generalize (x1 + n / x1) / 2 = x2 at h2 hs2
      have h3 := newton_rounds n (by omega) (Nat.clog 2 (n.size + 2) - 3) 2 x2 (by omega) hs2 a ha0 han
        (by
          have e : 2 * a / 2 ^ 2 ^ 2 = a * 0.125 := by norm_num; ring
          rw [e]; linarith) h2a
      dsimp only
      omega

/-! ## Halley's method -/

theorem bernoulli_upper (n : Nat) (x s : ℝ) (hs : 0 ≤ s) (hx : s ≤ x) :
    x ^ (n + 2) - (n + 2) * s ^ (n + 1) * x + (n + 1) * s ^ (n + 2) ≤ (n + 1) * (n + 2) / 2 * x ^ n * (x - s) ^ 2 := by
  induction n with
  | zero => apply le_of_eq; norm_num; ring
  | succ n ih =>
    have h0 : 0 ≤ x := hs.trans hx
    have h1 : x ^ (n + 1 + 2) - ((n + 1 : ℕ) + 2) * s ^ (n + 1 + 1) * x + ((n + 1 : ℕ) + 1) * s ^ (n + 1 + 2)
        = x * (x ^ (n + 2) - (n + 2) * s ^ (n + 1) * x + (n + 1) * s ^ (n + 2))
          + (n + 2) * s ^ (n + 1) * (x - s) ^ 2 := by
      push_cast; ring
    rw [h1]
    have h2 := mul_le_mul_of_nonneg_left ih h0
    have h3 : s ^ (n + 1) ≤ x ^ (n + 1) := pow_le_pow_left₀ hs hx _
    have h4 : (n + 2) * s ^ (n + 1) * (x - s) ^ 2 ≤ (n + 2) * x ^ (n + 1) * (x - s) ^ 2 := by
      have : (0 : ℝ) ≤ n + 2 := by positivity
      exact mul_le_mul_of_nonneg_right (mul_le_mul_of_nonneg_left h3 this) (sq_nonneg _)
    have h5 : ((n + 1 : ℕ) + 1 : ℝ) * ((n + 1 : ℕ) + 2) / 2 * x ^ (n + 1) * (x - s) ^ 2
        = x * ((n + 1) * (n + 2) / 2 * x ^ n * (x - s) ^ 2) + (n + 2) * x ^ (n + 1) * (x - s) ^ 2 := by
      push_cast; ring
    rw [h5]
    linarith

theorem halley_upper (n : Nat) (x s : ℝ) (hs : 0 ≤ s) (hx : s ≤ x) :
    (n + 1) * x ^ (n + 3) - (n + 3) * s * x ^ (n + 2) + (n + 3) * s ^ (n + 2) * x - (n + 1) * s ^ (n + 3)
      ≤ (n + 1) * (n + 2) * (n + 3) / 6 * x ^ n * (x - s) ^ 3 := by
  induction n with
  | zero => apply le_of_eq; norm_num; ring
  | succ n ih =>
    have h0 : 0 ≤ x := hs.trans hx
    have hb := bernoulli_upper (n + 1) x s hs hx
    have e : ((n + 1 : ℕ) + 1) * x ^ (n + 1 + 3) - ((n + 1 : ℕ) + 3) * s * x ^ (n + 1 + 2)
        + ((n + 1 : ℕ) + 3) * s ^ (n + 1 + 2) * x - ((n + 1 : ℕ) + 1) * s ^ (n + 1 + 3)
        = x * ((n + 1) * x ^ (n + 3) - (n + 3) * s * x ^ (n + 2) + (n + 3) * s ^ (n + 2) * x - (n + 1) * s ^ (n + 3))
          + (x - s) * (x ^ (n + 1 + 2) - ((n + 1 : ℕ) + 2) * s ^ (n + 1 + 1) * x + ((n + 1 : ℕ) + 1) * s ^ (n + 1 + 2)) := by
      push_cast; ring
    rw [e]
    have h1 := mul_le_mul_of_nonneg_left ih h0
    have h2 := mul_le_mul_of_nonneg_left hb (sub_nonneg.2 hx)
    have h3 : ((n + 1 : ℕ) + 1 : ℝ) * ((n + 1 : ℕ) + 2) * ((n + 1 : ℕ) + 3) / 6 * x ^ (n + 1) * (x - s) ^ 3
        = x * ((n + 1) * (n + 2) * (n + 3) / 6 * x ^ n * (x - s) ^ 3)
          + (x - s) * (((n + 1 : ℕ) + 1) * ((n + 1 : ℕ) + 2) / 2 * x ^ (n + 1) * (x - s) ^ 2) := by
      push_cast; ring
    rw [h3]
    linarith

/-- The integer step of the loop, for the exponent `k + 2`. -/
def halleyStep (n m x : Nat) : Nat :=
  x * ((n - 1) * x ^ n + (n + 1) * m) / ((n - 1) * x ^ n + (n + 1) * m + 2 * x ^ n - 2 * m)

theorem halleyLoopC_eq (n m x : Nat) :
    halleyLoopC n m x = if halleyStep n m x ≥ x then (x, 1)
      else ((halleyLoopC n m (halleyStep n m x)).1, (halleyLoopC n m (halleyStep n m x)).2 + 1) := by
  rw [halleyLoopC]
  rfl

theorem halley_den (k m x : Nat) :
    (k + 2 - 1) * x ^ (k + 2) + (k + 2 + 1) * m + 2 * x ^ (k + 2) - 2 * m = (k + 3) * x ^ (k + 2) + (k + 1) * m := by
  have h1 : (k + 2 + 1) * m = (k + 1) * m + 2 * m := by ring
  have h2 : (k + 3) * x ^ (k + 2) = (k + 1) * x ^ (k + 2) + 2 * x ^ (k + 2) := by ring
  rw [show k + 2 - 1 = k + 1 by omega, h1, h2]
  omega

theorem halleyStep_le (k m x : Nat) :
    (halleyStep (k + 2) m x : ℝ) ≤ x * ((k + 1) * x ^ (k + 2) + (k + 3) * m) / ((k + 3) * x ^ (k + 2) + (k + 1) * m) := by
  unfold halleyStep
  rw [halley_den]
  refine le_trans Nat.cast_div_le ?_
  rw [show k + 2 - 1 = k + 1 by omega, show k + 2 + 1 = k + 3 by omega]
  push_cast
  exact le_rfl

/-- Cubic convergence. -/
theorem halley_cubic (k m x : Nat) (hm : 0 < m) (hx : 0 < x) (a : ℝ) (ha : 0 ≤ a) (hax : a ≤ x) (ham : a ^ (k + 3) = m) :
    (halleyStep (k + 3) m x : ℝ) - a ≤ (k + 2) * (k + 3) / 6 * (x - a) ^ 3 / x ^ 2 := by
  have h1 := halleyStep_le (k + 1) m x
  have hx' : (0 : ℝ) < x := by exact_mod_cast hx
  have hm' : (0 : ℝ) < m := by exact_mod_cast hm
  have hD : (0 : ℝ) < (((k + 1 : ℕ) : ℝ) + 3) * x ^ (k + 1 + 2) + (((k + 1 : ℕ) : ℝ) + 1) * m := by positivity
  have h2 := halley_upper (k + 1) x a ha hax
  have h3 : (x : ℝ) * ((((k + 1 : ℕ) : ℝ) + 1) * x ^ (k + 1 + 2) + (((k + 1 : ℕ) : ℝ) + 3) * m) /
      ((((k + 1 : ℕ) : ℝ) + 3) * x ^ (k + 1 + 2) + (((k + 1 : ℕ) : ℝ) + 1) * m)
      ≤ a + (k + 2) * (k + 3) / 6 * (x - a) ^ 3 / x ^ 2 := by
    rw [div_le_iff₀ hD]
    have e0 : 0 ≤ ((k : ℝ) + 2) * (k + 3) / 6 * (x - a) ^ 3 / x ^ 2 := by
      have : 0 ≤ (x - a : ℝ) := by linarith
      positivity
    have e1 : ((k : ℝ) + 2) * (k + 3) / 6 * (x - a) ^ 3 / x ^ 2 * ((((k + 1 : ℕ) : ℝ) + 3) * x ^ (k + 1 + 2))
        = (((k + 1 : ℕ) : ℝ) + 1) * (((k + 1 : ℕ) : ℝ) + 2) * (((k + 1 : ℕ) : ℝ) + 3) / 6 * x ^ (k + 1) * (x - a) ^ 3 := by
      push_cast
      field_simp
      ring
    have e2 : 0 ≤ ((k : ℝ) + 2) * (k + 3) / 6 * (x - a) ^ 3 / x ^ 2 * ((((k + 1 : ℕ) : ℝ) + 1) * m) := by positivity
    have e3 : (x : ℝ) * ((((k + 1 : ℕ) : ℝ) + 1) * x ^ (k + 1 + 2) + (((k + 1 : ℕ) : ℝ) + 3) * m)
        - a * ((((k + 1 : ℕ) : ℝ) + 3) * x ^ (k + 1 + 2) + (((k + 1 : ℕ) : ℝ) + 1) * m)
        = (((k + 1 : ℕ) : ℝ) + 1) * x ^ (k + 1 + 3) - (((k + 1 : ℕ) : ℝ) + 3) * a * x ^ (k + 1 + 2)
          + (((k + 1 : ℕ) : ℝ) + 3) * a ^ (k + 1 + 2) * x - (((k + 1 : ℕ) : ℝ) + 1) * a ^ (k + 1 + 3) := by
      rw [← ham]; ring
    have e4 : (a + ((k : ℝ) + 2) * (k + 3) / 6 * (x - a) ^ 3 / x ^ 2) *
        ((((k + 1 : ℕ) : ℝ) + 3) * x ^ (k + 1 + 2) + (((k + 1 : ℕ) : ℝ) + 1) * m)
        = a * ((((k + 1 : ℕ) : ℝ) + 3) * x ^ (k + 1 + 2) + (((k + 1 : ℕ) : ℝ) + 1) * m)
          + ((k : ℝ) + 2) * (k + 3) / 6 * (x - a) ^ 3 / x ^ 2 * ((((k + 1 : ℕ) : ℝ) + 3) * x ^ (k + 1 + 2))
          + ((k : ℝ) + 2) * (k + 3) / 6 * (x - a) ^ 3 / x ^ 2 * ((((k + 1 : ℕ) : ℝ) + 1) * m) := by ring
    rw [e4, e1]
    linarith
  have h1' := h1.trans h3
  linarith

/-- Far from the root the step takes off a fixed proportion. -/
theorem halley_linear (k m x : Nat) (hm : 0 < m) (h : 2 * m ≤ x ^ (k + 3)) :
    (halleyStep (k + 3) m x : ℝ) ≤ x * (1 - 2 / (3 * (k + 3) + 1)) := by
  refine (halleyStep_le (k + 1) m x).trans ?_
  have hm' : (0 : ℝ) < m := by exact_mod_cast hm
  have h' : (2 : ℝ) * m ≤ x ^ (k + 1 + 2) := by exact_mod_cast h
  have hX : (0 : ℝ) < (x : ℝ) ^ (k + 1 + 2) := by linarith
  rw [mul_div_assoc]
  refine mul_le_mul_of_nonneg_left ?_ (by positivity)
  rw [div_le_iff₀ (by positivity)]
  push_cast
  generalize (x : ℝ) ^ (k + 1 + 2) = X at h' hX
  have hk : (0 : ℝ) ≤ k := by positivity
  have e : (1 - 2 / (3 * ((k : ℝ) + 3) + 1)) * ((k + 1 + 3) * X + (k + 1 + 1) * m)
      - ((k + 1 + 1) * X + (k + 1 + 3) * m) = (4 * k + 12) / (3 * (k + 3) + 1) * (X - 2 * m) := by
    field_simp
    ring
  have : 0 ≤ (4 * (k : ℝ) + 12) / (3 * (k + 3) + 1) * (X - 2 * m) :=
    mul_nonneg (by positivity) (by linarith)
  linarith

theorem halley_continue (k m x : Nat) (hx : 0 < x) (h : ¬ halleyStep (k + 2) m x ≥ x) : m < x ^ (k + 2) := by
  by_contra hc
  push Not at hc
  apply h
  unfold halleyStep
  rw [halley_den, show k + 2 - 1 = k + 1 by omega, show k + 2 + 1 = k + 3 by omega]
  have hD : 0 < (k + 3) * x ^ (k + 2) + (k + 1) * m := by positivity
  rw [ge_iff_le, Nat.le_div_iff_mul_le hD]
  refine Nat.mul_le_mul_left _ ?_
  nlinarith

theorem halley_stop (n m x r : Nat) (hn : 2 ≤ n) (hm : 0 < m) (hr : r ^ n ≤ m) (hr0 : 0 < r) (hge : r ≤ x) (hle : x ≤ r + 1) :
    (halleyLoopC n m x).2 ≤ 2 := by
  have hs : r ≤ halleyStep n m x := halley_step_ge n m x r hn hm hr hge
  rw [halleyLoopC_eq]
  split
  · dsimp only; omega
  · have hy : halleyStep n m x = r := by omega
    have hs' : r ≤ halleyStep n m r := halley_step_ge n m r r hn hm hr le_rfl
    rw [hy, halleyLoopC_eq, if_pos hs']

/-- The cubic phase. -/
theorem halley_rounds (k m r : Nat) (hm : 0 < m) (hr : r ^ (k + 3) ≤ m) (hr' : m < (r + 1) ^ (k + 3)) (hr0 : 0 < r)
    (a : ℝ) (ha : 0 < a) (ham : a ^ (k + 3) = m) (K j x : Nat) (hge : r ≤ x)
    (hxa : (x : ℝ) ≤ a + 2 * a / (k + 3) / 2 ^ 3 ^ j) (hK : 2 * a / (k + 3) ≤ 2 ^ 3 ^ (j + K)) :
    (halleyLoopC (k + 3) m x).2 ≤ K + 2 := by
  induction K generalizing j x with
  | zero =>
    rw [Nat.add_zero] at hK
    have h1 : 2 * a / (k + 3) / 2 ^ 3 ^ j ≤ 1 := by rw [div_le_one (by positivity)]; exact hK
    refine halley_stop (k + 3) m x r (by omega) hm hr hr0 hge ?_
    have h2 : (a : ℝ) < (r + 1 : ℕ) := by
      refine lt_of_pow_lt_pow_left₀ (k + 3) (by positivity) ?_
      rw [ham]; exact_mod_cast hr'
    have h5 : (x : ℝ) < ((r + 1 + 1 : ℕ) : ℝ) := by push_cast at h2 ⊢; linarith
    have : x < r + 1 + 1 := by exact_mod_cast h5
    omega
  | succ K ih =>
    rw [halleyLoopC_eq]
    split
    · dsimp only; omega
    · rename_i hc
      have hx : 0 < x := by omega
      have hs : r ≤ halleyStep (k + 3) m x := halley_step_ge (k + 3) m x r (by omega) hm hr hge
      have hlt := halley_continue (k + 1) m x hx hc
      have hax : a < x := by
        refine lt_of_pow_lt_pow_left₀ (k + 3) (by positivity) ?_
        rw [ham]; exact_mod_cast hlt
      have hq := halley_cubic k m x hm hx a ha.le hax.le ham
      have := ih (j + 1) (halleyStep (k + 3) m x) hs (by
        have e : (2 : ℝ) ^ 3 ^ (j + 1) = (2 ^ 3 ^ j) ^ 3 := by rw [pow_succ, pow_mul]
        have h9 : ((x : ℝ) - a) ^ 3 ≤ (2 * a / (k + 3) / 2 ^ 3 ^ j) ^ 3 := by
          refine pow_le_pow_left₀ (by linarith) (by linarith) 3
        have h10 : ((k : ℝ) + 2) * (k + 3) / 6 * (x - a) ^ 3 / x ^ 2
            ≤ (k + 2) * (k + 3) / 6 * (2 * a / (k + 3) / 2 ^ 3 ^ j) ^ 3 / a ^ 2 := by
          refine div_le_div₀ (by positivity) (mul_le_mul_of_nonneg_left h9 (by positivity)) (by positivity) ?_
          exact pow_le_pow_left₀ ha.le hax.le 2
        have h11 : ((k : ℝ) + 2) * (k + 3) / 6 * (2 * a / (k + 3) / 2 ^ 3 ^ j) ^ 3 / a ^ 2
            = (2 * (k + 2) / (3 * (k + 3))) * (2 * a / (k + 3) / 2 ^ 3 ^ (j + 1)) := by
          rw [e]; field_simp; ring
        have h12 : (2 * ((k : ℝ) + 2) / (3 * (k + 3))) * (2 * a / (k + 3) / 2 ^ 3 ^ (j + 1))
            ≤ 1 * (2 * a / (k + 3) / 2 ^ 3 ^ (j + 1)) := by
          refine mul_le_mul_of_nonneg_right ?_ (by positivity)
          rw [div_le_one (by positivity)]
          have : (0 : ℝ) ≤ k := by positivity
          linarith
        linarith) (by rw [show j + 1 + K = j + (K + 1) by omega]; exact hK)
      dsimp only
      omega

/-- The linear phase. -/
theorem halley_phases (k m r : Nat) (hm : 0 < m) (hr : r ^ (k + 3) ≤ m) (hr' : m < (r + 1) ^ (k + 3)) (hr0 : 0 < r)
    (a : ℝ) (ha : 0 < a) (ham : a ^ (k + 3) = m) (K : Nat) (hK : 2 * a / (k + 3) ≤ 2 ^ 3 ^ K) (j x : Nat) (hge : r ≤ x)
    (hxa : x * (1 - 2 / (3 * (k + 3) + 1) : ℝ) ^ j ≤ a * (1 + 1 / (k + 3))) :
    (halleyLoopC (k + 3) m x).2 ≤ j + (K + 2) := by
  have close : ∀ x : Nat, r ≤ x → (x : ℝ) ≤ a * (1 + 1 / (k + 3)) → (halleyLoopC (k + 3) m x).2 ≤ K + 2 := by
    intro x hge h
    refine halley_rounds k m r hm hr hr' hr0 a ha ham K 0 x hge ?_ (by simpa using hK)
    have : a + 2 * a / (k + 3) / 2 ^ 3 ^ 0 = a * (1 + 1 / (k + 3)) := by norm_num; ring
    rw [this]; exact h
  induction j generalizing x with
  | zero =>
    rw [Nat.zero_add]
    exact close x hge (by simpa using hxa)
  | succ j ih =>
    by_cases hcl : (x : ℝ) ≤ a * (1 + 1 / (k + 3))
    · have := close x hge hcl; omega
    · push Not at hcl
      rw [halleyLoopC_eq]
      split
      · dsimp only; omega
      · have hs : r ≤ halleyStep (k + 3) m x := halley_step_ge (k + 3) m x r (by omega) hm hr hge
        have h2m : 2 * m ≤ x ^ (k + 3) := by
          have h1 : (a * (1 + 1 / (k + 3))) ^ (k + 3) ≤ (x : ℝ) ^ (k + 3) := pow_le_pow_left₀ (by positivity) hcl.le _
          rw [mul_pow, ham] at h1
          have h2 := one_add_mul_le_pow (a := 1 / ((k : ℝ) + 3)) (by
            have : 0 ≤ 1 / ((k : ℝ) + 3) := by positivity
            linarith) (k + 3)
          have h3 : (1 : ℝ) + ((k + 3 : ℕ) : ℝ) * (1 / ((k : ℝ) + 3)) = 2 := by
            push_cast; field_simp; norm_num
          rw [h3] at h2
          have h4 : (m : ℝ) * 2 ≤ x ^ (k + 3) := (mul_le_mul_of_nonneg_left h2 (by positivity)).trans h1
          have h5 : m * 2 ≤ x ^ (k + 3) := by exact_mod_cast h4
          omega
        have hl := halley_linear k m x hm h2m
        have hq0 : (0 : ℝ) ≤ 1 - 2 / (3 * (k + 3) + 1) := by
          rw [sub_nonneg, div_le_one (by positivity)]
          have : (0 : ℝ) ≤ k := by positivity
          linarith
        have := ih (halleyStep (k + 3) m x) hs (by
          refine le_trans ?_ hxa
          rw [pow_succ' (1 - 2 / (3 * ((k : ℝ) + 3) + 1)) j, ← mul_assoc]
          exact mul_le_mul_of_nonneg_right hl (pow_nonneg hq0 _))
        dsimp only
        omega

theorem halley_total (k m : Nat) (hsz : k + 3 < m.size) :
    (halleyLoopC (k + 3) m (2 ^ (m.size / (k + 3) + 1))).2
      ≤ 2 * (k + 3) + Nat.clog 3 (m.size / (k + 3) + 1) + 2 := by
  have hm : 0 < m := Nat.size_pos.1 (by omega)
  have hm' : (0 : ℝ) < m := by exact_mod_cast hm
  obtain ⟨a, ha0, ham⟩ : ∃ a : ℝ, 0 < a ∧ a ^ (k + 3) = m :=
    ⟨(m : ℝ) ^ ((1 : ℝ) / ((k + 3 : ℕ) : ℝ)), Real.rpow_pos_of_pos hm' _, by
      rw [← Real.rpow_natCast, ← Real.rpow_mul hm'.le, one_div_mul_cancel (by positivity), Real.rpow_one]⟩
  -- the integer root
  obtain ⟨r, hr, hr'⟩ : ∃ r : ℕ, r ^ (k + 3) ≤ m ∧ m < (r + 1) ^ (k + 3) := by
    refine ⟨⌊a⌋₊, ?_, ?_⟩
    · have : ((⌊a⌋₊ : ℕ) : ℝ) ^ (k + 3) ≤ m := by
        rw [← ham]; exact pow_le_pow_left₀ (by positivity) (Nat.floor_le ha0.le) _
      exact_mod_cast this
    · have : (m : ℝ) < ((⌊a⌋₊ + 1 : ℕ) : ℝ) ^ (k + 3) := by
        rw [← ham]
        refine pow_lt_pow_left₀ ?_ ha0.le (by omega)
        push_cast; exact Nat.lt_floor_add_one a
      exact_mod_cast this
  have hr0 : 0 < r := by
    by_contra h
    have : r = 0 := by omega
    subst this
    simp at hr'
    omega
  have hx0 : m < (2 ^ (m.size / (k + 3) + 1)) ^ (k + 3) := halley_start (k + 3) m (by omega)
  have hge : r ≤ 2 ^ (m.size / (k + 3) + 1) := by
    refine le_of_lt (lt_of_pow_lt_pow_left₀ (k + 3) (Nat.zero_le _) (lt_of_le_of_lt hr hx0))
  have hK : 2 * a / (k + 3) ≤ 2 ^ 3 ^ Nat.clog 3 (m.size / (k + 3) + 1) := by
    have h1 : a < ((2 ^ (m.size / (k + 3) + 1) : ℕ) : ℝ) := by
      refine lt_of_pow_lt_pow_left₀ (k + 3) (by positivity) ?_
      rw [ham]; exact_mod_cast hx0
    have h2 : m.size / (k + 3) + 1 ≤ 3 ^ Nat.clog 3 (m.size / (k + 3) + 1) := Nat.le_pow_clog (by norm_num) _
    have h3 : ((2 ^ (m.size / (k + 3) + 1) : ℕ) : ℝ) ≤ 2 ^ 3 ^ Nat.clog 3 (m.size / (k + 3) + 1) := by
      push_cast
      exact pow_le_pow_right₀ (by norm_num) h2
    refine le_trans ?_ (h1.le.trans h3)
    rw [div_le_iff₀ (by positivity)]
    have : (0 : ℝ) ≤ k := by positivity
    nlinarith
  have hfar : ((2 ^ (m.size / (k + 3) + 1) : ℕ) : ℝ) * (1 - 2 / (3 * (k + 3) + 1) : ℝ) ^ (2 * (k + 3)) ≤ a * (1 + 1 / (k + 3)) := by
    have hk : (0 : ℝ) ≤ k := by positivity
    have h1 : (2 ^ (m.size / (k + 3) + 1)) ^ (k + 3) ≤ 2 ^ (k + 4) * m := by
      have h2 := pow_size_pred_le hm
      have h3 : (2 ^ (m.size / (k + 3) + 1)) ^ (k + 3) ≤ 2 ^ (k + 4 + (m.size - 1)) := by
        rw [← pow_mul]
        refine Nat.pow_le_pow_right (by norm_num) ?_
        have := Nat.div_mul_le_self m.size (k + 3)
        rw [Nat.add_mul]
        omega
      rw [pow_add 2 (k + 4)] at h3
      exact h3.trans (Nat.mul_le_mul_left _ h2)
    have hq0 : (0 : ℝ) ≤ 1 - 2 / (3 * (k + 3) + 1) := by
      rw [sub_nonneg, div_le_one (by positivity)]
      linarith
    have h4 : (1 - 2 / (3 * (k + 3) + 1) : ℝ) ≤ Real.exp (-(2 / (3 * (k + 3) + 1))) := by
      have := Real.add_one_le_exp (-(2 / (3 * ((k : ℝ) + 3) + 1)))
      linarith
    have h5 : a ≤ a * (1 + 1 / (k + 3)) := by
      have : 0 ≤ a * (1 / ((k : ℝ) + 3)) := by positivity
      linarith
    refine le_trans ?_ h5
    refine le_of_pow_le_pow_left₀ (n := k + 3) (by omega) ha0.le ?_
    rw [mul_pow, ham]
    have h6 : (((2 ^ (m.size / (k + 3) + 1) : ℕ) : ℝ)) ^ (k + 3) ≤ 2 ^ (k + 4) * m := by exact_mod_cast h1
    have h7 : ((1 - 2 / (3 * (k + 3) + 1) : ℝ) ^ (2 * (k + 3))) ^ (k + 3) ≤ (2 ^ (k + 4))⁻¹ := by
      rw [← pow_mul]
      refine (pow_le_pow_left₀ hq0 h4 _).trans ?_
      rw [← Real.exp_nat_mul, ← Real.exp_log (show (0 : ℝ) < (2 ^ (k + 4))⁻¹ by positivity), Real.exp_le_exp, Real.log_inv,
        Real.log_pow]
      push_cast
      have hl := Real.log_two_lt_d9
      have h8 : ((k : ℝ) + 4) * Real.log 2 ≤ (k + 4) * 0.6931471808 := mul_le_mul_of_nonneg_left hl.le (by positivity)
      have h9 : ((k : ℝ) + 4) * 0.6931471808 ≤ 2 * (k + 3) * (k + 3) * (2 / (3 * (k + 3) + 1)) := by
        rw [mul_div_assoc', le_div_iff₀ (by positivity)]
        nlinarith
      linarith
    calc (((2 ^ (m.size / (k + 3) + 1) : ℕ) : ℝ)) ^ (k + 3) * ((1 - 2 / (3 * (k + 3) + 1) : ℝ) ^ (2 * (k + 3))) ^ (k + 3)
        ≤ (2 ^ (k + 4) * m) * (2 ^ (k + 4))⁻¹ :=
          mul_le_mul h6 h7 (pow_nonneg (pow_nonneg hq0 _) _) (by positivity)
      _ = m := by field_simp
  have := halley_phases k m r hm hr hr' hr0 a ha0 ham _ hK (2 * (k + 3)) _ hge hfar
  omega

end Rosemary.RootCosts
