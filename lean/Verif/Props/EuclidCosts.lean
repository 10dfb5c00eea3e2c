import Verif.Model.EuclidCosts
import Mathlib.Data.Nat.Fib.Basic

/-!
# C156: the work done by the Euclidean algorithms
-/

namespace Rosemary.Props
open Rosemary.Core

theorem gcdLoopRounds_result (x y : ℕ) : (gcdLoopRounds x y).1 = gcdLoop x y := by
  induction y using Nat.strongRecOn generalizing x with
  | _ y ih =>
    rw [gcdLoopRounds, gcdLoop]
    by_cases h : y = 0
    · rw [dif_pos h, dif_pos h]
    · rw [dif_neg h, dif_neg h]
      exact ih _ (Nat.mod_lt _ (Nat.pos_of_ne_zero h)) y

theorem gcdLoopRounds_pos {x y : ℕ} (h : y ≠ 0) :
    (gcdLoopRounds x y).2 = (x, y) :: (gcdLoopRounds y (x % y)).2 := by
  rw [gcdLoopRounds, dif_neg h]

theorem gcdLoopRounds_zero (x : ℕ) : (gcdLoopRounds x 0).2 = [] := by rw [gcdLoopRounds, dif_pos rfl]

/-- Lamé: `n + 1` rounds need `x ≥ F (n + 3)` and `y ≥ F (n + 2)`. -/
theorem lame (n : ℕ) : ∀ x y : ℕ, y < x → n + 1 ≤ (gcdLoopRounds x y).2.length →
    Nat.fib (n + 3) ≤ x ∧ Nat.fib (n + 2) ≤ y := by
  induction n with
  | zero =>
    intro x y hxy h
    have hy : y ≠ 0 := by rintro rfl; rw [gcdLoopRounds_zero] at h; simp at h
    simp [Nat.fib]
    omega
  | succ n ih =>
    intro x y hxy h
    have hy : y ≠ 0 := by rintro rfl; rw [gcdLoopRounds_zero] at h; simp at h
    rw [gcdLoopRounds_pos hy, List.length_cons] at h
    obtain ⟨h1, h2⟩ := ih y (x % y) (Nat.mod_lt _ (Nat.pos_of_ne_zero hy)) (by omega)
    refine ⟨?_, h1⟩
    have h3 := Nat.div_add_mod x y
    have h4 : 1 ≤ x / y := (Nat.one_le_div_iff (Nat.pos_of_ne_zero hy)).2 hxy.le
    have h5 : y ≤ y * (x / y) := Nat.le_mul_of_pos_right _ h4
    rw [show n + 1 + 3 = n + 2 + 2 from rfl, Nat.fib_add_two]
    have : Nat.fib (n + 2 + 1) = Nat.fib (n + 3) := rfl
    omega

theorem fib_rounds (n : ℕ) : (gcdLoopRounds (Nat.fib (n + 3)) (Nat.fib (n + 2))).2.length = n + 1 := by
  induction n with
  | zero =>
    rw [gcdLoopRounds_pos (by decide), List.length_cons]
    rw [show Nat.fib (0 + 3) % Nat.fib (0 + 2) = 0 by decide, gcdLoopRounds_zero]
    rfl
  | succ n ih =>
    have hpos : 0 < Nat.fib (n + 1 + 2) := Nat.fib_pos.2 (by omega)
    rw [gcdLoopRounds_pos hpos.ne', List.length_cons]
    have hmod : Nat.fib (n + 1 + 3) % Nat.fib (n + 1 + 2) = Nat.fib (n + 2) := by
      rw [show n + 1 + 3 = n + 2 + 2 from rfl, Nat.fib_add_two, show n + 1 + 2 = n + 2 + 1 from rfl,
        Nat.add_mod_right, Nat.mod_eq_of_lt]
      exact Nat.fib_lt_fib_succ (by omega)
    rw [hmod]
    have := ih
    rw [show n + 1 + 2 = n + 3 from rfl]
    omega

/-- `5 n` rounds need more than `n` decimal digits. -/
theorem ten_pow_le_fib (n : ℕ) : 10 ^ n ≤ Nat.fib (5 * n + 2) := by
  induction n with
  | zero => decide
  | succ n ih =>
    have h1 : ∀ k, Nat.fib (k + 2) = Nat.fib k + Nat.fib (k + 1) := fun k => Nat.fib_add_two
    have e : 5 * (n + 1) + 2 = 5 * n + 1 + 6 := by omega
    have a2 := h1 (5 * n + 1)
    have a3 := h1 (5 * n + 2)
    have a4 := h1 (5 * n + 3)
    have a5 := h1 (5 * n + 4)
    have a6 := h1 (5 * n + 5)
    have a1 := h1 (5 * n)
    have m : Nat.fib (5 * n) ≤ Nat.fib (5 * n + 1) := Nat.fib_le_fib_succ
    rw [e, pow_succ]
    simp only [Nat.add_assoc] at *
    norm_num at *
    omega

theorem size_div_le {x y : ℕ} (hy : y ≠ 0) (hxy : y ≤ x) : (x / y).size + y.size ≤ x.size + 1 := by
  have hq : 0 < x / y := (Nat.one_le_div_iff (Nat.pos_of_ne_zero hy)).2 hxy
  have h1 : 2 ^ ((x / y).size - 1) ≤ x / y := Nat.lt_size.1 (by have := Nat.size_pos.2 hq; omega)
  have h2 : 2 ^ (y.size - 1) ≤ y := Nat.lt_size.1 (by have := Nat.size_pos.2 (Nat.pos_of_ne_zero hy); omega)
  have h3 : 2 ^ ((x / y).size - 1 + (y.size - 1)) ≤ x := by
    rw [pow_add]
    exact (Nat.mul_le_mul h1 h2).trans (Nat.div_mul_le_self x y)
  have := Nat.lt_size.2 h3
  omega

/-- The sizes of the quotients sum up to at most the size of `x` plus the number of rounds. -/
theorem sum_size_le (y : ℕ) : ∀ x, y ≤ x →
    ((gcdLoopRounds x y).2.map fun p => (p.1 / p.2).size).sum ≤ x.size + (gcdLoopRounds x y).2.length := by
  induction y using Nat.strongRecOn with
  | _ y ih =>
    intro x hxy
    by_cases h : y = 0
    · subst h; rw [gcdLoopRounds_zero]; simp
    · rw [gcdLoopRounds_pos h, List.map_cons, List.sum_cons, List.length_cons]
      have hlt := Nat.mod_lt x (Nat.pos_of_ne_zero h)
      have := ih _ hlt y hlt.le
      have h2 := size_div_le h hxy
      simp only
      omega

theorem rounds_mem (y : ℕ) : ∀ x, ∀ p ∈ (gcdLoopRounds x y).2, p.2 ≤ y := by
  induction y using Nat.strongRecOn with
  | _ y ih =>
    intro x p hp
    by_cases h : y = 0
    · subst h; rw [gcdLoopRounds_zero] at hp; simp at hp
    · rw [gcdLoopRounds_pos h] at hp
      have hlt := Nat.mod_lt x (Nat.pos_of_ne_zero h)
      rcases List.mem_cons.1 hp with rfl | hp
      · exact le_refl _
      · exact (ih _ hlt y p hp).trans hlt.le

/-- Two rounds halve the numbers. -/
theorem rounds_le_size (y : ℕ) : ∀ x, y ≤ x → (gcdLoopRounds x y).2.length ≤ 2 * y.size := by
  induction y using Nat.strongRecOn with
  | _ y ih =>
    intro x hxy
    by_cases h : y = 0
    · subst h; rw [gcdLoopRounds_zero]; simp
    · rw [gcdLoopRounds_pos h, List.length_cons]
      have hlt := Nat.mod_lt x (Nat.pos_of_ne_zero h)
      by_cases h2 : x % y = 0
      · rw [h2, gcdLoopRounds_zero]
        have := Nat.size_pos.2 (Nat.pos_of_ne_zero h)
        simp; omega
      · rw [gcdLoopRounds_pos h2, List.length_cons]
        have hlt2 := Nat.mod_lt y (Nat.pos_of_ne_zero h2)
        have i := ih (y % (x % y)) (by omega) (x % y) hlt2.le
        -- `y % (x % y)` is less than half of `y`
        have h3 : 2 * (y % (x % y)) < y := by
          have h4 := Nat.div_add_mod y (x % y)
          have h5 : 1 ≤ y / (x % y) := (Nat.one_le_div_iff (Nat.pos_of_ne_zero h2)).2 hlt.le
          have h6 : x % y ≤ (x % y) * (y / (x % y)) := Nat.le_mul_of_pos_right _ h5
          omega
        have h7 : (y % (x % y)).size + 1 ≤ y.size := by
          have hs := Nat.size_pos.2 (Nat.pos_of_ne_zero h)
          have h8 : (y % (x % y)).size ≤ y.size - 1 := by
            rw [Nat.size_le]
            have h9 := Nat.lt_size_self y
            have h10 : 2 ^ y.size = 2 * 2 ^ (y.size - 1) := by
              rw [← pow_succ']; congr 1; omega
            omega
          omega
        omega


/-! ### gcd -/

/-- C156, `gcd`: the rounds belong to the call, their number obeys Lamé's theorem (at most five for every decimal digit
of the smaller number), and the bit operations are at most three times the product of the sizes. -/
theorem C156_gcd (x y : ℤ) :
    (gcdRounds x y).1 = gcd x y ∧
      (∀ n, 1 ≤ n → n ≤ (gcdRounds x y).2.length → Nat.fib (n + 1) ≤ min x.natAbs y.natAbs) ∧
      (∀ k, min x.natAbs y.natAbs < 10 ^ k → (gcdRounds x y).2.length ≤ 5 * k) ∧
      divisionCost (gcdRounds x y).2 ≤ 3 * (x.natAbs.size * y.natAbs.size) := by
  have main : ∀ x y : ℕ, y ≤ x →
      (∀ n, 1 ≤ n → n ≤ (gcdLoopRounds x y).2.length → Nat.fib (n + 1) ≤ y) ∧
      divisionCost (gcdLoopRounds x y).2 ≤ 3 * (x.size * y.size) := by
    intro x y hxy
    constructor
    · intro n hn h
      rcases hxy.eq_or_lt with rfl | hlt
      · have hy : y ≠ 0 := by rintro rfl; rw [gcdLoopRounds_zero] at h; simp at h; omega
        rw [gcdLoopRounds_pos hy, Nat.mod_self, gcdLoopRounds_zero] at h
        simp only [List.length_cons, List.length_nil] at h
        rw [show n + 1 = 2 by omega]
        simp; omega
      · have := (lame (n - 1) x y hlt (by omega)).2
        rwa [show n - 1 + 2 = n + 1 by omega] at this
    · have h1 : divisionCost (gcdLoopRounds x y).2 ≤
          ((gcdLoopRounds x y).2.map fun p => (p.1 / p.2).size).sum * y.size := by
        have : ∀ l : List (ℕ × ℕ), (∀ p ∈ l, p.2 ≤ y) → divisionCost l ≤ (l.map fun p => (p.1 / p.2).size).sum * y.size := by
          intro l
          induction l with
          | nil => intro _; simp [divisionCost]
          | cons p l ih =>
            intro h
            have i := ih (fun q hq => h q (List.mem_cons_of_mem _ hq))
            have j := Nat.mul_le_mul_left (p.1 / p.2).size (Nat.size_le_size (h p List.mem_cons_self))
            simp only [divisionCost, List.map_cons, List.sum_cons] at i ⊢
            rw [Nat.add_mul]
            omega
        exact this _ (rounds_mem y x)
      have h2 := sum_size_le y x hxy
      have h3 := rounds_le_size y x hxy
      have h4 := Nat.size_le_size hxy
      refine h1.trans ?_
      rw [← Nat.mul_assoc]
      exact Nat.mul_le_mul_right _ (by omega)
  have five : ∀ (l m : ℕ), (∀ n, 1 ≤ n → n ≤ l → Nat.fib (n + 1) ≤ m) → ∀ k, m < 10 ^ k → l ≤ 5 * k := by
    intro l m h k hk
    by_contra hlt
    have h1 := h (5 * k + 1) (by omega) (by omega)
    have h2 := ten_pow_le_fib k
    rw [show 5 * k + 1 + 1 = 5 * k + 2 from rfl] at h1
    omega
  have step : (∀ n, 1 ≤ n → n ≤ (gcdRounds x y).2.length → Nat.fib (n + 1) ≤ min x.natAbs y.natAbs) ∧
      divisionCost (gcdRounds x y).2 ≤ 3 * (x.natAbs.size * y.natAbs.size) := by
    rw [gcdRounds]
    dsimp only
    by_cases h : x.natAbs < y.natAbs
    · rw [if_pos h, min_eq_left h.le, Nat.mul_comm x.natAbs.size]
      exact main _ _ h.le
    · rw [if_neg h, min_eq_right (not_lt.1 h)]
      exact main _ _ (not_lt.1 h)
  refine ⟨?_, step.1, five _ _ step.1, step.2⟩
  rw [gcdRounds, gcd]
  dsimp only
  split_ifs
  · rw [gcdLoopRounds_result]
  · rw [gcdLoopRounds_result]

example : gcdRounds 39064 844 = (4, [(39064, 844), (844, 240), (240, 124), (124, 116), (116, 8), (8, 4)]) := by decide +kernel

/-- C156: Lamé's bound is attained by consecutive Fibonacci numbers. -/
theorem C156_gcd_fibonacci (n : ℕ) :
    (gcdRounds (Nat.fib (n + 3)) (Nat.fib (n + 2))).2.length = n + 1 := by
  rw [gcdRounds]
  dsimp only
  have h : Nat.fib (n + 2) ≤ Nat.fib (n + 3) := Nat.fib_le_fib_succ
  rw [Int.natAbs_natCast, Int.natAbs_natCast, if_neg (not_lt.2 h), fib_rounds]

/-! ### ext_gcd -/

theorem extRounds_pos {a b : ℤ} {d : ℕ} {u v : ℤ} {w : ℕ} (h : w ≠ 0) :
    extGcdLoopRounds a b d u v w =
      ((extGcdLoopRounds u v w (a - (d / w : ℕ) * u) (b - (d / w : ℕ) * v) (d % w)).1,
        ⟨d / w, d, u, v, w⟩ ::
          (extGcdLoopRounds u v w (a - (d / w : ℕ) * u) (b - (d / w : ℕ) * v) (d % w)).2) := by
  rw [extGcdLoopRounds, dif_neg h]
  have : d - d / w * w = d % w := by
    have := Nat.div_add_mod d w
    have h2 : d / w * w = w * (d / w) := Nat.mul_comm _ _
    omega
  dsimp only
  rw [this]

theorem extRounds_zero (a b : ℤ) (d : ℕ) (u v : ℤ) : extGcdLoopRounds a b d u v 0 = ((a, b, d), []) := by
  rw [extGcdLoopRounds, dif_pos rfl]

theorem extRounds_result (w : ℕ) : ∀ (a b : ℤ) (d : ℕ) (u v : ℤ),
    (extGcdLoopRounds a b d u v w).1 = extGcdLoop a b d u v w := by
  induction w using Nat.strongRecOn with
  | _ w ih =>
    intro a b d u v
    rw [extGcdLoopRounds, extGcdLoop]
    by_cases h : w = 0
    · rw [dif_pos h, dif_pos h]
    · rw [dif_neg h, dif_neg h]
      dsimp only
      refine ih _ ?_ _ _ _ _ _
      have hm := Nat.mod_lt d (Nat.pos_of_ne_zero h)
      have := Nat.div_add_mod d w
      have h2 : d / w * w = w * (d / w) := Nat.mul_comm _ _
      omega

/-- The quotients are those of `gcd`. -/
theorem extRounds_pairs (w : ℕ) : ∀ (a b : ℤ) (d : ℕ) (u v : ℤ),
    (extGcdLoopRounds a b d u v w).2.map (fun r => (r.d, r.w)) = (gcdLoopRounds d w).2 ∧
      ∀ r ∈ (extGcdLoopRounds a b d u v w).2, r.q = r.d / r.w := by
  induction w using Nat.strongRecOn with
  | _ w ih =>
    intro a b d u v
    by_cases h : w = 0
    · subst h; rw [extRounds_zero, gcdLoopRounds_zero]; simp
    · rw [extRounds_pos h, gcdLoopRounds_pos h]
      obtain ⟨h1, h2⟩ := ih _ (Nat.mod_lt d (Nat.pos_of_ne_zero h)) u v w (a - (d / w : ℕ) * u) (b - (d / w : ℕ) * v)
      refine ⟨by rw [List.map_cons, h1], ?_⟩
      intro r hr
      rcases List.mem_cons.1 hr with rfl | hr
      · rfl
      · exact h2 r hr

theorem natAbs_sub_mul {a u : ℤ} (h : a * u ≤ 0) (q : ℕ) : (a - q * u).natAbs = a.natAbs + q * u.natAbs := by
  have key : ∀ a u : ℤ, 0 ≤ a → u ≤ 0 → (a - q * u).natAbs = a.natAbs + q * u.natAbs := by
    intro a u ha hu
    have h1 : 0 ≤ (q : ℤ) * (-u) := mul_nonneg (by positivity) (by omega)
    zify
    rw [abs_of_nonneg ha, abs_of_nonpos hu, abs_of_nonneg (by linarith)]
    ring
  rcases le_total 0 a with ha | ha
  · rcases le_total u 0 with hu | hu
    · exact key a u ha hu
    · rcases mul_eq_zero.1 (le_antisymm h (mul_nonneg ha hu)) with rfl | rfl
      · simp [Int.natAbs_mul]
      · simp
  · rcases le_total 0 u with hu | hu
    · have := key (-a) (-u) (by omega) (by omega)
      rw [Int.natAbs_neg, Int.natAbs_neg, show -a - (q : ℤ) * -u = -(a - q * u) by ring, Int.natAbs_neg] at this
      exact this
    · rcases mul_eq_zero.1 (le_antisymm h (mul_nonneg_of_nonpos_of_nonpos ha hu)) with rfl | rfl
      · simp [Int.natAbs_mul]
      · simp

/-- What the loop keeps: `|a| w + |u| d = y` and `|b| w + |v| d = x`. -/
theorem extRounds_bounds (x y : ℕ) (w : ℕ) : ∀ (a b : ℤ) (d : ℕ) (u v : ℤ), a * u ≤ 0 → b * v ≤ 0 →
    a.natAbs * w + u.natAbs * d = y → b.natAbs * w + v.natAbs * d = x →
    (∀ r ∈ (extGcdLoopRounds a b d u v w).2, r.u.natAbs * r.d ≤ y ∧ r.v.natAbs * r.d ≤ x) ∧
    (d ≠ 0 → w ≠ 0 → (extGcdLoopRounds a b d u v w).1.1.natAbs * (extGcdLoopRounds a b d u v w).1.2.2 ≤ y ∧
      (extGcdLoopRounds a b d u v w).1.2.1.natAbs * (extGcdLoopRounds a b d u v w).1.2.2 ≤ x) := by
  induction w using Nat.strongRecOn with
  | _ w ih =>
    intro a b d u v h1 h2 h3 h4
    by_cases h : w = 0
    · subst h; rw [extRounds_zero]; simp
    · rw [extRounds_pos h]
      have hlt := Nat.mod_lt d (Nat.pos_of_ne_zero h)
      have hstep : ∀ {a u : ℤ} {z : ℕ}, a * u ≤ 0 → a.natAbs * w + u.natAbs * d = z →
          u * (a - (d / w : ℕ) * u) ≤ 0 ∧ u.natAbs * (d % w) + (a - (d / w : ℕ) * u).natAbs * w = z := by
        intro a u z h5 h6
        constructor
        · have : (0 : ℤ) ≤ (d / w : ℕ) * (u * u) := mul_nonneg (by positivity) (mul_self_nonneg u)
          linarith
        · rw [natAbs_sub_mul h5, ← h6]
          have := Nat.div_add_mod d w
          calc u.natAbs * (d % w) + (a.natAbs + d / w * u.natAbs) * w
              = a.natAbs * w + u.natAbs * (w * (d / w) + d % w) := by ring
            _ = _ := by rw [this]
      obtain ⟨s1, s2⟩ := hstep h1 h3
      obtain ⟨s3, s4⟩ := hstep h2 h4
      obtain ⟨i1, i2⟩ := ih _ hlt u v w _ _ s1 s3 s2 s4
      refine ⟨?_, ?_⟩
      · intro r hr
        rcases List.mem_cons.1 hr with rfl | hr
        · simp only; omega
        · exact i1 r hr
      · intro hd _
        dsimp only
        by_cases h0 : d % w = 0
        · rw [h0, extRounds_zero]
          simp only
          have : w ≤ d := Nat.le_of_dvd (Nat.pos_of_ne_zero hd) (Nat.dvd_of_mod_eq_zero h0)
          have e1 := Nat.mul_le_mul_left u.natAbs this
          have e2 := Nat.mul_le_mul_left v.natAbs this
          omega
        · exact i2 h h0


theorem rounds_fst (y : ℕ) : ∀ x, x ≠ 0 → ∀ p ∈ (gcdLoopRounds x y).2, p.1 ≠ 0 := by
  induction y using Nat.strongRecOn with
  | _ y ih =>
    intro x hx p hp
    by_cases h : y = 0
    · subst h; rw [gcdLoopRounds_zero] at hp; simp at hp
    · rw [gcdLoopRounds_pos h] at hp
      rcases List.mem_cons.1 hp with rfl | hp
      · exact hx
      · exact ih _ (Nat.mod_lt x (Nat.pos_of_ne_zero h)) y h p hp

theorem sum_size_le_three (x y : ℕ) :
    ((gcdLoopRounds x y).2.map fun p => (p.1 / p.2).size).sum ≤ 3 * max x.size y.size := by
  rcases le_or_gt y x with h | h
  · have h1 := sum_size_le y x h
    have h2 := rounds_le_size y x h
    have h3 := le_max_left x.size y.size
    have h4 := le_max_right x.size y.size
    omega
  · rw [gcdLoopRounds_pos (by omega), List.map_cons, List.sum_cons, Nat.mod_eq_of_lt h, Nat.div_eq_of_lt h]
    have h1 := sum_size_le x y h.le
    have h2 := rounds_le_size x y h.le
    have h3 := le_max_left x.size y.size
    have h4 := le_max_right x.size y.size
    simp only [Nat.size_zero]
    omega

theorem extCost_le (x y : ℕ) :
    extGcdCost (extGcdLoopRounds 1 0 x 0 1 y).2 ≤ 12 * (max x.size y.size * max x.size y.size) := by
  by_cases hx : x = 0
  · subst hx
    by_cases hy : y = 0
    · subst hy; rw [extRounds_zero]; simp [extGcdCost]
    · rw [extRounds_pos hy, Nat.zero_mod, extRounds_zero]
      simp [extGcdCost]
  · obtain ⟨h1, -⟩ := extRounds_bounds x y y 1 0 x 0 1 (by norm_num) (by norm_num) (by simp) (by simp)
    obtain ⟨h2, h3⟩ := extRounds_pairs y 1 0 x 0 1
    have h4 := sum_size_le_three x y
    have h5 := rounds_fst y x hx
    have h6 := rounds_mem y x
    rw [← h2] at h4 h5 h6
    generalize (extGcdLoopRounds 1 0 x 0 1 y).2 = l at *
    have h7 : extGcdCost l ≤ 4 * max x.size y.size * ((l.map (fun r => (r.d, r.w))).map fun p => (p.1 / p.2).size).sum := by
      clear h4 h2
      induction l with
      | nil => simp [extGcdCost]
      | cons r l ih =>
        have i := ih (fun r hr => h1 r (List.mem_cons_of_mem _ hr)) (fun r hr => h3 r (List.mem_cons_of_mem _ hr))
          (fun p hp => h5 p (by rw [List.map_cons]; exact List.mem_cons_of_mem _ hp))
          (fun p hp => h6 p (by rw [List.map_cons]; exact List.mem_cons_of_mem _ hp))
        have d0 := h5 (r.d, r.w) (by rw [List.map_cons]; exact List.mem_cons_self)
        have w0 := h6 (r.d, r.w) (by rw [List.map_cons]; exact List.mem_cons_self)
        obtain ⟨u0, v0⟩ := h1 r List.mem_cons_self
        have q0 := h3 r List.mem_cons_self
        have u1 : r.u.natAbs ≤ y := (Nat.le_mul_of_pos_right _ (Nat.pos_of_ne_zero d0)).trans u0
        have v1 : r.v.natAbs ≤ x := (Nat.le_mul_of_pos_right _ (Nat.pos_of_ne_zero d0)).trans v0
        have hl := le_max_left x.size y.size
        have hr := le_max_right x.size y.size
        generalize max x.size y.size = s at *
        have e1 : r.q.size * r.w.size ≤ r.q.size * s := Nat.mul_le_mul_left r.q.size ((Nat.size_le_size w0).trans hr)
        have e2 := Nat.mul_le_mul_left r.q.size ((Nat.size_le_size u1).trans hr)
        have e3 := Nat.mul_le_mul_left r.q.size ((Nat.size_le_size v1).trans hl)
        simp only [extGcdCost, List.map_cons, List.sum_cons] at i ⊢
        rw [← q0, Nat.mul_add]
        rw [Nat.mul_assoc 4, Nat.mul_comm s]
        omega
    refine h7.trans ?_
    calc 4 * max x.size y.size * _ ≤ 4 * max x.size y.size * (3 * max x.size y.size) := Nat.mul_le_mul_left _ h4
      _ = _ := by ring

/-- C156, `ext_gcd`: the rounds belong to the call, their number is at most one more than five for every decimal digit of
the smaller number, the bit operations are quadratic in the size of the larger one, and the coefficients are small. -/
theorem C156_ext_gcd (x y : ℤ) :
    (extGcdRounds x y).1 = extGcd x y ∧
      (∀ k, min x.natAbs y.natAbs < 10 ^ k → (extGcdRounds x y).2.length ≤ 5 * k + 1) ∧
      extGcdCost (extGcdRounds x y).2 ≤
        12 * (max x.natAbs.size y.natAbs.size * max x.natAbs.size y.natAbs.size) ∧
      (x ≠ 0 → y ≠ 0 → |(extGcd x y).1| * (extGcd x y).2.2 ≤ |y| ∧ |(extGcd x y).2.1| * (extGcd x y).2.2 ≤ |x|) := by
  have hres : (extGcdRounds x y).1 = extGcd x y := by
    simp only [extGcdRounds, extGcd, extRounds_result]
    split_ifs <;> rfl
  have hlen : ∀ m n : ℕ, ∀ k, min m n < 10 ^ k → (extGcdLoopRounds 1 0 m 0 1 n).2.length ≤ 5 * k + 1 := by
    intro m n k hk
    have h1 : (extGcdLoopRounds 1 0 m 0 1 n).2.length = (gcdLoopRounds m n).2.length := by
      rw [← (extRounds_pairs n 1 0 m 0 1).1, List.length_map]
    rw [h1]
    have g : ∀ a b : ℕ, b ≤ a → b < 10 ^ k → (gcdLoopRounds a b).2.length ≤ 5 * k := by
      intro a b hab hb
      have := (C156_gcd a b).2.2.1 k (by rw [Int.natAbs_natCast, Int.natAbs_natCast, min_eq_right hab]; exact hb)
      rw [gcdRounds] at this
      dsimp only at this
      rw [Int.natAbs_natCast, Int.natAbs_natCast, if_neg (not_lt.2 hab)] at this
      exact this
    rcases le_or_gt n m with h | h
    · rw [min_eq_right h] at hk
      have := g m n h hk
      omega
    · rw [min_eq_left h.le] at hk
      rw [gcdLoopRounds_pos (by omega), List.length_cons, Nat.mod_eq_of_lt h]
      have := g n m h.le hk
      omega
  have hco : ∀ m n : ℕ, m ≠ 0 → n ≠ 0 → (extGcdLoop 1 0 m 0 1 n).1.natAbs * (extGcdLoop 1 0 m 0 1 n).2.2 ≤ n ∧
      (extGcdLoop 1 0 m 0 1 n).2.1.natAbs * (extGcdLoop 1 0 m 0 1 n).2.2 ≤ m := by
    intro m n hm hn
    have := (extRounds_bounds m n n 1 0 m 0 1 (by norm_num) (by norm_num) (by simp) (by simp)).2 hm hn
    rw [extRounds_result] at this
    exact this
  have hsign : ∀ z t : ℤ, |pySign z * t| = t.natAbs := by
    intro z t
    rw [pySign]
    split_ifs <;> simp
  refine ⟨hres, ?_, ?_, ?_⟩
  · intro k hk
    rw [extGcdRounds]
    by_cases h : x < y
    · simp only [h, decide_true, if_true]
      exact hlen _ _ k (by rw [min_comm]; exact hk)
    · simp only [h, decide_false, Bool.false_eq_true, if_false]
      exact hlen _ _ k hk
  · rw [extGcdRounds]
    by_cases h : x < y
    · simp only [h, decide_true, if_true]
      rw [max_comm]
      exact extCost_le _ _
    · simp only [h, decide_false, Bool.false_eq_true, if_false]
      exact extCost_le _ _
  · intro hx hy
    rw [extGcd]
    by_cases h : x < y
    · simp only [h, decide_true, if_true]
      obtain ⟨a, b⟩ := hco y.natAbs x.natAbs (Int.natAbs_ne_zero.2 hy) (Int.natAbs_ne_zero.2 hx)
      rw [hsign, hsign, Int.abs_eq_natAbs, Int.abs_eq_natAbs]
      exact ⟨by exact_mod_cast b, by exact_mod_cast a⟩
    · simp only [h, decide_false, Bool.false_eq_true, if_false]
      obtain ⟨a, b⟩ := hco x.natAbs y.natAbs (Int.natAbs_ne_zero.2 hx) (Int.natAbs_ne_zero.2 hy)
      rw [hsign, hsign, Int.abs_eq_natAbs, Int.abs_eq_natAbs]
      exact ⟨by exact_mod_cast a, by exact_mod_cast b⟩

example : extGcdRounds 12 (-18) = ((-1, -1, 6), [⟨0, 12, 0, 1, 18⟩, ⟨1, 18, 1, 0, 12⟩, ⟨2, 12, -1, 1, 6⟩]) := by decide +kernel

end Rosemary.Props
