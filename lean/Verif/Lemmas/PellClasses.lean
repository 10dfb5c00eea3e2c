import Mathlib.Tactic.Linarith
import Mathlib.Tactic.LinearCombination
import Mathlib.Algebra.Order.Ring.Int
import Mathlib.Tactic.Ring
import Mathlib.Tactic.Positivity
import Mathlib.Logic.Function.Iterate
import Mathlib.Data.List.Nodup

/-!
# The classes of solutions of `x² - D y² = N`

`(u, v)` is the least positive solution for `N = 1`.  A base solution is one that is not the product of the fundamental
unit with a solution `0 ≤ x`, `0 < y`.
-/

namespace Rosemary.PellClasses

/-- The fundamental solution. -/
structure Unit (D u v : ℤ) : Prop where
  hD : 0 < D
  hu : 1 < u
  hv : 0 < v
  norm : u * u - D * v * v = 1
  least : ∀ a b, 0 < a → 0 < b → a * a - D * b * b = 1 → u ≤ a ∧ v ≤ b

/-- Solutions with `0 ≤ x` and `0 < y`. -/
structure Sol (D N x y : ℤ) : Prop where
  hx : 0 ≤ x
  hy : 0 < y
  norm : x * x - D * y * y = N

variable {D u v N : ℤ}

/-- Solutions that are not a multiple of the unit. -/
def Base (D u v N x y : ℤ) : Prop :=
  Sol D N x y ∧ ¬ (0 ≤ x * u - D * y * v ∧ 0 < y * u - x * v)

/-- The bound on `x`. -/
def Small (u N x : ℤ) : Prop := if N > 0 then 2 * (x * x) ≤ (u + 1) * N else 2 * (x * x) ≤ (u - 1) * (-N)

/-- The two conditions under which `(x, y)` and `(-x, y)` are in the same class. -/
def Same (D N x y : ℤ) : Prop := N ∣ x * x + D * y * y ∧ N ∣ 2 * x * y

theorem lt_of_sq_lt {a b : ℤ} (hb : 0 ≤ b) (h : a * a < b * b) : a < b := by
  by_contra hc
  push Not at hc
  nlinarith

theorem le_of_sq_le {a b : ℤ} (hb : 0 ≤ b) (h : a * a ≤ b * b) : a ≤ b := by
  by_contra hc
  push Not at hc
  nlinarith

/-- The product with the unit is a solution. -/
theorem Sol.mul (hU : Unit D u v) {x y : ℤ} (h : Sol D N x y) : Sol D N (x * u + y * v * D) (x * v + y * u) := by
  obtain ⟨hD, hu, hv, hn, -⟩ := hU
  obtain ⟨hx, hy, hs⟩ := h
  refine ⟨by positivity, by positivity, ?_⟩
  linear_combination hn * (x * x - D * y * y) + hs

/-- The quotient by the unit solves the equation. -/
theorem div_norm (hU : Unit D u v) {x y : ℤ} (h : x * x - D * y * y = N) :
    (x * u - D * y * v) * (x * u - D * y * v) - D * (y * u - x * v) * (y * u - x * v) = N := by
  linear_combination hU.norm * (x * x - D * y * y) + h

theorem mul_div (hU : Unit D u v) (x y : ℤ) :
    (x * u - D * y * v) * u + (y * u - x * v) * v * D = x ∧ (x * u - D * y * v) * v + (y * u - x * v) * u = y := by
  have := hU.norm
  exact ⟨by linear_combination x * this, by linear_combination y * this⟩

theorem div_mul (hU : Unit D u v) (x y : ℤ) :
    (x * u + y * v * D) * u - D * (x * v + y * u) * v = x ∧ (x * v + y * u) * u - (x * u + y * v * D) * v = y := by
  have := hU.norm
  exact ⟨by linear_combination x * this, by linear_combination y * this⟩

section Pos

/-- For positive `N` the first component of the quotient is positive. -/
theorem div_fst_pos (hU : Unit D u v) (hN : 0 < N) {x y : ℤ} (h : Sol D N x y) : 0 < x * u - D * y * v := by
  obtain ⟨hD, hu, hv, hn, -⟩ := hU
  obtain ⟨hx, hy, hs⟩ := h
  have : D * y * v < x * u := by
    apply lt_of_sq_lt (by positivity)
    have e : (x * u) * (x * u) - (D * y * v) * (D * y * v) = N * u * u + D * y * y := by
      linear_combination (u * u) * hs + (D * y * y) * hn
    have : 0 < N * u * u + D * y * y := by positivity
    linarith
  linarith

theorem div_snd_neg_iff (hU : Unit D u v) {x y : ℤ} (h : Sol D N x y) :
    y * u < x * v ↔ x * x < N * u * u := by
  obtain ⟨hD, hu, hv, hn, -⟩ := hU
  obtain ⟨hx, hy, hs⟩ := h
  have e : D * ((x * v) * (x * v) - (y * u) * (y * u)) = N * u * u - x * x := by
    linear_combination (u * u) * hs - (x * x) * hn
  constructor
  · intro hlt
    have : (y * u) * (y * u) < (x * v) * (x * v) := mul_self_lt_mul_self (by positivity) hlt
    nlinarith
  · intro hlt
    apply lt_of_sq_lt (by positivity)
    by_contra hc
    push Not at hc
    nlinarith

/-- For negative `N` the second component of the quotient is positive. -/
theorem div_snd_pos (hU : Unit D u v) (hN : N < 0) {x y : ℤ} (h : Sol D N x y) : 0 < y * u - x * v := by
  obtain ⟨hD, hu, hv, hn, -⟩ := hU
  obtain ⟨hx, hy, hs⟩ := h
  have : x * v < y * u := by
    apply lt_of_sq_lt (by positivity)
    have e : D * ((y * u) * (y * u) - (x * v) * (x * v)) = x * x - N * u * u := by
      linear_combination (x * x) * hn - (u * u) * hs
    have h1 : 0 < -N * u * u := by
      have : 0 < -N := by omega
      positivity
    have h2 : 0 ≤ x * x := mul_self_nonneg x
    by_contra hc
    push Not at hc
    nlinarith
  linarith

theorem div_fst_neg_iff (hU : Unit D u v) {x y : ℤ} (h : Sol D N x y) :
    x * u < D * y * v ↔ x * x < -N * (u * u - 1) := by
  obtain ⟨hD, hu, hv, hn, -⟩ := hU
  obtain ⟨hx, hy, hs⟩ := h
  have e : (D * y * v) * (D * y * v) - (x * u) * (x * u) = -N * (u * u - 1) - x * x := by
    linear_combination (-(D * y * y)) * hn - (u * u - 1) * hs
  constructor
  · intro hlt
    have : (x * u) * (x * u) < (D * y * v) * (D * y * v) := mul_self_lt_mul_self (by positivity) hlt
    linarith
  · intro hlt
    apply lt_of_sq_lt (by positivity)
    linarith

end Pos

/-- A small solution is a base solution. -/
theorem small_base (hU : Unit D u v) (hN : N ≠ 0) {x y : ℤ} (h : Sol D N x y) (hs : Small u N x) : Base D u v N x y := by
  refine ⟨h, ?_⟩
  rintro ⟨h1, h2⟩
  have hu := hU.hu
  rw [Small] at hs
  by_cases hpos : N > 0
  · rw [if_pos hpos] at hs
    have : x * x < N * u * u := by nlinarith
    have := (div_snd_neg_iff hU h).2 this
    linarith
  · rw [if_neg hpos] at hs
    have hM : 0 < -N := by omega
    have : x * x < -N * (u * u - 1) := by nlinarith
    have := (div_fst_neg_iff hU h).2 this
    linarith

/-- The first component of a small solution, conjugated and multiplied by the unit; `σ` is the sign. -/
theorem conj_base (hU : Unit D u v) (hN : N ≠ 0) {x y : ℤ} (h : Sol D N x y) (hx : 0 < x) (hs : Small u N x) :
    Base D u v N (if N > 0 then x * u - D * y * v else D * y * v - x * u)
      (if N > 0 then x * v - y * u else y * u - x * v) := by
  obtain ⟨-, hb⟩ := small_base hU hN h hs
  have hnorm := div_norm hU h.norm
  by_cases hpos : N > 0
  · rw [if_pos hpos, if_pos hpos]
    have h1 := div_fst_pos hU hpos h
    have hs' := hs
    rw [Small, if_pos hpos] at hs'
    have hu := hU.hu
    have h2 := (div_snd_neg_iff hU h).2 (by nlinarith)
    refine ⟨⟨h1.le, by linarith, by linear_combination hnorm⟩, ?_⟩
    rintro ⟨-, h4⟩
    have hn := hU.norm
    have : (x * v - y * u) * u - (x * u - D * y * v) * v = -y := by linear_combination (-y) * hn
    have := h.hy
    omega
  · rw [if_neg hpos, if_neg hpos]
    have hneg : N < 0 := by omega
    have h1 := div_snd_pos hU hneg h
    have hs' := hs
    rw [Small, if_neg hpos] at hs'
    have hu := hU.hu
    have hM : 0 < -N := by omega
    have h2 := (div_fst_neg_iff hU h).2 (by nlinarith)
    refine ⟨⟨by linarith, h1, by linear_combination hnorm⟩, ?_⟩
    rintro ⟨h4, -⟩
    have hn := hU.norm
    have : (D * y * v - x * u) * u - D * (y * u - x * v) * v = -x := by linear_combination (-x) * hn
    omega

/-- The bounds on both components of a small solution. -/
theorem small_bounds (σ M : ℤ) {x y : ℤ} (hx : 2 * (x * x) ≤ (u + σ) * M) (hs : x * x - D * y * y = σ * M) :
    2 * (D * (y * y)) ≤ (u - σ) * M := by
  linarith [mul_assoc D y y]

/-- Two numbers and the product of their conjugates. -/
theorem not_small_conj (hU : Unit D u v) (σ M : ℤ) (hσ : σ = 1 ∨ σ = -1) (hM : 0 < M) {x y X Y : ℤ}
    (hx0 : 0 ≤ x) (hy0 : 0 ≤ y) (hX0 : 0 ≤ X) (hY0 : 0 ≤ Y)
    (h1 : x * x - D * y * y = σ * M) (h2 : X * X - D * Y * Y = σ * M) (hprod : x * X + D * y * Y = M * u)
    (hx : (u + σ) * M < 2 * (x * x)) : 2 * (X * X) ≤ (u + σ) * M := by
  by_contra hX
  push Not at hX
  have hu := hU.hu
  have hD := hU.hD
  have hA : 0 ≤ (u + σ) * M := by rcases hσ with rfl | rfl <;> apply mul_nonneg <;> omega
  have hB : 0 ≤ (u - σ) * M := by rcases hσ with rfl | rfl <;> apply mul_nonneg <;> omega
  have hy : (u - σ) * M < 2 * (D * (y * y)) := by linarith [mul_assoc D y y]
  have hY : (u - σ) * M < 2 * (D * (Y * Y)) := by linarith [mul_assoc D Y Y]
  have e1 : (u + σ) * M < 2 * (x * X) := by
    apply lt_of_sq_lt (by positivity)
    have : ((u + σ) * M) * ((u + σ) * M) < (2 * (x * x)) * (2 * (X * X)) := mul_lt_mul'' hx hX hA hA
    linarith [show (2 * (x * x)) * (2 * (X * X)) = (2 * (x * X)) * (2 * (x * X)) by ring]
  have e2 : (u - σ) * M < 2 * (D * y * Y) := by
    apply lt_of_sq_lt (by positivity)
    have : ((u - σ) * M) * ((u - σ) * M) < (2 * (D * (y * y))) * (2 * (D * (Y * Y))) := mul_lt_mul'' hy hY hB hB
    linarith [show (2 * (D * (y * y))) * (2 * (D * (Y * Y))) = (2 * (D * y * Y)) * (2 * (D * y * Y)) by ring]
  linarith

/-- If `(X, Y)` and its conjugate are in the same class then `(X, Y)` is at least the product of the conjugate with the
unit. -/
theorem same_le (hU : Unit D u v) (M : ℤ) (hM : 0 < M) {x y X Y : ℤ} (hx : 0 ≤ x) (hy : 0 < y) (hX : 0 < X) (hY : 0 < Y)
    (hsq : (X * X - D * Y * Y) * (X * X - D * Y * Y) = M * M) (h1 : M ∣ X * X + D * Y * Y) (h2 : M ∣ 2 * X * Y)
    (hp1 : x * X + D * y * Y = M * u) (hp2 : x * Y + y * X = M * v) (hxy : x * x - D * y * y = X * X - D * Y * Y) : x ≤ X := by
  obtain ⟨a, ha⟩ := h1
  obtain ⟨b, hb⟩ := h2
  have hD := hU.hD
  have hn := hU.norm
  have ha0 : 0 < a := by
    have : 0 < M * a := by rw [← ha]; positivity
    exact pos_of_mul_pos_right this hM.le
  have hb0 : 0 < b := by
    have : 0 < M * b := by rw [← hb]; positivity
    exact pos_of_mul_pos_right this hM.le
  have hab : a * a - D * b * b = 1 := by
    have : M * M * (a * a - D * b * b) = M * M * 1 := by
      have : M * M * (a * a - D * b * b) = (M * a) * (M * a) - D * (M * b) * (M * b) := by ring
      rw [this, ← ha, ← hb, mul_one, ← hsq]; ring
    exact mul_left_cancel₀ (mul_ne_zero (ne_of_gt hM) (ne_of_gt hM)) this
  obtain ⟨l1, l2⟩ := hU.least a b ha0 hb0 hab
  have hu := hU.hu
  have hv := hU.hv
  have c1 : 0 < a * u - D * b * v := by
    have : D * b * v < a * u := by
      apply lt_of_sq_lt (by positivity)
      have e : (a * u) * (a * u) - (D * b * v) * (D * b * v) = u * u + D * b * b := by
        linear_combination (u * u) * hab + (D * b * b) * hn
      have : 0 < u * u + D * b * b := by positivity
      linarith
    linarith
  have c2 : 0 ≤ b * u - a * v := by
    have : a * v ≤ b * u := by
      apply le_of_sq_le (by positivity)
      have e : D * ((b * u) * (b * u) - (a * v) * (a * v)) = a * a - u * u := by
        linear_combination (a * a) * hn - (u * u) * hab
      by_contra hc
      push Not at hc
      nlinarith
    linarith
  -- `X = (a u - D b v) x + D (b u - a v) y`
  have key : X = (a * u - D * b * v) * x + D * (b * u - a * v) * y := by
    apply mul_left_cancel₀ (mul_ne_zero (ne_of_gt hM) (ne_of_gt hM))
    have e : M * M * ((a * u - D * b * v) * x + D * (b * u - a * v) * y) =
        ((M * a) * (M * u) - D * (M * b) * (M * v)) * x + D * ((M * b) * (M * u) - (M * a) * (M * v)) * y := by ring
    rw [e, ← ha, ← hb, ← hp1, ← hp2, ← hsq]
    linear_combination (-(X * X * X) + D * X * Y * Y) * hxy
  rw [key]
  have : 1 * x ≤ (a * u - D * b * v) * x := mul_le_mul_of_nonneg_right (by omega) hx
  have : 0 ≤ D * (b * u - a * v) * y := by positivity
  linarith

/-- Two small solutions of which one is the product of the unit with the conjugate of the other are equal. -/
theorem small_small (hU : Unit D u v) (σ M : ℤ) {x y X Y : ℤ}
    (h1 : x * x - D * y * y = σ * M) (h2 : X * X - D * Y * Y = σ * M) (hprod : x * X + D * y * Y = M * u)
    (hx : 2 * (x * x) ≤ (u + σ) * M) (hX : 2 * (X * X) ≤ (u + σ) * M) : x = X ∧ y = Y := by
  have hD := hU.hD
  have hy := small_bounds σ M hx h1
  have hY := small_bounds σ M hX h2
  have h0 : (x - X) * (x - X) + D * ((y - Y) * (y - Y)) ≤ 0 := by
    have : (x - X) * (x - X) + D * ((y - Y) * (y - Y)) =
      x * x + X * X + D * (y * y) + D * (Y * Y) - 2 * (x * X + D * y * Y) := by ring
    rw [this, hprod]
    linarith
  have a1 := mul_self_nonneg (x - X)
  have a2 := mul_self_nonneg (y - Y)
  have a3 : 0 ≤ D * ((y - Y) * (y - Y)) := by positivity
  constructor
  · have : (x - X) * (x - X) = 0 := by linarith
    have := mul_self_eq_zero.1 this
    omega
  · have : D * ((y - Y) * (y - Y)) = 0 := by linarith
    rcases mul_eq_zero.1 this with h | h
    · omega
    · have := mul_self_eq_zero.1 h
      omega

/-- The conjugate of `(X, Y)`, up to sign, multiplied by the unit. -/
def conjMul (D u v N X Y : ℤ) : ℤ × ℤ :=
  (if N > 0 then X * u - D * Y * v else D * Y * v - X * u, if N > 0 then X * v - Y * u else Y * u - X * v)

/-- The products that connect `(x, y)` and `(X, Y)`. -/
theorem conjMul_prod {x y X Y : ℤ} (hs : X * X - D * Y * Y = N) (h : (x, y) = conjMul D u v N X Y) :
    x * X + D * y * Y = |N| * u ∧ x * Y + y * X = |N| * v := by
  rw [conjMul, Prod.mk.injEq] at h
  obtain ⟨h1, h2⟩ := h
  by_cases hpos : N > 0
  · rw [if_pos hpos] at h1 h2
    rw [abs_of_pos hpos, h1, h2, ← hs]
    exact ⟨by ring, by ring⟩
  · rw [if_neg hpos] at h1 h2
    rw [abs_of_nonpos (by omega), h1, h2, ← hs]
    exact ⟨by ring, by ring⟩

theorem small_iff (hN : N ≠ 0) (x : ℤ) : ∃ σ : ℤ, (σ = 1 ∨ σ = -1) ∧ N = σ * |N| ∧
    ∀ x, Small u N x ↔ 2 * (x * x) ≤ (u + σ) * |N| := by
  by_cases hpos : N > 0
  · refine ⟨1, Or.inl rfl, by rw [abs_of_pos hpos, one_mul], fun x => ?_⟩
    rw [Small, if_pos hpos, abs_of_pos hpos]
  · refine ⟨-1, Or.inr rfl, by rw [abs_of_nonpos (by omega)]; ring, fun x => ?_⟩
    rw [Small, if_neg hpos, abs_of_nonpos (by omega), sub_eq_add_neg]

/-- A small solution is not the multiple of the conjugate of another small solution, unless that is in the same class as
its conjugate. -/
theorem direct_ne_conj (hU : Unit D u v) (hN : N ≠ 0) {x y X Y : ℤ} (h : Sol D N x y) (hs : Small u N x)
    (h' : Sol D N X Y) (hs' : Small u N X) (he : (x, y) = conjMul D u v N X Y) : Same D N X Y := by
  obtain ⟨p1, p2⟩ := conjMul_prod h'.norm he
  obtain ⟨σ, -, hN', hsm⟩ := small_iff (u := u) hN x
  obtain ⟨e1, e2⟩ := small_small hU σ |N| (h.norm.trans hN') (h'.norm.trans hN') p1 ((hsm x).1 hs) ((hsm X).1 hs')
  rw [e1, e2] at p1 p2
  refine ⟨(abs_dvd _ _).1 ⟨u, by rw [← p1]⟩, (abs_dvd _ _).1 ⟨v, by rw [← p2]; ring⟩⟩

/-- A base solution is small or the multiple of the conjugate of a small solution. -/
theorem base_cases (hU : Unit D u v) (hN : N ≠ 0) (hnsq : ∀ k : ℤ, k * k ≠ N) {x y : ℤ} (hb : Base D u v N x y) :
    Small u N x ∨ ∃ X Y, Sol D N X Y ∧ 0 < X ∧ Small u N X ∧ ¬ Same D N X Y ∧ (x, y) = conjMul D u v N X Y := by
  obtain ⟨h, hb⟩ := hb
  by_cases hsmall : Small u N x
  · exact Or.inl hsmall
  right
  obtain ⟨σ, hσ, hN', hsm⟩ := small_iff (u := u) hN x
  have hnorm := div_norm hU h.norm
  have hUn := hU.norm
  -- the conjugate of the quotient
  obtain ⟨X, Y, hS, hX, he⟩ : ∃ X Y, Sol D N X Y ∧ 0 < X ∧ (x, y) = conjMul D u v N X Y := by
    by_cases hpos : N > 0
    · have h1 := div_fst_pos hU hpos h
      have h2 : y * u - x * v ≤ 0 := by
        by_contra hc
        exact hb ⟨h1.le, by omega⟩
      have h3 : y * u - x * v ≠ 0 := by
        intro h0
        apply hnsq (x * u - D * y * v)
        rw [h0] at hnorm
        linarith
      refine ⟨x * u - D * y * v, x * v - y * u, ⟨h1.le, by omega, by linear_combination hnorm⟩, h1, ?_⟩
      rw [conjMul, if_pos hpos, if_pos hpos, Prod.mk.injEq]
      exact ⟨by linear_combination (-x) * hUn, by linear_combination (-y) * hUn⟩
    · have h1 := div_snd_pos hU (by omega) h
      have h2 : x * u - D * y * v < 0 := by
        by_contra hc
        exact hb ⟨by omega, h1⟩
      refine ⟨D * y * v - x * u, y * u - x * v, ⟨by omega, h1, by linear_combination hnorm⟩, by omega, ?_⟩
      rw [conjMul, if_neg hpos, if_neg hpos, Prod.mk.injEq]
      exact ⟨by linear_combination (-x) * hUn, by linear_combination (-y) * hUn⟩
  obtain ⟨p1, p2⟩ := conjMul_prod hS.norm he
  have hM : 0 < |N| := abs_pos.2 hN
  have hbig : (u + σ) * |N| < 2 * (x * x) := by
    by_contra hc
    exact hsmall ((hsm x).2 (by omega))
  have hXs := not_small_conj hU σ |N| hσ hM h.hx h.hy.le hX.le hS.hy.le (h.norm.trans hN') (hS.norm.trans hN') p1 hbig
  refine ⟨X, Y, hS, hX, (hsm X).2 hXs, ?_, he⟩
  rintro ⟨s1, s2⟩
  have hle := same_le hU |N| hM h.hx h.hy hX hS.hy (by rw [hS.norm, abs_mul_abs_self])
    ((abs_dvd _ _).2 s1) ((abs_dvd _ _).2 s2) p1 p2 (h.norm.trans hS.norm.symm)
  have : x * x ≤ X * X := mul_self_le_mul_self h.hx hle
  linarith

/-- For `N = 1` the fundamental solution is the only base solution. -/
theorem base_one (hU : Unit D u v) (x y : ℤ) : Base D u v 1 x y ↔ (x, y) = (u, v) := by
  have hn := hU.norm
  constructor
  · rintro ⟨h, hb⟩
    have hx : 0 < x := by
      rcases h.hx.lt_or_eq with h0 | h0
      · exact h0
      · have := h.norm
        have hy := h.hy
        have hD := hU.hD
        rw [← h0] at this
        have : 0 < D * y * y := by positivity
        omega
    obtain ⟨l1, l2⟩ := hU.least x y hx h.hy h.norm
    have h1 := div_fst_pos hU one_pos h
    have h2 : ¬ y * u < x * v := by
      rw [div_snd_neg_iff hU h]
      have := hU.hu
      nlinarith
    have h3 : y * u - x * v = 0 := by
      by_contra hc
      exact hb ⟨h1.le, by omega⟩
    have h4 := div_norm hU h.norm
    rw [h3] at h4
    have h5 : x * u - D * y * v = 1 := by nlinarith
    obtain ⟨e1, e2⟩ := mul_div hU x y
    rw [h3, h5] at e1 e2
    rw [Prod.mk.injEq]
    constructor <;> omega
  · rintro h
    rw [Prod.mk.injEq] at h
    obtain ⟨rfl, rfl⟩ := h
    refine ⟨⟨by have := hU.hu; omega, hU.hv, hn⟩, ?_⟩
    rintro ⟨-, h2⟩
    have : y * x - x * y = 0 := by ring
    omega

/-! ## Multiples of the unit -/

/-- The product with the unit. -/
def mulU (D u v : ℤ) (s : ℤ × ℤ) : ℤ × ℤ := (s.1 * u + s.2 * v * D, s.1 * v + s.2 * u)

theorem mulU_injective (hU : Unit D u v) : Function.Injective (mulU D u v) := by
  intro s t h
  have h1 := congrArg Prod.fst h
  have h2 := congrArg Prod.snd h
  dsimp only [mulU] at h1 h2
  obtain ⟨a1, a2⟩ := div_mul hU s.1 s.2
  obtain ⟨b1, b2⟩ := div_mul hU t.1 t.2
  rw [h1, h2, b1] at a1
  rw [h1, h2, b2] at a2
  exact Prod.ext a1.symm a2.symm

theorem sol_iterate (hU : Unit D u v) {s : ℤ × ℤ} (h : Sol D N s.1 s.2) (k : ℕ) :
    Sol D N ((mulU D u v)^[k] s).1 ((mulU D u v)^[k] s).2 := by
  induction k with
  | zero => exact h
  | succ k ih => rw [Function.iterate_succ_apply']; exact ih.mul hU

theorem mulU_lt (hU : Unit D u v) {s : ℤ × ℤ} (h : Sol D N s.1 s.2) :
    s.1 < (mulU D u v s).1 ∧ s.2 < (mulU D u v s).2 := by
  obtain ⟨hD, hu, hv, -, -⟩ := hU
  obtain ⟨hx, hy, -⟩ := h
  dsimp only [mulU]
  have h1 : 0 < s.2 * v * D := by positivity
  have h2 : 0 ≤ s.1 * v := by positivity
  constructor <;> nlinarith

/-- Every solution is a multiple of a base solution. -/
theorem exists_base (hU : Unit D u v) (n : ℕ) (x y : ℤ) (hn : y.toNat ≤ n) (h : Sol D N x y) :
    ∃ b, Base D u v N b.1 b.2 ∧ ∃ k, (x, y) = (mulU D u v)^[k] b := by
  induction n generalizing x y with
  | zero => have := h.hy; omega
  | succ n ih =>
    by_cases hb : 0 ≤ x * u - D * y * v ∧ 0 < y * u - x * v
    · have hS : Sol D N (x * u - D * y * v) (y * u - x * v) := ⟨hb.1, hb.2, div_norm hU h.norm⟩
      have hm : mulU D u v (x * u - D * y * v, y * u - x * v) = (x, y) := by
        obtain ⟨e1, e2⟩ := mul_div hU x y
        rw [mulU]; dsimp only; rw [e1, e2]
      have hlt := (mulU_lt hU (s := (x * u - D * y * v, y * u - x * v)) hS).2
      rw [hm] at hlt
      dsimp only at hlt
      obtain ⟨b, hb1, k, hk⟩ := ih _ _ (by omega) hS
      exact ⟨b, hb1, k + 1, by rw [Function.iterate_succ_apply', ← hk, hm]⟩
    · exact ⟨(x, y), ⟨h, hb⟩, 0, rfl⟩

theorem base_unique_aux (hU : Unit D u v) {b b' : ℤ × ℤ} (hb : Base D u v N b.1 b.2) (hb' : Base D u v N b'.1 b'.2)
    (k : ℕ) (h : b = (mulU D u v)^[k] b') : k = 0 := by
  cases k with
  | zero => rfl
  | succ k =>
    exfalso
    rw [Function.iterate_succ_apply'] at h
    have hS := sol_iterate hU hb'.1 k
    generalize (mulU D u v)^[k] b' = c at h hS
    apply hb.2
    obtain ⟨e1, e2⟩ := div_mul hU c.1 c.2
    have h1 := congrArg Prod.fst h
    have h2 := congrArg Prod.snd h
    dsimp only [mulU] at h1 h2
    rw [h1, h2, e1, e2]
    exact ⟨hS.hx, hS.hy⟩

/-- The base solution and the exponent are unique. -/
theorem base_unique (hU : Unit D u v) {b b' : ℤ × ℤ} (hb : Base D u v N b.1 b.2) (hb' : Base D u v N b'.1 b'.2)
    (k l : ℕ) (h : (mulU D u v)^[k] b = (mulU D u v)^[l] b') : b = b' ∧ k = l := by
  rcases Nat.le_total k l with hkl | hkl
  · obtain ⟨m, rfl⟩ := Nat.exists_eq_add_of_le hkl
    rw [Function.iterate_add_apply] at h
    have h' := (mulU_injective hU).iterate k h
    have := base_unique_aux hU hb hb' m h'
    subst this
    exact ⟨h', rfl⟩
  · obtain ⟨m, rfl⟩ := Nat.exists_eq_add_of_le hkl
    rw [Function.iterate_add_apply] at h
    have h' := (mulU_injective hU).iterate l h.symm
    have := base_unique_aux hU hb' hb m h'
    subst this
    exact ⟨h'.symm, rfl⟩

end Rosemary.PellClasses
