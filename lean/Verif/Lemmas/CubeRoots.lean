import Verif.Lemmas.Meissel

/-!
# The three roots used by `meissel` and `lmo`
-/

namespace Rosemary.PrimeCounting

open Finset

/-- What `integer_nth_root(3, N**2)`, `integer_nth_root(3, N)` and `integer_nth_root(2, N)` satisfy. -/
structure Roots (N root t r : Nat) : Prop where
  big : 8 ≤ N
  root_lt : N * N < (root + 1) * (root + 1) * (root + 1)
  t_le : t * t * t ≤ N
  t_lt : N < (t + 1) * (t + 1) * (t + 1)
  r_le : r * (r - 1) ≤ N
  r_lt : N < (r + 1) * (r + 1)

namespace Roots

variable {N root t r : Nat}

theorem le_root (h : Roots N root t r) {y : Nat} (hy : y * y * y ≤ N * N) : y ≤ root := by
  by_contra hc
  have h1 : (root + 1) * (root + 1) * (root + 1) ≤ y * y * y :=
    Nat.mul_le_mul (Nat.mul_le_mul (by omega) (by omega)) (by omega)
  have := h.root_lt
  omega

theorem le_root_of_sq (h : Roots N root t r) {y : Nat} (hy : y * y ≤ N) : y ≤ root := by
  apply h.le_root
  rcases Nat.eq_zero_or_pos y with rfl | h0
  · simp
  · calc y * y * y ≤ y * y * (y * y) := Nat.mul_le_mul_left _ (Nat.le_mul_of_pos_left _ h0)
      _ ≤ N * N := Nat.mul_le_mul hy hy

theorem t_two (h : Roots N root t r) : 2 ≤ t := by
  by_contra hc
  have h1 : (t + 1) * (t + 1) * (t + 1) ≤ 2 * 2 * 2 :=
    Nat.mul_le_mul (Nat.mul_le_mul (by omega) (by omega)) (by omega)
  have := h.t_lt
  have := h.big
  omega

theorem sq_t_le_root (h : Roots N root t r) : t * t ≤ root := by
  apply h.le_root
  calc t * t * (t * t) * (t * t) = (t * t * t) * (t * t * t) := by ring
    _ ≤ N * N := Nat.mul_le_mul h.t_le h.t_le

theorem t_le_root (h : Roots N root t r) : t ≤ root := le_trans (Nat.le_mul_self t) h.sq_t_le_root

theorem root_two (h : Roots N root t r) : 2 ≤ root := le_trans h.t_two h.t_le_root

theorem t_le_r (h : Roots N root t r) : t ≤ r := by
  by_contra hc
  have h1 : (r + 1) * (r + 1) ≤ t * t := Nat.mul_le_mul (by omega) (by omega)
  have h2 : t * t * 1 ≤ t * t * t := Nat.mul_le_mul_left _ (by have := h.t_two; omega)
  have := h.r_lt
  have := h.t_le
  omega

theorem r_le_root (h : Roots N root t r) : r ≤ root := by
  have h2 := h.t_two
  have h3 := h.t_le_r
  obtain ⟨s, rfl⟩ : ∃ s, r = s + 2 := ⟨r - 2, by omega⟩
  rcases Nat.eq_zero_or_pos s with rfl | h0
  · exact h.root_two
  · apply h.le_root
    have h1 := h.r_le
    rw [show s + 2 - 1 = s + 1 by omega] at h1
    calc (s + 2) * (s + 2) * (s + 2) ≤ (s + 2) * (s + 2) * ((s + 1) * (s + 1)) := by
          apply Nat.mul_le_mul_left; nlinarith
      _ = (s + 2) * (s + 1) * ((s + 2) * (s + 1)) := by ring
      _ ≤ N * N := Nat.mul_le_mul h1 h1

theorem r_le_N (h : Roots N root t r) : r ≤ N := by
  have h2 := h.t_two
  have h3 := h.t_le_r
  have h1 := h.r_le
  have : r * 1 ≤ r * (r - 1) := Nat.mul_le_mul_left _ (by omega)
  omega

theorem div_le_root (h : Roots N root t r) {m : Nat} (hm : t < m) : N / m ≤ root := by
  apply h.le_root
  set y := N / m
  have hy : y * (t + 1) ≤ N := le_trans (Nat.mul_le_mul_left _ hm) (Nat.div_mul_le_self N m)
  have hN := h.big
  by_contra hc
  push Not at hc
  have h1 : y * y * y * N ≤ y * y * y * ((t + 1) * (t + 1) * (t + 1)) :=
    Nat.mul_le_mul_left _ h.t_lt.le
  have h2 : y * y * y * ((t + 1) * (t + 1) * (t + 1)) =
      (y * (t + 1)) * (y * (t + 1)) * (y * (t + 1)) := by ring
  have h3 : (y * (t + 1)) * (y * (t + 1)) * (y * (t + 1)) ≤ N * N * N :=
    Nat.mul_le_mul (Nat.mul_le_mul hy hy) hy
  have h4 : N * N * N < y * y * y * N := Nat.mul_lt_mul_of_pos_right hc (by omega)
  omega

theorem pi_t_pos (h : Roots N root t r) : 1 ≤ Nat.primeCounting t := by
  have : 0 < Nat.primeCounting t := lt_pi_iff.2 (by rw [P_zero]; exact h.t_two)
  omega

theorem t_le_N (h : Roots N root t r) : t ≤ N := le_trans h.t_le_r h.r_le_N

/-- Meissel's formula for the number of primes. -/
theorem formula (h : Roots N root t r) :
    phiN N (Nat.primeCounting t) = Nat.primeCounting N - Nat.primeCounting t + 1 +
      ∑ i ∈ Ico (Nat.primeCounting t) (Nat.primeCounting r),
        ((Nat.primeCounting (N / P i) : Int) - i) := by
  have hN := h.big
  apply phiN_meissel (by omega) (pi_mono h.t_le_r)
  · have := pi_le_iff.1 (le_refl (Nat.primeCounting t))
    exact lt_of_lt_of_le h.t_lt (Nat.mul_le_mul (Nat.mul_le_mul this this) this)
  · have := pi_le_iff.1 (le_refl (Nat.primeCounting r))
    exact lt_of_lt_of_le h.r_lt (Nat.mul_le_mul this this)
  · exact pi_mono h.r_le_N
  · intro i _ hi
    have := lt_pi_iff.1 hi
    exact le_trans (Nat.mul_le_mul this (by omega)) h.r_le

end Roots

end Rosemary.PrimeCounting
