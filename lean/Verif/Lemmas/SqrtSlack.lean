import Verif.Lemmas.Core

/-!
# When `integer_sqrt` is too large by one

The value `r` of `integer_sqrt(n)` always satisfies `r(r-1) ≤ n < (r+1)^2`.
-/

namespace Rosemary.Core

theorem floatSqrtInt_over (n : Nat) (h : n ≤ 2 ^ 60) (hlt : n.sqrt < floatSqrtInt n) :
    n.sqrt * n.sqrt + n.sqrt ≤ n := by
  rcases Nat.lt_or_ge n (2 ^ 52) with h52 | hge
  · rw [floatSqrtInt_exact n (by norm_num at h52; omega)] at hlt
    omega
  obtain ⟨b1, b2, b3⟩ := roundToDouble_bounds n
  have hsize : n.size ≤ 61 := size_le_of_lt (by norm_num at h ⊢; omega)
  have hE : 2 ^ (n.size - 53) ≤ 2 ^ 8 := Nat.pow_le_pow_right (by norm_num) (by omega)
  norm_num at hE
  have hs1 : n.sqrt * n.sqrt ≤ n := Nat.sqrt_le n
  have hsge : 2 ^ 26 ≤ n.sqrt := Nat.le_sqrt.2 (by norm_num at hge ⊢; omega)
  have hsle : n.sqrt ≤ 2 ^ 30 := by
    have : n.sqrt < 2 ^ 30 + 1 := Nat.sqrt_lt.2 (by norm_num at h ⊢; omega)
    omega
  by_contra hc
  push Not at hc
  generalize n.sqrt = s at *
  unfold floatSqrtInt at hlt
  dsimp only at hlt
  generalize hx : roundToDouble n = x at *
  have hxle : x ≤ n + 128 := by omega
  have hxs : x.sqrt < 2 ^ 31 := Nat.sqrt_lt.2 (by norm_num at h ⊢; omega)
  have hks := size_le_of_lt hxs
  generalize hk : 53 - x.sqrt.size = k at *
  have h22 : 2 ^ 22 ≤ 2 ^ k := Nat.pow_le_pow_right (by norm_num) (by omega)
  have h1 := (le_floatDiv_iff x k (s + 1) (by omega)).1 hlt
  have h2 : x * 2 ^ k ≤ (s * s + s + 128) * 2 ^ k := Nat.mul_le_mul_right _ (by omega)
  have h3 : (s + 1) * (s + 1) * 2 ^ k = (s * s + s + 128) * 2 ^ k + (s - 127) * 2 ^ k := by
    obtain ⟨u, rfl⟩ : ∃ u, s = u + 127 := ⟨s - 127, by norm_num at hsge; omega⟩
    rw [Nat.add_sub_cancel]
    ring
  have h4 : (s - 127) * 2 ^ 22 ≤ (s - 127) * 2 ^ k := Nat.mul_le_mul_left _ h22
  norm_num at h4 hsge
  omega

theorem integerSqrt_slack (N : Nat) : ∃ r, integerSqrt N = .ok r ∧ N < (r + 1) * (r + 1) ∧
    r * (r - 1) ≤ N := by
  have h0 : N.sqrt * (N.sqrt - 1) ≤ N :=
    le_trans (Nat.mul_le_mul_left _ (Nat.sub_le _ _)) (Nat.sqrt_le N)
  have key : ∃ r, integerSqrt N = .ok r ∧ N.sqrt ≤ r ∧ r ≤ N.sqrt + 1 ∧
      (N.sqrt < r → N.sqrt * N.sqrt + N.sqrt ≤ N) := by
    unfold integerSqrt
    rw [if_neg (by omega)]
    simp only [Int.toNat_natCast]
    split
    · rename_i h
      have : N = 0 ∨ N = 1 := by omega
      rcases this with rfl | rfl <;> simp
    · split
      · rename_i h
        have h : N ≤ 2 ^ 60 := by exact_mod_cast h
        obtain ⟨h1, h2, h3⟩ := floatSqrtInt_bounds N h
        exact ⟨_, rfl, h1, h2, floatSqrtInt_over N h⟩
      · rw [newtonLoop_spec N _ (by positivity) (newton_start N) (by omega)]
        simp
  obtain ⟨r, h1, h2, h3, h4⟩ := key
  refine ⟨r, h1, ?_, ?_⟩
  · have h5 := Nat.lt_succ_sqrt N
    exact lt_of_lt_of_le h5 (Nat.mul_le_mul (by omega) (by omega))
  · rcases Nat.lt_or_ge N.sqrt r with h5 | h5
    · have : r = N.sqrt + 1 := by omega
      subst this
      have := h4 h5
      rw [Nat.add_sub_cancel]
      have e : (N.sqrt + 1) * N.sqrt = N.sqrt * N.sqrt + N.sqrt := by ring
      omega
    · have : r = N.sqrt := by omega
      subst this
      exact h0

end Rosemary.Core
