import Verif.Lemmas.Lmo

/-!
# The nested functions of `lehmer`
-/

namespace Rosemary.PrimeCounting

open Rosemary.Sieves Rosemary.Spec Rosemary.Core Finset

/-- What the roots computed by `lehmer` satisfy. -/
structure LRoots (N root r4 r3 r2 : Nat) : Prop where
  big : 4097 ≤ N
  root_le : root ^ 4 ≤ N ^ 3
  root_lt : N ^ 3 < (root + 1) ^ 4
  r4_le : r4 ^ 4 ≤ N
  r4_lt : N < (r4 + 1) ^ 4
  r3_le : r3 ^ 3 ≤ N
  r3_lt : N < (r3 + 1) ^ 3
  r2_le : r2 * (r2 - 1) ≤ N
  r2_lt : N < (r2 + 1) * (r2 + 1)

namespace LRoots

variable {N root r4 r3 r2 : Nat}

theorem le_root (h : LRoots N root r4 r3 r2) {y : Nat} (hy : y ^ 4 ≤ N ^ 3) : y ≤ root := by
  by_contra hc
  have h1 : (root + 1) ^ 4 ≤ y ^ 4 := Nat.pow_le_pow_left (by omega) 4
  have := h.root_lt
  omega

theorem le_r2 (h : LRoots N root r4 r3 r2) {y : Nat} (hy : y * y ≤ N) : y ≤ r2 := by
  by_contra hc
  have h1 : (r2 + 1) * (r2 + 1) ≤ y * y := Nat.mul_le_mul (by omega) (by omega)
  have := h.r2_lt
  omega

theorem le_r3 (h : LRoots N root r4 r3 r2) {y : Nat} (hy : y ^ 3 ≤ N) : y ≤ r3 := by
  by_contra hc
  have h1 : (r3 + 1) ^ 3 ≤ y ^ 3 := Nat.pow_le_pow_left (by omega) 3
  have := h.r3_lt
  omega

theorem r2_ge (h : LRoots N root r4 r3 r2) : 64 ≤ r2 := h.le_r2 (by have := h.big; omega)

theorem r4_ge (h : LRoots N root r4 r3 r2) : 8 ≤ r4 := by
  by_contra hc
  have h1 : (r4 + 1) ^ 4 ≤ 8 ^ 4 := Nat.pow_le_pow_left (by omega) 4
  have := h.r4_lt
  have := h.big
  norm_num at h1
  omega

theorem r4_le_r3 (h : LRoots N root r4 r3 r2) : r4 ≤ r3 := by
  apply h.le_r3
  exact le_trans (Nat.pow_le_pow_right (by have := h.r4_ge; omega) (by norm_num)) h.r4_le

theorem r3_le_r2 (h : LRoots N root r4 r3 r2) : r3 ≤ r2 := by
  apply h.le_r2
  have h3 := h.r4_le_r3
  have h4 := h.r4_ge
  rw [← pow_two]
  exact le_trans (Nat.pow_le_pow_right (by omega) (by norm_num)) h.r3_le

theorem sq_r4_le_r2 (h : LRoots N root r4 r3 r2) : r4 * r4 ≤ r2 := by
  apply h.le_r2
  calc r4 * r4 * (r4 * r4) = r4 ^ 4 := by ring
    _ ≤ N := h.r4_le

theorem two_r2_le_root (h : LRoots N root r4 r3 r2) : 2 * (r2 + 1) ≤ root := by
  apply h.le_root
  have hN := h.big
  have h1 := h.r2_le
  have h2 := h.r2_ge
  obtain ⟨s, rfl⟩ : ∃ s, r2 = s + 1 := ⟨r2 - 1, by omega⟩
  rw [Nat.add_sub_cancel] at h1
  have h3 : (s + 1 + 1) * (s + 1 + 1) ≤ 4 * N := by nlinarith
  calc (2 * (s + 1 + 1)) ^ 4 = 16 * (((s + 1 + 1) * (s + 1 + 1)) * ((s + 1 + 1) * (s + 1 + 1))) := by ring
    _ ≤ 16 * ((4 * N) * (4 * N)) := Nat.mul_le_mul_left _ (Nat.mul_le_mul h3 h3)
    _ = 256 * (N * N) := by ring
    _ ≤ N * (N * N) := Nat.mul_le_mul_right _ (by omega)
    _ = N ^ 3 := by ring

theorem root_le_N (h : LRoots N root r4 r3 r2) : root ≤ N := by
  by_contra hc
  have h1 : (N + 1) ^ 4 ≤ root ^ 4 := Nat.pow_le_pow_left (by omega) 4
  have h2 : N ^ 3 ≤ (N + 1) ^ 3 := Nat.pow_le_pow_left (by omega) 3
  have h3 : (N + 1) ^ 3 < (N + 1) ^ 4 := Nat.pow_lt_pow_right (by have := h.big; omega) (by norm_num)
  have := h.root_le
  omega

theorem eight_root_lt (h : LRoots N root r4 r3 r2) : 8 * root < N := by
  by_contra hc
  have h1 : N ^ 4 ≤ (8 * root) ^ 4 := Nat.pow_le_pow_left (by omega) 4
  have h2 : (8 * root) ^ 4 = 4096 * root ^ 4 := by ring
  have h3 := h.root_le
  have h4 : N ^ 4 = N * N ^ 3 := by ring
  have h5 : 4097 * N ^ 3 ≤ N * N ^ 3 := Nat.mul_le_mul_right _ h.big
  have h6 : 0 < N ^ 3 := Nat.pow_pos (by have := h.big; omega)
  omega

theorem div_le_root (h : LRoots N root r4 r3 r2) {m : Nat} (hm : r4 < m) : N / m ≤ root := by
  apply h.le_root
  set y := N / m
  have hy : y * (r4 + 1) ≤ N := le_trans (Nat.mul_le_mul_left _ hm) (Nat.div_mul_le_self N m)
  have hN := h.big
  by_contra hc
  push Not at hc
  have h1 : y ^ 4 * N ≤ y ^ 4 * (r4 + 1) ^ 4 := Nat.mul_le_mul_left _ h.r4_lt.le
  have h2 : y ^ 4 * (r4 + 1) ^ 4 = (y * (r4 + 1)) ^ 4 := by ring
  have h3 : (y * (r4 + 1)) ^ 4 ≤ N ^ 4 := Nat.pow_le_pow_left hy 4
  have h4 : N ^ 3 * N < y ^ 4 * N := Nat.mul_lt_mul_of_pos_right hc (by omega)
  have h5 : N ^ 4 = N ^ 3 * N := by ring
  omega

theorem div_mul_le_r2 (h : LRoots N root r4 r3 r2) {m k : Nat} (hm : r4 < m) (hk : r4 < k) :
    N / (m * k) ≤ r2 := by
  apply h.le_r2
  set y := N / (m * k)
  have h0 : (r4 + 1) * (r4 + 1) ≤ m * k := Nat.mul_le_mul hm hk
  have hy : y * ((r4 + 1) * (r4 + 1)) ≤ N := le_trans (Nat.mul_le_mul_left _ h0) (Nat.div_mul_le_self N _)
  have h1 := h.r4_lt
  by_contra hc
  push Not at hc
  have h2 : y < (r4 + 1) * (r4 + 1) := by
    by_contra h3
    have := Nat.mul_le_mul_right ((r4 + 1) * (r4 + 1)) (Nat.le_of_not_lt h3)
    have e : (r4 + 1) * (r4 + 1) * ((r4 + 1) * (r4 + 1)) = (r4 + 1) ^ 4 := by ring
    omega
  have := Nat.mul_le_mul_left y h2.le
  omega

theorem fsqrt_le (h : LRoots N root r4 r3 r2) {f : Nat → Nat} (hf : FloorSqrt f N) {x : Nat} (hx : x ≤ N) :
    f x ≤ r2 := h.le_r2 (le_trans (hf x hx).1 hx)

end LRoots

/-- The last prime of the list. -/
noncomputable def lastP (root : Nat) : Nat := P (Nat.primeCounting root - 1)

theorem getLast_primesUpTo {root : Nat} (h : 2 ≤ root) : (primesUpTo root).getLast? = some (lastP root) := by
  have h0 : 0 < Nat.primeCounting root := lt_pi_iff.2 (by rw [P_zero]; exact h)
  have hlen : (primesUpTo root).length = Nat.primeCounting root := by rw [primesUpTo_eq]; simp
  rw [List.getLast?_eq_getElem?, hlen, primesUpTo_get (by omega)]
  rfl

theorem lastP_le {root : Nat} (h : 2 ≤ root) : lastP root ≤ root := by
  have h0 : 0 < Nat.primeCounting root := lt_pi_iff.2 (by rw [P_zero]; exact h)
  exact lt_pi_iff.1 (by omega)

/-- What the recursion computes on the arguments where the shortcut is sound: the number of integers free of
the first primes or, by the shortcut, `pi(x) - a + 1`. -/
noncomputable def lehV (f : Nat → Nat) (root x a : Nat) : Int :=
  if 8 ≤ a ∧ Nat.primeCounting (f x) ≤ a ∧ x < lastP root then (Nat.primeCounting x : Int) - a + 1
  else phiN x a

/-- What the recursion computes. -/
noncomputable def lehW (f : Nat → Nat) (root A x a : Nat) : Int :=
  if x < lastP root ∨ a ≤ A ∨ a ≤ 7 then lehV f root x a
  else ((x + 1) / 2 : Nat) - ∑ j ∈ (Ico 1 a).filter (fun j => P j ≤ x), lehV f root (x / P j) j

theorem lehV_le {f : Nat → Nat} {root x a : Nat} (hx : 1 ≤ x) : lehV f root x a ≤ phiN x a := by
  unfold lehV
  split
  · exact phiN_ge hx a
  · exact le_refl _

theorem lehV_eq {f : Nat → Nat} {N root x a : Nat} (hf : FloorSqrt f N) (hxN : x ≤ N) (hx : 1 ≤ x)
    (ha : a ≤ Nat.primeCounting x) : lehV f root x a = phiN x a := by
  unfold lehV
  split
  · rename_i h
    rw [phiN_legendre hx _ ha]
    have := pi_le_iff.1 h.2.1
    exact lt_of_lt_of_le (hf x hxN).2 (Nat.mul_le_mul this this)
  · rfl

theorem lehmerPhi_spec {f : Nat → Nat} {N root r4 r3 r2 : Nat} (h : LRoots N root r4 r3 r2)
    (hf : FloorSqrt f N) (fuel a x : Nat) (hfuel : a < fuel) (ha1 : 1 ≤ a) (hab : a ≤ Nat.primeCounting r2)
    (hx : x ≤ N) (hdom : x ≤ root ∨ a ≤ Nat.primeCounting r4)
    (memo : Memo) (hm : MemoOk (lehW f root (Nat.primeCounting r4)) memo) :
    ∃ m', lehmerPhi f (primesUpTo root) fuel x a memo = .ok (lehW f root (Nat.primeCounting r4) x a, m') ∧
      MemoOk (lehW f root (Nat.primeCounting r4)) m' := by
  have h2r := h.two_r2_le_root
  have hr2 := h.r2_ge
  have hL := lt_two_mul_P (t := root) (by omega)
  have hLr := lastP_le (root := root) (by omega)
  induction fuel generalizing a x memo with
  | zero => omega
  | succ fuel ih =>
    unfold lehmerPhi
    split
    · rename_i v hv
      exact ⟨memo, by rw [hm _ _ _ hv], hm⟩
    · by_cases h7 : a ≤ 7
      · rw [if_pos h7]
        have e : phiSmall x a = lehW f root (Nat.primeCounting r4) x a := by
          unfold lehW
          rw [if_pos (Or.inr (Or.inr h7)), lehV, if_neg (by omega), phiSmall_eq x a ha1 h7]
        rw [e]
        exact ⟨_, rfl, hm.cons x a⟩
      · rw [if_neg h7, getLast_primesUpTo (by omega)]
        dsimp only
        have hfx := h.fsqrt_le hf hx
        rw [bisect_primesUpTo (by omega : f x ≤ root)]
        by_cases hs : a ≥ Nat.primeCounting (f x) ∧ x < lastP root
        · rw [if_pos hs, bisect_primesUpTo (by omega : x ≤ root)]
          have e : (Nat.primeCounting x : Int) - a + 1 = lehW f root (Nat.primeCounting r4) x a := by
            unfold lehW
            rw [if_pos (Or.inl hs.2), lehV, if_pos ⟨by omega, hs.1, hs.2⟩]
          rw [e]
          exact ⟨_, rfl, hm.cons x a⟩
        · rw [if_neg hs]
          have hrr := pi_mono (show r2 ≤ root by omega)
          obtain ⟨m1, h1, hm1⟩ := phiLoop_spec (R := root) (lehmerPhi f (primesUpTo root) fuel)
            (lehW f root (Nat.primeCounting r4)) x (a - 1) 1 (by omega)
            (fun j hj1 hj2 _ memo hm => ih j (x / P j) (by omega) hj1 (by omega)
              (le_trans (Nat.div_le_self _ _) hx) (by
                rcases hdom with hd | hd
                · exact Or.inl (le_trans (Nat.div_le_self _ _) hd)
                · exact Or.inr (by omega)) memo hm)
            ((x + 1) / 2 : Nat) memo hm
          rw [show pyRange 1 a = List.range' 1 (a - 1) from rfl, h1]
          dsimp only
          rw [show 1 + (a - 1) = a by omega]
          have e : (((x + 1) / 2 : Nat) : Int) - ∑ j ∈ (Ico 1 a).filter (fun j => P j ≤ x),
              lehW f root (Nat.primeCounting r4) (x / P j) j = lehW f root (Nat.primeCounting r4) x a := by
            by_cases hc : x < lastP root ∨ a ≤ Nat.primeCounting r4
            · -- the recursion is exact
              have hsq : ∀ i, i < a → P i * P i ≤ x := by
                intro i hi
                by_cases hxL : x < lastP root
                · exact sq_le_of_lt_pi (s := f x) (by
                    have : ¬ a ≥ Nat.primeCounting (f x) := fun h => hs ⟨h, hxL⟩
                    omega) (hf x hx).1
                · have h3 := lt_pi_iff.1 (show i < Nat.primeCounting r4 by omega)
                  have h4 := Nat.mul_le_mul h3 h3
                  have h5 := h.sq_r4_le_r2
                  have : root < 2 * lastP root := hL
                  omega
              have e1 : (Ico 1 a).filter (fun j => P j ≤ x) = Ico 1 a := by
                refine Finset.filter_true_of_mem ?_
                intro j hj
                exact le_trans (Nat.le_mul_self _) (hsq j (mem_Ico.1 hj).2)
              have e2 : ∀ j ∈ Ico 1 a, lehW f root (Nat.primeCounting r4) (x / P j) j = phiN (x / P j) j := by
                intro j hj
                rw [mem_Ico] at hj
                have h3 : P j ≤ x / P j := by
                  rw [Nat.le_div_iff_mul_le (P_prime j).pos]; exact hsq j hj.2
                have h4 : x / P j ≤ x := Nat.div_le_self _ _
                have h5 := (P_prime j).two_le
                unfold lehW
                rw [if_pos (by omega)]
                exact lehV_eq hf (by omega) (by omega) (le_of_lt (lt_pi_iff.2 h3))
              have h4 := phiN_telescope x 1 a ha1
              rw [e1, Finset.sum_congr rfl e2, ← phiN_one, h4, add_sub_cancel_right]
              unfold lehW
              rw [if_pos (by omega), lehV, if_neg]
              rintro ⟨-, h6, h7⟩
              exact hs ⟨h6, h7⟩
            · rw [lehW, if_neg (by omega)]
              congr 1
              apply Finset.sum_congr rfl
              intro j hj
              rw [mem_filter, mem_Ico] at hj
              have h3 : x / P j < lastP root := by
                have h4 : x / P j ≤ x / 2 := Nat.div_le_div_left (P_prime j).two_le (by norm_num)
                have : root < 2 * lastP root := hL
                omega
              unfold lehW
              rw [if_pos (Or.inl h3)]
          rw [e]
          exact ⟨_, rfl, hm1.cons x a⟩

/-- The calls with second argument `b` and a small first argument. -/
theorem lehW_small {f : Nat → Nat} {N root r4 r3 r2 : Nat} (h : LRoots N root r4 r3 r2)
    (hf : FloorSqrt f N) {x : Nat} (hx : x ≤ N) (hL : x < lastP root) :
    lehW f root (Nat.primeCounting r4) x (Nat.primeCounting r2) =
      Nat.primeCounting x - Nat.primeCounting r2 + 1 := by
  have h1 := h.r2_ge
  have h2 : 7 < Nat.primeCounting r2 := lt_pi_iff.2 (by rw [P_seven]; omega)
  unfold lehW
  rw [if_pos (Or.inl hL), lehV, if_pos ⟨by omega, pi_mono (h.fsqrt_le hf hx), hL⟩]

theorem lehmerPhi2_spec {f : Nat → Nat} {N root r4 r3 r2 : Nat} (h : LRoots N root r4 r3 r2)
    (hf : FloorSqrt f N) (fuel : Nat) (hfuel : Nat.primeCounting r2 < fuel) (k i : Nat)
    (hi : Nat.primeCounting r4 ≤ i) (hik : i + k ≤ Nat.primeCounting r2) (s1 : Int)
    (memo : Memo) (hm : MemoOk (lehW f root (Nat.primeCounting r4)) memo) :
    ∃ m', lehmerPhi2 (lehmerPhi f (primesUpTo root) fuel) (primesUpTo root) N (Nat.primeCounting r2)
        (List.range' i k) s1 memo =
      .ok (s1 + ∑ j ∈ Ico i (i + k), (lehW f root (Nat.primeCounting r4) (N / P j) (Nat.primeCounting r2) +
        Nat.primeCounting r2 - 1), m') ∧ MemoOk (lehW f root (Nat.primeCounting r4)) m' := by
  have hb := pi_mono (show r2 ≤ root by have := h.two_r2_le_root; omega)
  have hb1 : 0 < Nat.primeCounting r2 := lt_pi_iff.2 (by rw [P_zero]; have := h.r2_ge; omega)
  induction k generalizing i s1 memo with
  | zero => exact ⟨memo, by simp [lehmerPhi2], hm⟩
  | succ k ih =>
    rw [List.range'_succ]
    unfold lehmerPhi2
    rw [primesUpTo_get (by omega)]
    dsimp only
    obtain ⟨m1, h1, hm1⟩ := lehmerPhi_spec h hf fuel (Nat.primeCounting r2) (N / P i) hfuel hb1 (le_refl _)
      (Nat.div_le_self _ _) (Or.inl (h.div_le_root (pi_le_iff.1 hi))) memo hm
    rw [h1]
    dsimp only
    obtain ⟨m2, h2, hm2⟩ := ih (i + 1) (by omega) (by omega) (s1 + (lehW f root (Nat.primeCounting r4) (N / P i)
      (Nat.primeCounting r2) + Nat.primeCounting r2 - 1)) m1 hm1
    refine ⟨m2, ?_, hm2⟩
    rw [h2, Finset.sum_eq_sum_Ico_succ_bot (by omega : i < i + (k + 1)),
      show i + 1 + k = i + (k + 1) by omega]
    congr 2
    ring

theorem lehmerInner_spec {f : Nat → Nat} {N root r4 r3 r2 : Nat} (h : LRoots N root r4 r3 r2)
    (hf : FloorSqrt f N) (fuel : Nat) (hfuel : Nat.primeCounting r2 < fuel) (i0 : Nat)
    (hi0 : Nat.primeCounting r4 ≤ i0) (k i : Nat)
    (hi : Nat.primeCounting r4 ≤ i) (hik : i + k ≤ Nat.primeCounting root) (s2 : Int)
    (memo : Memo) (hm : MemoOk (lehW f root (Nat.primeCounting r4)) memo) :
    ∃ m', lehmerInner (lehmerPhi f (primesUpTo root) fuel) (primesUpTo root) N (Nat.primeCounting r2) (P i0)
        (List.range' i k) s2 memo =
      .ok (s2 + ∑ j ∈ Ico i (i + k), ((Nat.primeCounting (N / P i0 / P j) : Int) - j), m') ∧
        MemoOk (lehW f root (Nat.primeCounting r4)) m' := by
  have hb1 : 0 < Nat.primeCounting r2 := lt_pi_iff.2 (by rw [P_zero]; have := h.r2_ge; omega)
  have h2r := h.two_r2_le_root
  have hL : root < 2 * lastP root := lt_two_mul_P (t := root) (by omega)
  induction k generalizing i s2 memo with
  | zero => exact ⟨memo, by simp [lehmerInner], hm⟩
  | succ k ih =>
    rw [List.range'_succ]
    unfold lehmerInner
    rw [primesUpTo_get (by omega)]
    dsimp only
    have hle := h.div_mul_le_r2 (pi_le_iff.1 hi0) (pi_le_iff.1 hi)
    obtain ⟨m1, h1, hm1⟩ := lehmerPhi_spec h hf fuel (Nat.primeCounting r2) (N / (P i0 * P i)) hfuel hb1
      (le_refl _) (Nat.div_le_self _ _) (Or.inl (by omega)) memo hm
    rw [h1]
    dsimp only
    rw [lehW_small h hf (Nat.div_le_self _ _) (by omega)]
    obtain ⟨m2, h2, hm2⟩ := ih (i + 1) (by omega) (by omega)
      (s2 + ((Nat.primeCounting (N / (P i0 * P i)) : Int) - Nat.primeCounting r2 + 1 + Nat.primeCounting r2 - 1 - i))
      m1 hm1
    refine ⟨m2, ?_, hm2⟩
    rw [h2, Finset.sum_eq_sum_Ico_succ_bot (by omega : i < i + (k + 1)),
      show i + 1 + k = i + (k + 1) by omega, Nat.div_div_eq_div_mul]
    congr 2
    ring

theorem lehmerPhi3_spec {f : Nat → Nat} {N root r4 r3 r2 : Nat} (h : LRoots N root r4 r3 r2)
    (hf : FloorSqrt f N) (fuel : Nat) (hfuel : Nat.primeCounting r2 < fuel) (k i : Nat)
    (hi : Nat.primeCounting r4 ≤ i) (hik : i + k ≤ Nat.primeCounting r3) (s2 : Int)
    (memo : Memo) (hm : MemoOk (lehW f root (Nat.primeCounting r4)) memo) :
    ∃ m', lehmerPhi3 (lehmerPhi f (primesUpTo root) fuel) (primesUpTo root) N (Nat.primeCounting r2)
        (List.range' i k) s2 memo =
      .ok (s2 + ∑ j ∈ Ico i (i + k), (phiN (N / P j) j - (Nat.primeCounting (N / P j) - j + 1)), m') ∧
        MemoOk (lehW f root (Nat.primeCounting r4)) m' := by
  have hb1 : 0 < Nat.primeCounting r2 := lt_pi_iff.2 (by rw [P_zero]; have := h.r2_ge; omega)
  have h2r := h.two_r2_le_root
  have hL : root < 2 * lastP root := lt_two_mul_P (t := root) (by omega)
  have hcr := pi_mono (show r3 ≤ root by have := h.r3_le_r2; omega)
  induction k generalizing i s2 memo with
  | zero => exact ⟨memo, by simp [lehmerPhi3], hm⟩
  | succ k ih =>
    rw [List.range'_succ]
    unfold lehmerPhi3
    rw [primesUpTo_get (by omega)]
    dsimp only
    obtain ⟨r, hr, hr1, hr2⟩ := integerSqrt_slack (N / P i)
    rw [hr]
    dsimp only
    have hp := P_prime i
    have hp4 : r4 < P i := pi_le_iff.1 hi
    have hp3 : P i ≤ r3 := lt_pi_iff.1 (by omega)
    have hcube : P i * P i * P i ≤ N := by
      have h1 := Nat.pow_le_pow_left hp3 3
      have h2 := h.r3_le
      calc P i * P i * P i = P i ^ 3 := by ring
        _ ≤ N := by omega
    have hsq : P i * P i ≤ N / P i := by
      rw [Nat.le_div_iff_mul_le hp.pos]; exact hcube
    have hPr : P i ≤ r := by
      by_contra hc
      have := Nat.mul_le_mul (show r + 1 ≤ P i by omega) (show r + 1 ≤ P i by omega)
      omega
    have hrr2 : r ≤ r2 + 1 := by
      have h3 : (r - 1) * (r - 1) ≤ N := by
        calc (r - 1) * (r - 1) ≤ r * (r - 1) := Nat.mul_le_mul_right _ (by omega)
          _ ≤ N / P i := hr2
          _ ≤ N := Nat.div_le_self _ _
      have := h.le_r2 h3
      omega
    have hrN : r ≤ N / P i := by
      have := hp.two_le
      calc r = r * 1 := (Nat.mul_one r).symm
        _ ≤ r * (r - 1) := Nat.mul_le_mul_left _ (by omega)
        _ ≤ N / P i := hr2
    obtain ⟨m1, h1, hm1⟩ := lehmerPhi_spec h hf fuel (Nat.primeCounting r2) r hfuel hb1
      (le_refl _) (le_trans hrN (Nat.div_le_self _ _)) (Or.inl (by omega)) memo hm
    rw [h1]
    dsimp only
    rw [lehW_small h hf (le_trans hrN (Nat.div_le_self _ _)) (by omega)]
    rw [show (((Nat.primeCounting r : Int) - Nat.primeCounting r2 + 1 + Nat.primeCounting r2 - 1)).toNat =
      Nat.primeCounting r by omega]
    have hib : i < Nat.primeCounting r := lt_pi_iff.2 hPr
    obtain ⟨m2, h2, hm2⟩ := lehmerInner_spec h hf fuel hfuel i hi (Nat.primeCounting r - i) i hi
      (by
        have := pi_mono (show r ≤ root by omega)
        omega) s2 m1 hm1
    rw [show pyRange i (Nat.primeCounting r) = List.range' i (Nat.primeCounting r - i) from rfl, h2]
    dsimp only
    rw [show i + (Nat.primeCounting r - i) = Nat.primeCounting r by omega]
    obtain ⟨m3, h3, hm3⟩ := ih (i + 1) (by omega) (by omega)
      (s2 + ∑ j ∈ Ico i (Nat.primeCounting r), ((Nat.primeCounting (N / P i / P j) : Int) - j)) m2 hm2
    refine ⟨m3, ?_, hm3⟩
    have hmei := phiN_meissel (x := N / P i) (a := i) (b := Nat.primeCounting r)
      (by have := hp.two_le; nlinarith) (by omega)
      (by
        rw [Nat.div_lt_iff_lt_mul hp.pos]
        have h5 := Nat.pow_le_pow_left (show r4 + 1 ≤ P i by omega) 4
        have h6 := h.r4_lt
        calc N < P i ^ 4 := by omega
          _ = _ := by ring)
      (by
        have := pi_le_iff.1 (le_refl (Nat.primeCounting r))
        exact lt_of_lt_of_le hr1 (Nat.mul_le_mul this this))
      (pi_mono hrN)
      (by
        intro j _ hj
        have := lt_pi_iff.1 hj
        exact le_trans (Nat.mul_le_mul this (by omega)) hr2)
    rw [h3, Finset.sum_eq_sum_Ico_succ_bot (by omega : i < i + (k + 1)),
      show i + 1 + k = i + (k + 1) by omega, hmei]
    congr 2
    ring

/-- Lehmer's formula. -/
theorem LRoots.formula {N root r4 r3 r2 : Nat} (h : LRoots N root r4 r3 r2) :
    (((Nat.primeCounting r2 : Int) + Nat.primeCounting r4 - 2) *
        (Nat.primeCounting r2 - Nat.primeCounting r4 + 1)).fdiv 2 + phiN N (Nat.primeCounting r4) -
      ∑ i ∈ Ico (Nat.primeCounting r4) (Nat.primeCounting r2), (Nat.primeCounting (N / P i) : Int) -
      ∑ i ∈ Ico (Nat.primeCounting r4) (Nat.primeCounting r3),
        (phiN (N / P i) i - (Nat.primeCounting (N / P i) - i + 1)) = Nat.primeCounting N := by
  have h43 := pi_mono h.r4_le_r3
  have h32 := pi_mono h.r3_le_r2
  have hN := h.big
  have h2N : r2 ≤ N := le_trans (by have := h.two_r2_le_root; omega) h.root_le_N
  have e1 : ∑ i ∈ Ico (Nat.primeCounting r4) (Nat.primeCounting r3),
        (phiN (N / P i) i - (Nat.primeCounting (N / P i) - i + 1)) =
      ∑ i ∈ Ico (Nat.primeCounting r4) (Nat.primeCounting r2),
        (phiN (N / P i) i - (Nat.primeCounting (N / P i) - i + 1)) := by
    rw [← Finset.sum_Ico_consecutive _ h43 h32, left_eq_add]
    apply Finset.sum_eq_zero
    intro i hi
    rw [mem_Ico] at hi
    have hp := P_prime i
    have h3 := pi_le_iff.1 hi.1
    have h2 := lt_pi_iff.1 hi.2
    have h5 : P i - 1 ≤ N / P i := by
      rw [Nat.le_div_iff_mul_le hp.pos, mul_comm]
      exact le_trans (Nat.mul_le_mul h2 (by omega)) h.r2_le
    have := hp.two_le
    rw [phiN_legendre (by omega), sub_self]
    · rw [Nat.div_lt_iff_lt_mul hp.pos]
      have h6 := Nat.pow_le_pow_left (show r3 + 1 ≤ P i by omega) 3
      have h7 := h.r3_lt
      calc N < P i ^ 3 := by omega
        _ = _ := by ring
    · rcases Nat.eq_zero_or_pos i with h0 | h0
      · omega
      · have : P (i - 1) < P i := P_lt.2 (by omega)
        have := lt_pi_iff.2 (show P (i - 1) ≤ N / P i by omega)
        omega
  rw [e1, phiN_telescope N _ _ (le_trans h43 h32), phiN_legendre (by omega) _ (pi_mono h2N)]
  · have e2 : ∑ i ∈ Ico (Nat.primeCounting r4) (Nat.primeCounting r2),
        (phiN (N / P i) i - ((Nat.primeCounting (N / P i) : Int) - i + 1)) =
        ∑ i ∈ Ico (Nat.primeCounting r4) (Nat.primeCounting r2), phiN (N / P i) i -
        ∑ i ∈ Ico (Nat.primeCounting r4) (Nat.primeCounting r2), (Nat.primeCounting (N / P i) : Int) +
        ∑ i ∈ Ico (Nat.primeCounting r4) (Nat.primeCounting r2), (i : Int) -
        ((Nat.primeCounting r2 : Int) - Nat.primeCounting r4) := by
      rw [← Finset.sum_sub_distrib, ← Finset.sum_add_distrib]
      have : ((Nat.primeCounting r2 : Int) - Nat.primeCounting r4) =
          ∑ i ∈ Ico (Nat.primeCounting r4) (Nat.primeCounting r2), (1 : Int) := by
        simp
        rw [Nat.cast_sub (le_trans h43 h32)]
      rw [this, ← Finset.sum_sub_distrib]
      apply Finset.sum_congr rfl
      intro i _
      ring
    rw [e2, sum_Ico_id _ _ (le_trans h43 h32)]
    generalize Nat.primeCounting r2 = b
    generalize Nat.primeCounting r4 = c
    have e7 : ((b : Int) + c - 2) * (b - c + 1) = ((b : Int) - c) * (b + c - 1) + (c - 1) * 2 := by ring
    rw [e7, Int.fdiv_eq_ediv_of_nonneg _ (by norm_num), Int.fdiv_eq_ediv_of_nonneg _ (by norm_num),
      Int.add_mul_ediv_right _ _ (by norm_num)]
    ring
  · have := pi_le_iff.1 (le_refl (Nat.primeCounting r2))
    exact lt_of_lt_of_le h.r2_lt (Nat.mul_le_mul this this)

/-- On the arguments where the shortcut is not taken although it is needed the recursion computes too much. -/
theorem lehW_bad {f : Nat → Nat} {N root r4 r3 r2 : Nat} (h : LRoots N root r4 r3 r2)
    (hf : FloorSqrt f N) {x : Nat} (hx : x ≤ root) (hL : lastP root ≤ x)
    (h42 : Nat.primeCounting r4 < Nat.primeCounting r2) :
    (Nat.primeCounting x : Int) <
      lehW f root (Nat.primeCounting r4) x (Nat.primeCounting r2) + Nat.primeCounting r2 - 1 := by
  have h2r := h.two_r2_le_root
  have hr2 := h.r2_ge
  have hLL : root < 2 * lastP root := lt_two_mul_P (t := root) (by omega)
  have hxN : x ≤ N := le_trans hx h.root_le_N
  have h8 : P 8 = 23 := P_eq (by norm_num) (by decide)
  have hb : 8 < Nat.primeCounting r2 := lt_pi_iff.2 (by rw [h8]; omega)
  have hlt := pi_le_iff.1 (le_refl (Nat.primeCounting r2))
  have hall : ∀ j, j < Nat.primeCounting r2 → P j ≤ x := by
    intro j hj
    have := lt_pi_iff.1 hj
    omega
  have hleg := phiN_legendre (x := x) (a := Nat.primeCounting r2) (by omega)
    (lt_of_lt_of_le (lt_of_le_of_lt hxN h.r2_lt) (Nat.mul_le_mul hlt hlt)) (pi_mono (by omega))
  have htel := phiN_telescope x 1 (Nat.primeCounting r2) (by omega)
  rw [phiN_one] at htel
  unfold lehW
  rw [if_neg (by omega)]
  have e1 : (Ico 1 (Nat.primeCounting r2)).filter (fun j => P j ≤ x) = Ico 1 (Nat.primeCounting r2) :=
    Finset.filter_true_of_mem (fun j hj => hall j (mem_Ico.1 hj).2)
  rw [e1]
  have hpos : ∀ j ∈ Ico 1 (Nat.primeCounting r2), 1 ≤ x / P j := by
    intro j hj
    rw [Nat.le_div_iff_mul_le (P_prime j).pos, one_mul]
    exact hall j (mem_Ico.1 hj).2
  have hsum : ∑ j ∈ Ico 1 (Nat.primeCounting r2), lehV f root (x / P j) j <
      ∑ j ∈ Ico 1 (Nat.primeCounting r2), phiN (x / P j) j := by
    apply Finset.sum_lt_sum (fun j hj => lehV_le (hpos j hj))
    refine ⟨Nat.primeCounting r2 - 1, mem_Ico.2 ⟨by omega, by omega⟩, ?_⟩
    have hj := mem_Ico.2 ⟨show 1 ≤ Nat.primeCounting r2 - 1 by omega,
      show Nat.primeCounting r2 - 1 < Nat.primeCounting r2 by omega⟩
    generalize hu : P (Nat.primeCounting r2 - 1) = u
    have hu1 : r2 < 2 * u := hu ▸ lt_two_mul_P (t := r2) (by omega)
    have hu2 : u ≤ 2 * P (Nat.primeCounting r2 - 2) := by
      obtain ⟨q, hq, h1, h2⟩ := Nat.exists_prime_lt_and_le_two_mul (P (Nat.primeCounting r2 - 2))
        (P_prime _).ne_zero
      obtain ⟨i, rfl⟩ := exists_P hq
      have h3 := P_lt.1 h1
      have := P_le.2 (show Nat.primeCounting r2 - 1 ≤ i by omega)
      omega
    have hup : 0 < u := hu ▸ (P_prime _).pos
    have hy : x / u < P (Nat.primeCounting r2 - 2) := by
      rw [Nat.div_lt_iff_lt_mul hup]
      have h1 : (r2 + 1) * (r2 + 1) ≤ (2 * u) * (2 * u) := Nat.mul_le_mul (by omega) (by omega)
      have h2 := h.r2_lt
      have h3 := h.eight_root_lt
      have h4 := Nat.mul_le_mul_right u hu2
      nlinarith
    have hpi := pi_le_iff.2 hy
    have hpos' := hpos _ hj
    rw [hu] at hpos'
    have hV : lehV f root (x / u) (Nat.primeCounting r2 - 1) ≤ 0 := by
      unfold lehV
      rw [if_pos]
      · omega
      · refine ⟨by omega, ?_, ?_⟩
        · have hxu : x / u ≤ N := le_trans (Nat.div_le_self _ _) hxN
          have h1 : f (x / u) ≤ x / u := le_trans (Nat.le_mul_self _) (hf _ hxu).1
          have := pi_mono h1
          omega
        · have h1 : x / u ≤ x / 2 := Nat.div_le_div_left (hu ▸ (P_prime _).two_le) (by norm_num)
          omega
    exact lt_of_le_of_lt hV (phiN_pos hpos' _)
  rw [hleg] at htel
  omega

end Rosemary.PrimeCounting
