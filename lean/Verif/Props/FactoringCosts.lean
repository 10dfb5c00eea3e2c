import Verif.Model.FactoringCosts
import Verif.Props.Fermat
import Verif.Props.Core
import Mathlib.Analysis.SpecialFunctions.Pow.Real
import Mathlib.Data.Real.Sqrt

/-!
# C158: the passes of the loops of `trial_division`, `fermat`, `lehman` and `discrete_log`
-/

namespace Rosemary.Props
open Rosemary Rosemary.Core Rosemary.Primality Rosemary.Factorization Rosemary.Zn

/-! ### trial_division -/

theorem wheelPasses_spec (n bound d : ℕ) :
    (wheelPasses n bound d).1 = wheelLoop n bound d ∧ (wheelPasses n bound d).2 ≤ bound + 1 - d := by
  fun_induction wheelLoop n bound d with
  | case1 d h hd => rw [wheelPasses, dif_pos h, if_pos hd]; exact ⟨rfl, by simp only; omega⟩
  | case2 d h hd ho =>
    rw [wheelPasses, dif_pos h, if_neg hd]
    split
    · exact ⟨rfl, by simp only; omega⟩
    · rename_i o ho'; rw [ho] at ho'; cases ho'
  | case3 d h hd o ho ih =>
    rw [wheelPasses, dif_pos h, if_neg hd]
    split
    · rename_i ho'; rw [ho] at ho'; cases ho'
    · rename_i o' ho'
      rw [ho] at ho'
      obtain rfl : o = o' := by simpa using ho'
      have := wheelOffset_pos ho
      refine ⟨ih.1, ?_⟩
      have := ih.2
      simp only
      omega
  | case4 d h => rw [wheelPasses, dif_neg h]; exact ⟨rfl, by simp only; omega⟩

theorem trialTablePasses_spec (n bound : ℕ) (T : List ℕ) : ∀ d, (d :: T).Pairwise (· < ·) →
    (trialTablePasses n bound d T).1 = trialTable n bound d T ∧ (trialTablePasses n bound d T).2 ≤ bound - d := by
  induction T with
  | nil =>
    intro d _
    rw [trialTablePasses, trialTable]
    cases ho : wheelOffset (d % 30) with
    | none => exact ⟨rfl, Nat.zero_le _⟩
    | some o =>
      have h := wheelPasses_spec n bound (d + o)
      have := wheelOffset_pos ho
      exact ⟨h.1, h.2.trans (by omega)⟩
  | cons p T ih =>
    intro d hs
    rw [List.pairwise_cons] at hs
    have hdp := hs.1 p List.mem_cons_self
    rw [trialTablePasses, trialTable]
    by_cases h1 : p > bound
    · rw [if_pos h1, if_pos h1]; exact ⟨rfl, Nat.zero_le _⟩
    · rw [if_neg h1, if_neg h1]
      by_cases h2 : n % p = 0
      · rw [if_pos h2, if_pos h2]; exact ⟨rfl, by simp only; omega⟩
      · rw [if_neg h2, if_neg h2]
        obtain ⟨i1, i2⟩ := ih p hs.2
        exact ⟨i1, by simp only; omega⟩

theorem IsPrimeTable.pairwise_zero {T : List ℕ} (hT : IsPrimeTable T) : (0 :: T).Pairwise (· < ·) := by
  rw [List.pairwise_cons]
  refine ⟨?_, hT.sorted⟩
  intro p hp
  obtain ⟨l, -, -, h⟩ := hT.last
  exact ((h p).1 hp).1.pos

/-- C158: `trial_division(n)` makes at most `sqrt(n) + 2` divisions. -/
theorem C158_trial_division (T : List ℕ) (hT : IsPrimeTable T) (n : ℕ) :
    (trialDivisionPasses T n).1 = trialDivision T n ∧ (trialDivisionPasses T n).2 ≤ Nat.sqrt n + 2 := by
  obtain ⟨s, hs, h1, h2, -⟩ := integerSqrt_nat n
  rw [trialDivisionPasses, trialDivision, hs]
  obtain ⟨a, b⟩ := trialTablePasses_spec n (s + 1) T 0 (IsPrimeTable.pairwise_zero hT)
  exact ⟨a, b.trans (by omega)⟩

/-! ### fermat -/

theorem fermatLoopPasses_spec (n k : ℕ) : ∀ a, (fermatLoopPasses n a k).1 = fermatLoop n a k ∧
    (fermatLoopPasses n a k).2 ≤ k := by
  induction k with
  | zero => intro a; exact ⟨rfl, le_refl _⟩
  | succ k ih =>
    intro a
    rw [fermatLoopPasses, fermatLoop]
    dsimp only
    cases integerSqrt ((a : ℤ) * a - n) with
    | error e => exact ⟨rfl, by simp⟩
    | ok b =>
      dsimp only
      split_ifs with h
      · exact ⟨rfl, by simp⟩
      · exact ⟨(ih (a + 1)).1, by have := (ih (a + 1)).2; simp only; omega⟩

theorem fermatLoopPasses_all (n k : ℕ) : ∀ a, n < a * a → (∀ i < k, ¬ IsSquare ((a + i) * (a + i) - n)) →
    (fermatLoopPasses n a k).2 = k := by
  induction k with
  | zero => intro a _ _; rfl
  | succ k ih =>
    intro a ha h
    rw [fermatLoopPasses]
    dsimp only
    have e : (a : ℤ) * a - n = ((a * a - n : ℕ) : ℤ) := by push_cast [Nat.cast_sub ha.le]; ring
    obtain ⟨b, hb, -⟩ := integerSqrt_nat (a * a - n)
    rw [e, hb]
    dsimp only
    have h0 := h 0 (by omega)
    rw [Nat.add_zero, ← integerSqrt_test _ b hb] at h0
    rw [if_neg (by exact_mod_cast h0)]
    simp only
    rw [ih (a + 1) (by nlinarith) (fun i hi => by
      have := h (i + 1) (by omega)
      rwa [show a + (i + 1) = a + 1 + i by omega] at this)]

/-- C158: `fermat(n)` makes at most `(n + 9)/6 - sqrt(n)` passes, and for odd primes from 5 on this many or one less: it is
linear in `n` in the worst case. -/
theorem C158_fermat (n : ℕ) :
    (fermatPasses n).1 = fermat n ∧ (fermatPasses n).2 ≤ (n + 9) / 6 - Nat.sqrt n ∧
      (n.Prime → 5 ≤ n → (n + 9) / 6 - Nat.sqrt n ≤ (fermatPasses n).2 + 1) := by
  obtain ⟨s, hs, h1, h2, -⟩ := integerSqrt_nat n
  rw [fermatPasses, fermat, hs]
  by_cases h : n % 2 = 0
  · rw [if_pos h, if_pos h]
    refine ⟨rfl, Nat.zero_le _, fun hp h5 => ?_⟩
    rcases hp.eq_one_or_self_of_dvd 2 (Nat.dvd_of_mod_eq_zero h) with h | h <;> omega
  · rw [if_neg h, if_neg h]
    dsimp only
    obtain ⟨a, b⟩ := fermatLoopPasses_spec n ((n + 9) / 6 + 1 - (s + 1)) (s + 1)
    refine ⟨a, b.trans (by omega), fun hp h5 => ?_⟩
    have hlt : n < (s + 1) * (s + 1) := by
      have h3 := Nat.lt_succ_sqrt n
      have h4 : (Nat.sqrt n + 1) * (Nat.sqrt n + 1) ≤ (s + 1) * (s + 1) := Nat.mul_le_mul (by omega) (by omega)
      simp only [Nat.succ_eq_add_one] at h3
      omega
    rw [fermatLoopPasses_all n _ (s + 1) hlt]
    · omega
    · intro i hi ⟨b, hb⟩
      have hle : n ≤ (s + 1 + i) * (s + 1 + i) := by nlinarith
      set c := s + 1 + i with hc
      have hbc : b ≤ c := by
        by_contra hlt
        have := Nat.mul_lt_mul'' (not_le.1 hlt) (not_le.1 hlt)
        omega
      have hprod : (c - b) * (c + b) = n := by
        have := Nat.mul_self_sub_mul_self_eq c b
        rw [Nat.mul_comm, ← this]
        omega
      have hc6 : c ≤ (n + 9) / 6 := by omega
      rcases (Nat.dvd_prime hp).1 (Dvd.intro _ hprod) with h7 | h7
      · rw [h7, Nat.one_mul] at hprod
        omega
      · have h8 : c + b = 1 := by
          rw [h7] at hprod
          exact Nat.eq_of_mul_eq_mul_left (by omega) (hprod.trans (Nat.mul_one n).symm)
        omega

/-! ### lehman -/

theorem lehmanAlignPasses_spec (m rm : ℕ) (f : ℕ) : ∀ a, (lehmanAlignPasses m rm f a).1 = lehmanAlign m rm f a := by
  induction f with
  | zero => intro a; rfl
  | succ f ih =>
    intro a
    rw [lehmanAlignPasses, lehmanAlign]
    split_ifs
    · exact ih (a + 1)
    · rfl

/-- At most `m - 1` increments. -/
theorem lehmanAlignPasses_le (m rm a : ℕ) (hm : 0 < m) (hrm : rm < m) : (lehmanAlignPasses m rm m a).2 ≤ m - 1 := by
  -- the increments stop at the latest at the next number with the right residue
  have key : ∀ t f a, (a + t) % m = rm → (lehmanAlignPasses m rm f a).2 ≤ t := by
    intro t
    induction t with
    | zero =>
      intro f a h
      cases f with
      | zero => exact le_refl _
      | succ f => rw [lehmanAlignPasses, if_neg (by rw [Nat.add_zero] at h; simpa using h)]
    | succ t ih =>
      intro f a h
      cases f with
      | zero => exact Nat.zero_le _
      | succ f =>
        rw [lehmanAlignPasses]
        split_ifs
        · have := ih f (a + 1) (by rw [show a + 1 + t = a + (t + 1) by omega]; exact h)
          simp only; omega
        · exact Nat.zero_le _
  have hlt := Nat.mod_lt a hm
  by_cases h : a % m ≤ rm
  · refine (key (rm - a % m) m a ?_).trans (by omega)
    have h1 := Nat.div_add_mod a m
    have h2 : a + (rm - a % m) = rm + m * (a / m) := by omega
    rw [h2, Nat.add_mul_mod_self_left, Nat.mod_eq_of_lt hrm]
  · refine (key (m + rm - a % m) m a ?_).trans (by omega)
    have h1 := Nat.div_add_mod a m
    have h2 : a + (m + rm - a % m) = rm + m * (a / m + 1) := by rw [Nat.mul_add]; omega
    rw [h2, Nat.add_mul_mod_self_left, Nat.mod_eq_of_lt hrm]

theorem lehmanInnerPasses_spec (n fkn ub m : ℕ) (hm : 0 < m) (a : ℕ) :
    (lehmanInnerPasses n fkn ub m hm a).1 = lehmanInner n fkn ub m hm a ∧
      (∀ t, t + 1 ≤ (lehmanInnerPasses n fkn ub m hm a).2 →
        fkn ≤ a * a ∧ (a + m * t) * (a + m * t) ≤ ub) := by
  fun_induction lehmanInner n fkn ub m hm a with
  | case1 a h c e he =>
    rw [lehmanInnerPasses, dif_pos h]
    dsimp only
    rw [he]
    refine ⟨rfl, fun t ht => ?_⟩
    obtain rfl : t = 0 := by simp only at ht; omega
    simpa using h
  | case2 a h c b hb hbc =>
    rw [lehmanInnerPasses, dif_pos h]
    dsimp only
    rw [hb]
    dsimp only
    rw [if_pos hbc]
    refine ⟨rfl, fun t ht => ?_⟩
    obtain rfl : t = 0 := by simp only at ht; omega
    simpa using h
  | case3 a h c b hb hbc ih =>
    rw [lehmanInnerPasses, dif_pos h]
    dsimp only
    rw [hb]
    dsimp only
    rw [if_neg hbc]
    refine ⟨ih.1, fun t ht => ?_⟩
    cases t with
    | zero => simpa using h
    | succ t =>
      have := (ih.2 t (by simp only at ht; omega)).2
      rw [show a + m * (t + 1) = a + m + m * t by ring]
      exact ⟨h.1, this⟩
  | case4 a h => rw [lehmanInnerPasses, dif_neg h]; exact ⟨rfl, fun t ht => by simp only at ht; omega⟩

/-- The number of candidates for the multiplier `k` beyond the first. -/
theorem lehmanInner_count {n B k m t a : ℕ} (hB : B ^ 3 ≤ n) (hm : 2 ≤ m) (hpos : 0 < B)
    (h1 : 4 * k * n ≤ a * a) (h2 : (a + m * t) * (a + m * t) ≤ 4 * k * n + B ^ 2) : 64 * k * (t * t) ≤ B := by
  have h3 : a * a + 4 * (a * t) ≤ (a + m * t) * (a + m * t) := by
    have : a * a + 2 * (a * (m * t)) ≤ (a + m * t) * (a + m * t) := by
      have e : (a + m * t) * (a + m * t) = a * a + 2 * (a * (m * t)) + m * t * (m * t) := by ring
      omega
    have h4 : a * (2 * t) ≤ a * (m * t) := Nat.mul_le_mul_left _ (Nat.mul_le_mul_right _ hm)
    have e : a * (2 * t) = 2 * (a * t) := by ring
    omega
  have h5 : 4 * (a * t) ≤ B ^ 2 := by omega
  have h6 : (4 * (a * t)) * (4 * (a * t)) ≤ B ^ 2 * B ^ 2 := Nat.mul_le_mul h5 h5
  have h7 : 4 * k * B ^ 3 ≤ a * a := (Nat.mul_le_mul_left _ hB).trans h1
  have h8 : 4 * k * B ^ 3 * (16 * (t * t)) ≤ B ^ 2 * B ^ 2 := by
    refine (Nat.mul_le_mul_right _ h7).trans (le_of_eq_of_le ?_ h6)
    ring
  have h9 : 64 * k * (t * t) * B ^ 3 ≤ B * B ^ 3 := by
    refine le_of_eq_of_le ?_ (h8.trans_eq ?_) <;> ring
  exact Nat.le_of_mul_le_mul_right h9 (by positivity)

theorem sqrt_step (k : ℕ) (hk : 1 ≤ k) (B t : ℕ) (h : 64 * k * (t * t) ≤ B) :
    (t : ℝ) ≤ √(B : ℝ) / 4 * (√(k : ℝ) - √((k - 1 : ℕ) : ℝ)) := by
  have hkr : (1 : ℝ) ≤ k := by exact_mod_cast hk
  have hcast : ((k - 1 : ℕ) : ℝ) = (k : ℝ) - 1 := by push_cast [Nat.cast_sub hk]; ring
  have s0 : 0 < √(k : ℝ) := Real.sqrt_pos.2 (by linarith)
  have s1 : √((k - 1 : ℕ) : ℝ) ≤ √(k : ℝ) := Real.sqrt_le_sqrt (by rw [hcast]; linarith)
  have s2 := Real.sqrt_nonneg ((k - 1 : ℕ) : ℝ)
  have q0 : √(k : ℝ) * √(k : ℝ) = k := Real.mul_self_sqrt (by linarith)
  have q1 : √((k - 1 : ℕ) : ℝ) * √((k - 1 : ℕ) : ℝ) = (k : ℝ) - 1 := by rw [Real.mul_self_sqrt (by positivity), hcast]
  -- the difference of the roots is at least `1 / (2 sqrt k)`
  have d1 : 1 ≤ 2 * √(k : ℝ) * (√(k : ℝ) - √((k - 1 : ℕ) : ℝ)) := by nlinarith
  have b1 : 8 * √(k : ℝ) * t ≤ √(B : ℝ) := by
    refine Real.le_sqrt_of_sq_le ?_
    have : (64 * k * (t * t) : ℝ) ≤ B := by exact_mod_cast h
    calc (8 * √(k : ℝ) * t) ^ 2 = 64 * (√(k : ℝ) * √(k : ℝ)) * (t * t) := by ring
      _ ≤ B := by rw [q0]; exact this
  have d0 : 0 ≤ √(k : ℝ) - √((k - 1 : ℕ) : ℝ) := by linarith
  have := mul_le_mul_of_nonneg_right b1 d0
  have t0 : (0 : ℝ) ≤ t := by positivity
  have := mul_le_mul_of_nonneg_left d1 t0
  nlinarith

theorem lehmanLoopPasses_spec (n B : ℕ) (hB : B ^ 3 ≤ n) : ∀ j k, 1 ≤ k → k + j = B + 1 →
    (lehmanLoopPasses n B k j).1 = lehmanLoop n B k j ∧
      ((lehmanLoopPasses n B k j).2 : ℝ) ≤ 5 * j + √(B : ℝ) / 4 * (√(B : ℝ) - √((k - 1 : ℕ) : ℝ)) := by
  intro j
  induction j with
  | zero =>
    intro k h1 h2
    refine ⟨rfl, ?_⟩
    rw [show k - 1 = B by omega]
    simp [lehmanLoopPasses]
  | succ j ih =>
    intro k h1 h2
    rw [lehmanLoopPasses, lehmanLoop]
    dsimp only
    obtain ⟨s, hs, -⟩ := integerSqrt_nat (4 * k * n)
    rw [hs]
    dsimp only
    have hm0 : 0 < if k % 2 = 0 then 2 else 4 := by split <;> omega
    have hm2 : 2 ≤ if k % 2 = 0 then 2 else 4 := by split <;> omega
    have hm4 : (if k % 2 = 0 then 2 else 4) ≤ 4 := by split <;> omega
    set m := if k % 2 = 0 then 2 else 4
    set r := if k % 2 = 0 then 1 else k + n
    have al := lehmanAlignPasses_le m (r % m) s hm0 (Nat.mod_lt _ hm0)
    have al' := lehmanAlignPasses_spec m (r % m) m s
    generalize lehmanAlignPasses m (r % m) m s = A at *
    rw [← al']
    obtain ⟨i1, i2⟩ := lehmanInnerPasses_spec n (4 * k * n) (4 * k * n + B ^ 2) m hm0 A.1
    rw [← i1]
    generalize lehmanInnerPasses n (4 * k * n) (4 * k * n + B ^ 2) m hm0 A.1 = I at *
    have hsq : √((k - 1 : ℕ) : ℝ) ≤ √(k : ℝ) := Real.sqrt_le_sqrt (by exact_mod_cast (show k - 1 ≤ k by omega))
    have hsB : √(k : ℝ) ≤ √(B : ℝ) := Real.sqrt_le_sqrt (by exact_mod_cast (show k ≤ B by omega))
    have hB0 := Real.sqrt_nonneg (B : ℝ)
    have hI : ((1 + A.2 + I.2 : ℕ) : ℝ) ≤ 5 + √(B : ℝ) / 4 * (√(k : ℝ) - √((k - 1 : ℕ) : ℝ)) := by
      have hA : (A.2 : ℝ) ≤ 3 := by exact_mod_cast (show A.2 ≤ 3 by omega)
      by_cases h0 : I.2 = 0
      · rw [h0]
        have : 0 ≤ √(B : ℝ) / 4 * (√(k : ℝ) - √((k - 1 : ℕ) : ℝ)) := mul_nonneg (by positivity) (by linarith)
        push_cast
        linarith
      · obtain ⟨t, ht⟩ : ∃ t, I.2 = t + 1 := ⟨I.2 - 1, by omega⟩
        obtain ⟨c1, c2⟩ := i2 t (by omega)
        have := sqrt_step k h1 B t (lehmanInner_count hB hm2 (by omega) c1 c2)
        rw [ht]
        push_cast
        linarith
    have hj0 : (0 : ℝ) ≤ j := by positivity
    have hrest : 0 ≤ √(B : ℝ) / 4 * (√(B : ℝ) - √(k : ℝ)) := mul_nonneg (by positivity) (by linarith)
    cases hI1 : I.1 with
    | error e => exact ⟨rfl, by push_cast at hI ⊢; linarith⟩
    | ok o =>
      cases o with
      | some d => exact ⟨rfl, by push_cast at hI ⊢; linarith⟩
      | none =>
        obtain ⟨r1, r2⟩ := ih (k + 1) (by omega) (by omega)
        refine ⟨r1, ?_⟩
        rw [Nat.add_sub_cancel] at r2
        push_cast at hI ⊢
        linarith

/-- C158: all loops of `lehman(n)` together make at most `25/4` times the integer cube root of `n` passes. -/
theorem C158_lehman (T : List ℕ) (hT : IsPrimeTable T) (n B : ℕ) (hB : B ^ 3 ≤ n) (hB' : n < (B + 1) ^ 3) :
    (lehmanPasses T n).1 = lehman T n ∧ 4 * (lehmanPasses T n).2 ≤ 25 * B := by
  obtain ⟨r, hr, h1, h2⟩ := C08_integer_nth_root_partial 3 n (by norm_num) (by positivity) (by norm_num)
  have hrB : r = B := by
    have e1 : r ^ 3 ≤ n := by exact_mod_cast h1
    have e2 : n < (r + 1) ^ 3 := by exact_mod_cast h2
    have l1 : r < B + 1 := lt_of_pow_lt_pow_left₀ 3 (by omega) (lt_of_le_of_lt e1 hB')
    have l2 : B < r + 1 := lt_of_pow_lt_pow_left₀ 3 (by omega) (lt_of_le_of_lt hB e2)
    omega
  subst hrB
  rw [lehmanPasses, lehman, hr]
  dsimp only
  obtain ⟨t1, t2⟩ := trialTablePasses_spec n r T 0 (IsPrimeTable.pairwise_zero hT)
  rw [trialDivisionBound, ← t1]
  generalize trialTablePasses n r 0 T = td at *
  cases htd : td.1 with
  | error e => exact ⟨rfl, by simp only; omega⟩
  | ok d =>
    dsimp only
    split_ifs with hd
    · exact ⟨rfl, by simp only; omega⟩
    · obtain ⟨l1, l2⟩ := lehmanLoopPasses_spec n r hB r 1 (le_refl _) (by omega)
      refine ⟨l1, ?_⟩
      simp only [Nat.sub_self, Nat.cast_zero, Real.sqrt_zero, sub_zero] at l2
      have q : √(r : ℝ) / 4 * √(r : ℝ) = r / 4 := by
        rw [div_mul_eq_mul_div, Real.mul_self_sqrt (by positivity)]
      rw [q] at l2
      have : 4 * (lehmanLoopPasses n r 1 r).2 ≤ 21 * r := by
        have : (4 * (lehmanLoopPasses n r 1 r).2 : ℝ) ≤ 21 * r := by linarith
        exact_mod_cast this
      simp only
      omega

/-! ### discrete_log -/

theorem giantStepsPasses_spec (a : ℤ) (p m : ℕ) (cache : List (ℤ × ℕ)) (j : ℕ) : ∀ k val,
    (giantStepsPasses a p m cache k j val).1 = giantSteps a p m cache k j val ∧
      (giantStepsPasses a p m cache k j val).2 ≤ j := by
  induction j with
  | zero => intro k val; exact ⟨rfl, le_refl _⟩
  | succ j ih =>
    intro k val
    rw [giantStepsPasses, giantSteps]
    cases cache.lookup val with
    | some i => exact ⟨rfl, by simp⟩
    | none =>
      obtain ⟨i1, i2⟩ := ih (k + 1) ((val * a).fmod p)
      exact ⟨i1, by simp only; omega⟩

theorem length_babySteps (am : ℤ) (p : ℕ) (j : ℕ) : ∀ k val cache,
    (babySteps am p k j val cache).length = cache.length + j := by
  induction j with
  | zero => intro k val cache; rfl
  | succ j ih => intro k val cache; rw [babySteps, ih, List.length_cons]; omega

/-- C158: `discrete_log(a, b, p)` writes and looks up at most `2 sqrt(p) + 5` dictionary entries. -/
theorem C158_discrete_log (a b : ℤ) (p : ℕ) :
    (discreteLogPasses a b p).1 = discreteLog a b p ∧ (discreteLogPasses a b p).2 ≤ 2 * Nat.sqrt p + 5 := by
  obtain ⟨s, hs, -, h2, -⟩ := integerSqrt_nat p
  rw [discreteLogPasses, discreteLog, hs]
  dsimp only
  obtain ⟨g1, g2⟩ := giantStepsPasses_spec a p (s + 1) (babySteps (pyPow a (s + 1) p) p 1 (s + 1) (pyPow a (s + 1) p) [])
    (s + 1 + 1) 0 b
  rw [g1]
  have hl := length_babySteps (pyPow a (s + 1) p) p (s + 1) 1 (pyPow a (s + 1) p) []
  rw [List.length_nil] at hl
  split_ifs
  · exact ⟨rfl, by simp only; omega⟩
  · exact ⟨rfl, by simp only; omega⟩


example : (discreteLogPasses 3 13 17).2 = 6 ∧ (fermatPasses 101).2 = 8 ∧
    (trialDivisionPasses [2, 3, 5, 7] 10007).2 = 29 := by decide +kernel

end Rosemary.Props
