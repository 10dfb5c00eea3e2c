import Verif.Lemmas.MaxDivisors2
import Verif.Props.Primality
import Mathlib.NumberTheory.Bernoulli
import Mathlib.NumberTheory.Chebyshev

/-!
# Properties C100-C102: `number_theory/misc.py`
-/

namespace Rosemary.Props

open Rosemary.NtMisc Rosemary.Primality

/-! ## C100: largest_divisor -/

/-- When `b` divides `n` the answer is `b`, the largest divisor not above `b`. Missing from the property: every
other call raises (`C100_violation`). -/
theorem C100_largest_divisor_partial (n b : Int) (hb : 1 ≤ b) (h : b ∣ n) :
    ∃ r, largestDivisor n b = .ok r ∧ r ∣ n ∧ r ≤ b ∧ ∀ d, d ∣ n → d ≤ b → d ≤ r := by
  unfold largestDivisor
  rw [if_neg (by omega), if_pos (by rw [Int.fmod_eq_emod_of_nonneg _ (by omega)]; exact Int.emod_eq_zero_of_dvd h)]
  exact ⟨b, rfl, h, le_refl _, fun _ _ h => h⟩

/-- Whenever `b` does not divide `n` the call raises `AttributeError`, although 1 is a divisor not above `b`. -/
theorem C100_violation (n b : Int) (hb : 1 ≤ b) (h : ¬ b ∣ n) : largestDivisor n b = .error .attributeError := by
  unfold largestDivisor
  rw [if_neg (by omega), if_neg (by
    rw [Int.fmod_eq_emod_of_nonneg _ (by omega)]
    exact fun h' => h (Int.dvd_of_emod_eq_zero h'))]

/-- `b = 0` raises `ZeroDivisionError`. -/
theorem C100_zero (n : Int) : largestDivisor n 0 = .error .zeroDivisionError := rfl

example : largestDivisor 100 7 = .error .attributeError := by decide

/-! ## C101: maximize_divisors -/

/-- `maximize_divisors(B)` returns `(num_divs, n)` with `1 ≤ n ≤ B`, `n` has exactly `num_divs` divisors, and no
`m ≤ B` has more; for every `B` below the product of the prime table. -/
theorem C101_maximize_divisors (T : List Nat) (hT : IsPrimeTable T) (B : Int) (hB : 1 ≤ B)
    (hlt : B < ((T.prod : Nat) : Int)) :
    1 ≤ (maximizeDivisors T B).2 ∧ ((maximizeDivisors T B).2 : Int) ≤ B ∧
      (maximizeDivisors T B).2.divisors.card = (maximizeDivisors T B).1 ∧
      ∀ m : Nat, 1 ≤ m → (m : Int) ≤ B → m.divisors.card ≤ (maximizeDivisors T B).1 := by
  obtain ⟨l, hl, hl7, hmem⟩ := hT.last
  have hprime : ∀ p ∈ T, p.Prime := fun p hp => ((hmem p).1 hp).1
  have hnd : T.Nodup := hT.sorted.imp (fun h => Nat.ne_of_lt h)
  obtain ⟨T', hT'⟩ : ∃ T', T = 2 :: T' := by
    have h2 : 2 ∈ T := (hmem 2).2 ⟨Nat.prime_two, by omega⟩
    cases T with
    | nil => cases h2
    | cons p T' =>
      refine ⟨T', ?_⟩
      rcases List.mem_cons.1 h2 with h | h
      · rw [h]
      · have h3 := (List.pairwise_cons.1 hT.sorted).1 2 h
        have := (hprime p (by simp)).two_le
        omega
  obtain ⟨r, hr1, hr2, hr3⟩ := primesWithin_spec B T (fun p hp => (hprime p hp).one_le) 1
  have hps : ∀ p ∈ (primesWithin B T 1).drop 1, p ∈ T := by
    intro p hp
    rw [hr1] at hp
    exact List.mem_of_mem_take (List.mem_of_mem_drop hp)
  have hdrop : (primesWithin B T 1).drop 1 = T'.take (r - 1) := by
    rw [hr1, hT']
    cases r with
    | zero => simp
    | succ r => simp
  have hsearch := topLoop_searched B ((primesWithin B T 1).drop 1) (fun p hp => (hprime p (hps p hp)).two_le) 1
    (le_refl _) (1, 1)
  have heq : maximizeDivisors T B = topLoop B ((primesWithin B T 1).drop 1) 1 (1, 1) := rfl
  rw [← heq] at hsearch
  generalize maximizeDivisors T B = st at hsearch
  have hgood : 1 ≤ st.2 ∧ (st.2 : Int) ≤ B ∧ st.2.divisors.card = st.1 := by
    rcases hsearch.good with h | ⟨e, he, es, h1, h2, h3, h4, h5⟩
    · rw [h]; simp; omega
    · rw [hdrop] at h1 h3 h5
      have hmem2 : ∀ q ∈ 2 :: T'.take (r - 1), q ∈ T := by
        intro q hq
        rw [hT']
        rcases List.mem_cons.1 hq with h | h
        · rw [h]; simp
        · exact List.mem_cons_of_mem _ (List.mem_of_mem_take h)
      have hcard := card_divisors_powProd (2 :: T'.take (r - 1)) (e :: es) (fun q hq => hprime q (hmem2 q hq)) (by
        rw [hT'] at hnd
        rw [List.nodup_cons] at hnd ⊢
        exact ⟨fun h => hnd.1 (List.mem_of_mem_take h), hnd.2.sublist (List.take_sublist _ _)⟩) (by simpa using h1)
      rw [powProd] at hcard
      refine ⟨?_, by rw [h5]; exact h3, ?_⟩
      · rw [h5]
        have := powProd_pos (T'.take (r - 1)) es (fun p hp => (hprime p (hmem2 p (List.mem_cons_of_mem _ hp))).pos)
        exact Nat.mul_pos (by positivity) this
      · rw [h5, hcard, h4]; simp [tauProd]
  refine ⟨hgood.1, hgood.2.1, hgood.2.2, ?_⟩
  intro m hm hmB
  obtain ⟨es, h1, h2, h3, h4, h5, h6⟩ := exists_exponents T hT m hm (by omega)
  by_cases hm2 : 2 ≤ m
  · obtain ⟨e, es', rfl⟩ := List.exists_cons_of_ne_nil (h6 hm2)
    have hlen : (e :: es').length ≤ r := by
      refine hr3 _ h1 (by simp) ?_
      have := prod_take_le_powProd T (e :: es') (fun p hp => (hprime p hp).one_le) h3
      rw [one_mul]
      omega
    rw [← h4]
    have hd := descending_of_pairwise h2 h3 e (by
      intro x hx
      rcases List.mem_cons.1 hx with h | h
      · rw [h]
      · exact (List.pairwise_cons.1 h2).1 x h)
    have hpp : powProd T (e :: es') = 2 ^ e * powProd (T'.take (r - 1)) es' := by
      rw [hT', powProd, powProd_take]
      rw [List.length_cons] at hlen
      omega
    refine hsearch.want (tauProd (e :: es')) (2 ^ e * powProd (T'.take (r - 1)) es') ⟨e, hd.1, es', ?_, hd.2.2, ?_, ?_, ?_⟩
    · rw [hdrop, List.length_take]
      rw [hT'] at h1
      simp only [List.length_cons] at h1 hlen
      omega
    · rw [hdrop, ← hpp]; omega
    · simp [tauProd]
    · rw [hdrop]
  · have : m = 1 := by omega
    rw [this]
    simpa using hsearch.mono

/-- The product of the library's prime table, bounded below by Chebyshev's estimate. -/
theorem primeList_prod_ge : 2 ^ 959980 ≤ primeList.prod := by
  have h1 : primeList.prod = primorial 1000000 := by
    unfold primeList primorial
    have hnd : ((List.range 1000001).filter (fun n => decide n.Prime)).Nodup := List.Nodup.filter _ List.nodup_range
    have h2 := List.prod_toFinset (fun n : Nat => n) hnd
    rw [List.map_id''] at h2
    · rw [← h2]
      refine Finset.prod_congr ?_ (fun _ _ => rfl)
      ext p
      simp only [List.mem_toFinset, List.mem_filter, List.mem_range, decide_eq_true_eq, Finset.mem_filter,
        Finset.mem_range]
    · intro; rfl
  rw [h1]
  have hpos : (0 : ℝ) < (primorial 1000000 : ℝ) := by exact_mod_cast primorial_pos _
  have hth := Chebyshev.theta_ge 1000000
  rw [Chebyshev.theta_eq_log_primorial, Nat.floor_natCast] at hth
  have hL : 0 < Real.log 2 := Real.log_pos (by norm_num)
  have e1 : Real.log (((1000000 : ℕ) : ℝ) + 1) ≤ 20 * Real.log 2 := by
    have h3 : (20 : ℝ) * Real.log 2 = Real.log (2 ^ 20) := by rw [Real.log_pow]; norm_num
    rw [h3]
    refine Real.log_le_log (by norm_num) (by norm_num)
  have e2 : Real.log ((1000000 : ℕ) : ℝ) ≤ 20 * Real.log 2 := by
    have h3 : (20 : ℝ) * Real.log 2 = Real.log (2 ^ 20) := by rw [Real.log_pow]; norm_num
    rw [h3]
    refine Real.log_le_log (by norm_num) (by norm_num)
  have e3 : √((1000000 : ℕ) : ℝ) = 1000 := by
    rw [show ((1000000 : ℕ) : ℝ) = 1000 ^ 2 by norm_num]
    exact Real.sqrt_sq (by norm_num)
  rw [e3] at hth
  have e4 : (959980 : ℝ) * Real.log 2 ≤ Real.log (primorial 1000000 : ℝ) := by
    have e0 : ((1000000 : ℕ) : ℝ) = 1000000 := by norm_num
    generalize Real.log (primorial 1000000 : ℝ) = X at hth
    generalize Real.log (((1000000 : ℕ) : ℝ) + 1) = Y at hth e1
    generalize Real.log ((1000000 : ℕ) : ℝ) = Z at hth e2
    rw [e0] at hth
    linarith
  have e5 : Real.log ((2 : ℝ) ^ 959980) ≤ Real.log (primorial 1000000 : ℝ) := by
    rw [Real.log_pow, show ((959980 : ℕ) : ℝ) = 959980 by norm_num]
    exact e4
  have e6 := (Real.log_le_log_iff (by positivity) hpos).1 e5
  have e7 : ((2 ^ 959980 : ℕ) : ℝ) ≤ ((primorial 1000000 : ℕ) : ℝ) := by
    rw [Nat.cast_pow]
    exact e6
  exact Nat.cast_le.1 e7

/-- With the library's own table: every `B` from 1 up to `2^959980` (a number of 288984 digits). -/
theorem C101_maximize_divisors_real (B : Int) (hB : 1 ≤ B) (hlt : B < ((2 ^ 959980 : Nat) : Int)) :
    1 ≤ (maximizeDivisors primeList B).2 ∧ ((maximizeDivisors primeList B).2 : Int) ≤ B ∧
      (maximizeDivisors primeList B).2.divisors.card = (maximizeDivisors primeList B).1 ∧
      ∀ m : Nat, 1 ≤ m → (m : Int) ≤ B → m.divisors.card ≤ (maximizeDivisors primeList B).1 :=
  C101_maximize_divisors primeList primeList_isPrimeTable B hB
    (lt_of_lt_of_le hlt (Int.ofNat_le.2 primeList_prod_ge))

/-- The bound is real: 840 has 32 divisors, so `maximize_divisors(1000)` reports at least 32. -/
example : 32 ≤ (maximizeDivisors primeList 1000).1 := by
  have hlt : (1000 : Int) < ((2 ^ 959980 : Nat) : Int) := by
    have h : (2 : Nat) ^ 10 ≤ 2 ^ 959980 := Nat.pow_le_pow_right (by norm_num) (by norm_num)
    have h2 : ((2 ^ 10 : Nat) : Int) ≤ ((2 ^ 959980 : Nat) : Int) := Int.ofNat_le.2 h
    exact lt_of_lt_of_le (by norm_num) h2
  have h := (C101_maximize_divisors_real 1000 (by norm_num) hlt).2.2.2 840 (by norm_num) (by norm_num)
  have hc : (840 : Nat).divisors.card = 32 := by decide +kernel
  omega

/-- For `B ≤ 0` there is no admissible `n`; the call returns `(1, 1)` all the same. -/
theorem C101_nonpositive (T : List Nat) (B : Int) (hB : B ≤ 0) : maximizeDivisors T B = (1, 1) := by
  unfold maximizeDivisors
  rw [topLoop, if_neg]
  have : 0 < 2 ^ 1 := by norm_num
  omega

/-! ## C102: bernoulli_list -/

theorem fdiv_choose (m k : Nat) (hk : 1 ≤ k) (hkm : k ≤ m) :
    ((((m + 1).choose (k - 1) : Nat) : Int) * ((m : Int) + 2 - k)).fdiv k = (((m + 1).choose k : Nat) : Int) := by
  obtain ⟨j, rfl⟩ : ∃ j, k = j + 1 := ⟨k - 1, by omega⟩
  have h := Nat.choose_succ_right_eq (m + 1) j
  have h2 : ((((m + 1).choose (j + 1 - 1) : Nat) : Int) * ((m : Int) + 2 - ((j + 1 : Nat) : Int))) =
      (((m + 1).choose (j + 1) : Nat) : Int) * ((j + 1 : Nat) : Int) := by
    have h3 : ((m : Int) + 2 - ((j + 1 : Nat) : Int)) = ((m + 1 - j : Nat) : Int) := by omega
    rw [h3]
    exact_mod_cast h.symm
  rw [h2]
  exact Int.mul_fdiv_cancel _ (by omega)

/-- What the list holds before `m` is processed. -/
def BernoulliUpTo (n m : Nat) (values : List ℚ) : Prop :=
  values.length = n + 1 ∧ ∀ k, k < m → k ≤ n → values[k]? = some (bernoulli k)

theorem bernoulliInner_foldl (values : List ℚ) (n m j : Nat) (hm : m ≤ n) (hj : j + 1 ≤ m)
    (hv : ∀ k, k < m → values[k]? = some (bernoulli k)) :
    (List.range' 1 j).foldl (bernoulliInner values m) (1, 1) =
      ((((m + 1).choose j : Nat) : Int), ∑ k ∈ Finset.range (j + 1), ((m + 1).choose k : ℚ) * bernoulli k) := by
  induction j with
  | zero => simp
  | succ j ih =>
    rw [List.range'_concat, List.foldl_append, ih (by omega)]
    simp only [List.foldl_cons, List.foldl_nil]
    unfold bernoulliInner
    dsimp only
    have h1 : 1 + 1 * j = j + 1 := by omega
    rw [h1, hv (j + 1) (by omega), Option.getD_some]
    have h2 := fdiv_choose m (j + 1) (by omega) (by omega)
    rw [Nat.add_sub_cancel] at h2
    rw [h2]
    congr 1
    rw [Finset.sum_range_succ _ (j + 1)]
    by_cases h0 : bernoulli (j + 1) = 0
    · rw [if_neg (by simpa using h0), h0]; simp
    · rw [if_pos h0]; push_cast; rfl

theorem bernoulliStep_spec (n m : Nat) (values : List ℚ) (hm : 2 ≤ m) (hmn : m ≤ n) (heven : m % 2 = 0)
    (h : BernoulliUpTo n m values) (h0 : ∀ k, m ≤ k → k ≤ n → values[k]? = some 0) :
    BernoulliUpTo n (m + 2) (bernoulliStep values m) ∧
      ∀ k, m + 2 ≤ k → k ≤ n → (bernoulliStep values m)[k]? = some 0 := by
  have hfold := bernoulliInner_foldl values n m (m - 1) hmn (by omega) (fun k hk => h.2 k hk (by omega))
  have hval : -(∑ k ∈ Finset.range (m - 1 + 1), ((m + 1).choose k : ℚ) * bernoulli k) / (m + 1) = bernoulli m := by
    rw [Nat.sub_add_cancel (by omega)]
    have hs := sum_bernoulli (m + 1)
    rw [if_neg (by omega), Finset.sum_range_succ, Nat.choose_succ_self_right] at hs
    have hne : ((m : ℚ) + 1) ≠ 0 := by positivity
    rw [div_eq_iff hne]
    push_cast at hs ⊢
    linarith
  have hstep : bernoulliStep values m = values.set m (bernoulli m) := by
    unfold bernoulliStep
    dsimp only
    rw [hfold]
    dsimp only
    rw [hval]
  rw [hstep]
  refine ⟨⟨by rw [List.length_set, h.1], fun k hk hkn => ?_⟩, fun k hk hkn => ?_⟩
  · by_cases hkm : k = m
    · subst hkm
      rw [List.getElem?_set_self (by rw [h.1]; omega)]
    · rw [List.getElem?_set_ne (by omega)]
      by_cases hlt : k < m
      · exact h.2 k hlt hkn
      · have : k = m + 1 := by omega
        subst this
        rw [h0 _ (by omega) hkn]
        have := bernoulli_eq_zero_of_odd (n := m + 1) (by rw [Nat.odd_iff]; omega) (by omega)
        rw [this]
  · rw [List.getElem?_set_ne (by omega)]
    exact h0 k (by omega) hkn

/-- `bernoulli_list(n)` for `n ≥ 1` is the list of the Bernoulli numbers `B_0, ..., B_n` (with `B_1 = -1/2`). -/
theorem C102_bernoulli_list (n : Nat) (hn : 1 ≤ n) :
    bernoulliList n = .ok ((List.range (n + 1)).map bernoulli) := by
  unfold bernoulliList
  rw [if_neg (by omega)]
  simp only [Int.toNat_natCast]
  congr 1
  set v0 := ((List.replicate (n + 1) (0 : ℚ)).set 0 1).set 1 (-1 / 2) with hv0
  have hinit : BernoulliUpTo n 2 v0 ∧ ∀ k, 2 ≤ k → k ≤ n → v0[k]? = some 0 := by
    refine ⟨⟨by simp [hv0], fun k hk hkn => ?_⟩, fun k hk hkn => ?_⟩
    · have : k = 0 ∨ k = 1 := by omega
      rcases this with rfl | rfl
      · rw [hv0, List.getElem?_set_ne (by omega), List.getElem?_set_self (by simp), bernoulli_zero]
      · rw [hv0, List.getElem?_set_self (by simp; omega), bernoulli_one]
    · rw [hv0, List.getElem?_set_ne (by omega), List.getElem?_set_ne (by omega), List.getElem?_replicate, if_pos (by omega)]
  have hloop : ∀ j, 2 * j ≤ n → BernoulliUpTo n (2 + 2 * j) ((List.range' 2 j 2).foldl bernoulliStep v0) ∧
      ∀ k, 2 + 2 * j ≤ k → k ≤ n → ((List.range' 2 j 2).foldl bernoulliStep v0)[k]? = some 0 := by
    intro j
    induction j with
    | zero => intro _; exact hinit
    | succ j ih =>
      intro hj
      obtain ⟨i1, i2⟩ := ih (by omega)
      rw [List.range'_concat, List.foldl_append]
      simp only [List.foldl_cons, List.foldl_nil]
      exact bernoulliStep_spec n (2 + 2 * j) _ (by omega) (by omega) (by omega) i1 i2
  obtain ⟨⟨l1, l2⟩, -⟩ := hloop (n / 2) (by omega)
  refine List.ext_getElem? (fun k => ?_)
  rw [List.getElem?_map]
  by_cases hk : k ≤ n
  · rw [l2 k (by omega) hk, List.getElem?_range (by omega)]
    rfl
  · rw [List.getElem?_eq_none (by omega), List.getElem?_eq_none (by simp; omega)]
    rfl

/-- `bernoulli_list(0)` raises although the documentation admits `n = 0`, and so does every negative `n`. -/
theorem C102_zero_violation (n : Int) (hn : n ≤ 0) : bernoulliList n = .error .indexError := by
  unfold bernoulliList
  rw [if_pos hn]

example : bernoulliList 4 = .ok [1, -1 / 2, 1 / 6, 0, -1 / 30] := by
  decide +kernel

end Rosemary.Props
