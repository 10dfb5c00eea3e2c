import Verif.Lemmas.Primality
import Verif.Lemmas.Factored
import Mathlib.Tactic.NormNum.Prime

/-!
# Properties C14-C17: classification and primality

The theorems about functions that consult the table `_PRIME_LIST` hold for every table `T`
with `IsPrimeTable T` (increasing, consisting of exactly the primes up to its last entry);
`primeList_isPrimeTable` shows the real table is one.
-/

namespace Rosemary.Props

open Rosemary Rosemary.Core Rosemary.Primality Rosemary.Classification

theorem primeList_isPrimeTable : IsPrimeTable primeList := by
  have hmem : ∀ p, p ∈ primeList ↔ p.Prime ∧ p ≤ 999983 := by
    intro p
    simp only [primeList, List.mem_filter, List.mem_range, decide_eq_true_eq]
    constructor
    · rintro ⟨h1, h2⟩
      refine ⟨h2, ?_⟩
      by_contra hc
      push Not at hc
      have h3 : p ≤ 1000000 := by omega
      interval_cases p <;> revert h2 <;> norm_num
    · rintro ⟨h1, h2⟩; exact ⟨by omega, h1⟩
  have hs : primeList.Pairwise (· < ·) := List.Pairwise.filter _ List.pairwise_lt_range
  refine ⟨hs, 999983, ?_, by norm_num, hmem⟩
  have h1 : 999983 ∈ primeList := (hmem _).2 ⟨by norm_num, le_rfl⟩
  cases hl : primeList.getLast? with
  | none => rw [List.getLast?_eq_none_iff] at hl; rw [hl] at h1; simp at h1
  | some l =>
    have h2 : l ∈ primeList := List.mem_of_getLast? hl
    have h3 := ((hmem l).1 h2).2
    obtain ⟨pre, hpre⟩ := List.getLast?_eq_some_iff.1 hl
    rw [hpre, List.mem_append, List.mem_singleton] at h1
    rcases h1 with h1 | h1
    · rw [hpre, List.pairwise_append] at hs
      have := hs.2.2 _ h1 l (by simp)
      omega
    · rw [h1]

/-! ## C14 -/

/-- `is_square(n)` for an integer argument: a returned root is the root, `False` means that
`n` is not a perfect square. -/
theorem C14_is_square (n : Int) :
    (∃ r : Nat, isSquare n = .ok (some r) ∧ (r : Int) ^ 2 = n) ∨
    (isSquare n = .ok none ∧ ∀ r : Int, r ^ 2 ≠ n) := by
  unfold isSquare
  split
  · rename_i h
    right; exact ⟨rfl, fun r hr => by have := sq_nonneg r; omega⟩
  · split
    · rename_i h0 h
      left; exact ⟨n.toNat, rfl, by rcases h with rfl | rfl <;> rfl⟩
    · obtain ⟨N, rfl⟩ := Int.eq_ofNat_of_zero_le (by omega : 0 ≤ n)
      simp only [Int.toNat_natCast]
      have hsq : ∀ r : Int, r ^ 2 = (N : Int) → N = r.natAbs * r.natAbs := by
        intro r hr
        have : ((r.natAbs * r.natAbs : Nat) : Int) = N := by
          rw [Int.natCast_mul, Int.natAbs_mul_self', ← hr, pow_two]
        exact_mod_cast this.symm
      split
      · rename_i h
        refine Or.inr ⟨rfl, fun r hr => ?_⟩
        rw [hsq r hr, q64_square] at h; simp at h
      · split
        · rename_i h
          refine Or.inr ⟨rfl, fun r hr => ?_⟩
          rw [hsq r hr, q45045_square] at h; simp at h
        · obtain ⟨q, h1, h2, h3, h4⟩ := integerSqrt_nat N
          rw [h1]
          simp only
          split
          · rename_i h
            left; exact ⟨q, rfl, by rw [pow_two]; exact_mod_cast h⟩
          · rename_i h
            refine Or.inr ⟨rfl, fun r hr => h ?_⟩
            have e := hsq r hr
            have : N.sqrt = r.natAbs := by rw [e, Nat.sqrt_eq]
            rw [h4 (by rw [this]; exact e.symm), this]; exact e.symm

example : isSquare 1764 = .ok (some 42) ∧ isSquare 1763 = .ok none ∧ isSquare (-4) = .ok none ∧
    isSquare 0 = .ok (some 0) := by decide +kernel

/-- `is_square` on a factorization `[(p, e), ...]` (distinct primes, nonempty list) of
`n = ∏ p ^ e`. -/
theorem C14_is_square_factored (l : List (Nat × Nat)) (hne : l ≠ []) (hl : DistinctPrimes l) :
    (∃ r : Nat, isSquareFac (l.map (fun pe => ((pe.1 : Int), pe.2))) = .ok (some (r : Int)) ∧
      r ^ 2 = (l.map (fun pe => pe.1 ^ pe.2)).prod) ∨
    (isSquareFac (l.map (fun pe => ((pe.1 : Int), pe.2))) = .ok none ∧
      ∀ r : Nat, r ^ 2 ≠ (l.map (fun pe => pe.1 ^ pe.2)).prod) := by
  have go : ∀ (l : List (Nat × Nat)) (s : Nat),
      (∃ r : Nat, isSquareFac.go s (l.map (fun pe => ((pe.1 : Int), pe.2))) = some (r : Int) ∧
        r ^ 2 = s ^ 2 * facProd l) ∨
      (isSquareFac.go s (l.map (fun pe => ((pe.1 : Int), pe.2))) = none ∧
        ∃ pe ∈ l, pe.2 % 2 = 1) := by
    intro l
    induction l with
    | nil => intro s; left; exact ⟨s, rfl, by simp⟩
    | cons a l ih =>
      intro s
      simp only [List.map_cons, isSquareFac.go]
      split
      · rename_i h; right; exact ⟨rfl, a, by simp, h⟩
      · rename_i h
        have e : ((s : Int) * (a.1 : Int) ^ (a.2 / 2)) = ((s * a.1 ^ (a.2 / 2) : Nat) : Int) := by
          push_cast; rfl
        rw [e]
        rcases ih (s * a.1 ^ (a.2 / 2)) with ⟨r, h1, h2⟩ | ⟨h1, pe, h2, h3⟩
        · left
          refine ⟨r, h1, ?_⟩
          rw [h2, facProd_cons, mul_pow, ← pow_mul, Nat.div_mul_cancel (by omega), mul_assoc]
        · right; exact ⟨h1, pe, List.mem_cons_of_mem _ h2, h3⟩
  obtain ⟨a, l', rfl⟩ := List.exists_cons_of_ne_nil hne
  have e : isSquareFac ((a :: l').map (fun pe => ((pe.1 : Int), pe.2))) =
      .ok (isSquareFac.go 1 ((a :: l').map (fun pe => ((pe.1 : Int), pe.2)))) := by
    simp only [List.map_cons, isSquareFac]
    rw [if_neg (by omega)]
  rw [e]
  rcases go (a :: l') 1 with ⟨r, h1, h2⟩ | ⟨h1, pe, h2, h3⟩
  · left
    exact ⟨r, by rw [← Nat.cast_one, h1], by rw [h2, one_pow, one_mul]; rfl⟩
  · right
    refine ⟨by rw [← Nat.cast_one, h1], fun r hr => ?_⟩
    have h4 := facProd_factorization_mem hl h2
    have h5 : facProd (a :: l') = r ^ 2 := hr.symm
    rw [h5, Nat.factorization_pow, Finsupp.smul_apply, smul_eq_mul] at h4
    omega

theorem C14_is_square_factored_negative (e : Nat) (rest : List (Int × Nat)) :
    isSquareFac ((-1, e) :: rest) = .ok none := rfl

example : isSquareFac [(2, 2), (5, 2)] = .ok (some 10) ∧ isSquareFac [(2, 3), (5, 2)] = .ok none := by
  decide +kernel

/-- `is_power(factorization)` without an exponent: the largest exponent, or `False`. -/
theorem C14_is_power_factored (l : List (Nat × Nat)) (hne : l ≠ []) (hl : DistinctPrimes l)
    (he : ∀ pe ∈ l, 1 ≤ pe.2) :
    (∃ b k : Nat, isPowerFac l = .ok (some (b, k)) ∧ 2 ≤ k ∧
      b ^ k = (l.map (fun pe => pe.1 ^ pe.2)).prod ∧
      ∀ c j : Nat, c ^ j = (l.map (fun pe => pe.1 ^ pe.2)).prod → j ≤ k) ∨
    (isPowerFac l = .ok none ∧
      ∀ c j : Nat, 2 ≤ j → c ^ j ≠ (l.map (fun pe => pe.1 ^ pe.2)).prod) := by
  have hlen : 1 ≤ l.length := List.length_pos_iff.2 hne
  obtain ⟨d, hd, hg, hdv, hmax⟩ : ∃ d : Nat, gcdList (l.map (fun pe => (pe.2 : Int))) = .ok (d : Int) ∧
      1 ≤ d ∧ (∀ pe ∈ l, d ∣ pe.2) ∧ ∀ c : Nat, (∀ pe ∈ l, c ∣ pe.2) → c ∣ d := by
    have fin : ∀ g : Int, 0 ≤ g → (∀ a ∈ l.map (fun pe => (pe.2 : Int)), g ∣ a) →
        (∀ c : Int, (∀ a ∈ l.map (fun pe => (pe.2 : Int)), c ∣ a) → c ∣ g) →
        gcdList (l.map (fun pe => (pe.2 : Int))) = .ok g →
        ∃ d : Nat, gcdList (l.map (fun pe => (pe.2 : Int))) = .ok (d : Int) ∧
          1 ≤ d ∧ (∀ pe ∈ l, d ∣ pe.2) ∧ ∀ c : Nat, (∀ pe ∈ l, c ∣ pe.2) → c ∣ d := by
      intro g h0 h1 h2 h3
      obtain ⟨d, rfl⟩ := Int.eq_ofNat_of_zero_le h0
      have h4 : ∀ pe ∈ l, d ∣ pe.2 := fun pe hpe => by
        have := h1 _ (List.mem_map_of_mem hpe)
        exact_mod_cast this
      refine ⟨d, h3, ?_, h4, ?_⟩
      · obtain ⟨pe, hpe⟩ := List.exists_mem_of_length_pos hlen
        exact Nat.pos_of_dvd_of_pos (h4 pe hpe) (he pe hpe)
      · intro c hc
        have := h2 c (by
          intro a ha
          obtain ⟨pe, hpe, rfl⟩ := List.mem_map.1 ha
          exact_mod_cast hc pe hpe)
        exact_mod_cast this
    rcases Nat.lt_or_ge l.length 2 with h | h
    · obtain ⟨a, rfl⟩ := List.length_eq_one_iff.1 (by omega : l.length = 1)
      exact fin a.2 (by positivity) (by simp) (by simp) rfl
    · obtain ⟨g, h1, h2, h3, h4⟩ := C01_gcd_list (l.map (fun pe => (pe.2 : Int))) (by simpa using h)
      exact fin g h2 h3 h4 h1
  have hfold : ∀ (l : List (Nat × Nat)) (r : Nat), (∀ pe ∈ l, d ∣ pe.2) →
      (l.foldl (fun r pe => r * pe.1 ^ (pe.2 / d)) r) ^ d = r ^ d * facProd l := by
    intro l
    induction l with
    | nil => intro r _; simp
    | cons a l ih =>
      intro r h
      rw [List.foldl_cons, ih _ fun pe hpe => h pe (List.mem_cons_of_mem _ hpe), facProd_cons,
        mul_pow, ← pow_mul, Nat.div_mul_cancel (h a List.mem_cons_self), mul_assoc]
  have hcj : ∀ c j : Nat, c ^ j = facProd l → j ∣ d := by
    intro c j h
    apply hmax
    intro pe hpe
    have h4 := facProd_factorization_mem hl hpe
    rw [← h, Nat.factorization_pow, Finsupp.smul_apply, smul_eq_mul] at h4
    exact Dvd.intro _ h4
  unfold isPowerFac
  rw [hd]
  simp only [Int.toNat_natCast]
  split
  · rename_i h1
    have h1 : d = 1 := by exact_mod_cast h1
    refine Or.inr ⟨rfl, fun c j hj h => ?_⟩
    have := Nat.le_of_dvd (by omega) (hcj c j h)
    omega
  · rename_i h1
    have h1 : d ≠ 1 := by exact_mod_cast h1
    refine Or.inl ⟨_, d, rfl, by omega, ?_, fun c j h => Nat.le_of_dvd (by omega) (hcj c j h)⟩
    rw [hfold l 1 hdv, one_pow, one_mul]; rfl

/-- `is_power(factorization, k)`. -/
theorem C14_is_power_k_factored (l : List (Nat × Nat)) (k : Nat) (hk : 1 ≤ k)
    (hl : DistinctPrimes l) :
    (∃ b : Nat, isPowerFacK k l = some (b, k) ∧ b ^ k = (l.map (fun pe => pe.1 ^ pe.2)).prod) ∨
    (isPowerFacK k l = none ∧ ∀ b : Nat, b ^ k ≠ (l.map (fun pe => pe.1 ^ pe.2)).prod) := by
  have go : ∀ (l : List (Nat × Nat)) (s : Nat),
      (∃ r : Nat, isPowerFacK.go k s l = some (r, k) ∧ r ^ k = s ^ k * facProd l) ∨
      (isPowerFacK.go k s l = none ∧ ∃ pe ∈ l, ¬ k ∣ pe.2) := by
    intro l
    induction l with
    | nil => intro s; left; exact ⟨s, rfl, by simp⟩
    | cons a l ih =>
      intro s
      simp only [isPowerFacK.go]
      split
      · rename_i h
        rcases ih (s * a.1 ^ (a.2 / k)) with ⟨r, h1, h2⟩ | ⟨h1, pe, h2, h3⟩
        · left
          refine ⟨r, h1, ?_⟩
          rw [h2, facProd_cons, mul_pow, ← pow_mul, Nat.div_mul_cancel (Nat.dvd_of_mod_eq_zero h),
            mul_assoc]
        · right; exact ⟨h1, pe, List.mem_cons_of_mem _ h2, h3⟩
      · rename_i h; right
        exact ⟨rfl, a, by simp, fun hd => h (Nat.mod_eq_zero_of_dvd hd)⟩
  rcases go l 1 with ⟨r, h1, h2⟩ | ⟨h1, pe, h2, h3⟩
  · exact Or.inl ⟨r, h1, by rw [h2, one_pow, one_mul]; rfl⟩
  · refine Or.inr ⟨h1, fun r hr => h3 ?_⟩
    have h4 := facProd_factorization_mem hl h2
    have h5 : facProd l = r ^ k := hr.symm
    rw [h5, Nat.factorization_pow, Finsupp.smul_apply, smul_eq_mul] at h4
    exact Dvd.intro _ h4

example : isPowerFac [(2, 4), (5, 4)] = .ok (some (10, 4)) ∧ isPowerFac [(2, 3), (5, 2)] = .ok none ∧
    isPowerFacK 2 [(2, 4), (5, 4)] = some (100, 2) := by decide +kernel

example : DistinctPrimes [(2, 4), (5, 4)] :=
  ⟨by simp; norm_num, by decide⟩

/-- `is_power(n)` for `n ≥ 2` always returns; a result `(b, k)` has `b ^ k = n`, `k ≥ 2`, and
`k` is the largest exponent with which `n` is a power; `False` means `n` is no power. -/
theorem C14_is_power (n : Nat) (hn : 2 ≤ n) :
    (∃ b k : Nat, isPower n = some (.ok (some (b, k))) ∧ 2 ≤ k ∧ b ^ k = n ∧
      ∀ c j : Nat, c ^ j = n → j ≤ k) ∨
    (isPower n = some (.ok none) ∧ ∀ c j : Nat, 2 ≤ j → c ^ j ≠ n) := by
  obtain ⟨r, h1, h2⟩ := isPower_spec n hn
  rcases h2 with ⟨rfl, h2⟩ | ⟨b, e, rfl, he, hb, hpp⟩
  · exact Or.inr ⟨h1, fun c j hj h => h2 ⟨c, j, hj, h⟩⟩
  · refine Or.inl ⟨b, e, h1, he, hb, fun c j h => ?_⟩
    rcases Nat.eq_zero_or_pos j with h0 | h0
    · omega
    · have hb2 : 2 ≤ b := by
        rcases b with _ | _ | b
        · rw [zero_pow (by omega)] at hb; omega
        · rw [zero_add, one_pow] at hb; omega
        · omega
      exact exponent_maximal b c e j hb2 (by omega) h0 hpp (h.trans hb.symm)

example : isPower ((2 ^ 12 : Nat) : Int) = some (.ok (some (2, 12))) := by
  rcases C14_is_power (2 ^ 12) (by norm_num) with ⟨b, k, h1, h2, h3, h4⟩ | ⟨_, h⟩
  · have h5 := h4 2 12 rfl
    have h6 : k ≤ 12 := by
      by_contra hc
      push Not at hc
      have hb : 2 ≤ b := by
        rcases b with _ | _ | b
        · rw [zero_pow (by omega)] at h3; norm_num at h3
        · rw [zero_add, one_pow] at h3; norm_num at h3
        · omega
      have h7 : 2 ^ k ≤ b ^ k := Nat.pow_le_pow_left hb k
      have h8 : 2 ^ 13 ≤ 2 ^ k := Nat.pow_le_pow_right (by norm_num) hc
      rw [h3] at h7; norm_num at h7 h8; omega
    have h7 : k = 12 := by omega
    subst h7
    have h8 : b = 2 := Nat.pow_left_injective (by norm_num : (12 : Nat) ≠ 0) h3
    rw [h1, h8]
  · exact absurd rfl (h 2 12 (by norm_num))

/-- The value `n = 1 = b ^ k` for all `k` has no maximal exponent; the function answers
`False`. Nonpositive `n` raise. -/
theorem C14_is_power_small (n : Int) :
    isPower 1 = some (.ok none) ∧ (n < 1 → isPower n = some (.error .valueError)) := by
  constructor
  · rw [isPower, if_neg (by norm_num), isPowerFor, if_neg (by decide)]
  · intro h; rw [isPower, if_pos h]

/-- `is_power(n, k)`: decides whether `n ≥ 1` is a `k`-th power and returns the root. -/
theorem C14_is_power_k (n k : Int) (hn : 1 ≤ n) (hk : 1 ≤ k) :
    (∃ b : Int, isPowerK n k = .ok (some (b, k)) ∧ b ^ k.toNat = n) ∨
    (isPowerK n k = .ok none ∧ ∀ b : Nat, (b : Int) ^ k.toNat ≠ n) := by
  unfold isPowerK
  rw [if_neg (by omega), if_neg (by omega)]
  split
  · rename_i h; subst h; exact Or.inl ⟨n, rfl, by simp⟩
  · obtain ⟨N, rfl⟩ := Int.eq_ofNat_of_zero_le (by omega : 0 ≤ n)
    obtain ⟨K, rfl⟩ := Int.eq_ofNat_of_zero_le (by omega : 0 ≤ k)
    obtain ⟨r, hr⟩ := integerNthRoot_ok K N (by omega)
    rw [hr]
    simp only [Int.toNat_natCast]
    split
    · rename_i h; exact Or.inl ⟨r, rfl, h⟩
    · rename_i h
      refine Or.inr ⟨rfl, fun b hb => h ?_⟩
      have hb' : b ^ K = N := by exact_mod_cast hb
      subst hb'
      rw [integerNthRoot_exact K b (by omega)] at hr
      cases hr
      exact hb

example : isPowerK 81 2 = .ok (some (9, 2)) ∧ isPowerK 80 2 = .ok none ∧
    isPowerK 243 5 = .ok (some (3, 5)) ∧ isPowerK 0 2 = .error .valueError := by decide +kernel

theorem C14_is_factorial (n : Int) : isFactorial n = true ↔ ∃ m : Nat, (m.factorial : Int) = n := by
  unfold isFactorial
  split
  · rename_i h
    simp only [Bool.false_eq_true, false_iff]
    rintro ⟨m, rfl⟩
    have := m.factorial_pos; omega
  · rename_i h
    obtain ⟨N, rfl⟩ := Int.eq_ofNat_of_zero_le (by omega : 0 ≤ n)
    rw [isFactorialLoop_spec _ 1 2 _ _ rfl (by intro m h1 h2; omega)]
    simp only [Int.toNat_natCast, Nat.cast_inj]

example : isFactorial 120 = true ∧ isFactorial 60 = false := by decide +kernel

/-! ## C15 -/

/-- Miller-Rabin never rejects a prime, for any base not divisible by it. -/
theorem C15_miller_rabin_prime (n a : Nat) (hn : n.Prime) (ha : ¬ n ∣ a) :
    millerRabin n a = true := millerRabin_prime n a hn ha

/-- What the test decides for any `n ≥ 2`: the strong probable prime condition. -/
theorem C15_miller_rabin_exact (n a t s : Nat) (hn : 2 ≤ n) (hts : n - 1 = t * 2 ^ s)
    (ht : Odd t) :
    millerRabin n a = true ↔ a ^ t ≡ 1 [MOD n] ∨ ∃ i, i < max s 1 ∧ a ^ (t * 2 ^ i) ≡ n - 1 [MOD n] := by
  rw [millerRabin_iff n a t s hn hts (Nat.odd_iff.1 ht)]
  unfold Nat.ModEq
  rw [Nat.mod_eq_of_lt (show 1 < n by omega), Nat.mod_eq_of_lt (show n - 1 < n by omega)]
  constructor
  · rintro (h | h | ⟨i, h1, h2, h3⟩)
    · exact Or.inl h
    · exact Or.inr ⟨0, by omega, by simpa using h⟩
    · exact Or.inr ⟨i, by omega, h3⟩
  · rintro (h | ⟨i, h1, h2⟩)
    · exact Or.inl h
    · rcases i with _ | i
      · exact Or.inr (Or.inl (by simpa using h2))
      · exact Or.inr (Or.inr ⟨i + 1, by omega, by omega, h2⟩)

theorem C15_is_probable_prime (n : Nat) (hn : n.Prime) : isProbablePrime n = true :=
  isProbablePrime_prime n hn

theorem C15_miller_rabin_deterministic (n w : Nat) (hn : n.Prime) :
    millerRabinDeterministic n w = true := by
  unfold millerRabinDeterministic
  have := hn.two_le
  rw [if_neg (by omega)]
  simp only [Int.toNat_natCast, List.all_eq_true, List.mem_range'_1]
  intro a ha
  refine millerRabin_prime n a hn fun hd => ?_
  have := Nat.le_of_dvd (by omega) hd
  omega

/-- Solovay-Strassen never rejects an odd prime, for any base not divisible by it. -/
theorem C15_solovay_strassen (n : Nat) (a : Int) (hn : n.Prime) (h2 : n ≠ 2)
    (ha : ¬ (n : Int) ∣ a) : solovayStrassen n a = .ok true := by
  have := Fact.mk hn
  have hodd : Odd n := hn.odd_of_ne_two h2
  unfold solovayStrassen
  rw [(C12_jacobi_symbol a n).1 hodd]
  simp only
  rw [if_neg]
  rw [← jacobiSym.legendreSym.to_jacobiSym]
  push Not
  constructor
  · rw [Ne, legendreSym.eq_zero_iff, ZMod.intCast_zmod_eq_zero_iff_dvd]; exact ha
  · have h := legendreSym.eq_pow n a
    rw [Int.fmod_eq_emod_of_nonneg _ (by positivity)]
    have e : (n - 1) / 2 = n / 2 := by rcases hodd with ⟨k, hk⟩; omega
    rw [e]
    have : ((legendreSym n a : Int) : ZMod n) = ((a ^ (n / 2) : Int) : ZMod n) := by
      rw [h]; push_cast; rfl
    exact (ZMod.intCast_eq_intCast_iff _ _ _).1 this

/-- A number rejected by `solovay_strassen` (odd, base coprime) is composite; and the test
is not vacuous: it rejects some composites. -/
example : solovayStrassen 15 7 = .ok false ∧ solovayStrassen 13 7 = .ok true ∧
    millerRabin 221 174 = true ∧ millerRabin 221 137 = false ∧ isProbablePrime 1729 = false ∧
    isProbablePrime 7919 = true := by decide +kernel

/-- `lucas_lehmer(p)` decides primality of `2^p - 1` for `p ≥ 3`. -/
theorem C15_lucas_lehmer (p : Nat) (hp : 3 ≤ p) :
    lucasLehmer p = true ↔ (2 ^ p - 1).Prime := by
  unfold lucasLehmer
  rw [llLoop_eq, llLoop_sMod p hp, beq_iff_eq, ← LucasLehmer.residue_eq_zero_iff_sMod_eq_zero p (by omega)]
  exact ⟨fun h => lucas_lehmer_sufficiency p (by omega) h, fun h => lucas_lehmer_necessity p hp h⟩

/-- `lucas_lehmer(2)` is wrong: `2^2 - 1 = 3` is prime. -/
theorem C15_lucas_lehmer_violation : lucasLehmer 2 = false ∧ Nat.Prime (2 ^ 2 - 1) := by
  constructor
  · decide +kernel
  · norm_num

example : lucasLehmer 13 = true ∧ lucasLehmer 11 = false := by decide +kernel

/-! ## C16 -/

/-- `is_prime(n)` never raises and is `True` exactly for the primes. -/
theorem C16_is_prime (T : List Nat) (hT : IsPrimeTable T) (n : Int) :
    ∃ b, isPrime T n = .ok b ∧ (b = true ↔ ∃ p : Nat, p.Prime ∧ n = p) := by
  refine ⟨_, isPrime_spec T hT n, ?_⟩
  simp only [decide_eq_true_eq]
  constructor
  · rintro ⟨h0, hp⟩; exact ⟨n.toNat, hp, by omega⟩
  · rintro ⟨p, hp, rfl⟩; exact ⟨by omega, by simpa using hp⟩

/-- The same with the table of the package. -/
theorem C16_is_prime_real (n : Int) :
    ∃ b, isPrime primeList n = .ok b ∧ (b = true ↔ ∃ p : Nat, p.Prime ∧ n = p) :=
  C16_is_prime _ primeList_isPrimeTable n

/-- `random_prime(a, b)`: whatever the random choices, a returned value is a prime of the
interval. -/
theorem C16_random_prime (T : List Nat) (hT : IsPrimeTable T) (rnd : Nat → Int) (a b : Int)
    (hr : ∀ i, a ≤ rnd i ∧ rnd i ≤ b) (i : Nat) (r : Except PyErr Int)
    (h : randomPrimeLoop T rnd i = some r) :
    ∃ p : Nat, p.Prime ∧ r = .ok p ∧ a ≤ p ∧ p ≤ b := by
  refine randomPrimeLoop.partial_correctness T rnd (fun i r => ∃ p : Nat, p.Prime ∧ r = .ok (p : Int) ∧ a ≤ p ∧ p ≤ b) ?_ i r h
  intro f ih i r h
  rw [isPrime_spec T hT] at h
  by_cases hp : 0 ≤ rnd i ∧ (rnd i).toNat.Prime
  · simp only [hp, and_self, decide_true, Option.some.injEq] at h
    have e : (((rnd i).toNat : Nat) : Int) = rnd i := by omega
    refine ⟨(rnd i).toNat, hp.2, ?_, ?_, ?_⟩
    · rw [e]; exact h.symm
    · rw [e]; exact (hr i).1
    · rw [e]; exact (hr i).2
  · simp only [hp, decide_false] at h
    exact ih _ _ h

/-- A small table satisfying the hypothesis, and evaluations below and above it. -/
theorem smallTable_isPrimeTable : IsPrimeTable [2, 3, 5, 7] := by
  refine ⟨by decide, 7, rfl, le_rfl, fun p => ?_⟩
  constructor
  · intro h
    simp only [List.mem_cons, List.not_mem_nil, or_false] at h
    rcases h with rfl | rfl | rfl | rfl <;> norm_num
  · rintro ⟨hp, hle⟩
    interval_cases p <;> revert hp <;> norm_num

example : isPrime [2, 3, 5, 7] 5 = .ok true ∧ isPrime [2, 3, 5, 7] 6 = .ok false ∧
    isPrime [2, 3, 5, 7] 1009 = .ok true ∧ isPrime [2, 3, 5, 7] 1003 = .ok false ∧
    isPrime [2, 3, 5, 7] (-7) = .ok false := by decide +kernel

/-! ## C17 -/

/-- `next_prime(n)` for `n ≥ 1` returns the least prime above `n`. -/
theorem C17_next_prime (T : List Nat) (hT : IsPrimeTable T) (n : Nat) (hn : 1 ≤ n) :
    ∃ p : Nat, nextPrime T n = some (.ok p) ∧ p.Prime ∧ n < p ∧
      ∀ q : Nat, q.Prime → n < q → p ≤ q := by
  by_cases h1 : n = 1
  · subst h1
    exact ⟨2, rfl, Nat.prime_two, by norm_num, fun q hq _ => hq.two_le⟩
  · have hex : ∃ p, p.Prime ∧ n < p := by
      obtain ⟨p, h, hp⟩ := Nat.exists_infinite_primes (n + 1)
      exact ⟨p, hp, h⟩
    classical
    obtain ⟨hp, hlt⟩ := Nat.find_spec hex
    have hmin : ∀ q, q.Prime → n < q → Nat.find hex ≤ q := fun q hq h => Nat.find_min' hex ⟨hq, h⟩
    refine ⟨Nat.find hex, ?_, hp, hlt, hmin⟩
    generalize Nat.find hex = p at *
    have hpo : p % 2 = 1 := (hp.eq_two_or_odd).resolve_left (by omega)
    unfold nextPrime
    rw [if_neg (by omega)]
    simp only [Int.fmod_eq_emod_of_nonneg _ (show (0 : Int) ≤ 2 by norm_num)]
    split
    · exact nextPrimeLoop_spec T hT _ (by omega) p hp (by omega) (by omega)
        (fun q hq h _ => hmin q hq (by omega))
    · exact nextPrimeLoop_spec T hT _ (by omega) p hp (by omega) (by omega)
        (fun q hq h _ => hmin q hq (by omega))

/-- For `n ≤ 0` the prime 2 is missed. -/
theorem C17_next_prime_nonpositive (T : List Nat) (hT : IsPrimeTable T) (n : Int) (hn : n ≤ 0) :
    nextPrime T n = some (.ok 3) := by
  unfold nextPrime
  rw [if_neg (by omega)]
  simp only [Int.fmod_eq_emod_of_nonneg _ (show (0 : Int) ≤ 2 by norm_num)]
  have h3 : ∀ q : Nat, q.Prime → q ≠ 2 → 3 ≤ q := fun q hq h => by have := hq.two_le; omega
  split
  · exact nextPrimeLoop_spec T hT _ (by omega) 3 Nat.prime_three (by omega) (by omega)
      (fun q hq _ h => h3 q hq h)
  · exact nextPrimeLoop_spec T hT _ (by omega) 3 Nat.prime_three (by omega) (by omega)
      (fun q hq _ h => h3 q hq h)

/-- `next_probable_prime(n)` returns for every `n ≥ 1`, and skips no prime. -/
theorem C17_next_probable_prime (n : Nat) (hn : 1 ≤ n) :
    ∃ r : Nat, nextProbablePrime n = some r ∧ n < r ∧ isProbablePrime r = true ∧
      ∀ q : Nat, q.Prime → n < q → r ≤ q := by
  by_cases h1 : n = 1
  · subst h1
    exact ⟨2, rfl, by norm_num, by decide, fun q hq _ => hq.two_le⟩
  · have key : ∀ p, p.Prime → n < p → ∃ r, nextProbablePrime n = some r ∧ n < r ∧ r ≤ p ∧
        isProbablePrime r = true := by
      intro p hp hlt
      have hpo : p % 2 = 1 := (hp.eq_two_or_odd).resolve_left (by omega)
      unfold nextProbablePrime
      rw [if_neg h1]
      simp only
      split
      · obtain ⟨r, a, b, c, d, e⟩ := nextProbablePrimeLoop_spec (n + 1 + 1) (by omega) p hp (by omega) (by omega)
        exact ⟨r, a, by omega, c, e⟩
      · obtain ⟨r, a, b, c, d, e⟩ := nextProbablePrimeLoop_spec (n + 1) (by omega) p hp (by omega) (by omega)
        exact ⟨r, a, by omega, c, e⟩
    obtain ⟨p, h, hp⟩ := Nat.exists_infinite_primes (n + 1)
    obtain ⟨r, a, b, c, d⟩ := key p hp (by omega)
    refine ⟨r, a, b, d, fun q hq h => ?_⟩
    obtain ⟨r', a', b', c', _⟩ := key q hq h
    rw [a] at a'; cases a'; exact c'

end Rosemary.Props
