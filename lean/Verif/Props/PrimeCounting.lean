import Verif.Lemmas.Legendre
import Verif.Props.Sieves
import Verif.Props.Core

/-!
# C35: prime counting and prime summing
-/

namespace Rosemary.Props

open Rosemary.Core Rosemary.Primality Rosemary.Spec Rosemary.Sieves Rosemary.PrimeCounting Finset

/-! ## prime_count and prime_sum -/

/-- The root used by the code is the integer square root. -/
private theorem root_facts {n : Nat} (h : (n : Int) < 4503599761588224 ∨ 2 ^ 60 < (n : Int)) :
    ∃ r : Nat, integerSqrt (n : Int) = .ok r ∧ r * r ≤ n ∧ n < (r + 1) * (r + 1) := by
  obtain ⟨r, h1, h2, h3⟩ := C09_integer_sqrt_partial n (by omega) h
  refine ⟨r, h1, ?_, ?_⟩
  · have : ((r * r : Nat) : Int) ≤ n := by push_cast; nlinarith
    exact_mod_cast this
  · have : (n : Int) < (((r + 1) * (r + 1) : Nat) : Int) := by push_cast; nlinarith
    exact_mod_cast this

/-- C35: `prime_count(n)` for `n >= 1`.  The returned dictionary has all the keys `n // i`
(`1 <= i <= n`); every key `v >= 2` holds `pi(v)`, and the key 1 holds 1 (which is not `pi(1) = 0`).
Partial: the hypothesis excludes the inputs for which `integer_sqrt` may be one too large. -/
theorem C35_prime_count_partial (n : Nat) (hn : 1 ≤ n)
    (h : (n : Int) < 4503599761588224 ∨ 2 ^ 60 < (n : Int)) :
    ∃ S, primeCount n = .ok S ∧
      (∀ i, 1 ≤ i → i ≤ n → 2 ≤ n / i → S (n / i) = some (Nat.primeCounting (n / i) : Int)) ∧
      (∀ v x, S v = some x → 1 ≤ v ∧ v ≤ n ∧ (2 ≤ v → x = (Nat.primeCounting v : Int))) ∧
      S 1 = some 1 := by
  obtain ⟨r, hr, h1, h2⟩ := root_facts h
  have hr0 : 0 < r := by
    rcases Nat.eq_zero_or_pos r with rfl | h
    · omega
    · exact h
  have hrn : r ≤ n := le_trans (Nat.le_mul_of_pos_left r hr0) h1
  obtain ⟨V, hV, hF⟩ := floors_spec hr0 h1
  have hS0 : IsDict V (initDict (fun i => ((i : Int) + 1).fdiv 2) V) (state (fun _ => 1) 1 3) :=
    (initDict_isDict _ V).congr (fun v hv => count_init v (hF.pos hrn hv).1)
  have hfin : ∃ S, countLoop V (pyRange 2 (r + 1))
      (initDict (fun i => ((i : Int) + 1).fdiv 2) V) = .ok S ∧
      IsDict V S (state (fun _ => 1) 1 (max 3 (r + 1))) := by
    unfold pyRange
    rcases Nat.lt_or_ge r 2 with hr2 | hr2
    · have : r + 1 - 2 = 0 := by omega
      rw [this]
      exact ⟨_, rfl, by rw [max_eq_left (by omega)]; exact hS0⟩
    · obtain ⟨k, hk⟩ : ∃ k, r + 1 - 2 = k + 1 := ⟨r - 2, by omega⟩
      rw [hk, List.range'_succ]
      unfold countLoop
      have m2 : (2 : Nat) ∈ V := hF.small hr0 h1 (by omega) (by omega)
      have m1 : (1 : Nat) ∈ V := hF.small hr0 h1 (by omega) (by omega)
      have e2 : initDict (fun i => ((i : Int) + 1).fdiv 2) V 2 = some 1 := by
        unfold initDict; rw [if_pos m2]; rfl
      have e1 : initDict (fun i => ((i : Int) + 1).fdiv 2) V (2 - 1) = some 1 := by
        unfold initDict; rw [if_pos m1]; rfl
      rw [e2, e1]
      dsimp only
      rw [if_neg (by omega)]
      obtain ⟨S, hS, hD⟩ := countLoop_spec hF hr0 h1 1 k 3 (le_refl _) (by omega) _ hS0
      exact ⟨S, hS, by rw [max_eq_right (by omega)]; exact hD⟩
  obtain ⟨S, hS, hD⟩ := hfin
  refine ⟨S, ?_, ?_, ?_, ?_⟩
  · unfold primeCount
    rw [hr]
    dsimp only
    rw [Int.toNat_natCast, hV]
    exact hS
  · intro i hi1 hi2 hi3
    rw [hD (n / i), if_pos (hF.all hr0 (by omega) hi2)]
    unfold state
    rw [if_pos hi3, sieved_done, primeSumTo_one]
    have h5 := Nat.div_le_self n i
    have h6 := Nat.mul_le_mul (le_max_right 3 (r + 1)) (le_max_right 3 (r + 1))
    omega
  · intro v x hx
    rw [hD v] at hx
    split at hx
    · rename_i hv
      have h5 := hF.pos hrn hv
      refine ⟨h5.1, h5.2, fun hv2 => ?_⟩
      injection hx with hx
      rw [← hx]
      unfold state
      rw [if_pos hv2, sieved_done, primeSumTo_one]
      have h6 := Nat.mul_le_mul (le_max_right 3 (r + 1)) (le_max_right 3 (r + 1))
      omega
    · simp at hx
  · rw [hD 1, if_pos (hF.small hr0 h1 (by omega) hr0)]
    rfl

example : ∃ S, primeCount 100 = .ok S ∧ S 100 = some 25 ∧ S 33 = some 11 ∧ S 1 = some 1 := by
  obtain ⟨S, h1, h2, -, h4⟩ := C35_prime_count_partial 100 (by omega) (by omega)
  refine ⟨S, h1, ?_, ?_, h4⟩
  · rw [show S 100 = S (100 / 1) from rfl, h2 1 (by omega) (by omega) (by omega)]; decide +kernel
  · rw [show S 33 = S (100 / 3) from rfl, h2 3 (by omega) (by omega) (by omega)]; decide +kernel

/-- C35: `prime_sum(n)` is the sum of the primes up to `n`.  Partial: as for `prime_count`. -/
theorem C35_prime_sum_partial (n : Nat) (hn : 1 ≤ n)
    (h : (n : Int) < 4503599761588224 ∨ 2 ^ 60 < (n : Int)) :
    primeSum n = .ok ((∑ p ∈ (range (n + 1)).filter Nat.Prime, p : Nat) : Int) := by
  obtain ⟨r, hr, h1, h2⟩ := root_facts h
  have hr0 : 0 < r := by
    rcases Nat.eq_zero_or_pos r with rfl | h
    · omega
    · exact h
  have hrn : r ≤ n := le_trans (Nat.le_mul_of_pos_left r hr0) h1
  obtain ⟨V, hV, hF⟩ := floors_spec hr0 h1
  have hS0 : IsDict V (initDict (fun i => ((i : Int) * (i + 1)).fdiv 2 - 1) V)
      (state (fun m => (m : Int)) 0 2) :=
    (initDict_isDict _ V).congr (fun v hv => sum_init v (hF.pos hrn hv).1)
  obtain ⟨S, hS, hD⟩ := sumLoop_spec hF hr0 h1 (r + 1 - 2) 2 (le_refl _) (by omega) _ hS0
  unfold primeSum
  rw [hr]
  dsimp only
  rw [Int.toNat_natCast, hV]
  dsimp only
  unfold pyRange
  rw [hS]
  dsimp only
  have hnV : n ∈ V := by simpa using hF.all hr0 Nat.one_pos hn
  rw [hD n, if_pos hnV]
  dsimp only
  unfold state
  split
  · rw [sieved_done h2, primeSumTo_id]
  · have : n = 1 := by omega
    subst this
    rfl

example : primeSum 10 = .ok 17 := by decide +kernel

/-- A dictionary that lacks a key keeps lacking it. -/
private theorem countInner_none {p k : Nat} (vs : List Nat) (S S' : Dict) (hk : S k = none)
    (h : countInner p vs S = .ok S') : S' k = none := by
  induction vs generalizing S with
  | nil => unfold countInner at h; injection h with h; rw [← h]; exact hk
  | cons v vs ih =>
    unfold countInner at h
    split at h
    · injection h with h; rw [← h]; exact hk
    · split at h
      · rename_i hv _ _
        refine ih _ ?_ h
        unfold Dict.put
        rw [if_neg (by rintro rfl; rw [hk] at hv; simp at hv)]
        exact hk
      · simp at h

private theorem countInner_err {p : Nat} (vs : List Nat) (S : Dict) (e : PyErr)
    (h : countInner p vs S = .error e) : e = .keyError := by
  induction vs generalizing S with
  | nil => unfold countInner at h; simp at h
  | cons v vs ih =>
    unfold countInner at h
    split at h
    · simp at h
    · split at h
      · exact ih _ h
      · injection h with h; exact h.symm

private theorem countLoop_none {V : List Nat} {k : Nat} (ps : List Nat) (S : Dict) (hk : S k = none)
    (h : k ∈ ps) : countLoop V ps S = .error .keyError := by
  induction ps generalizing S with
  | nil => simp at h
  | cons p ps ih =>
    unfold countLoop
    rcases List.mem_cons.1 h with rfl | h
    · rw [hk]
    · split
      · split
        · split
          · rename_i e he
            rw [countInner_err _ _ _ he]
          · rename_i S' hS'
            exact ih _ (countInner_none _ _ _ hk hS') h
        · exact ih _ hk h
      · rfl

private theorem sumInner_none {p k : Nat} {sp : Int} (vs : List Nat) (S S' : Dict) (hk : S k = none)
    (h : sumInner p sp vs S = .ok S') : S' k = none := by
  induction vs generalizing S with
  | nil => unfold sumInner at h; injection h with h; rw [← h]; exact hk
  | cons v vs ih =>
    unfold sumInner at h
    split at h
    · injection h with h; rw [← h]; exact hk
    · split at h
      · rename_i hv _
        refine ih _ ?_ h
        unfold Dict.put
        rw [if_neg (by rintro rfl; rw [hk] at hv; simp at hv)]
        exact hk
      · simp at h

private theorem sumInner_err {p : Nat} {sp : Int} (vs : List Nat) (S : Dict) (e : PyErr)
    (h : sumInner p sp vs S = .error e) : e = .keyError := by
  induction vs generalizing S with
  | nil => unfold sumInner at h; simp at h
  | cons v vs ih =>
    unfold sumInner at h
    split at h
    · simp at h
    · split at h
      · exact ih _ h
      · injection h with h; exact h.symm

private theorem sumLoop_none {V : List Nat} {k : Nat} (ps : List Nat) (S : Dict) (hk : S k = none)
    (h : k ∈ ps) : sumLoop V ps S = .error .keyError := by
  induction ps generalizing S with
  | nil => simp at h
  | cons p ps ih =>
    unfold sumLoop
    rcases List.mem_cons.1 h with rfl | h
    · rw [hk]
    · split
      · split
        · split
          · rename_i e he
            rw [sumInner_err _ _ _ he]
          · rename_i S' hS'
            exact ih _ (sumInner_none _ _ _ hk hS') h
        · exact ih _ hk h
      · rfl

private theorem floors_square {n r : Nat} (hr : 2 ≤ r) (h : r * r = n + 1) :
    ∃ V, floors n r = .ok V ∧ r ∉ V := by
  have hnr : n / r = r - 1 := by
    have e : n = (r - 1) * r + (r - 1) := by
      have : (r - 1) * r + r = r * r := by
        obtain ⟨s, rfl⟩ : ∃ s, r = s + 1 := ⟨r - 1, by omega⟩
        simp only [Nat.add_sub_cancel]; ring
      omega
    rw [e, mul_comm, Nat.mul_add_div (by omega), Nat.div_eq_of_lt (by omega)]; rfl
  have hlast : ((pyRange 1 (r + 1)).map (fun i => n / i)).getLast? = some (n / r) := by
    unfold pyRange
    rw [List.getLast?_map, List.getLast?_range']
    simp [show r ≠ 0 by omega]
  unfold floors
  dsimp only
  rw [hlast]
  refine ⟨_, rfl, ?_⟩
  rw [List.mem_append, List.mem_map, mem_downFrom, hnr]
  rintro (⟨i, hi, hir⟩ | h3)
  · rw [mem_pyRange] at hi
    rcases Nat.lt_or_ge i r with hlt | hge
    · have h5 : r + 1 ≤ n / i := by
        rw [Nat.le_div_iff_mul_le (by omega)]
        obtain ⟨s, rfl⟩ : ∃ s, r = s + 1 := ⟨r - 1, by omega⟩
        have : (s + 1 + 1) * i ≤ (s + 1 + 1) * s := Nat.mul_le_mul_left _ (by omega)
        nlinarith
      omega
    · have : i = r := by omega
      subst this; omega
  · omega

/-- C35 (violation): whenever `integer_sqrt(n)` rounds up to `r` with `r^2 = n + 1`, both
`prime_count(n)` and `prime_sum(n)` raise `KeyError`. -/
theorem C35_prime_count_keyError (n r : Nat) (hr2 : 2 ≤ r) (hr : integerSqrt (n : Int) = .ok r)
    (h : r * r = n + 1) :
    primeCount n = .error .keyError ∧ primeSum n = .error .keyError := by
  obtain ⟨V, hV, hnot⟩ := floors_square hr2 h
  have hmem : r ∈ pyRange 2 (r + 1) := by rw [mem_pyRange]; omega
  constructor
  · unfold primeCount
    rw [hr]
    dsimp only
    rw [Int.toNat_natCast, hV]
    dsimp only
    exact countLoop_none _ _ (by unfold initDict; rw [if_neg hnot]) hmem
  · unfold primeSum
    rw [hr]
    dsimp only
    rw [Int.toNat_natCast, hV]
    dsimp only
    rw [sumLoop_none _ _ (by unfold initDict; rw [if_neg hnot]) hmem]

/-- C35 (violation): the smallest such input found. -/
theorem C35_prime_count_violation :
    primeCount 4503599761588224 = .error .keyError ∧
    primeSum 4503599761588224 = .error .keyError ∧
    primeCount (2 ^ 54 - 1) = .error .keyError ∧ primeSum (2 ^ 54 - 1) = .error .keyError := by
  have h1 := C35_prime_count_keyError 4503599761588224 67108865 (by omega) (by decide +kernel)
    (by decide +kernel)
  have h2 := C35_prime_count_keyError (2 ^ 54 - 1) (2 ^ 27) (by omega) (by decide +kernel)
    (by decide +kernel)
  exact ⟨h1.1, h1.2, h2.1, h2.2⟩

/-- C35, error branches: `n = 0` raises `IndexError`, negative `n` raise `ValueError`. -/
theorem C35_prime_count_errors (n : Int) :
    (n = 0 → primeCount n = .error .indexError ∧ primeSum n = .error .indexError) ∧
    (n < 0 → primeCount n = .error .valueError ∧ primeSum n = .error .valueError) := by
  constructor
  · rintro rfl; exact ⟨rfl, rfl⟩
  · intro h
    have := (C09_integer_sqrt_error n).2 h
    unfold primeCount primeSum
    rw [this]
    exact ⟨rfl, rfl⟩

/-! ## legendre -/

private theorem root_upper (n : Nat) (hn : 2 ≤ n) :
    ∃ r : Nat, integerSqrt (n : Int) = .ok r ∧ n < (r + 1) * (r + 1) ∧ r ≤ n ∧ 1 ≤ r := by
  obtain ⟨r, h1, h2, h3, -⟩ := C09_integer_sqrt_bounds n (by omega)
  refine ⟨r, h1, by exact_mod_cast (by rw [← pow_two]; exact_mod_cast h2), ?_, ?_⟩
  · rw [max_eq_left (by omega)] at h3
    by_contra hc
    have : (n : Int) + 1 ≤ r := by omega
    have h5 : (n : Int) ≤ r - 1 := by omega
    have : (n : Int) * n ≤ (r - 1) ^ 2 := by nlinarith
    have h6 : (2 : Int) ≤ n := by omega
    nlinarith
  · rcases Nat.eq_zero_or_pos r with rfl | h
    · simp at h2; omega
    · exact h

private theorem takeWhile_primes {T : List Nat} (hT : IsPrimeTable T) {l : Nat}
    (hl : T.getLast? = some l) (n : Int) (hn : n ≤ l) :
    T.takeWhile (fun q : Nat => decide ((q : Int) ≤ n)) = primesUpTo n.toNat := by
  obtain ⟨l', hl', h2, h3⟩ := hT.last
  rw [hl] at hl'
  injection hl' with hl'
  subst hl'
  refine sorted_ext (hT.sorted.sublist (List.takeWhile_sublist _)) (primesUpTo_sorted _) ?_
  intro p
  rw [takeWhile_sorted hT.sorted, mem_primesUpTo, h3]
  constructor
  · rintro ⟨⟨h4, -⟩, h5⟩; exact ⟨h4, by omega⟩
  · rintro ⟨h4, h5⟩
    have := h4.two_le
    exact ⟨⟨h4, by omega⟩, by omega⟩

theorem primesUpTo_length (n : Nat) : (primesUpTo n).length = Nat.primeCounting n := by
  have h := primeSumTo_list (fun _ => 1) n
  rw [primeSumTo_one] at h
  simp at h
  exact h

/-- C35: `legendre(n)` is the number of primes up to `n`, for every integer `n`. -/
theorem C35_legendre (T : List Nat) (hT : IsPrimeTable T) (n : Int) :
    legendre T n = .ok (Nat.primeCounting n.toNat : Int) := by
  obtain ⟨l, hl, h2, h3⟩ := hT.last
  unfold legendre
  by_cases h1 : n ≤ 1
  · rw [if_pos h1]
    have : n.toNat = 0 ∨ n.toNat = 1 := by omega
    rcases this with h | h <;> rw [h] <;> rfl
  · rw [if_neg h1, hl]
    dsimp only
    by_cases hnl : n ≤ l
    · rw [if_pos hnl]
      have := takeWhile_primes hT hl n hnl
      unfold bisectRight
      rw [this, primesUpTo_length]
    · rw [if_neg hnl]
      obtain ⟨N, rfl⟩ := Int.eq_ofNat_of_zero_le (by omega : 0 ≤ n)
      obtain ⟨r, hr, hr1, hr2, hr3⟩ := root_upper N (by omega)
      rw [hr]
      dsimp only
      rw [C18_primes T hT, Int.toNat_natCast]
      dsimp only
      rw [Int.toNat_natCast]
      have hr4 : 2 ≤ r := by
        by_contra hc
        have : r = 1 := by omega
        subst this; omega
      have h0 : (primesUpTo r)[0]? = some 2 := by
        have hmem : 2 ∈ primesUpTo r := mem_primesUpTo.2 ⟨Nat.prime_two, hr4⟩
        have hge : ∀ p ∈ primesUpTo r, 2 ≤ p := fun p hp => (mem_primesUpTo.1 hp).1.two_le
        have hsrt := primesUpTo_sorted r
        revert hmem hge hsrt
        cases primesUpTo r with
        | nil => intro h; simp at h
        | cons a l =>
          intro hmem hge hsrt
          rcases List.mem_cons.1 hmem with h | h
          · rw [h]; rfl
          · have h5 := (List.pairwise_cons.1 hsrt).1 2 h
            have h6 := hge a (by simp)
            omega
      have hlen : 0 < (primesUpTo r).length := by
        by_contra hc
        rw [List.getElem?_eq_none (by omega)] at h0
        simp at h0
      obtain ⟨m, hm, -⟩ := legendrePhi_spec (primesUpTo_primeSeq r) h0 _ _ N
        (Nat.lt_succ_self _) hlen (le_refl _) [] (MemoOk.nil _)
      rw [hm]
      dsimp only
      have hf := legendre_formula (f := fun _ => 1) rfl (by omega : 0 < N) hr2 hr1
      rw [primeSumTo_one, primeSumTo_one, ← primesUpTo_length] at hf
      rw [hf]

/-! ## prime_sum2 -/

private theorem primesUpTo_one : primesUpTo 1 = [] := by decide

/-- C35: `prime_sum2(n)` is the sum of the primes up to `n`, for every `n >= 1`. -/
theorem C35_prime_sum2 (T : List Nat) (hT : IsPrimeTable T) (n : Nat) (hn : 1 ≤ n) :
    primeSum2 T n = .ok ((∑ p ∈ (range (n + 1)).filter Nat.Prime, p : Nat) : Int) := by
  obtain ⟨r, hr, hr1, hr2⟩ : ∃ r : Nat, integerSqrt (n : Int) = .ok r ∧
      n < (r + 1) * (r + 1) ∧ r ≤ n := by
    rcases Nat.lt_or_ge n 2 with h | h
    · have : n = 1 := by omega
      subst this
      exact ⟨1, by decide +kernel, by omega, by omega⟩
    · obtain ⟨r, h1, h2, h3, -⟩ := root_upper n h
      exact ⟨r, h1, h2, h3⟩
  unfold primeSum2
  rw [hr]
  dsimp only
  rw [C18_primes T hT, Int.toNat_natCast]
  dsimp only
  obtain ⟨t, ht, htl⟩ := sumTable_ok ((primesUpTo r).zip (accumulate 0 (primesUpTo r)))
    (List.replicate (r + 1) 0) (by
      rintro ⟨p, q⟩ hq
      have := (mem_primesUpTo.1 (List.of_mem_zip hq).1).2
      simp; omega)
  rw [ht]
  dsimp only
  obtain ⟨t2, ht2⟩ := fillTable_ok (pyRange 2 (r + 1)) t (by
    intro i hi
    rw [mem_pyRange] at hi
    rw [htl]; simp; omega)
  rw [ht2]
  dsimp only
  rw [Int.toNat_natCast]
  obtain ⟨m, hm, -⟩ := sumPhi_spec (primesUpTo_primeSeq r) _ _ n
    (Nat.lt_succ_self _) (le_refl _) [] (MemoOk.nil _)
  rw [hm]
  dsimp only
  have hf := legendre_formula (f := fun m => (m : Int)) rfl hn hr2 hr1
  rw [← primeSumTo_list _ r, primeSumTo_id] at hf
  have hs : ((primesUpTo r).map (fun m : Nat => (m : Int))).sum = ((primesUpTo r).sum : Nat) := by
    induction primesUpTo r with
    | nil => rfl
    | cons a l ih => rw [List.map_cons, List.sum_cons, ih, List.sum_cons, Nat.cast_add]
  rw [hs] at hf
  rw [hf]

/-- C35 (violation): `prime_sum2(0)` is -1; negative arguments raise `ValueError`. -/
theorem C35_prime_sum2_violation (T : List Nat) (hT : IsPrimeTable T) :
    primeSum2 T 0 = .ok (-1) ∧ ∀ n < 0, primeSum2 T n = .error .valueError := by
  constructor
  · unfold primeSum2
    have : integerSqrt 0 = .ok 0 := by decide +kernel
    rw [this]
    dsimp only
    rw [C18_primes T hT]
    have : primesUpTo (Int.toNat ((0 : Nat) : Int)) = [] := by decide
    rw [this]
    rfl
  · intro n hn
    unfold primeSum2
    rw [(C09_integer_sqrt_error n).2 hn]

example : primeSum2 primeList 30 = .ok 129 := by
  rw [show (30 : Int) = ((30 : Nat) : Int) from rfl,
    C35_prime_sum2 _ primeList_isPrimeTable 30 (by omega)]
  decide +kernel

example : legendre primeList 100 = .ok 25 := by
  rw [C35_legendre _ primeList_isPrimeTable]; decide +kernel

/-! ## pi_table -/

private theorem piLoop_spec {N : Nat} (rest done : List Nat) (k last : Nat) (i : Option Nat)
    (table : List Nat)
    (hs : (done ++ rest).Pairwise (· < ·)) (hN : ∀ p ∈ rest, p ≤ N) (hk : done.length = k)
    (hlt : table.length = N + 1) (hlN : last ≤ N) (hd : ∀ p ∈ done, p ≤ last)
    (hlr : ∀ p ∈ rest, last ≤ p) (hi : i = if k = 0 then none else some (k - 1))
    (ht : ∀ j < last, table[j]? = some ((done ++ rest).filter (· ≤ j)).length) :
    ∃ table' last', piLoop rest k last i table = (table', last',
        if (done ++ rest).length = 0 then none else some ((done ++ rest).length - 1)) ∧
      table'.length = N + 1 ∧ last' ≤ N ∧ (∀ p ∈ done ++ rest, p ≤ last') ∧
      ∀ j < last', table'[j]? = some ((done ++ rest).filter (· ≤ j)).length := by
  induction rest generalizing done k last i table with
  | nil =>
    refine ⟨table, last, ?_, hlt, hlN, by simpa using hd, ht⟩
    unfold piLoop
    rw [List.append_nil, hk, hi]
  | cons p rest ih =>
    unfold piLoop
    have hlp : last ≤ p := hlr p (by simp)
    have hpN : p ≤ N := hN p (by simp)
    have e : done ++ p :: rest = (done ++ [p]) ++ rest := by simp
    rw [e] at hs ht ⊢
    have hs1 := List.pairwise_append.1 hs
    refine ih (done ++ [p]) (k + 1) p (some k) _ hs (fun q hq => hN q (by simp [hq]))
      (by simp [hk]) ?_ hpN ?_ ?_ (by simp) ?_
    · rw [fillSlice_length hlp (by omega)]; exact hlt
    · intro q hq
      rw [List.mem_append, List.mem_singleton] at hq
      rcases hq with hq | rfl
      · exact (hd q hq).trans hlp
      · exact le_refl _
    · intro q hq
      exact Nat.le_of_lt (hs1.2.2 p (by simp) q hq)
    · intro j hj
      rw [fillSlice_get hlp (by omega)]
      by_cases hjl : last ≤ j
      · rw [if_pos ⟨hjl, hj⟩]
        congr 1
        rw [List.filter_append, List.filter_append, List.filter_eq_self.2, List.filter_eq_nil_iff.2,
          List.filter_eq_nil_iff.2]
        · simp [hk]
        · intro q hq
          have := hs1.2.2 p (by simp) q hq
          simp; omega
        · intro q hq
          rw [List.mem_singleton] at hq
          simp; omega
        · intro q hq
          have := hd q hq
          simp; omega
      · rw [if_neg (by omega)]
        exact ht j (by omega)

private theorem filter_primes {n j : Nat} (h : j ≤ n) :
    ((primesUpTo n).filter (· ≤ j)).length = Nat.primeCounting j := by
  rw [← primesUpTo_length]
  congr 1
  refine sorted_ext ((primesUpTo_sorted n).sublist List.filter_sublist) (primesUpTo_sorted _) ?_
  intro p
  rw [List.mem_filter, mem_primesUpTo, mem_primesUpTo]
  simp only [decide_eq_true_eq]
  constructor
  · rintro ⟨⟨h1, h2⟩, h3⟩; exact ⟨h1, h3⟩
  · rintro ⟨h1, h2⟩; exact ⟨⟨h1, by omega⟩, h2⟩

/-- C35: `pi_table(n)` for `n >= 2` returns the primes up to `n` and the list
`[pi(0), ..., pi(n)]`. -/
theorem C35_pi_table (T : List Nat) (hT : IsPrimeTable T) (n : Nat) (hn : 2 ≤ n) :
    piTable T n = .ok (primesUpTo n, (List.range (n + 1)).map Nat.primeCounting) := by
  unfold piTable
  rw [C18_primes T hT, Int.toNat_natCast]
  dsimp only
  have e1 : ((n : Int) + 1).toNat = n + 1 := by omega
  rw [e1]
  obtain ⟨t, last, h1, h2, h3, h4, h5⟩ := piLoop_spec (N := n) (primesUpTo n) [] 0 0 none
    (List.replicate (n + 1) 0) (by simpa using primesUpTo_sorted n)
    (fun p hp => (mem_primesUpTo.1 hp).2) rfl (by simp) (by omega) (by simp) (by simp) rfl
    (by intro j hj; omega)
  rw [List.nil_append] at h1 h4 h5
  have hpos : 0 < (primesUpTo n).length :=
    List.length_pos_of_mem (mem_primesUpTo.2 ⟨Nat.prime_two, hn⟩)
  rw [if_neg (by omega)] at h1
  rw [h1]
  dsimp only
  congr 2
  apply List.ext_getElem?
  intro j
  rw [fillSlice_get (by omega) (by omega), List.getElem?_map]
  by_cases hj : j < n + 1
  · rw [List.getElem?_range hj]
    simp only [Option.map_some]
    by_cases hl : last ≤ j
    · rw [if_pos ⟨hl, hj⟩, ← filter_primes (by omega : j ≤ n), List.filter_eq_self.2]
      · congr 1; omega
      · intro p hp
        have := h4 p hp
        simp; omega
    · rw [if_neg (by omega), h5 j (by omega), filter_primes (by omega)]
  · rw [if_neg (by omega), List.getElem?_eq_none (by omega), List.getElem?_eq_none (by simp; omega)]
    rfl

/-- C35 (violation): without a prime up to `n` the code uses an unbound variable. -/
theorem C35_pi_table_error (T : List Nat) (hT : IsPrimeTable T) (n : Int) (hn : n < 2) :
    piTable T n = .error .unboundLocalError := by
  unfold piTable
  rw [C18_primes T hT]
  dsimp only
  have : primesUpTo n.toNat = [] := by
    have : n.toNat = 0 ∨ n.toNat = 1 := by omega
    rcases this with h | h <;> rw [h] <;> rfl
  rw [this]
  rfl

example : piTable primeList 10 = .ok ([2, 3, 5, 7], [0, 0, 1, 2, 2, 3, 3, 4, 4, 4, 4]) := by
  rw [show (10 : Int) = ((10 : Nat) : Int) from rfl,
    C35_pi_table _ primeList_isPrimeTable 10 (by omega)]
  decide +kernel

end Rosemary.Props
