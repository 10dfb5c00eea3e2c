import Verif.Lemmas.InversePhi2

/-!
# Properties C98-C99: the inverse of Euler's totient function
-/

namespace Rosemary.Props

open Rosemary.InverseFunctions Rosemary.Factorization Rosemary.Primality

/-! ## C98: euler_phi_inverse -/

/-- `euler_phi_inverse(n)` for a factorization with increasing keys: the strictly increasing list of
all `k` with `phi(k) = n` (for `n ≥ 1`; `phi(0) = 0`). -/
theorem C98_factorization (T : List Nat) (hT : IsPrimeTable T) (fac : List (Int × Nat)) (n : Int) (hn : 2 ≤ n)
    (hf : IsSignedFactorization fac n) :
    ∃ L, eulerPhiInverseList T fac = some (.ok L) ∧ L.Pairwise (· < ·) ∧
      ∀ k : Nat, k ∈ L ↔ (k.totient : Int) = n := by
  obtain ⟨h1, h2, h3, h4⟩ := signed_toNat (by omega) hf
  have hne : fac ≠ [] := by
    rintro rfl
    have := hf.prod
    simp at this
    omega
  obtain ⟨⟨p, e⟩, rest, hfac⟩ := List.exists_cons_of_ne_nil hne
  have hback : factorBack fac = n := by rw [C28_factor_back, hf.prod]
  obtain ⟨L, k1, k2, k3⟩ := core_spec T hT _ h1 (by simpa using hne) (by
    intro hev
    obtain ⟨e, rest, h⟩ := h3 (by omega)
    exact ⟨e, rest.map (fun pe => (pe.1.toNat, pe.2)), by rw [h]; rfl⟩) (by omega)
  refine ⟨L, ?_, k2, fun k => ?_⟩
  · have hp : p > 0 := h4 (p, e) (by rw [hfac]; simp)
    have : eulerPhiInverseList T fac =
        eulerPhiInverseCore T (factorBack fac).toNat (fac.map (fun pe => (pe.1.toNat, pe.2))) := by
      rw [hfac]; exact if_pos hp
    rw [this, hback, ← h2, Int.toNat_natCast, k1]
  · rw [k3]; omega

/-- The factorization `[(1, 1)]` of 1. -/
theorem C98_factorization_one (T : List Nat) (hT : IsPrimeTable T) :
    eulerPhiInverseList T [(1, 1)] = some (.ok [1, 2]) := by
  have h : eulerPhiInverseList T [(1, 1)] = eulerPhiInverseCore T 1 [(1, 1)] := rfl
  rw [h]
  unfold eulerPhiInverseCore
  rw [primeSuccs_eq T hT]
  have hd : (((divisors [(1, 1)]).drop 1).map (· + 1)).filter (fun q => decide q.Prime) = [2] := by
    rw [show (divisors [(1, 1)]).drop 1 = [1] by decide +kernel]
    simp [Nat.prime_two]
  rw [hd]
  rfl

/-- The errors for list arguments: `[]` and a negative sign entry. -/
theorem C98_factorization_error (T : List Nat) (p : Int) (e : Nat) (rest : List (Int × Nat)) :
    eulerPhiInverseList T [] = some (.error .indexError) ∧
      (p ≤ 0 → eulerPhiInverseList T ((p, e) :: rest) = some (.error .valueError)) :=
  ⟨rfl, fun h => if_neg (by omega)⟩

/-- `euler_phi_inverse(n)` for an integer, whenever the call to `factor` returns the factorization. -/
theorem C98_integer (T : List Nat) (hT : IsPrimeTable T) (fct : Nat → Nat → Option Nat) (n : Int) (hn : 1 ≤ n)
    (hfac : ∃ fac, factor T fct n = some (.ok fac) ∧ IsSignedFactorization fac n) :
    ∃ L, eulerPhiInverse T fct n = some (.ok L) ∧ L.Pairwise (· < ·) ∧
      ∀ k : Nat, k ∈ L ↔ (k.totient : Int) = n := by
  have hsmall : ∀ k : Nat, ¬ (k.totient : Int) % 2 = 0 → (k.totient : Int) = 1 ∧ (k = 1 ∨ k = 2) := by
    intro k hk
    have hk2 : ¬ 2 < k := by
      intro h
      have := Nat.totient_even h
      rw [Nat.even_iff] at this
      omega
    have : k = 0 ∨ k = 1 ∨ k = 2 := by omega
    rcases this with rfl | rfl | rfl
    · simp at hk
    · simp
    · simp
  unfold eulerPhiInverse
  by_cases h1 : n = 1
  · rw [if_pos h1]
    refine ⟨[1, 2], rfl, by simp, fun k => ?_⟩
    rw [h1]
    simp only [List.mem_cons, List.not_mem_nil, or_false]
    constructor
    · rintro (rfl | rfl) <;> simp
    · intro h
      exact (hsmall k (by omega)).2
  · rw [if_neg h1]
    by_cases h2 : n > 1 ∧ n.fmod 2 = 1
    · rw [if_pos h2]
      refine ⟨[], rfl, by simp, fun k => ?_⟩
      simp only [List.not_mem_nil, false_iff]
      intro h
      have h3 := h2.2
      rw [Int.fmod_eq_emod_of_nonneg _ (by norm_num)] at h3
      have := (hsmall k (by omega)).1
      omega
    · rw [if_neg h2, if_neg (by omega)]
      obtain ⟨fac, g1, g2⟩ := hfac
      obtain ⟨L, k1, k2, k3⟩ := C98_factorization T hT fac n (by omega) g2
      refine ⟨L, ?_, k2, k3⟩
      rw [g1]
      rw [← k1]
      have h4 := (signed_toNat (by omega) g2).2.2.2
      have hback : factorBack fac = n := by rw [C28_factor_back, g2.prod]
      cases fac with
      | nil =>
        rw [C28_factor_back] at hback
        simp at hback
        omega
      | cons pe rest =>
        obtain ⟨p, e⟩ := pe
        unfold eulerPhiInverseList
        dsimp only
        rw [if_pos (h4 (p, e) (by simp)), hback]

/-- With the library's own prime table: `euler_phi_inverse(n)` returns exactly the solutions of
`phi(k) = n` for every `n ≥ 1` with at most one prime factor above 999983, in particular for `n < 999984²`. (Beyond that `factor`
may fail, see C27.) -/
theorem C98_integer_real_partial (fct : Nat → Nat → Option Nat) (n : Int) (hn : 1 ≤ n) (hlt : OneLarge 999983 n.natAbs) :
    ∃ L, eulerPhiInverse primeList fct n = some (.ok L) ∧ L.Pairwise (· < ·) ∧
      ∀ k : Nat, k ∈ L ↔ (k.totient : Int) = n :=
  C98_integer primeList primeList_isPrimeTable fct n hn (C27_factor_real_one_large_partial fct n (by omega) hlt)

/-- `n ≤ 0` is rejected. -/
theorem C98_nonpositive (T : List Nat) (fct : Nat → Nat → Option Nat) (n : Int) (hn : n ≤ 0) :
    eulerPhiInverse T fct n = some (.error .valueError) := by
  unfold eulerPhiInverse
  rw [if_neg (by omega), if_neg (by omega), if_pos hn]


/-- The order of the factorization matters: with `[(5, 1), (2, 3)]` for 40 the solution 88 is missed. -/
theorem C98_unsorted_violation (T : List Nat) (hT : IsPrimeTable T) :
    ∃ L, eulerPhiInverseList T [(5, 1), (2, 3)] = some (.ok L) ∧ (88 : Nat).totient = 40 ∧ 88 ∉ L := by
  have h : eulerPhiInverseList T [(5, 1), (2, 3)] = eulerPhiInverseCore T 40 [(5, 1), (2, 3)] := rfl
  rw [h]
  unfold eulerPhiInverseCore
  rw [primeSuccs_eq T hT]
  dsimp only
  have hinit : PairInv 40 [] [(1, 40)] := by
    refine ⟨by simp, fun a b => ?_⟩
    simp only [List.mem_singleton, Prod.mk.injEq, List.not_mem_nil]
    constructor
    · rintro ⟨rfl, rfl⟩
      refine ⟨by norm_num, by simp, ?_, Or.inl rfl⟩
      intro q hq hd
      exact hq.one_lt.ne' (Nat.dvd_one.1 hd)
    · rintro ⟨k1, k2, k3, -⟩
      have : a = 1 := by
        by_contra hc
        exact k3 _ (Nat.minFac_prime hc) (Nat.minFac_dvd a)
      rw [this, Nat.totient_one, one_mul] at k2
      exact ⟨this, k2⟩
  have hd : (divisors [(5, 1), (2, 3)]).drop 1 = [2, 4, 5, 8, 10, 20, 40] := by decide +kernel
  rw [hd]
  obtain ⟨out, S', g1, g2, g3⟩ := primesLoop_spec (by norm_num : 0 < 40)
    ((([2, 4, 5, 8, 10, 20, 40] : List Nat).map (· + 1)).filter (fun q : Nat => decide (Nat.Prime q))).reverse [] _ hinit
    (by
      intro p hp
      rw [List.mem_reverse, List.mem_filter, decide_eq_true_eq] at hp
      refine ⟨hp.2, ?_⟩
      rintro rfl
      exact absurd hp.1 (by decide))
    (List.nodup_reverse.2 (List.Nodup.filter _ (by decide))) (by simp)
  rw [g1]
  refine ⟨_, rfl, by decide +kernel, ?_⟩
  rw [mem_pySort]
  unfold collect
  rw [List.mem_flatMap]
  rintro ⟨⟨a, b⟩, k1, k2⟩
  obtain ⟨-, l2, l3, -⟩ := (g2.mem a b).1 k1
  have ha : ¬ 2 ∣ a := by
    intro h2
    have := (g3 2).1 (l3 2 Nat.prime_two h2)
    rcases this with h | h
    · rw [List.mem_reverse, List.mem_filter] at h
      exact absurd h.1 (by decide)
    · cases h
  dsimp only at k2
  have hp2 : powersOfTwo 40 1 = [1, 2] := by decide
  rw [hp2] at k2
  by_cases hb : b ∈ [1, 2]
  · rw [if_pos hb] at k2
    simp only [List.mem_cons, List.not_mem_nil, or_false] at hb
    rcases hb with rfl | rfl
    · simp at k2
      omega
    · simp at k2
      omega
  · rw [if_neg hb] at k2; cases k2

/-- The example of the docstring: `euler_phi_inverse(40)`. -/
example (fct : Nat → Nat → Option Nat) :
    ∃ L, eulerPhiInverse primeList fct 40 = some (.ok L) ∧ 41 ∈ L ∧ 150 ∈ L ∧ 42 ∉ L := by
  obtain ⟨L, h1, -, h3⟩ := C98_integer_real_partial fct 40 (by norm_num) (oneLarge_of_lt (by decide) (by decide))
  refine ⟨L, h1, (h3 _).2 ?_, (h3 _).2 ?_, fun h => absurd ((h3 _).1 h) ?_⟩ <;> decide +kernel

/-! ## C99: inverse_phi -/

theorem inversePhi_spec (T : List Nat) (hT : IsPrimeTable T) (n : Nat) (hn : 1 ≤ n) (fac : List (Nat × Nat))
    (hf : DistinctPrimes fac) (hfn : facProd fac = n) :
    ∃ r, inversePhi T n fac = some r ∧ (r = .error .runtimeError ∨ ∃ L, r = .ok L ∧
      L.Pairwise (· < ·) ∧ ∀ k, k ∈ L ↔ 1 < k ∧ k.totient = n) := by
  obtain ⟨d1, d2⟩ := C28_divisors fac hf
  unfold inversePhi
  rw [primeSuccs_eq T hT]
  dsimp only
  set ps := ((divisors fac).map (· + 1)).filter (fun q => decide q.Prime) with hps
  have hmem : ∀ q, q ∈ ps ↔ q.Prime ∧ q - 1 ∣ n := by
    intro q
    rw [hps, List.mem_filter, List.mem_map]
    simp only [decide_eq_true_eq, d2, hfn]
    constructor
    · rintro ⟨⟨d, k1, rfl⟩, k3⟩
      exact ⟨k3, by simpa using k1⟩
    · rintro ⟨k1, k3⟩
      have := k1.two_le
      exact ⟨⟨q - 1, k3, by omega⟩, k1⟩
  have hnd0 : (divisors fac).Nodup := d1.imp (fun h => Nat.ne_of_lt h)
  have hnd : ps.Nodup := (hnd0.map (fun a b h => Nat.succ_injective h)).filter _
  have h0 : CInv n (Smooth []) ([] : Dict Nat (List Nat)) := by
    refine ⟨by simp [Dict.WF, Dict.keys], fun d => by simp [cacheGet, Dict.get?], fun d k => ?_⟩
    simp only [cacheGet, Dict.get?, Option.getD_none, List.not_mem_nil, false_iff]
    rintro ⟨k1, -, -, k4⟩
    exact absurd (k4 _ (Nat.minFac_prime (by omega)) (Nat.minFac_dvd k)) (by simp)
  obtain ⟨r, h1, h2⟩ := phiLoop_spec hn ps.reverse [] [] h0 (fun p hp => ((hmem p).1 (List.mem_reverse.1 hp)).1)
    (List.nodup_reverse.2 hnd) (by simp)
  rw [h1]
  rcases h2 with rfl | ⟨c, rfl, hc⟩
  · exact ⟨_, rfl, Or.inl rfl⟩
  · refine ⟨_, rfl, Or.inr ⟨_, rfl, pySort_nat_lt _ (hc.nodup n), fun k => ?_⟩⟩
    rw [mem_pySort, hc.mem]
    constructor
    · rintro ⟨k1, k2, -, -⟩; exact ⟨k1, k2⟩
    · rintro ⟨k1, k2⟩
      refine ⟨k1, k2, dvd_refl _, ?_⟩
      intro q hq hd
      rw [List.append_nil, List.mem_reverse, hmem]
      refine ⟨hq, ?_⟩
      have := Nat.totient_dvd_of_dvd hd
      rwa [Nat.totient_prime hq, k2] at this

/-- A result that `inverse_phi(n)` returns, for `n ≥ 2`, is the strictly increasing list of all `k` with
`phi(k) = n`. Missing from the property: the call can raise instead (`C99_violation`). -/
theorem C99_inverse_phi_partial (T : List Nat) (hT : IsPrimeTable T) (n : Nat) (hn : 2 ≤ n) (fac : List (Nat × Nat))
    (hf : DistinctPrimes fac) (hfn : facProd fac = n) (L : List Nat)
    (hr : inversePhi T n fac = some (.ok L)) :
    L.Pairwise (· < ·) ∧ ∀ k, k ∈ L ↔ k.totient = n := by
  obtain ⟨r, h1, h2⟩ := inversePhi_spec T hT n (by omega) fac hf hfn
  rw [hr] at h1
  cases h1
  rcases h2 with h2 | ⟨L', h2, h3, h4⟩
  · cases h2
  · cases h2
    refine ⟨h3, fun k => ?_⟩
    rw [h4]
    refine ⟨fun h => h.2, fun h => ⟨?_, h⟩⟩
    by_contra hc
    have : k = 0 ∨ k = 1 := by omega
    rcases this with rfl | rfl
    · rw [Nat.totient_zero] at h; omega
    · rw [Nat.totient_one] at h; omega

/-- `inverse_phi(n)` terminates for every `n ≥ 1`, and the only exception is `RuntimeError`. -/
theorem C99_terminates (T : List Nat) (hT : IsPrimeTable T) (n : Nat) (hn : 1 ≤ n) (fac : List (Nat × Nat))
    (hf : DistinctPrimes fac) (hfn : facProd fac = n) :
    ∃ r, inversePhi T n fac = some r ∧ ∀ e, r = .error e → e = .runtimeError := by
  obtain ⟨r, h1, h2⟩ := inversePhi_spec T hT n hn fac hf hfn
  refine ⟨r, h1, fun e he => ?_⟩
  rcases h2 with h2 | ⟨L', h2, -⟩
  · rw [h2] at he; cases he; rfl
  · rw [h2] at he; cases he

/-- `inverse_phi(8)` raises `RuntimeError`: the dictionary gets a new key while it is iterated. -/
theorem C99_violation (T : List Nat) (hT : IsPrimeTable T) :
    inversePhi T 8 [(2, 3)] = some (.error .runtimeError) := by
  unfold inversePhi
  rw [primeSuccs_eq T hT]
  have hps : ((divisors [(2, 3)]).map (· + 1)).filter (fun q => decide q.Prime) = [2, 3, 5] := by
    rw [show divisors [(2, 3)] = [1, 2, 4, 8] by decide +kernel]
    have h9 : ¬ Nat.Prime 9 := by norm_num
    have h5 : Nat.Prime 5 := by norm_num
    have h3 : Nat.Prime 3 := by norm_num
    simp [Nat.prime_two, h9, h5, h3]
  rw [hps]
  have e1 : powLoop 8 5 4 5 [] = some (.ok [(4, [5])]) := by
    rw [powLoop.eq_def, if_pos (by norm_num)]
    have : keysLoop 8 5 4 5 1 [4] [(4, [5])] = some (.ok [(4, [5])]) := rfl
    show (keysLoop 8 5 4 5 1 [4] [(4, [5])]).bind _ = _
    rw [this]
    show powLoop 8 5 20 25 [(4, [5])] = _
    rw [powLoop.eq_def, if_neg (by norm_num)]
  have e2 : powLoop 8 3 2 3 [(4, [5])] = some (.error .runtimeError) := by
    rw [powLoop.eq_def, if_pos (by norm_num)]
    have hin : innerLoop 8 3 2 3 4 [5] [(4, [5]), (2, [3])] = some [(4, [5]), (2, [3]), (8, [15])] := by
      rw [innerLoop.eq_def]
      show innerLoop 8 3 2 3 4 [] [(4, [5]), (2, [3]), (8, [15])] = _
      rw [innerLoop.eq_def]
    have : keysLoop 8 3 2 3 2 [4, 2] [(4, [5]), (2, [3])] = some (.error .runtimeError) := by
      rw [keysLoop, if_neg (by decide), if_neg (by decide)]
      show (innerLoop 8 3 2 3 4 [5] [(4, [5]), (2, [3])]).bind _ = _
      rw [hin]
      rfl
    show (keysLoop 8 3 2 3 2 [4, 2] [(4, [5]), (2, [3])]).bind _ = _
    rw [this]
    rfl
  show (phiLoop 8 [5, 3, 2] []).bind _ = _
  rw [phiLoop, show 5 - 1 = 4 from rfl, e1]
  show ((phiLoop 8 [3, 2] [(4, [5])]).bind _) = _
  rw [phiLoop, show 3 - 1 = 2 from rfl, e2]
  rfl

/-- `inverse_phi(1)`, when it returns, misses the solution 1. -/
theorem C99_one_violation (T : List Nat) (hT : IsPrimeTable T) (L : List Nat)
    (hr : inversePhi T 1 [] = some (.ok L)) : (1 : Nat).totient = 1 ∧ 1 ∉ L := by
  refine ⟨Nat.totient_one, ?_⟩
  obtain ⟨r, h1, h2⟩ := inversePhi_spec T hT 1 (le_refl _) [] ⟨by simp, by simp⟩ rfl
  rw [hr] at h1
  cases h1
  rcases h2 with h2 | ⟨L', h2, -, h4⟩
  · cases h2
  · cases h2
    rw [h4]
    omega

/-- `inverse_phi(2)` does return: the hypothesis of `C99_inverse_phi_partial` is met. -/
example (T : List Nat) (hT : IsPrimeTable T) : inversePhi T 2 [(2, 1)] = some (.ok [3, 4, 6]) := by
  unfold inversePhi
  rw [primeSuccs_eq T hT]
  have hps : ((divisors [(2, 1)]).map (· + 1)).filter (fun q => decide q.Prime) = [2, 3] := by
    rw [show divisors [(2, 1)] = [1, 2] by decide +kernel]
    have h3 : Nat.Prime 3 := by norm_num
    simp [Nat.prime_two, h3]
  rw [hps]
  have e1 : powLoop 2 3 2 3 [] = some (.ok [(2, [3])]) := by
    rw [powLoop.eq_def, if_pos (by norm_num)]
    show powLoop 2 3 6 9 [(2, [3])] = _
    rw [powLoop.eq_def, if_neg (by norm_num)]
  have e2 : powLoop 2 2 1 2 [(2, [3])] = some (.ok [(2, [3, 6, 4]), (1, [2])]) := by
    rw [powLoop.eq_def, if_pos (by norm_num)]
    have i1 : innerLoop 2 2 1 2 2 [3] [(2, [3]), (1, [2])] = some [(2, [3, 6]), (1, [2])] := by
      rw [innerLoop.eq_def]
      show innerLoop 2 2 1 2 2 [6] [(2, [3, 6]), (1, [2])] = _
      rw [innerLoop.eq_def]
      show innerLoop 2 2 1 2 2 [] [(2, [3, 6]), (1, [2])] = _
      rw [innerLoop.eq_def]
    have i2 : innerLoop 2 2 1 2 1 [2] [(2, [3, 6]), (1, [2])] = some [(2, [3, 6]), (1, [2])] := by
      rw [innerLoop.eq_def]
      show innerLoop 2 2 1 2 1 [] [(2, [3, 6]), (1, [2])] = _
      rw [innerLoop.eq_def]
    have k1 : keysLoop 2 2 1 2 2 [2, 1] [(2, [3]), (1, [2])] = some (.ok [(2, [3, 6]), (1, [2])]) := by
      rw [keysLoop, if_neg (by decide), if_neg (by decide)]
      show (innerLoop 2 2 1 2 2 [3] [(2, [3]), (1, [2])]).bind _ = _
      rw [i1]
      show keysLoop 2 2 1 2 2 [1] [(2, [3, 6]), (1, [2])] = _
      rw [keysLoop, if_neg (by decide), if_neg (by decide)]
      show (innerLoop 2 2 1 2 1 [2] [(2, [3, 6]), (1, [2])]).bind _ = _
      rw [i2]
      rfl
    show (keysLoop 2 2 1 2 2 [2, 1] [(2, [3]), (1, [2])]).bind _ = _
    rw [k1]
    show powLoop 2 2 2 4 [(2, [3, 6]), (1, [2])] = _
    rw [powLoop.eq_def, if_pos (by norm_num)]
    have i3 : innerLoop 2 2 2 4 1 [2] [(2, [3, 6, 4]), (1, [2])] = some [(2, [3, 6, 4]), (1, [2])] := by
      rw [innerLoop.eq_def]
      show innerLoop 2 2 2 4 1 [] [(2, [3, 6, 4]), (1, [2])] = _
      rw [innerLoop.eq_def]
    have k2 : keysLoop 2 2 2 4 2 [2, 1] [(2, [3, 6, 4]), (1, [2])] = some (.ok [(2, [3, 6, 4]), (1, [2])]) := by
      rw [keysLoop, if_neg (by decide), if_pos (by decide), keysLoop, if_neg (by decide), if_neg (by decide)]
      show (innerLoop 2 2 2 4 1 [2] [(2, [3, 6, 4]), (1, [2])]).bind _ = _
      rw [i3]
      rfl
    show (keysLoop 2 2 2 4 2 [2, 1] [(2, [3, 6, 4]), (1, [2])]).bind _ = _
    rw [k2]
    show powLoop 2 2 4 8 [(2, [3, 6, 4]), (1, [2])] = _
    rw [powLoop.eq_def, if_neg (by norm_num)]
  show (phiLoop 2 [3, 2] []).bind _ = _
  rw [phiLoop, show 3 - 1 = 2 from rfl, e1]
  show ((phiLoop 2 [2] [(2, [3])]).bind _) = _
  rw [phiLoop, show 2 - 1 = 1 from rfl, e2]
  decide +kernel

end Rosemary.Props
