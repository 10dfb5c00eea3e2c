import Verif.Lemmas.Ranges
import Verif.Props.Sieves

/-!
# C33, C34: sieved tables and segmented generators
-/

namespace Rosemary.Props

open Rosemary.Tables Rosemary.Spec Rosemary.Sieves Rosemary.Core Rosemary.Primality

/-! ## C33 -/

private theorem tab_one (n : Nat) :
    Tab (n + 1) ((List.replicate (n + 1) (1 : Int)).set 0 0) (fun i => if 0 < i then 1 else 0) := by
  refine ((Tab.replicate (n + 1) (1 : Int)).set 0 0).congr ?_
  intro i _
  by_cases h : i = 0
  · simp [h]
  · simp [h, Nat.pos_of_ne_zero h]

/-- `euler_phi_list(n)` is the list of `φ(0) = 0, φ(1), …, φ(n)`. -/
theorem C33_euler_phi_list (T : List Nat) (hT : IsPrimeTable T) (n : Int) (hn : 0 < n) :
    eulerPhiList T n = .ok ((List.range (n.toNat + 1)).map (fun i => (Nat.totient i : Int))) := by
  unfold eulerPhiList
  rw [if_neg (by omega), C18_primes T hT]
  dsimp only
  obtain ⟨b, hb, ht⟩ := phiLoop_spec (n := n.toNat) (primesUpTo n.toNat)
    (fun p hp => (mem_primesUpTo.1 hp).1) _ _ (tab_one n.toNat)
  rw [hb, (ht.congr (g' := fun i => (Nat.totient i : Int)) ?_).eq_map]
  intro i hi
  by_cases h0 : 0 < i
  · rw [if_pos h0, one_mul, phi_prod h0 (by omega)]
  · simp [Nat.eq_zero_of_not_pos h0]

theorem C33_euler_phi_list_error (T : List Nat) (n : Int) (hn : n ≤ 0) :
    eulerPhiList T n = .error .valueError := by
  unfold eulerPhiList; rw [if_pos hn]

example : eulerPhiList primeList 12 = .ok [0, 1, 1, 2, 2, 4, 2, 6, 4, 6, 4, 10, 4] := by
  rw [C33_euler_phi_list _ primeList_isPrimeTable _ (by decide)]; decide +kernel

/-- `moebius_list(n)` is the list of `μ(0) = 0, μ(1), …, μ(n)`.  Of the float square root only
`n < (s + 1)²` is used. -/
theorem C33_moebius_list (T : List Nat) (hT : IsPrimeTable T) (sq : Nat → Nat) (n : Int) (hn : 0 < n)
    (hsq : n.toNat < (sq n.toNat + 1) * (sq n.toNat + 1)) :
    moebiusList T sq n =
      .ok ((List.range (n.toNat + 1)).map (fun i => ArithmeticFunction.moebius i)) := by
  unfold moebiusList
  rw [if_neg (by omega)]
  dsimp only
  rw [C18_primes T hT]
  dsimp only
  rw [Int.toNat_natCast]
  obtain ⟨b, w, hb, ht, hw⟩ := moebiusLoop_spec (n := n.toNat) (primesUpTo (sq n.toNat))
    (fun p hp => (mem_primesUpTo.1 hp).1) _ _ _ _ (tab_one n.toNat)
    (Tab.replicate (n.toNat + 1) (1 : Int))
  rw [hb]
  dsimp only
  obtain ⟨b2, hb2, ht2⟩ := moebiusFix_spec w _ hw (List.range (n.toNat + 1)) List.nodup_range
    (fun i hi => List.mem_range.1 hi) b _ ht
  rw [hb2, (ht2.congr (g' := fun i => ArithmeticFunction.moebius i) ?_).eq_map]
  intro i hi
  by_cases h0 : 0 < i
  · rw [← moebius_of_tables (s := sq n.toNat) h0 (by omega)]
    have : i ∈ List.range (n.toNat + 1) := List.mem_range.2 hi
    simp only [if_pos h0, one_mul, this, true_and]
  · simp [Nat.eq_zero_of_not_pos h0]

theorem C33_moebius_list_error (T : List Nat) (sq : Nat → Nat) (n : Int) (hn : n ≤ 0) :
    moebiusList T sq n = .error .valueError := by
  unfold moebiusList; rw [if_pos hn]

example : moebiusList primeList Nat.sqrt 12 = .ok [0, 1, -1, -1, 0, -1, 1, -1, 0, 0, 1, -1, 0] := by
  rw [C33_moebius_list _ primeList_isPrimeTable _ _ (by decide) (by decide +kernel)]; decide +kernel

private theorem hyp_indices {n s : Nat} (hs : s * s ≤ n) :
    ∀ j ∈ pyRange 1 (s + 1), 0 < j ∧ j * j ≤ n := by
  intro j hj
  rw [mem_pyRange] at hj
  exact ⟨by omega, (Nat.mul_le_mul (by omega) (by omega)).trans hs⟩

private theorem hyp_zero (d : Nat → Int) (g : Nat → Nat → Int) (s : Nat) :
    ((pyRange 1 (s + 1)).map (hypTerm d g 0)).sum = 0 := by
  apply List.sum_eq_zero
  intro x hx
  rw [List.mem_map] at hx
  obtain ⟨j, hj, rfl⟩ := hx
  rw [mem_pyRange] at hj
  unfold hypTerm
  rw [if_neg (by have := Nat.mul_pos (by omega : 0 < j) (by omega : 0 < j); omega), if_neg]
  · rfl
  · rw [Nat.zero_div]; omega

/-- `tau_list(n)` is the list of the numbers of divisors of `0, 1, …, n` (with `0` at index `0`). -/
theorem C33_tau_list (sq : Nat → Nat) (n : Int) (hn : 0 < n)
    (hlo : sq n.toNat * sq n.toNat ≤ n.toNat)
    (hsq : n.toNat < (sq n.toNat + 1) * (sq n.toNat + 1)) :
    tauList sq n = .ok ((List.range (n.toNat + 1)).map (fun i => (i.divisors.card : Int))) := by
  unfold tauList
  rw [if_neg (by omega)]
  dsimp only
  obtain ⟨b, hb, ht⟩ := hyperbolaLoop_spec (n := n.toNat) (fun _ => 1) (fun _ _ => 2)
    (pyRange 1 (sq n.toNat + 1)) (hyp_indices hlo) _ _ (Tab.replicate (n.toNat + 1) (0 : Int))
  rw [hb, (ht.congr (g' := fun i => (i.divisors.card : Int)) ?_).eq_map]
  intro i hi
  by_cases h0 : 0 < i
  · rw [hyp_sum (n := n.toNat) h0 (by omega) hsq (fun _ => 1) (fun _ => 1) (fun _ _ => 2)
      (fun _ => rfl) (fun _ _ => rfl)]
    simp
  · rw [Nat.eq_zero_of_not_pos h0, hyp_zero]; simp

theorem C33_tau_list_error (sq : Nat → Nat) (n : Int) (hn : n ≤ 0) :
    tauList sq n = .error .valueError := by
  unfold tauList; rw [if_pos hn]

example : tauList Nat.sqrt 12 = .ok [0, 1, 2, 2, 3, 2, 4, 2, 4, 3, 4, 2, 6] := by
  decide +kernel

/-- `sigma_list(n, k)` is the list of `σ_k(0) = 0, σ_k(1), …, σ_k(n)`, whichever of the three
algorithms is selected. -/
theorem C33_sigma_list (T : List Nat) (hT : IsPrimeTable T) (sq : Nat → Nat) (n k : Int) (hn : 0 < n)
    (hk : 0 ≤ k) (hlo : sq n.toNat * sq n.toNat ≤ n.toNat)
    (hsq : n.toNat < (sq n.toNat + 1) * (sq n.toNat + 1)) :
    sigmaList T sq n k = .ok ((List.range (n.toNat + 1)).map
      (fun i => ((∑ d ∈ i.divisors, d ^ k.toNat : Nat) : Int))) := by
  unfold sigmaList
  rw [if_neg (by omega)]
  by_cases hk0 : k = 0
  · rw [if_pos hk0, C33_tau_list sq n hn hlo hsq]
    subst hk0
    simp
  · rw [if_neg hk0, if_neg (by omega)]
    dsimp only
    by_cases hc : k = 1 ∧ n ≤ 10 ^ 4
    · rw [if_pos hc]
      obtain ⟨b, hb, ht⟩ := hyperbolaLoop_spec (n := n.toNat) (fun j => (j : Int))
        (fun j k => (j : Int) + k)
        (pyRange 1 (sq n.toNat + 1)) (hyp_indices hlo) _ _ (Tab.replicate (n.toNat + 1) (0 : Int))
      rw [hb, (ht.congr (g' := fun i => ((∑ d ∈ i.divisors, d ^ k.toNat : Nat) : Int)) ?_).eq_map]
      intro i hi
      rw [hc.1]
      by_cases h0 : 0 < i
      · rw [hyp_sum (n := n.toNat) h0 (by omega) hsq (fun j => (j : Int)) _ _ (fun _ => rfl)
          (fun _ _ => rfl)]
        simp
      · rw [Nat.eq_zero_of_not_pos h0, hyp_zero]; simp
    · rw [if_neg hc, C18_primes T hT]
      dsimp only
      obtain ⟨b, hb, ht⟩ := sigmaLoop_spec (n := n.toNat) (k := k.toNat) (by omega)
        (primesUpTo n.toNat)
        (fun p hp => (mem_primesUpTo.1 hp).1) _ (fun _ => 1) (tab_one n.toNat)
      rw [hb, (ht.congr (g' := fun i => ((∑ d ∈ i.divisors, d ^ k.toNat : Nat) : Int)) ?_).eq_map]
      intro i hi
      by_cases h0 : 0 < i
      · rw [if_pos h0, one_mul, sigma_prod h0 (by omega), ArithmeticFunction.sigma_apply]
      · simp [Nat.eq_zero_of_not_pos h0]

theorem C33_sigma_list_error (T : List Nat) (sq : Nat → Nat) (n k : Int) (h : n ≤ 0 ∨ k < 0) :
    sigmaList T sq n k = .error .valueError := by
  unfold sigmaList
  by_cases hn : n ≤ 0
  · rw [if_pos hn]
  · rw [if_neg hn, if_neg (by omega), if_pos (by omega)]

example : sigmaList primeList Nat.sqrt 10 1 = .ok [0, 1, 3, 4, 7, 6, 12, 8, 15, 13, 18] := by
  decide +kernel

example : sigmaList primeList Nat.sqrt 10 2 = .ok [0, 1, 5, 10, 21, 26, 50, 50, 85, 91, 130] := by
  rw [C33_sigma_list _ primeList_isPrimeTable _ _ _ (by decide) (by decide) (by decide +kernel)
    (by decide +kernel)]
  decide +kernel

/-! ## C34 -/

/-- `moebius_range(a, b)` yields `(m, μ(m))` for `m = max(a, 1), …, b - 1`, in this order.  (The square
root may be one too large, see C09; this does no harm here.) -/
theorem C34_moebius_range (T : List Nat) (hT : IsPrimeTable T) (a b : Int) :
    moebiusRange T a (some b) = .ok ((List.range' (max a 1).toNat (b - max a 1).toNat).map
      (fun m => (m, ArithmeticFunction.moebius m))) := by
  unfold moebiusRange rangeBounds
  dsimp only
  have ha : (if a < 2 then 1 else a) = max a 1 := by split <;> omega
  rw [ha]
  by_cases hba : b ≤ max a 1
  · rw [if_pos hba, show (b - max a 1).toNat = 0 by omega]; rfl
  · rw [if_neg hba]
    obtain ⟨r, hr, hlt, -, -⟩ := C09_integer_sqrt_bounds b (by omega)
    rw [hr]
    dsimp only
    rw [C18_primes T hT]
    dsimp only
    have hr0 : 0 < r := by
      rcases Nat.eq_zero_or_pos r with h | h
      · subst h; norm_num at hlt; omega
      · exact h
    rw [if_neg (by omega), Int.toNat_natCast,
      mrBlocks_spec (by omega) hr0 ?_ _ (le_refl _) (by simp)]
    · rw [show b.toNat - (max a 1).toNat = (b - max a 1).toNat by omega]
    · have : b < (((r + 1) * (r + 1) : Nat) : Int) := by push_cast; rw [← pow_two]; exact hlt
      omega

/-- `moebius_range(n)` covers `1, …, n - 1`. -/
theorem C34_moebius_range_none (T : List Nat) (hT : IsPrimeTable T) (n : Int) :
    moebiusRange T n none = .ok ((List.range' 1 (n - 1).toNat).map
      (fun m => (m, ArithmeticFunction.moebius m))) := by
  have h := C34_moebius_range T hT 1 (if n < 2 then 1 else n)
  unfold moebiusRange rangeBounds at h ⊢
  dsimp only at h ⊢
  rw [if_pos (by omega : (1 : Int) < 2)] at h
  rw [h]
  congr 3
  split <;> omega

example : moebiusRange primeList 10 (some 20) = .ok [(10, 1), (11, -1), (12, 0), (13, -1), (14, 1),
    (15, 1), (16, 0), (17, -1), (18, 0), (19, -1)] := by
  rw [C34_moebius_range _ primeList_isPrimeTable]; decide +kernel

/-- The factorization `primePowers m` used below: its members are the pairs `(p, e)` with `p` a prime
divisor of `m` and `e` the exact exponent, the primes increase, and the product is `m`. -/
theorem C34_primePowers (m : Nat) (hm : 0 < m) :
    ((primePowers m).map Prod.fst).Pairwise (· < ·) ∧
    (∀ pe ∈ primePowers m, pe.1.Prime ∧ 0 < pe.2) ∧
    ((primePowers m).map (fun pe => pe.1 ^ pe.2)).prod = m := by
  have hmap : (primePowers m).map Prod.fst = (primesUpTo m).filter (fun p => p ∣ m) := by
    unfold primePowers; rw [List.map_map]; simp [Function.comp_def]
  refine ⟨?_, ?_, ?_⟩
  · rw [hmap]; exact (primesUpTo_sorted m).filter _
  · intro pe hpe
    unfold primePowers at hpe
    rw [List.mem_map] at hpe
    obtain ⟨p, hp, rfl⟩ := hpe
    simp only [List.mem_filter, mem_primesUpTo, decide_eq_true_eq] at hp
    exact ⟨hp.1.1, hp.1.1.factorization_pos_of_dvd (by omega) hp.2⟩
  · unfold primePowers
    rw [List.map_map, Function.comp_def, ← List.prod_toFinset _ ((nodup_primesUpTo m).filter _)]
    conv_rhs => rw [← Nat.prod_factorization_pow_eq_self (by omega : m ≠ 0)]
    rw [Finsupp.prod, Nat.support_factorization]
    apply Finset.prod_congr _ (fun _ _ => rfl)
    ext p
    simp only [List.mem_toFinset, List.mem_filter, mem_primesUpTo, decide_eq_true_eq,
      Nat.mem_primeFactors]
    constructor
    · rintro ⟨⟨h1, h2⟩, h3⟩; exact ⟨h1, h3, by omega⟩
    · rintro ⟨h1, h2, -⟩; exact ⟨⟨h1, Nat.le_of_dvd hm h2⟩, h2⟩

/-- `factored_range(a, b)` yields `(m, factorization of m)` for `m = max(a, 1), …, b - 1`, in this
order; `1` comes with the factorization `[(1, 1)]`.  Of the float square root `n < (s + 1)²` and
`s > 0` are used. -/
theorem C34_factored_range (T : List Nat) (hT : IsPrimeTable T) (sq : Nat → Nat) (a b : Int)
    (hsq : b.toNat < (sq b.toNat + 1) * (sq b.toNat + 1)) :
    factoredRange T sq a (some b) = .ok ((List.range' (max a 1).toNat (b - max a 1).toNat).map
      (fun m => (m, if m = 1 then [(1, 1)] else primePowers m))) := by
  unfold factoredRange rangeBounds
  dsimp only
  have ha : (if a < 2 then 1 else a) = max a 1 := by split <;> omega
  rw [ha]
  by_cases hba : b ≤ max a 1
  · rw [if_pos hba, show (b - max a 1).toNat = 0 by omega]; rfl
  · rw [if_neg hba, C18_primes T hT]
    dsimp only
    have hr0 : 0 < sq b.toNat := by
      rcases Nat.eq_zero_or_pos (sq b.toNat) with h | h
      · rw [h] at hsq; omega
      · exact h
    rw [if_neg (by omega), Int.toNat_natCast]
    by_cases h1 : max a 1 = 1
    · rw [if_pos h1, if_pos h1, frBlocks_spec (by omega) hr0 (by omega) 2 (le_refl _) (by simp)]
      dsimp only
      rw [h1, show (b - 1).toNat = (b.toNat - 2) + 1 by omega, show (1 : Int).toNat = 1 from rfl,
        List.range'_succ, List.map_cons]
      rw [if_pos rfl, List.singleton_append]
      congr 2
      apply List.map_congr_left
      intro m hm
      rw [List.mem_range'_1] at hm
      rw [if_neg (by omega)]
    · rw [if_neg h1, if_neg h1, frBlocks_spec (by omega) hr0 (by omega) _ (le_refl _) (by simp)]
      dsimp only
      rw [show b.toNat - (max a 1).toNat = (b - max a 1).toNat by omega, List.nil_append]
      congr 1
      apply List.map_congr_left
      intro m hm
      rw [List.mem_range'_1] at hm
      rw [if_neg (by omega)]

/-- `factored_range(n)` covers `1, …, n - 1`. -/
theorem C34_factored_range_none (T : List Nat) (hT : IsPrimeTable T) (sq : Nat → Nat) (n : Int)
    (hsq : 1 < n → n.toNat < (sq n.toNat + 1) * (sq n.toNat + 1)) :
    factoredRange T sq n none = .ok ((List.range' 1 (n - 1).toNat).map
      (fun m => (m, if m = 1 then [(1, 1)] else primePowers m))) := by
  by_cases hn : 1 < n
  · have h := C34_factored_range T hT sq 1 n (hsq hn)
    unfold factoredRange rangeBounds at h ⊢
    dsimp only at h ⊢
    rw [if_pos (by omega : (1 : Int) < 2)] at h
    rw [if_neg (by omega : ¬ n < 2), h]
    rfl
  · unfold factoredRange rangeBounds
    dsimp only
    rw [if_pos (by omega : n < 2), if_pos (by omega), show (n - 1).toNat = 0 by omega]
    rfl

example : factoredRange primeList Nat.sqrt 10 (some 13) =
    .ok [(10, [(2, 1), (5, 1)]), (11, [(11, 1)]), (12, [(2, 2), (3, 1)])] := by
  rw [C34_factored_range _ primeList_isPrimeTable _ _ _ (by decide +kernel)]
  decide +kernel

end Rosemary.Props
