import Verif.Model.Recursion
import Verif.Props.Sums
import Verif.Props.PrimeCounting
import Verif.Props.LeftistCalls
import Verif.Props.Knapsack
import Verif.Props.Tsp
import Verif.Props.Polynomials

/-!
# Depth of the recursion (C170)

The full property, that no recursive function exceeds Python's limit on arguments of ordinary size, is false for the searches
that go one level down per item; the theorems with the suffix `_partial` are about the functions for which it holds.
-/

namespace Rosemary.Props

open Rosemary.Recursion Rosemary.Sieves Rosemary.Tables Rosemary.Sums Rosemary.PrimeCounting Rosemary.Core Rosemary.Spec Rosemary.Primality

/-! ## Sums -/

theorem half_lt {n d f : Nat} (hd : 2 ≤ d) (h : n < 2 ^ (f + 1)) : n / d < 2 ^ f := by
  have h1 : n / d ≤ n / 2 := Nat.div_le_div_left hd (by omega)
  have h2 : n / 2 < 2 ^ f := by
    rw [Nat.div_lt_iff_lt_mul (by omega)]
    rw [Nat.pow_succ] at h
    exact h
  omega

theorem phiSumLoop_congr (rec rec' : Nat → Cache → Except PyErr (Int × Cache)) (table : List Int) (n : Nat) (ds : List Nat)
    (h : ∀ d ∈ ds, ∀ c, rec (n / d) c = rec' (n / d) c) (value : Int) (c : Cache) :
    phiSumLoop rec table n ds value c = phiSumLoop rec' table n ds value c := by
  induction ds generalizing value c with
  | nil => rfl
  | cons d ds ih =>
    rw [phiSumLoop, phiSumLoop, h d (by simp)]
    have ih' := ih (fun e he => h e (List.mem_cons_of_mem _ he))
    cases rec' (n / d) c with
    | error e => rfl
    | ok q =>
      dsimp only
      cases table[d]? with
      | none => rfl
      | some t => exact ih' _ _


theorem weightedLoop_congr (rec rec' : Nat → Cache → Except PyErr (Int × Cache)) (n : Nat) (ds : List Nat)
    (h : ∀ d ∈ ds, ∀ c, rec (n / d) c = rec' (n / d) c ∧ rec (d - 1) c = rec' (d - 1) c) (acc : Int) (c : Cache) :
    weightedLoop rec n ds acc c = weightedLoop rec' n ds acc c := by
  induction ds generalizing acc c with
  | nil => rfl
  | cons d ds ih =>
    rw [weightedLoop, weightedLoop, (h d (by simp) c).1]
    have ih' := ih (fun e he => h e (List.mem_cons_of_mem _ he))
    cases rec' (n / d) c with
    | error e => rfl
    | ok q =>
      dsimp only
      rw [(h d (by simp) q.2).2]
      cases rec' (d - 1) q.2 with
      | error e => rfl
      | ok q => exact ih' _ _

theorem moebiusSumLoop_congr (rec rec' : Nat → Cache → Except PyErr (Int × Cache)) (table : List Int) (n : Nat) (ds : List Nat)
    (h : ∀ d ∈ ds, ∀ c, rec (n / d) c = rec' (n / d) c ∧ rec (d - 1) c = rec' (d - 1) c) (acc : Int) (c : Cache) :
    moebiusSumLoop rec table n ds acc c = moebiusSumLoop rec' table n ds acc c := by
  induction ds generalizing acc c with
  | nil => rfl
  | cons d ds ih =>
    rw [moebiusSumLoop, moebiusSumLoop, (h d (by simp) c).1]
    have ih' := ih (fun e he => h e (List.mem_cons_of_mem _ he))
    cases rec' (n / d) c with
    | error e => rfl
    | ok q =>
      dsimp only
      rw [(h d (by simp) q.2).2]
      cases rec' (d - 1) q.2 with
      | error e => rfl
      | ok q =>
        dsimp only
        cases table[d]? with
        | none => rfl
        | some t => exact ih' _ _

/-- The arguments of the recursive calls are at most half as large. -/
theorem sum_args {sq : Nat → Nat} {N : Nat} (hsq : ExactSqrt sq N) {f n d : Nat} (hn : n ≤ N) (h : n < 2 ^ f)
    (hd : d ∈ pyRange 2 (sq n + 1)) : ∃ g, f = g + 1 ∧ n / d < 2 ^ g ∧ d - 1 < 2 ^ g ∧ n / d ≤ N ∧ d - 1 ≤ N := by
  obtain ⟨h1, h2⟩ := mem_pyRange.1 hd
  have h3 := (hsq n hn).1
  have h4 : d * d ≤ n := (Nat.mul_le_mul (by omega : d ≤ sq n) (by omega : d ≤ sq n)).trans h3
  have h5 : d ≤ n / d := (Nat.le_div_iff_mul_le (by omega)).2 h4
  have h6 : n / d ≤ n := Nat.div_le_self _ _
  cases f with
  | zero =>
    have : 2 * 2 ≤ d * d := Nat.mul_le_mul h1 h1
    rw [Nat.pow_zero] at h
    omega
  | succ g =>
    have := half_lt h1 h
    exact ⟨g, rfl, this, by omega, by omega, by omega⟩

theorem phiS_depth {sq : Nat → Nat} {N : Nat} (hsq : ExactSqrt sq N) (table : List Int) (f1 : Nat) : ∀ f n, n ≤ N → n < 2 ^ f →
    ∀ f2, f < f1 → f < f2 → ∀ c, phiS sq table f1 n c = phiS sq table f2 n c := by
  induction f1 with
  | zero => intro f n _ _ f2 h1; omega
  | succ f1 ih =>
    intro f n hN hn f2 h1 h2 c
    obtain ⟨f2, rfl⟩ := Nat.exists_eq_succ_of_ne_zero (by omega : f2 ≠ 0)
    have hc : ∀ value c, phiSumLoop (phiS sq table f1) table n (pyRange 2 (sq n + 1)) value c =
        phiSumLoop (phiS sq table f2) table n (pyRange 2 (sq n + 1)) value c := by
      intro value c
      refine phiSumLoop_congr _ _ _ _ _ ?_ _ _
      intro d hd c
      obtain ⟨g, rfl, a1, a2, a3, a4⟩ := sum_args hsq hN hn hd
      exact ih g _ a3 a1 _ (by omega) (by omega) c
    rw [phiS, phiS]
    simp only [hc]

theorem weightedT_depth {sq : Nat → Nat} {N : Nat} (hsq : ExactSqrt sq N) (table : List Int) (f1 : Nat) : ∀ f n, n ≤ N → n < 2 ^ f →
    ∀ f2, f < f1 → f < f2 → ∀ c, weightedT sq table f1 n c = weightedT sq table f2 n c := by
  induction f1 with
  | zero => intro f n _ _ f2 h1; omega
  | succ f1 ih =>
    intro f n hN hn f2 h1 h2 c
    obtain ⟨f2, rfl⟩ := Nat.exists_eq_succ_of_ne_zero (by omega : f2 ≠ 0)
    have hc : ∀ value c, weightedLoop (weightedT sq table f1) n (pyRange 2 (sq n + 1)) value c =
        weightedLoop (weightedT sq table f2) n (pyRange 2 (sq n + 1)) value c := by
      intro value c
      refine weightedLoop_congr _ _ _ _ ?_ _ _
      intro d hd c
      obtain ⟨g, rfl, a1, a2, a3, a4⟩ := sum_args hsq hN hn hd
      exact ⟨ih g _ a3 a1 _ (by omega) (by omega) c, ih g _ a4 a2 _ (by omega) (by omega) c⟩
    rw [weightedT, weightedT]
    simp only [hc]

theorem moebiusM_depth {sq : Nat → Nat} {N : Nat} (hsq : ExactSqrt sq N) (table : List Int) (f1 : Nat) : ∀ f n, n ≤ N → n < 2 ^ f →
    ∀ f2, f < f1 → f < f2 → ∀ c, moebiusM sq table f1 n c = moebiusM sq table f2 n c := by
  induction f1 with
  | zero => intro f n _ _ f2 h1; omega
  | succ f1 ih =>
    intro f n hN hn f2 h1 h2 c
    obtain ⟨f2, rfl⟩ := Nat.exists_eq_succ_of_ne_zero (by omega : f2 ≠ 0)
    have hc : ∀ value c, moebiusSumLoop (moebiusM sq table f1) table n (pyRange 2 (sq n + 1)) value c =
        moebiusSumLoop (moebiusM sq table f2) table n (pyRange 2 (sq n + 1)) value c := by
      intro value c
      refine moebiusSumLoop_congr _ _ _ _ _ ?_ _ _
      intro d hd c
      obtain ⟨g, rfl, a1, a2, a3, a4⟩ := sum_args hsq hN hn hd
      exact ⟨ih g _ a3 a1 _ (by omega) (by omega) c, ih g _ a4 a2 _ (by omega) (by omega) c⟩
    rw [moebiusM, moebiusM]
    simp only [hc]

/-- C170: for `n < 2^(lim - 1)` the summatory functions return the right sums with room for `lim` nested calls. -/
theorem C170_sums_partial (T : List Nat) (hT : IsPrimeTable T) (sq : Nat → Nat) (n : Int) (hn : 0 < n) (hsq : ExactSqrt sq n.toNat)
    (lim : Nat) (h : n < 2 ^ lim) :
    eulerPhiSumLim (lim + 1) T sq n = .ok (∑ i ∈ Finset.Ioc 0 n.toNat, (Nat.totient i : Int)) ∧
    eulerPhiWeightedSumLim (lim + 1) T sq n = .ok (∑ i ∈ Finset.Ioc 0 n.toNat, (i : Int) * Nat.totient i) ∧
    moebiusSumLim (lim + 1) T sq n = .ok (∑ i ∈ Finset.Ioc 0 n.toNat, ArithmeticFunction.moebius i) := by
  have hl : n.toNat < 2 ^ lim := by
    have : ((n.toNat : Nat) : Int) < ((2 ^ lim : Nat) : Int) := by push_cast; omega
    exact_mod_cast this
  refine ⟨?_, ?_, ?_⟩
  · rw [← C32_euler_phi_sum T hT sq n hn hsq, eulerPhiSumLim, eulerPhiSum]
    have e : ∀ table c, phiS sq table (lim + 1) n.toNat c = phiS sq table (n.toNat + 1) n.toNat c := by
      intro table c
      rw [phiS_depth hsq table (lim + 1) lim _ (le_refl _) hl (lim + n.toNat + 1) (by omega) (by omega),
        phiS_depth hsq table (n.toNat + 1) n.toNat _ (le_refl _) Nat.lt_two_pow_self (lim + n.toNat + 1) (by omega) (by omega)]
    simp only [e]
    rfl
  · rw [← C32_euler_phi_weighted_sum T hT sq n hn hsq, eulerPhiWeightedSumLim, eulerPhiWeightedSum]
    have e : ∀ table c, weightedT sq table (lim + 1) n.toNat c = weightedT sq table (n.toNat + 1) n.toNat c := by
      intro table c
      rw [weightedT_depth hsq table (lim + 1) lim _ (le_refl _) hl (lim + n.toNat + 1) (by omega) (by omega),
        weightedT_depth hsq table (n.toNat + 1) n.toNat _ (le_refl _) Nat.lt_two_pow_self (lim + n.toNat + 1) (by omega) (by omega)]
    simp only [e]
    rfl
  · rw [← C32_moebius_sum T hT sq n hn hsq, moebiusSumLim, moebiusSum]
    have e : ∀ table c, moebiusM sq table (lim + 1) n.toNat c = moebiusM sq table (n.toNat + 1) n.toNat c := by
      intro table c
      rw [moebiusM_depth hsq table (lim + 1) lim _ (le_refl _) hl (lim + n.toNat + 1) (by omega) (by omega),
        moebiusM_depth hsq table (n.toNat + 1) n.toNat _ (le_refl _) Nat.lt_two_pow_self (lim + n.toNat + 1) (by omega) (by omega)]
    simp only [e]
    rfl

/-! ## Prime counting -/

theorem phiFor_congr (rec rec' : Nat → Nat → Memo → Except PyErr (Int × Memo)) (ps : List Nat) (x : Nat) (is : List Nat)
    (h : ∀ i ∈ is, ∀ p, ps[i - 1]? = some p → ¬ p > x → ∀ m, rec (x / p) (i - 1) m = rec' (x / p) (i - 1) m) (value : Int) (m : Memo) :
    phiFor rec ps x is value m = phiFor rec' ps x is value m := by
  induction is generalizing value m with
  | nil => rfl
  | cons i is ih =>
    rw [phiFor, phiFor]
    have ih' := ih (fun e he => h e (List.mem_cons_of_mem _ he))
    cases hp : ps[i - 1]? with
    | none => rfl
    | some p =>
      dsimp only
      split_ifs with hx
      · rfl
      · rw [h i (by simp) p hp hx]
        cases rec' (x / p) (i - 1) m with
        | error e => rfl
        | ok q => exact ih' _ _

theorem phiSumFor_congr (rec rec' : Nat → Nat → Memo → Except PyErr (Int × Memo)) (ps : List Nat) (x : Nat) (is : List Nat)
    (h : ∀ i ∈ is, ∀ p, ps[i - 1]? = some p → ¬ p > x → ∀ m, rec (x / p) (i - 1) m = rec' (x / p) (i - 1) m) (value : Int) (m : Memo) :
    phiSumFor rec ps x is value m = phiSumFor rec' ps x is value m := by
  induction is generalizing value m with
  | nil => rfl
  | cons i is ih =>
    rw [phiSumFor, phiSumFor]
    have ih' := ih (fun e he => h e (List.mem_cons_of_mem _ he))
    cases hp : ps[i - 1]? with
    | none => rfl
    | some p =>
      dsimp only
      split_ifs with hx
      · rfl
      · rw [h i (by simp) p hp hx]
        cases rec' (x / p) (i - 1) m with
        | error e => rfl
        | ok q => exact ih' _ _

/-- Both arguments get smaller. -/
theorem phi_args {ps : List Nat} (hps : ∀ p ∈ ps, 2 ≤ p) {f x a i p : Nat} (h : x < 2 ^ f ∨ a ≤ f) (hi : 1 ≤ i) (ha : i < a + 1)
    (hp : ps[i - 1]? = some p) (hx : ¬ p > x) : ∃ g, f = g + 1 ∧ (x / p < 2 ^ g ∨ i - 1 ≤ g) := by
  have h2 := hps p (List.mem_of_getElem? hp)
  cases f with
  | zero =>
    rcases h with h | h
    · rw [Nat.pow_zero] at h; omega
    · omega
  | succ g =>
    refine ⟨g, rfl, ?_⟩
    rcases h with h | h
    · exact Or.inl (half_lt h2 h)
    · exact Or.inr (by omega)

theorem legendrePhi_depth {ps : List Nat} (hps : ∀ p ∈ ps, 2 ≤ p) (f1 : Nat) : ∀ f x a, (x < 2 ^ f ∨ a ≤ f) →
    ∀ f2, f < f1 → f < f2 → ∀ m, legendrePhi ps f1 x a m = legendrePhi ps f2 x a m := by
  induction f1 with
  | zero => intro f x a _ f2 h1; omega
  | succ f1 ih =>
    intro f x a h f2 h1 h2 m
    obtain ⟨f2, rfl⟩ := Nat.exists_eq_succ_of_ne_zero (by omega : f2 ≠ 0)
    have hc : ∀ value m, phiFor (legendrePhi ps f1) ps x (pyRange 2 (a + 1)) value m =
        phiFor (legendrePhi ps f2) ps x (pyRange 2 (a + 1)) value m := by
      intro value m
      refine phiFor_congr _ _ _ _ _ ?_ _ _
      intro i hi p hp hx m
      obtain ⟨i1, i2⟩ := mem_pyRange.1 hi
      obtain ⟨g, rfl, hg⟩ := phi_args hps h (by omega) i2 hp hx
      exact ih g _ _ hg _ (by omega) (by omega) m
    rw [legendrePhi, legendrePhi]
    simp only [hc]

theorem sumPhi_depth {ps : List Nat} (hps : ∀ p ∈ ps, 2 ≤ p) (f1 : Nat) : ∀ f x a, (x < 2 ^ f ∨ a ≤ f) →
    ∀ f2, f < f1 → f < f2 → ∀ m, sumPhi ps f1 x a m = sumPhi ps f2 x a m := by
  induction f1 with
  | zero => intro f x a _ f2 h1; omega
  | succ f1 ih =>
    intro f x a h f2 h1 h2 m
    obtain ⟨f2, rfl⟩ := Nat.exists_eq_succ_of_ne_zero (by omega : f2 ≠ 0)
    have hc : ∀ value m, phiSumFor (sumPhi ps f1) ps x (pyRange 1 (a + 1)) value m =
        phiSumFor (sumPhi ps f2) ps x (pyRange 1 (a + 1)) value m := by
      intro value m
      refine phiSumFor_congr _ _ _ _ _ ?_ _ _
      intro i hi p hp hx m
      obtain ⟨i1, i2⟩ := mem_pyRange.1 hi
      obtain ⟨g, rfl, hg⟩ := phi_args hps h (by omega) i2 hp hx
      exact ih g _ _ hg _ (by omega) (by omega) m
    rw [sumPhi, sumPhi]
    simp only [hc]

/-- C170: for `n < 2^(lim - 1)` the functions `legendre` and `prime_sum2` return the number and the sum of the primes up to
`n` with room for `lim` nested calls. -/
theorem C170_primes_partial (T : List Nat) (hT : IsPrimeTable T) (n : Nat) (hn : 1 ≤ n) (lim : Nat) (h : n < 2 ^ lim) :
    legendreLim (lim + 1) T n = .ok (Nat.primeCounting n : Int) ∧
    primeSum2Lim (lim + 1) T n = .ok ((∑ p ∈ (Finset.range (n + 1)).filter Nat.Prime, p : Nat) : Int) := by
  have hp : ∀ r : Int, ∃ ps, primes T r = .ok ps ∧ ∀ p ∈ ps, 2 ≤ p := by
    intro r
    exact ⟨_, C18_primes T hT r, fun p hp => (mem_primesUpTo.1 hp).1.two_le⟩
  constructor
  · have := C35_legendre T hT n
    rw [Int.toNat_natCast] at this
    rw [← this, legendreLim, legendre]
    by_cases h1 : (n : Int) ≤ 1
    · rw [if_pos h1, if_pos h1]
    rw [if_neg h1, if_neg h1]
    cases T.getLast? with
    | none => rfl
    | some l =>
      dsimp only
      split_ifs
      · rfl
      cases integerSqrt (n : Int) with
      | error e => rfl
      | ok root =>
        obtain ⟨ps, e, hps⟩ := hp root
        dsimp only
        rw [e]
        dsimp only
        rw [Int.toNat_natCast,
          legendrePhi_depth hps (lim + 1) lim n _ (Or.inl h) (lim + ps.length + 1) (by omega) (by omega),
          legendrePhi_depth hps (ps.length + 1) ps.length n _ (Or.inr (le_refl _)) (lim + ps.length + 1) (by omega) (by omega)]
        rfl
  · rw [← C35_prime_sum2 T hT n hn, primeSum2Lim, primeSum2]
    cases integerSqrt (n : Int) with
    | error e => rfl
    | ok root =>
      obtain ⟨ps, e, hps⟩ := hp root
      dsimp only
      rw [e]
      dsimp only
      rw [Int.toNat_natCast,
        sumPhi_depth hps (lim + 1) lim n _ (Or.inl h) (lim + ps.length + 1) (by omega) (by omega),
        sumPhi_depth hps (ps.length + 1) ps.length n _ (Or.inr (le_refl _)) (lim + ps.length + 1) (by omega) (by omega)]
      rfl

/-! ## Products and heaps -/

open Rosemary.Polys in
theorem mulKaratsubaLim_eq (lim : Nat) : ∀ M N : List Int, M.length ≤ 29 * 2 ^ lim → N.length ≤ 29 * 2 ^ lim →
    mulKaratsubaLim (lim + 1) M N = .ok (mulKaratsuba M N) := by
  induction lim with
  | zero =>
    intro M N hM hN
    rw [mulKaratsubaLim, mulKaratsuba, if_pos (by omega), dif_pos (by omega)]
  | succ lim ih =>
    intro M N hM hN
    rw [Nat.pow_succ] at hM hN
    rw [mulKaratsubaLim, mulKaratsuba]
    by_cases hs : M.length < 30 ∨ N.length < 30
    · rw [if_pos hs, dif_pos hs]
    rw [if_neg hs, dif_neg hs]
    dsimp only
    rw [ih _ _ (by rw [List.length_take]; omega) (by rw [List.length_take]; omega)]
    dsimp only
    rw [ih _ _ (by rw [List.length_drop]; omega) (by rw [List.length_drop]; omega)]
    dsimp only
    rw [ih _ _ (by rw [length_listAdd, List.length_drop, List.length_take]; omega)
      (by rw [length_listAdd, List.length_drop, List.length_take]; omega)]

open Rosemary.Polys in
/-- C170: the product of polynomials with at most `29 * 2^(lim - 1)` coefficients needs `lim` nested calls. -/
theorem C170_mul_karatsuba_partial (lim : Nat) (M N : List Int) (hM : M.length ≤ 29 * 2 ^ lim) (hN : N.length ≤ 29 * 2 ^ lim) :
    ∃ P, mulKaratsubaLim (lim + 1) M N = .ok P ∧ toPoly P = toPoly M * toPoly N :=
  ⟨_, mulKaratsubaLim_eq lim M N hM hN, toPoly_mulKaratsuba M N⟩

section Heap

open Rosemary.LeftistHeap

variable {α : Type} [LinearOrder α]

theorem mergeLim_eq (lim : Nat) : ∀ a b : LeftistHeap.Tree α,
    mergeLim lim a b = if mergeCalls a b ≤ lim then .ok (merge a b) else .error .runtimeError := by
  induction lim with
  | zero =>
    intro a b
    rw [mergeLim, if_neg]
    intro hc
    cases a with
    | leaf => rw [mergeCalls] at hc; omega
    | node x kx lx rx =>
      cases b with
      | leaf => rw [mergeCalls.eq_def] at hc; dsimp only at hc; omega
      | node y ky ly ry =>
        rw [mergeCalls.eq_def] at hc
        dsimp only at hc
        split_ifs at hc <;> omega
  | succ lim ih =>
    intro a b
    cases a with
    | leaf =>
      rw [mergeLim.eq_def, mergeCalls.eq_def, merge.eq_def]
      dsimp only
      rw [if_pos (by omega)]
    | node x kx lx rx =>
      cases b with
      | leaf =>
        rw [mergeLim.eq_def, mergeCalls.eq_def, merge.eq_def]
        dsimp only
        rw [if_pos (by omega)]
      | node y ky ly ry =>
        rw [mergeLim.eq_def, mergeCalls.eq_def, merge.eq_def]
        dsimp only
        by_cases hxy : x > y
        · simp only [if_pos hxy]
          cases ry with
          | leaf => dsimp only; rw [if_pos (by omega)]
          | node u ku lu ru =>
            dsimp only
            rw [ih]
            split_ifs with h1 h2 h2
            · rfl
            · omega
            · omega
            · rfl
        · simp only [if_neg hxy]
          cases rx with
          | leaf => dsimp only; rw [if_pos (by omega)]
          | node u ku lu ru =>
            dsimp only
            rw [ih]
            split_ifs with h1 h2 h2
            · rfl
            · omega
            · omega
            · rfl

/-- C170: merging two heaps built by any program, with `n` and `m` values where `n + 1, m + 1 < 2^lim`, needs at most
`2 * lim` nested calls. -/
theorem C170_leftist_merge_partial (H G : History α) (hH : H.proper) (hG : G.proper) (lim : Nat) (hl : 1 ≤ lim)
    (h1 : H.content.length + 1 < 2 ^ lim) (h2 : G.content.length + 1 < 2 ^ lim) :
    ∃ h g, H.exec = .ok h ∧ G.exec = .ok g ∧ mergeLim (2 * lim) h.root g.root = .ok (h.mergeWith g).root := by
  obtain ⟨h, g, e1, e2, e3⟩ := C155_merge H G hH hG
  refine ⟨h, g, e1, e2, ?_⟩
  have l1 : Nat.log 2 (H.content.length + 1) < lim := Nat.log_lt_of_lt_pow (by omega) h1
  have l2 : Nat.log 2 (G.content.length + 1) < lim := Nat.log_lt_of_lt_pow (by omega) h2
  rw [mergeLim_eq, if_pos]
  · rfl
  · have : h.mergeWithCalls g = mergeCalls h.root g.root := rfl
    omega

end Heap

/-! ## Searches with one level per item -/

open Rosemary.Knapsack in
theorem dfsLim_eq (capacity : Int) (items : List Item) : ∀ lim, items.length < lim → ∀ value weight used best,
    dfsLim capacity lim items value weight used best = .ok (dfs capacity items value weight used best) := by
  induction items with
  | nil =>
    intro lim hl value weight used best
    obtain ⟨lim, rfl⟩ := Nat.exists_eq_succ_of_ne_zero (by omega : lim ≠ 0)
    rw [dfsLim, dfs]
    split_ifs <;> rfl
  | cons a items ih =>
    intro lim hl value weight used best
    obtain ⟨v, w⟩ := a
    rw [List.length_cons] at hl
    obtain ⟨lim, rfl⟩ := Nat.exists_eq_succ_of_ne_zero (by omega : lim ≠ 0)
    rw [dfsLim, dfs]
    split_ifs
    · rw [ih lim (by omega)]
      dsimp only
      rw [ih lim (by omega)]
    · rfl

open Rosemary.Knapsack in
theorem dfsLim_error (capacity : Int) (items : List Item) : ∀ lim, lim ≤ items.length → ∀ value weight used best,
    weight ≤ capacity → dfsLim capacity lim items value weight used best = .error .runtimeError := by
  have only : ∀ lim items value weight used best e, dfsLim capacity lim items value weight used best = .error e →
      e = .runtimeError := by
    intro lim
    induction lim with
    | zero => intro items value weight used best e h; rw [dfsLim] at h; cases h; rfl
    | succ lim ih =>
      intro items value weight used best e h
      cases items with
      | nil => rw [dfsLim] at h; split_ifs at h
      | cons a items =>
        obtain ⟨v, w⟩ := a
        rw [dfsLim] at h
        split_ifs at h
        split at h
        · rename_i e' he
          cases h
          exact ih _ _ _ _ _ _ he
        · exact ih _ _ _ _ _ _ h
  induction items with
  | nil =>
    intro lim hl value weight used best _
    obtain rfl : lim = 0 := by simpa using hl
    rw [dfsLim]
  | cons a items ih =>
    intro lim hl value weight used best hw
    obtain ⟨v, w⟩ := a
    rw [List.length_cons] at hl
    cases lim with
    | zero => rw [dfsLim]
    | succ lim =>
      rw [dfsLim, if_pos hw]
      cases h : dfsLim capacity lim items (value + v) (weight + w) (used ++ [(v, w)]) best with
      | error e => rw [only _ _ _ _ _ _ _ h]
      | ok b => exact ih lim (by omega) _ _ _ _ hw

open Rosemary.Knapsack in
/-- C170, violation: `knapsack.depth_first` with a nonnegative capacity raises RecursionError if and only if there are as many
items as nested calls are possible; with fewer items its result is the one of C60. -/
theorem C170_knapsack_violation (lim : Nat) (items : List Item) (capacity : Int) (hc : 0 ≤ capacity) :
    knapsackLim lim items capacity = if items.length < lim then .ok (depthFirst items capacity) else .error .runtimeError := by
  split_ifs with h
  · exact dfsLim_eq capacity items lim h _ _ _ _
  · exact dfsLim_error capacity items lim (by omega) _ _ _ _ hc

section Tsp

open Rosemary.Tsp

variable {R : Type} [Add R] [LinearOrder R]

theorem backtrackLim_eq (D : ℕ → ℕ → WithTop R) (n : ℕ) (k : ℕ) : ∀ lim path l last best, l + k = n → k < lim →
    backtrackLim D n lim path l last best = backtrack D n (k + 1) path l last best := by
  induction k with
  | zero =>
    intro lim path l last best hl hk
    obtain ⟨lim, rfl⟩ := Nat.exists_eq_succ_of_ne_zero (by omega : lim ≠ 0)
    rw [backtrackLim, backtrack, if_pos (by omega), if_pos (by omega)]
  | succ k ih =>
    intro lim path l last best hl hk
    obtain ⟨lim, rfl⟩ := Nat.exists_eq_succ_of_ne_zero (by omega : lim ≠ 0)
    rw [backtrackLim, backtrack, if_neg (by omega), if_neg (by omega)]
    congr 1
    funext b c
    exact ih lim _ _ _ _ (by omega) (by omega)

/-- Down the first branch the limit is reached before a leaf. -/
theorem backtrackLim_error (D : ℕ → ℕ → WithTop R) (n : ℕ) (lim : ℕ) : ∀ path l last best, l + lim ≤ n →
    (2 ≤ l → last.Nodup ∧ last.length = n - l + 1 ∧ ∃ e ∈ last, path.getLast? = some e) →
    backtrackLim D n lim path l last best = .error .runtimeError := by
  induction lim with
  | zero => intro path l last best _ _; rw [backtrackLim]
  | succ lim ih =>
    intro path l last best hl hlast
    rw [backtrackLim, if_neg (by omega)]
    have key : (choices n path l last).Nodup ∧ (1 ≤ l → (choices n path l last).length = n - l) ∧ choices n path l last ≠ [] := by
      unfold choices
      split_ifs with h0 h1
      · exact ⟨by simp, fun h => by omega, by simp⟩
      · refine ⟨List.nodup_range', fun _ => by rw [List.length_range', h1], ?_⟩
        intro hc
        have := congrArg List.length hc
        rw [List.length_range', List.length_nil] at this
        omega
      · obtain ⟨a1, a2, e, he, a3⟩ := hlast (by omega)
        have hf : last.filter (fun x => path.getLast? ≠ some x) = last.erase e := by
          rw [a1.erase_eq_filter]
          congr 1
          funext x
          rw [a3]
          simp only [ne_eq, Option.some.injEq, bne, decide_not]
          congr 1
          by_cases hx : e = x
          · simp [hx]
          · simp [hx, Ne.symm hx]
        have hlen : (last.filter (fun x => path.getLast? ≠ some x)).length = n - l := by
          rw [hf, List.length_erase_of_mem he]
          omega
        refine ⟨a1.filter _, fun _ => hlen, ?_⟩
        intro hc
        rw [hc, List.length_nil] at hlen
        omega
    obtain ⟨k1, k2, k3⟩ := key
    obtain ⟨c, cs, hcs⟩ := List.exists_cons_of_ne_nil k3
    have hrec := ih (path ++ [c]) (l + 1) (choices n path l last) best (by omega) (by
      intro h2
      refine ⟨k1, by rw [k2 (by omega)]; omega, c, by rw [hcs]; simp, by simp⟩)
    rw [hcs] at hrec ⊢
    rw [List.foldlM_cons, hrec]
    rfl

/-- C170, violation: `tsp.depth_first` raises RecursionError if and only if there are as many points as nested calls are
possible; with fewer points its result is the one of C62. -/
theorem C170_tsp_violation (lim : ℕ) (D : ℕ → ℕ → WithTop R) (n : ℕ) :
    tspLim lim D n = if n < lim then depthFirst D n else .error .runtimeError := by
  split_ifs with h
  · exact backtrackLim_eq D n n lim _ _ _ _ (by omega) h
  · exact backtrackLim_error D n lim _ _ _ _ (by omega) (fun h => by omega)

end Tsp

/-- Python's default limit: the sums are right for all numbers below `2^900`, with room for 901 calls. -/
example (T : List Nat) (hT : IsPrimeTable T) (n : Int) (hn : 0 < n) (h : n < 2 ^ 900) :
    eulerPhiSumLim 901 T Nat.sqrt n = .ok (∑ i ∈ Finset.Ioc 0 n.toNat, (Nat.totient i : Int)) :=
  (C170_sums_partial T hT Nat.sqrt n hn (C32_exactSqrt _) 900 h).1

/-- With too little room `euler_phi_sum` does fail. -/
example : eulerPhiSumLim 2 primeList Nat.sqrt 10 = .error .runtimeError ∧
    eulerPhiSumLim 3 primeList Nat.sqrt 10 = .ok 32 := by
  unfold eulerPhiSumLim
  rw [if_neg (by decide), if_neg (by decide)]
  dsimp only
  rw [C33_euler_phi_list _ primeList_isPrimeTable _ (by decide +kernel)]
  decide +kernel

example : mulKaratsubaLim 1 (List.replicate 30 1) (List.replicate 30 1) = .error .runtimeError := by decide +kernel

example : knapsackLim 3 [(1, 1), (2, 2), (3, 3)] 4 = .error .runtimeError ∧
    knapsackLim 4 [(1, 1), (2, 2), (3, 3)] 4 = .ok (4, [(1, 1), (3, 3)]) := by decide +kernel

example : tspLim 4 (fun i j => ((((i : Int) - j) ^ 2 : Int) : WithTop Int)) 4 = .error .runtimeError := by
  rw [C170_tsp_violation]; rfl

end Rosemary.Props
