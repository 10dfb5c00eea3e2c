import Verif.Lemmas.SumCosts
import Verif.Props.Sums

/-!
# C162: work of the summatory functions
-/

namespace Rosemary.Props

open Rosemary.Sums Rosemary.SumCosts Rosemary.Tables Rosemary.Sieves Rosemary.Primality Finset

private theorem tab_of_map {α : Type} (n : Nat) (g : Nat → α) : Tab n ((List.range n).map g) g :=
  ⟨by simp, fun i hi => by simp [hi]⟩

private theorem prefix_facts {table : List Int} {w : Nat → Int} {is : List Nat} {cache c : Cache}
    (h : prefixCache table w is cache = .ok c) : prefixCacheC table w is cache = .ok (c, is.length) := by
  obtain ⟨h1, h2⟩ := prefixCacheC_fst table w is cache
  rw [h] at h1
  rcases hp : prefixCacheC table w is cache with e | ⟨c', p⟩
  · rw [hp] at h1; simp at h1
  · rw [hp] at h1
    simp only [Except.ok.injEq] at h1
    rw [h1, h2 _ _ hp]

private theorem forget_ok {r : Except PyErr (Int × Cache × Nat)} {v : Int} {c : Cache} (h : forget r = .ok (v, c)) :
    ∃ p, r = .ok (v, c, p) := by
  rcases r with e | ⟨v', c', p⟩
  · simp [forget] at h
  · simp only [forget, Except.ok.injEq, Prod.mk.injEq] at h
    exact ⟨p, by rw [h.1, h.2]⟩

private theorem small_total {sq : Nat → Nat} {N s q : Nat} (hsq : ExactSqrt sq N) (hs : s = sq N) (hN : 0 < N)
    (h : q ≤ ∑ d ∈ Icc 1 s, (sq (N / d) - 1)) : s - 1 + q ≤ ∑ d ∈ Icc 1 s, sq (N / d) := by
  have h1 : ∑ d ∈ Icc 1 s, sq (N / d) = ∑ d ∈ Icc 1 s, (sq (N / d) - 1) + s := by
    calc ∑ d ∈ Icc 1 s, sq (N / d) = ∑ d ∈ Icc 1 s, ((sq (N / d) - 1) + 1) := by
          refine sum_congr rfl fun d hd => ?_
          obtain ⟨h1, h2⟩ := mem_Icc.1 hd
          have h3 := hsq.le (le_refl N)
          have := hsq.pos (Nat.div_le_self N d) (Nat.div_pos (by omega) (by omega))
          omega
      _ = _ := by rw [sum_add_distrib, sum_const, Nat.card_Icc]; simp
  omega

/-- C162: the loops of `euler_phi_sum(n)` make at most `2 n^(3/4)` passes in all. -/
theorem C162_euler_phi_sum (T : List Nat) (hT : IsPrimeTable T) (sq : Nat → Nat) (n : Nat) (hn : 0 < n)
    (hsq : ExactSqrt sq n) :
    ∃ v p, eulerPhiSumC T sq n = .ok (v, p) ∧ eulerPhiSum T sq n = .ok v ∧ p ^ 4 ≤ 16 * n ^ 3 := by
  rw [C32_euler_phi_sum T hT sq n (by omega) (by simpa using hsq)]
  unfold eulerPhiSumC
  rw [if_neg (by omega)]
  simp only [Int.toNat_natCast]
  have hpos := hsq.pos (le_refl _) hn
  rw [C33_euler_phi_list T hT _ (by omega), Int.toNat_natCast]
  dsimp only
  have htab := tab_of_map (sq n + 1) (fun i => (Nat.totient i : Int))
  obtain ⟨c, hc, hg⟩ := prefixCache_spec (w := fun _ => 1) htab (f := fun i => (Nat.totient i : Int))
    (fun i => by simp) (sq n - 1) 1 (by omega) (by omega) [(1, 1)] (Good.init (by simp))
  rw [show pyRange 2 (sq n + 1) = List.range' (1 + 1) (sq n - 1) from rfl, prefix_facts hc]
  dsimp only
  obtain ⟨c2, hc2, -⟩ := phiS_spec hsq htab (by simp) phi_total (n + 1) n (by omega) (by omega) (le_refl _) c hg
  rw [← phiSC_fst] at hc2
  obtain ⟨q, hq⟩ := forget_ok hc2
  rw [hq]
  refine ⟨_, _, rfl, rfl, ?_⟩
  have hcost := ((phiSC_cost hsq _ n hn (le_refl _) c hg.have_ _ _ _ hq).1).total hg.have_ (hsq n (le_refl _)).2
  rw [List.length_range']
  exact (Nat.pow_le_pow_left (small_total hsq rfl hn hcost) 4).trans (sum_sqrt_le hsq)

/-- C162: the loops of `moebius_sum(n)` make at most `2 n^(3/4)` passes in all. -/
theorem C162_moebius_sum (T : List Nat) (hT : IsPrimeTable T) (sq : Nat → Nat) (n : Nat) (hn : 0 < n)
    (hsq : ExactSqrt sq n) :
    ∃ v p, moebiusSumC T sq n = .ok (v, p) ∧ moebiusSum T sq n = .ok v ∧ p ^ 4 ≤ 16 * n ^ 3 := by
  rw [C32_moebius_sum T hT sq n (by omega) (by simpa using hsq)]
  unfold moebiusSumC
  rw [if_neg (by omega)]
  simp only [Int.toNat_natCast]
  have hpos := hsq.pos (le_refl _) hn
  rw [C33_moebius_list T hT sq _ (by omega)
    (by rw [Int.toNat_natCast]; exact (hsq _ (hsq.le (le_refl _))).2), Int.toNat_natCast]
  dsimp only
  have htab := tab_of_map (sq n + 1) (fun i => ArithmeticFunction.moebius i)
  obtain ⟨c, hc, hg⟩ := prefixCache_spec (w := fun _ => 1) htab
    (f := fun i => ArithmeticFunction.moebius i)
    (fun i => by simp) (sq n - 1) 1 (by omega) (by omega) [(1, 1)] (Good.init (by simp))
  rw [show pyRange 2 (sq n + 1) = List.range' (1 + 1) (sq n - 1) from rfl, prefix_facts hc]
  dsimp only
  obtain ⟨c2, hc2, -⟩ := moebiusM_spec hsq htab (by simp) moebius_total (n + 1) n (by omega) (by omega) (le_refl _) c hg
  rw [← moebiusMC_fst] at hc2
  obtain ⟨q, hq⟩ := forget_ok hc2
  rw [hq]
  refine ⟨_, _, rfl, rfl, ?_⟩
  have hcost := ((moebiusMC_cost hsq _ n hn (le_refl _) c hg.have_ _ _ _ hq).1).total hg.have_ (hsq n (le_refl _)).2
  rw [List.length_range']
  exact (Nat.pow_le_pow_left (small_total hsq rfl hn hcost) 4).trans (sum_sqrt_le hsq)

/-- C162: the loops of `euler_phi_weighted_sum(n)` make at most `6 n^(3/4)` passes in all. -/
theorem C162_euler_phi_weighted_sum (T : List Nat) (hT : IsPrimeTable T) (sq : Nat → Nat) (n : Nat) (hn : 0 < n)
    (hsq : ExactSqrt sq n) :
    ∃ v p, eulerPhiWeightedSumC T sq n = .ok (v, p) ∧ eulerPhiWeightedSum T sq n = .ok v ∧ p ^ 4 ≤ 1296 * n ^ 3 := by
  rw [C32_euler_phi_weighted_sum T hT sq n (by omega) (by simpa using hsq)]
  unfold eulerPhiWeightedSumC
  rw [if_neg (by omega)]
  simp only [Int.toNat_natCast]
  have hpos := hsq.pos (le_refl _) hn
  rw [C33_euler_phi_list T hT _ (by omega), Int.toNat_natCast]
  dsimp only
  have htab := tab_of_map (sq n + 1) (fun i => (Nat.totient i : Int))
  obtain ⟨c, hc, hg⟩ := prefixCache_spec (w := fun i => i) htab
    (f := fun i => (i : Int) * (Nat.totient i : Int))
    (fun i => rfl) (sq n - 1) 1 (by omega) (by omega) [(1, 1)] (Good.init (by simp))
  rw [show pyRange 2 (sq n + 1) = List.range' (1 + 1) (sq n - 1) from rfl, prefix_facts hc]
  dsimp only
  obtain ⟨c2, hc2, -⟩ := weightedT_spec hsq htab (by simp) weighted_total (n + 1) n (by omega) (by omega) (le_refl _) c hg
  rw [← weightedTC_fst] at hc2
  obtain ⟨q, hq⟩ := forget_ok hc2
  rw [hq]
  refine ⟨_, _, rfl, rfl, ?_⟩
  have hcost := ((weightedTC_cost hsq _ n hn (le_refl _) c hg.have_ _ _ _ hq).1).total hg.have_ (hsq n (le_refl _)).2
  rw [List.length_range']
  have h1 : ∑ d ∈ Icc 1 (sq n), (3 * sq (n / d) - 1) + sq n = 3 * ∑ d ∈ Icc 1 (sq n), sq (n / d) := by
    calc _ = ∑ d ∈ Icc 1 (sq n), ((3 * sq (n / d) - 1) + 1) := by
          rw [sum_add_distrib, sum_const, Nat.card_Icc]; simp
      _ = ∑ d ∈ Icc 1 (sq n), 3 * sq (n / d) := by
          refine sum_congr rfl fun d hd => ?_
          obtain ⟨h1, h2⟩ := mem_Icc.1 hd
          have h3 := hsq.le (le_refl n)
          have := hsq.pos (Nat.div_le_self n d) (Nat.div_pos (by omega) (by omega))
          omega
      _ = _ := by rw [mul_sum]
  have h2 : sq n - 1 + q ≤ 3 * ∑ d ∈ Icc 1 (sq n), sq (n / d) := by omega
  calc _ ≤ (3 * ∑ d ∈ Icc 1 (sq n), sq (n / d)) ^ 4 := Nat.pow_le_pow_left h2 4
    _ = 81 * (∑ d ∈ Icc 1 (sq n), sq (n / d)) ^ 4 := by ring
    _ ≤ 81 * (16 * n ^ 3) := Nat.mul_le_mul_left _ (sum_sqrt_le hsq)
    _ = _ := by ring

example : eulerPhiSumC [2, 3, 5, 7] Nat.sqrt 30 = .ok (278, 14) ∧ moebiusSumC [2, 3, 5, 7] Nat.sqrt 30 = .ok (-3, 14) ∧
    eulerPhiWeightedSumC [2, 3, 5, 7] Nat.sqrt 30 = .ok (5601, 44) := by decide +kernel

end Rosemary.Props
