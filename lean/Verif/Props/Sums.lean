import Verif.Lemmas.Sums
import Verif.Props.Tables

/-!
# C32: summatory functions equal the naive sums

`int(n**0.5)` is assumed to be the exact floor square root for the arguments that occur
(`ExactSqrt sq n`, all below `n`).
-/

namespace Rosemary.Props

open Rosemary.Sums Rosemary.Tables Rosemary.Sieves Rosemary.Primality Finset

private theorem tab_range {α : Type} (n : Nat) (g : Nat → α) : Tab n ((List.range n).map g) g :=
  ⟨by simp, fun i hi => by simp [hi]⟩

/-- `euler_phi_sum(n) = φ(1) + … + φ(n)`. -/
theorem C32_euler_phi_sum (T : List Nat) (hT : IsPrimeTable T) (sq : Nat → Nat) (n : Int) (hn : 0 < n)
    (hsq : ExactSqrt sq n.toNat) :
    eulerPhiSum T sq n = .ok (∑ i ∈ Ioc 0 n.toNat, (Nat.totient i : Int)) := by
  unfold eulerPhiSum
  rw [if_neg (by omega)]
  dsimp only
  have hpos := hsq.pos (le_refl _) (by omega : 0 < n.toNat)
  rw [C33_euler_phi_list T hT _ (by omega), Int.toNat_natCast]
  dsimp only
  have htab := tab_range (sq n.toNat + 1) (fun i => (Nat.totient i : Int))
  obtain ⟨c, hc, hg⟩ := prefixCache_spec (w := fun _ => 1) htab (f := fun i => (Nat.totient i : Int))
    (fun i => by simp) (sq n.toNat - 1) 1 (by omega) (by omega) [(1, 1)] (Good.init (by simp))
  rw [show pyRange 2 (sq n.toNat + 1) = List.range' (1 + 1) (sq n.toNat - 1) from rfl, hc]
  dsimp only
  obtain ⟨c2, hc2, -⟩ := phiS_spec hsq htab (by simp) phi_total (n.toNat + 1) n.toNat (by omega)
    (by omega) (le_refl _) c hg
  rw [hc2]
  rfl

/-- `euler_phi_weighted_sum(n) = 1·φ(1) + … + n·φ(n)`. -/
theorem C32_euler_phi_weighted_sum (T : List Nat) (hT : IsPrimeTable T) (sq : Nat → Nat) (n : Int)
    (hn : 0 < n) (hsq : ExactSqrt sq n.toNat) :
    eulerPhiWeightedSum T sq n = .ok (∑ i ∈ Ioc 0 n.toNat, (i : Int) * Nat.totient i) := by
  unfold eulerPhiWeightedSum
  rw [if_neg (by omega)]
  dsimp only
  have hpos := hsq.pos (le_refl _) (by omega : 0 < n.toNat)
  rw [C33_euler_phi_list T hT _ (by omega), Int.toNat_natCast]
  dsimp only
  have htab := tab_range (sq n.toNat + 1) (fun i => (Nat.totient i : Int))
  obtain ⟨c, hc, hg⟩ := prefixCache_spec (w := fun i => i) htab
    (f := fun i => (i : Int) * (Nat.totient i : Int))
    (fun i => rfl) (sq n.toNat - 1) 1 (by omega) (by omega) [(1, 1)] (Good.init (by simp))
  rw [show pyRange 2 (sq n.toNat + 1) = List.range' (1 + 1) (sq n.toNat - 1) from rfl, hc]
  dsimp only
  obtain ⟨c2, hc2, -⟩ := weightedT_spec hsq htab (by simp) weighted_total (n.toNat + 1) n.toNat
    (by omega) (by omega) (le_refl _) c hg
  rw [hc2]
  rfl

/-- `moebius_sum(n) = μ(1) + … + μ(n)`. -/
theorem C32_moebius_sum (T : List Nat) (hT : IsPrimeTable T) (sq : Nat → Nat) (n : Int) (hn : 0 < n)
    (hsq : ExactSqrt sq n.toNat) :
    moebiusSum T sq n = .ok (∑ i ∈ Ioc 0 n.toNat, ArithmeticFunction.moebius i) := by
  unfold moebiusSum
  rw [if_neg (by omega)]
  dsimp only
  have hpos := hsq.pos (le_refl _) (by omega : 0 < n.toNat)
  rw [C33_moebius_list T hT sq _ (by omega)
    (by rw [Int.toNat_natCast]; exact (hsq _ (hsq.le (le_refl _))).2), Int.toNat_natCast]
  dsimp only
  have htab := tab_range (sq n.toNat + 1) (fun i => ArithmeticFunction.moebius i)
  obtain ⟨c, hc, hg⟩ := prefixCache_spec (w := fun _ => 1) htab
    (f := fun i => ArithmeticFunction.moebius i)
    (fun i => by simp) (sq n.toNat - 1) 1 (by omega) (by omega) [(1, 1)] (Good.init (by simp))
  rw [show pyRange 2 (sq n.toNat + 1) = List.range' (1 + 1) (sq n.toNat - 1) from rfl, hc]
  dsimp only
  obtain ⟨c2, hc2, -⟩ := moebiusM_spec hsq htab (by simp) moebius_total (n.toNat + 1) n.toNat
    (by omega) (by omega) (le_refl _) c hg
  rw [hc2]
  rfl

/-- `sigma_sum(n) = σ(1) + … + σ(n)`. -/
theorem C32_sigma_sum (sq : Nat → Nat) (n : Int) (hn : 0 < n)
    (h1 : sq n.toNat * sq n.toNat ≤ n.toNat) (h2 : n.toNat < (sq n.toNat + 1) * (sq n.toNat + 1)) :
    sigmaSum sq n = .ok (∑ i ∈ Ioc 0 n.toNat, ((∑ d ∈ i.divisors, d : Nat) : Int)) := by
  unfold sigmaSum
  rw [if_neg (by omega)]
  dsimp only
  rw [sigmaSum_value h1 h2]
  rfl

/-- All four functions reject `n ≤ 0`. -/
theorem C32_errors (T : List Nat) (sq : Nat → Nat) (n : Int) (hn : n ≤ 0) :
    eulerPhiSum T sq n = .error .valueError ∧ eulerPhiWeightedSum T sq n = .error .valueError ∧
    moebiusSum T sq n = .error .valueError ∧ sigmaSum sq n = .error .valueError := by
  unfold eulerPhiSum eulerPhiWeightedSum moebiusSum sigmaSum
  simp only [if_pos hn, and_self]

/-- The real square root satisfies the hypothesis. -/
theorem C32_exactSqrt (N : Nat) : ExactSqrt Nat.sqrt N :=
  fun m _ => ⟨Nat.sqrt_le m, Nat.lt_succ_sqrt m⟩

example : eulerPhiSum primeList Nat.sqrt 10 = .ok 32 ∧
    eulerPhiWeightedSum primeList Nat.sqrt 10 = .ok 217 ∧
    moebiusSum primeList Nat.sqrt 10 = .ok (-1) ∧ sigmaSum Nat.sqrt 10 = .ok 87 := by
  rw [C32_euler_phi_sum _ primeList_isPrimeTable _ _ (by decide) (C32_exactSqrt _),
    C32_euler_phi_weighted_sum _ primeList_isPrimeTable _ _ (by decide) (C32_exactSqrt _),
    C32_moebius_sum _ primeList_isPrimeTable _ _ (by decide) (C32_exactSqrt _)]
  decide +kernel

end Rosemary.Props
