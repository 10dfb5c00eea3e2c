import Verif.Lemmas.SieveCosts
import Verif.Props.Sieves

/-!
# C161: work of the sieves
-/

namespace Rosemary.Props

open Rosemary.Core Rosemary.Sieves Rosemary.SieveCosts Rosemary.Primality Rosemary.Spec

/-- C161: the slice assignments of `eratosthenes1(n)` write at most `m/3 + 2 m log₂ log₂ n` bytes, where
`m = n//2 + 1` is the size of the block. -/
theorem C161_eratosthenes1 (n : Nat) :
    (eratosthenes1C n).1 = eratosthenes1 n ∧
    (eratosthenes1C n).2 ≤ (n / 2 + 1) / 3 + 2 * (n / 2 + 1) * Nat.log 2 (Nat.log 2 n) := by
  unfold eratosthenes1C eratosthenes1
  by_cases hn : (n : Int) ≤ 1
  · rw [if_pos hn, if_pos hn]; exact ⟨rfl, Nat.zero_le _⟩
  rw [if_neg hn, if_neg hn]
  simp only [Int.toNat_natCast]
  obtain ⟨s, hs, hs1, hs2, -⟩ := integerSqrt_nat (n / 2 + 1)
  rw [hs]
  dsimp only
  have hsm : s < n / 2 + 1 := by
    rcases Nat.lt_or_ge (n / 2 + 1) 4 with h4 | h4
    · have : n / 2 + 1 = 2 ∨ n / 2 + 1 = 3 := by omega
      rcases this with h | h <;> rw [h] at hs ⊢
      · have h2 : integerSqrt ((2 : Nat) : Int) = .ok 1 := by decide +kernel
        rw [h2] at hs; cases hs; omega
      · have h2 : integerSqrt ((3 : Nat) : Int) = .ok 1 := by decide +kernel
        rw [h2] at hs; cases hs; omega
    · have h1 := Nat.sqrt_le' (n / 2 + 1)
      have h2 : 2 ≤ (n / 2 + 1).sqrt := Nat.le_sqrt.2 (by omega)
      nlinarith
  have hcost := era1LoopC_cost s hsm 1 (by omega) (by omega) (List.replicate (n / 2 + 1) true)
    (Inv.init oddMap (by simp) (fun j _ hj => by simp [hj]))
  have hbud : budget (fun i => 2 * i + 1) (n / 2 + 1) (2 * (n / 2 + 1) - 2) 1 (s + 1) ≤
      (n / 2 + 1) / 3 + 2 * (n / 2 + 1) * Nat.log 2 (Nat.log 2 n) := by
    have hlog : Nat.log 2 (Nat.log 2 (2 * (n / 2 + 1) - 2)) ≤ Nat.log 2 (Nat.log 2 n) :=
      Nat.log_mono_right (Nat.log_mono_right (by omega))
    rcases Nat.eq_zero_or_pos s with h0 | h0
    · subst h0; simp [budget]
    · rw [budget_succ (by omega)]
      refine Nat.add_le_add ?_ ((budget_le oddMap.mono _ _ _ _ (fun j hj => by omega)).trans
        (Nat.mul_le_mul_left _ hlog))
      split
      · exact Nat.le_refl _
      · exact Nat.zero_le _
  rw [← era1LoopC_fst]
  generalize era1LoopC (n / 2 + 1) (pyRange 1 (s + 1)) (List.replicate (n / 2 + 1) true) = r at *
  obtain ⟨_ | b, c⟩ := r <;> dsimp only at *
  · exact ⟨rfl, hcost.trans hbud⟩
  · generalize collect _ b _ = q
    rcases q with e | q
    · exact ⟨rfl, hcost.trans hbud⟩
    · exact ⟨rfl, hcost.trans hbud⟩

private theorem wheel_budget {n R s : Nat} (h : R % 6 = 0) (h1 : R ≤ n + 5) :
    budget wheel (R / 3 + 1) (3 * (R / 3) - 5) 1 (s + 1) ≤ 2 * ((n + 8) / 3) * Nat.log 2 (Nat.log 2 n) :=
  (budget_le wheelMap.mono _ _ _ _ (fun j hj => by rw [wheel_eq]; omega)).trans
    (Nat.mul_le_mul (by omega) (Nat.log_mono_right (Nat.log_mono_right (by omega))))

private theorem round_eq (n : Nat) : roundSix n = 6 * ((n + 4) / 6) := by
  have : n % 6 = 0 ∨ n % 6 = 1 ∨ n % 6 = 2 ∨ n % 6 = 3 ∨ n % 6 = 4 ∨ n % 6 = 5 := by omega
  rcases this with h | h | h | h | h | h <;> simp only [roundSix, h] <;> omega

private theorem round_facts (N : Nat) : roundSix (N + 1) % 6 = 0 ∧ N ≤ roundSix (N + 1) ∧
    roundSix (N + 1) ≤ N + 5 := by
  rw [round_eq]
  omega

/-- C161: the slice assignments of `eratosthenes2(n)` write at most `2 ((n + 8)//3) log₂ log₂ n` bytes. -/
theorem C161_eratosthenes2 (n : Nat) :
    (eratosthenes2C n).1 = eratosthenes2 n ∧
    (eratosthenes2C n).2 ≤ 2 * ((n + 8) / 3) * Nat.log 2 (Nat.log 2 n) := by
  unfold eratosthenes2C eratosthenes2
  by_cases hn : (n : Int) ≤ 1
  · rw [if_pos hn, if_pos hn]; exact ⟨rfl, Nat.zero_le _⟩
  rw [if_neg hn, if_neg hn]
  by_cases hn3 : (n : Int) ≤ 3
  · rw [if_pos hn3, if_pos hn3]; exact ⟨rfl, Nat.zero_le _⟩
  rw [if_neg hn3, if_neg hn3]
  simp only [Int.toNat_natCast]
  obtain ⟨h6, hle, hle'⟩ := round_facts n
  obtain ⟨s, hs, hs1, hs2, -⟩ := integerSqrt_nat (roundSix (n + 1))
  rw [hs]
  dsimp only
  generalize hR : roundSix (n + 1) = R at *
  have hs3 : s / 3 < R / 3 := by
    have h1 := Nat.sqrt_le' R
    have h2 : 2 ≤ R.sqrt := Nat.le_sqrt.2 (by omega)
    have : s < R := by nlinarith
    omega
  have h0 : (((List.replicate (R / 3) true).set 0 false)[0]?) = some false := by
    rw [List.getElem?_set_self (by simp; omega)]
  have hcost := (era2LoopC_cost (s / 3) hs3 1 (by omega) (by omega)
    ((List.replicate (R / 3) true).set 0 false)
    (Inv.init wheelMap (by simp) (fun j h0 hj => by
      rw [List.getElem?_set_ne (by omega)]; simp [hj]))).trans (wheel_budget (n := n) h6 hle')
  have hstart : era2LoopC (R / 3) (pyRange 0 (s / 3 + 1)) ((List.replicate (R / 3) true).set 0 false) =
      era2LoopC (R / 3) (pyRange 1 (s / 3 + 1)) ((List.replicate (R / 3) true).set 0 false) := by
    rw [pyRange_cons (by omega)]
    simp only [era2LoopC, h0]
  rw [← hstart] at hcost
  rw [← era2LoopC_fst]
  generalize era2LoopC (R / 3) (pyRange 0 (s / 3 + 1)) _ = r at *
  obtain ⟨_ | b, c⟩ := r <;> dsimp only at *
  · exact ⟨rfl, hcost⟩
  · generalize collect _ b _ = q
    rcases q with e | q
    · exact ⟨rfl, hcost⟩
    · exact ⟨rfl, hcost⟩

/-- C161: the slice assignments of `luo(n)` write at most `2 ((n + 8)//3) log₂ log₂ n` bytes. -/
theorem C161_luo (n : Nat) :
    (luoC n).1 = luo n ∧ (luoC n).2 ≤ 2 * ((n + 8) / 3) * Nat.log 2 (Nat.log 2 n) := by
  unfold luoC luo
  by_cases hn : (n : Int) ≤ 1
  · rw [if_pos hn, if_pos hn]; exact ⟨rfl, Nat.zero_le _⟩
  rw [if_neg hn, if_neg hn]
  by_cases hn6 : (n : Int) ≤ 6
  · rw [if_pos hn6, if_pos hn6]; exact ⟨rfl, Nat.zero_le _⟩
  rw [if_neg hn6, if_neg hn6]
  simp only [Int.toNat_natCast]
  obtain ⟨h6, hle, hle'⟩ := round_facts n
  have h12 : 12 ≤ roundSix (n + 1) := by omega
  obtain ⟨s, hs, hs1, hs2, -⟩ := integerSqrt_nat (roundSix (n + 1))
  rw [hs]
  dsimp only
  generalize hR : roundSix (n + 1) = R at *
  have hs3 : s < R / 3 := by
    rcases Nat.lt_or_ge R 18 with h | h
    · have : R = 12 := by omega
      subst this
      have h2 : integerSqrt ((12 : Nat) : Int) = .ok 3 := by decide +kernel
      rw [h2] at hs; cases hs; omega
    · have h1 := Nat.sqrt_le' R
      have h2 : 4 ≤ R.sqrt := Nat.le_sqrt.2 (by omega)
      obtain ⟨q, rfl⟩ : ∃ q, R = 3 * q := ⟨R / 3, by omega⟩
      rw [Nat.mul_div_cancel_left _ (by omega)]
      rcases Nat.lt_or_ge (3 * q).sqrt 5 with h5 | h5
      · omega
      · nlinarith
  have hcost := (luoLoopC_cost s hs3 1 (by omega) (by omega) 0 1 2
    (by refine ⟨by omega, ?_, ?_⟩ <;> decide) (List.replicate (R / 3) true)
    (Inv.init wheelMap (by simp) (fun j h0 hj => by simp [hj]))).trans (wheel_budget (n := n) h6 hle')
  rw [← luoLoopC_fst]
  generalize luoLoopC (R / 3) (pyRange 1 (s + 1)) 0 1 2 _ = r at *
  obtain ⟨_ | b, c⟩ := r <;> dsimp only at *
  · exact ⟨rfl, hcost⟩
  · generalize collect _ b _ = q
    rcases q with e | q
    · exact ⟨rfl, hcost⟩
    · exact ⟨rfl, hcost⟩

/-- C161: `pritchard(n)` strikes out every composite number up to `n` exactly once and nothing else, and its inner
loop makes at most `3n/2` passes. -/
theorem C161_pritchard (T : List Nat) (hT : IsPrimeTable T) (n : Nat) :
    (pritchardC T n).1 = pritchard T n ∧
    (pritchardC T n).2.1.Nodup ∧
    (∀ j, j ∈ (pritchardC T n).2.1 ↔ 2 ≤ j ∧ j ≤ n ∧ ¬ j.Prime) ∧
    (pritchardC T n).2.2 ≤ (pritchardC T n).2.1.length + n / 2 ∧
    2 * (pritchardC T n).2.2 ≤ 3 * n := by
  unfold pritchardC pritchard
  by_cases hn : (n : Int) ≤ 1
  · rw [if_pos hn, if_pos hn]
    refine ⟨rfl, by simp, fun j => ?_, by simp, by simp⟩
    simp only [List.not_mem_nil, false_iff]; omega
  rw [if_neg hn, if_neg hn]
  simp only [Int.toNat_natCast]
  obtain ⟨s, hs, hs1, hs2, -⟩ := integerSqrt_nat n
  rw [hs]
  dsimp only
  rw [C18_primes T hT, Int.toNat_natCast]
  dsimp only
  obtain ⟨w1, w2, w3⟩ := pritchardLoopC_writes (n := n) (primesUpTo s)
    (fun p hp => (mem_primesUpTo.1 hp).1) (primesUpTo_sorted s) (pyRange 2 (n / 2 + 1))
    (fun f hf => (mem_pyRange.1 hf).1) ((pyRange_sorted _ _).imp fun h => Nat.ne_of_lt h)
    (((List.replicate (n + 1) true).set 0 false).set 1 false) (by simp)
  have hmem : ∀ j, (j ≤ n ∧ ∃ f ∈ pyRange 2 (n / 2 + 1), ∃ p ∈ primesUpTo s, p * f = j ∧
      ∀ q ∈ primesUpTo s, q < p → ¬ q ∣ f) ↔ 2 ≤ j ∧ j ≤ n ∧ ¬ j.Prime := by
    intro j
    constructor
    · rintro ⟨hj, f, hf, p, hp, rfl, -⟩
      have hp' := (mem_primesUpTo.1 hp).1.two_le
      have hf' := (mem_pyRange.1 hf).1
      exact ⟨by nlinarith, hj, Nat.not_prime_mul (by omega) (by omega)⟩
    · rintro ⟨hj2, hj, hnp⟩
      have hm := Nat.minFac_prime (n := j) (by omega)
      have hsq := Nat.minFac_sq_le_self (by omega) hnp
      have hle : j.minFac ≤ s := by
        have : j.minFac ≤ n.sqrt := Nat.le_sqrt.2 (by rw [sq] at hsq; omega)
        omega
      have hmul := Nat.mul_div_cancel' (Nat.minFac_dvd j)
      have htwo := hm.two_le
      generalize hpm : j.minFac = p at *
      generalize hfi : j / p = f at *
      have hpf : p ≤ f := by
        rw [sq, ← hmul] at hsq
        exact Nat.le_of_mul_le_mul_left hsq (by omega)
      refine ⟨hj, f, mem_pyRange.2 ⟨by omega, ?_⟩, p, mem_primesUpTo.2 ⟨hm, hle⟩, hmul, ?_⟩
      · have : 2 * f ≤ p * f := Nat.mul_le_mul_right _ htwo
        omega
      · intro q hq hlt hd
        have hq' := (mem_primesUpTo.1 hq).1
        have : j.minFac ≤ q := Nat.minFac_le_of_dvd hq'.two_le (hmul ▸ hd.mul_left p)
        omega
  simp only [hmem] at w2
  have hlen : (pyRange 2 (n / 2 + 1)).length ≤ n / 2 := by simp [pyRange]
  rw [← pritchardLoopC_fst]
  generalize pritchardLoopC n (primesUpTo s) (pyRange 2 (n / 2 + 1)) _ = r at *
  have hcount : r.2.1.length ≤ n - 1 := by
    have hsub : r.2.1 ⊆ List.range' 2 (n - 1) := by
      intro j hj
      obtain ⟨h1, h2, -⟩ := (w2 j).1 hj
      rw [List.mem_range'_1]; omega
    have := (List.subperm_of_subset w1 hsub).length_le
    simpa using this
  obtain ⟨_ | b, w, c⟩ := r <;> dsimp only at *
  · exact ⟨rfl, w1, w2, by omega, by omega⟩
  · exact ⟨rfl, w1, w2, by omega, by omega⟩

example : eratosthenes1C 50 = (.ok [2, 3, 5, 7, 11, 13, 17, 19, 23, 29, 31, 37, 41, 43, 47], 12) := by decide +kernel
example : eratosthenes2C 50 = (.ok [2, 3, 5, 7, 11, 13, 17, 19, 23, 29, 31, 37, 41, 43, 47], 3) := by decide +kernel
example : luoC 50 = (.ok [2, 3, 5, 7, 11, 13, 17, 19, 23, 29, 31, 37, 41, 43, 47], 3) := by decide +kernel
example : pritchardC [2, 3, 5, 7] 20 =
    (.ok [2, 3, 5, 7, 11, 13, 17, 19], [4, 6, 9, 8, 10, 15, 12, 14, 16, 18, 20], 13) := by decide +kernel

end Rosemary.Props
