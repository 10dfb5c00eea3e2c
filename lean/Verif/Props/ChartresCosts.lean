import Verif.Lemmas.ChartresCosts

/-!
# C168: the steps and the heap of `chartres`
-/

namespace Rosemary.Props

open Rosemary.Sieves Rosemary.Spec

/-- C168: `chartres` takes `O(n log log n)` entries from its heap and its other loops make at most `n / 3 + 7` passes, which is
within the `O(n log n)` steps of the docstring. -/
theorem C168_chartres_steps (n : ℕ) : ∃ ps pops tests largest,
    chartresC n = some (.ok (some ps), pops, tests, largest) ∧ chartres n = some (.ok (some ps)) ∧
    pops ≤ 2 * ((n + 44) / 3) * Nat.log 2 (Nat.log 2 (Nat.sqrt (n + 44))) ∧ tests ≤ n / 3 + 7 ∧
    pops + tests ≤ (n + 44) * (Nat.log 2 (n + 44) + 1) := by
  obtain ⟨m, a, s, h1, h2, h3, h4⟩ := chartresC_spec n
  rw [Int.toNat_natCast] at *
  refine ⟨_, m, a, s, h1, ?_, h2, by omega, ?_⟩
  · rw [chartres_spec, Int.toNat_natCast]
  · have e1 : Nat.log 2 (Nat.log 2 (Nat.sqrt (n + 44))) ≤ Nat.log 2 (n + 44) :=
      (Nat.log_le_self _ _).trans (Nat.log_mono_right (Nat.sqrt_le_self _))
    have e2 : 2 * ((n + 44) / 3) ≤ n + 44 := by omega
    have e3 := h2.trans (Nat.mul_le_mul e2 e1)
    rw [Nat.mul_add, Nat.mul_one]
    omega

example : ∃ ps pops tests largest, chartresC 1000 = some (.ok (some ps), pops, tests, largest) ∧ pops ≤ 1392 ∧ tests ≤ 340 := by
  obtain ⟨ps, p, t, l, h1, -, h2, h3, -⟩ := C168_chartres_steps 1000
  exact ⟨ps, p, t, l, h1, h2.trans (by decide +kernel), h3⟩

/-- C168, the size of the heap: for `n ≥ 9` it has at most as many entries as there are primes up to the square root of `n`.
Missing: smaller `n`, where it has one entry more. -/
theorem C168_chartres_heap_partial (n : ℕ) (hn : 9 ≤ n) : ∃ ps pops tests largest,
    chartresC n = some (.ok (some ps), pops, tests, largest) ∧
    largest ≤ ((Finset.Icc 1 (Nat.sqrt n)).filter Nat.Prime).card := by
  obtain ⟨m, a, s, h1, h2, h3, h4⟩ := chartresC_spec n
  rw [Int.toNat_natCast] at *
  refine ⟨_, m, a, s, h1, ?_⟩
  have hc : (primesUpTo (Nat.sqrt n)).length = ((Finset.Icc 1 (Nat.sqrt n)).filter Nat.Prime).card := by
    have hnd : (primesUpTo (Nat.sqrt n)).Nodup := (primesUpTo_sorted _).imp (fun h => Nat.ne_of_lt h)
    rw [← List.toFinset_card_of_nodup hnd]
    congr 1
    ext p
    rw [List.mem_toFinset, mem_primesUpTo, Finset.mem_filter, Finset.mem_Icc]
    constructor
    · rintro ⟨p1, p2⟩; exact ⟨⟨p1.pos, p2⟩, p1⟩
    · rintro ⟨⟨-, p2⟩, p1⟩; exact ⟨p1, p2⟩
  rw [hc] at h4
  have h3' : 3 ≤ Nat.sqrt n := Nat.le_sqrt.2 (by omega)
  have h2' : ({2, 3} : Finset ℕ) ⊆ (Finset.Icc 1 (Nat.sqrt n)).filter Nat.Prime := by
    intro p hp
    rcases Finset.mem_insert.1 hp with rfl | hp
    · exact Finset.mem_filter.2 ⟨Finset.mem_Icc.2 ⟨by omega, by omega⟩, Nat.prime_two⟩
    · rw [Finset.mem_singleton.1 hp]
      exact Finset.mem_filter.2 ⟨Finset.mem_Icc.2 ⟨by omega, by omega⟩, Nat.prime_three⟩
  have h2 : 2 ≤ ((Finset.Icc 1 (Nat.sqrt n)).filter Nat.Prime).card := Finset.card_le_card h2'
  rwa [max_eq_right h2] at h4

/-- C168 is violated for `n = 5`: the heap has two entries, but 2 is the only prime up to the square root of 5. -/
theorem C168_chartres_heap_violation : ∃ ps pops tests,
    chartresC 5 = some (.ok (some ps), pops, tests, 2) ∧ ((Finset.Icc 1 (Nat.sqrt 5)).filter Nat.Prime).card = 1 := by
  refine ⟨[2, 3, 5], 2, 8, ?_, by decide +kernel⟩
  rw [chartresC, chartresLoopC, chartresPopC]
  simp only [heapPush]
  norm_num
  iterate 8 rw [chartresAddC]; norm_num
  rw [chartresLoopC]
  norm_num
  rw [chartresPopC.eq_def]
  norm_num [heapPush, entryLe]
  rw [chartresPopC.eq_def]
  norm_num
  rw [chartresPopC.eq_def, if_neg (by simp)]
  norm_num

end Rosemary.Props
