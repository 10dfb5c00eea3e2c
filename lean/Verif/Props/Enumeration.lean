import Verif.Lemmas.Counting
import Verif.Lemmas.PartitionNumbers
import Verif.Lemmas.Necklaces
import Verif.Lemmas.Bipartitions

/-!
# Properties of the counting functions
-/

namespace Rosemary.Props

open Rosemary.Enumeration

/-! ## C56 -/

/-- C56, `binomial(n, k)` for `0 ≤ k ≤ n` is the number of `k`-element subsets of an `n`-element set. -/
theorem C56_binomial_partial (n k : Nat) (hk : k ≤ n) :
    binomial n k = ((Finset.univ : Finset (Finset (Fin n))).filter (fun s => s.card = k)).card := by
  rw [binomial_eq n k hk, ← Finset.powerset_univ, ← Finset.powersetCard_eq_filter, Finset.card_powersetCard, Finset.card_univ, Fintype.card_fin]

example : binomial 10 4 = 210 := by decide +kernel

/-- C56, violated outside that range: for `k < 0` or `k > n` the result is 1, whereas there is no such subset. -/
theorem C56_binomial_outside (n k : Int) (hn : 0 ≤ n) (h : k < 0 ∨ n < k) : binomial n k = 1 :=
  binomial_outside n k hn h

theorem C56_binomial_wrong : binomial 2 3 = 1 ∧
    ((Finset.univ : Finset (Finset (Fin 2))).filter (fun s => s.card = 3)).card = 0 := by decide +kernel

/-- C56, `multinomial`: let `xs` be distinct letters such that every other letter occurs at most once in the
word `l`.  Then `multinomial(len(l), [multiplicities of xs])` is the number of rearrangements of `l`. -/
theorem C56_multinomial {ι : Type} [DecidableEq ι] (l xs : List ι) (hne : xs ≠ []) (hnd : xs.Nodup)
    (hone : ∀ x, x ∉ xs → l.count x ≤ 1) :
    multinomial l.length (xs.map (fun x => (l.count x : Int))) = .ok (Nat.card {w : List ι // w.Perm l}) := by
  have hcard : Nat.card {w : List ι // w.Perm l} = (arrangements l).card := by
    rw [← Nat.card_eq_finsetCard]
    exact Nat.card_congr (Equiv.subtypeEquivRight fun w => mem_arrangements.symm)
  have hsum : (xs.map (fun x => l.count x)).sum ≤ l.length := by
    rw [← List.sum_toFinset (fun x => l.count x) hnd, ← List.sum_toFinset_count_eq_length l]
    have : ∑ x ∈ xs.toFinset, l.count x = ∑ x ∈ xs.toFinset ∩ l.toFinset, l.count x := by
      symm
      apply Finset.sum_subset Finset.inter_subset_left
      intro x hx hx'
      rw [List.count_eq_zero]
      intro hxl
      exact hx' (Finset.mem_inter.2 ⟨hx, List.mem_toFinset.2 hxl⟩)
    rw [this]
    exact Finset.sum_le_sum_of_subset Finset.inter_subset_right
  have hmap : xs.map (fun x => (l.count x : Int)) = (xs.map (fun x => l.count x)).map (fun k : Nat => (k : Int)) := by
    rw [List.map_map]; rfl
  have hcast : ((xs.map (fun x => l.count x)).map (fun k : Nat => (k : Int))).sum =
      (((xs.map (fun x => l.count x)).sum : Nat) : Int) := by
    generalize xs.map (fun x => l.count x) = ks
    induction ks with
    | nil => rfl
    | cons a ks ih => rw [List.map_cons, List.sum_cons, List.sum_cons, ih]; push_cast; rfl
  rw [multinomial, hmap, if_neg (by rw [hcast]; omega), if_neg (by simpa using hne), C31_factorial]
  dsimp only
  rw [multinomialDen_eq]
  dsimp only
  rw [hcard, Nat.one_mul]
  congr 1
  have h1 := card_arrangements_mul l.length l rfl (l.toFinset ∪ xs.toFinset) Finset.subset_union_left
  have h2 : ∏ x ∈ l.toFinset ∪ xs.toFinset, (l.count x).factorial =
      ((xs.map (fun x => l.count x)).map Nat.factorial).prod := by
    rw [List.map_map, ← List.prod_toFinset _ hnd]
    symm
    apply Finset.prod_subset Finset.subset_union_right
    intro x _ hx
    have := hone x (fun h => hx (List.mem_toFinset.2 h))
    show (l.count x).factorial = 1
    have : l.count x = 0 ∨ l.count x = 1 := by omega
    rcases this with h | h <;> rw [h] <;> rfl
  rw [← h2]
  have hpos : 0 < ∏ x ∈ l.toFinset ∪ xs.toFinset, (l.count x).factorial :=
    Finset.prod_pos fun x _ => Nat.factorial_pos _
  exact Nat.div_eq_of_eq_mul_left hpos h1.symm

example : multinomial 6 [2, 2] = .ok 180 := by decide +kernel

/-- C56, the error branches of `multinomial`. -/
theorem C56_multinomial_error (n : Int) (k : List Int) (h : n < k.sum ∨ k = []) :
    multinomial n k = .error .valueError := by
  rw [multinomial]
  by_cases h1 : k.sum > n
  · rw [if_pos h1]
  · rw [if_neg h1, if_pos]
    rcases h with h | h
    · omega
    · rw [h]; rfl

/-- C56, `bell_number(n)` is the number of partitions of an `n`-element set. -/
theorem C56_bell_number {α : Type} [DecidableEq α] (s : Finset α) :
    bellNumber s.card = .ok (Fintype.card (Finpartition s)) := by
  rw [bellNumber_eq, SetPartitions.card_finpartition]

theorem C56_bell_number_error (n : Int) (h : n < 0) : bellNumber n = .error .valueError := by
  rw [bellNumber, if_pos h]

example : bellNumber 5 = .ok 52 := by decide +kernel

/-- C56, violated: `stirling_number2(2, 2)` is 0 although a two-element set has one partition into two blocks. -/
theorem C56_stirling_wrong : stirlingNumber2 2 2 = .ok 0 ∧
    ((Finset.univ : Finset (Finpartition (Finset.univ : Finset (Fin 2)))).filter
      (fun P => P.parts.card = 2)).Nonempty := by
  refine ⟨by decide +kernel, ⊥, ?_⟩
  rw [Finset.mem_filter]
  exact ⟨Finset.mem_univ _, by simp⟩

/-- C56, violated: `stirling_number2(3, 3)` raises KeyError, `stirling_number2(3, 2)` is 1 instead of 3. -/
theorem C56_stirling_key_error : stirlingNumber2 3 3 = .error .keyError ∧ stirlingNumber2 3 2 = .ok 1 := by
  decide +kernel

/-! ## C57 -/

/-- C57, for every `n ≥ 1`: if the floating point expression on line 172 gives the exact value, i.e. the
largest `k` with `k(3k-1)/2 ≤ m`, for each `m ≤ n`, then `partition_list(n)` has `n + 1` entries and entry `k`
is the number of partitions of `k`.
What is missing from the claim: `n = 0` (`C57_zero_raises`) and the rounding of the floating point expression. -/
theorem C57_partition_list_partial (maxIdx : Nat → Nat) (n : Nat) (hn : 1 ≤ n)
    (hmax : ∀ m, 2 ≤ m → m ≤ n → ∀ k, 1 ≤ k → (k * (3 * k - 1) / 2 ≤ m ↔ k ≤ maxIdx m)) :
    ∃ out, partitionList maxIdx n = .ok out ∧ out.length = n + 1 ∧
      ∀ k, k ≤ n → out.getD k 0 = Fintype.card k.Partition := by
  rw [partitionList, if_neg (by omega)]
  obtain ⟨out, h1, h2, h3⟩ := partitionLoop_spec maxIdx n hmax (n - 1) 2
    (((List.replicate (n + 1) 0).set 0 1).set 1 1) le_rfl (by omega) (by simp) (by
      intro j hj
      obtain ⟨k, rfl⟩ : ∃ k, n = k + 1 := ⟨n - 1, by omega⟩
      have : j = 0 ∨ j = 1 := by omega
      rcases this with rfl | rfl
      · rw [pcount_zero]; simp [List.replicate_succ]
      · rw [pcount_one]; simp [List.replicate_succ])
  exact ⟨out, h1, h2, fun k hk => h3 k (by omega)⟩

theorem C57_partition_number_partial (maxIdx : Nat → Nat) (n : Nat) (hn : 1 ≤ n)
    (hmax : ∀ m, 2 ≤ m → m ≤ n → ∀ k, 1 ≤ k → (k * (3 * k - 1) / 2 ≤ m ↔ k ≤ maxIdx m)) :
    partitionNumber maxIdx n = .ok (Fintype.card n.Partition : Int) := by
  obtain ⟨out, h1, -, h3⟩ := C57_partition_list_partial maxIdx n hn hmax
  rw [partitionNumber, h1]
  dsimp only
  rw [h3 n le_rfl]

/-- The exact value `(1 + isqrt(1 + 24 m)) // 6` meets the hypothesis of the theorems above, for every `m`. -/
theorem C57_exact_index (m k : Nat) (hk : 1 ≤ k) :
    k * (3 * k - 1) / 2 ≤ m ↔ k ≤ (1 + Nat.sqrt (1 + 24 * m)) / 6 := by
  have h2 := Polys.two_mul_g k hk
  rw [Nat.le_div_iff_mul_le (by omega)]
  have h3 : k * 6 ≤ 1 + Nat.sqrt (1 + 24 * m) ↔ k * 6 - 1 ≤ Nat.sqrt (1 + 24 * m) := by omega
  rw [h3, Nat.le_sqrt]
  generalize k * (3 * k - 1) / 2 = G at *
  obtain ⟨j, rfl⟩ : ∃ j, k = j + 1 := ⟨k - 1, by omega⟩
  rw [show 3 * (j + 1) - 1 = 3 * j + 2 by omega] at h2
  rw [show (j + 1) * 6 - 1 = 6 * j + 5 by omega]
  constructor
  · intro h; nlinarith
  · intro h; nlinarith

example : partitionNumber (fun m => (1 + Nat.sqrt (1 + 24 * m)) / 6) 10 = .ok 42 := by decide +kernel

/-- C57, violated: `partition_list(0)` (and hence `partition_number(0)`) raises IndexError. -/
theorem C57_zero_raises (maxIdx : Nat → Nat) : partitionList maxIdx 0 = .error .indexError := by
  simp [partitionList]

/-- `rth_power_partition_number(r, n)` raises IndexError for every `r ≠ 1` and `n ≥ 1`, because it evaluates
`partition_number(0)`. -/
theorem C82_rth_power_raises (maxIdx : Nat → Nat) (r : Int) (n : Nat) (hr : r ≠ 1) (hn : 1 ≤ n) :
    rthPowerPartitionNumber maxIdx r n = .error .indexError := by
  rw [rthPowerPartitionNumber, if_neg (by omega), if_neg hr, List.range_succ_eq_map, List.mapM_cons]
  rfl

/-- For `r = 1` it is the number of partitions, and for `n = 0` it is 1. -/
theorem C82_rth_power_partial (maxIdx : Nat → Nat) (n : Nat)
    (hmax : ∀ m, 2 ≤ m → m ≤ n → ∀ k, 1 ≤ k → (k * (3 * k - 1) / 2 ≤ m ↔ k ≤ maxIdx m)) :
    rthPowerPartitionNumber maxIdx 1 n = .ok (Fintype.card n.Partition : Int) ∧
      ∀ r, rthPowerPartitionNumber maxIdx r 0 = .ok 1 := by
  refine ⟨?_, fun r => by simp [rthPowerPartitionNumber]⟩
  rw [rthPowerPartitionNumber]
  by_cases hn : n = 0
  · subst hn
    rw [if_pos rfl]
    have := pcount_zero
    rw [pcount] at this
    rw [this]
  · rw [if_neg hn, if_pos rfl]
    exact C57_partition_number_partial maxIdx n (by omega) hmax

/-! ## C58 -/

/-- C58, `necklaces(n, k)` is the number of words of length `n` over `k` letters up to rotation, provided the
divisors of `n` are factored correctly. -/
theorem C58_necklaces_partial (factor : Nat → List (Nat × Nat)) (n k : Nat) (hn : 1 ≤ n)
    (hfac : ∀ d, d ∣ n → FactorsTo (factor d) d) :
    necklaces factor n k none = .ok (Nat.card {c : Cycle (Fin k) // c.length = n}) := by
  obtain ⟨h1, h2⟩ := C28_xdivisors (factor n) (hfac n dvd_rfl).primes
  rw [(hfac n dvd_rfl).prod] at h2
  have hds : ∀ d ∈ Factorization.xdivisors (factor n), 1 ≤ d ∧ FactorsTo (factor d) d := fun d hd =>
    ⟨Nat.pos_of_dvd_of_pos ((h2 d).1 hd) (by omega), hfac d ((h2 d).1 hd)⟩
  rw [necklaces, if_neg (by simp), Necklaces.necklaceLoop_eq factor n k _ hds]
  dsimp only
  have h3 : ((Factorization.xdivisors (factor n)).map (fun d => d.totient * k ^ (n / d))).sum =
      ∑ d ∈ n.divisors, d.totient * k ^ (n / d) := by
    rw [← List.sum_toFinset _ h1]
    refine Finset.sum_congr ?_ fun _ _ => rfl
    ext d
    rw [List.mem_toFinset, h2, Nat.mem_divisors]
    exact ⟨fun h => ⟨h, by omega⟩, fun h => h.1⟩
  rw [h3, ← Necklaces.card_necklaces n k hn, Nat.zero_add, Nat.mul_div_cancel_left _ (by omega)]

example : necklaces (fun d => if d = 1 then [] else if d = 6 then [(2, 1), (3, 1)] else [(d, 1)]) 6 2 none = .ok 14 := by
  decide +kernel

/-- C58, violated: with weights every call raises TypeError. -/
theorem C58_weights_raise (factor : Nat → List (Nat × Nat)) (n k : Nat) (weights : List Nat) (h : weights ≠ []) :
    necklaces factor n k (some weights) = .error .typeError := by
  rw [necklaces, if_pos (by simpa using h)]

/-! ## C83 -/

/-- C83, `bipartitions(m, n)` is the number of ways to write `(m, n)` as a sum of nonzero pairs of natural
numbers, regardless of order. -/
theorem C83_bipartitions (m n : Nat) :
    bipartitions m n = Nat.card {M : Multiset (ℕ × ℕ) // (0, 0) ∉ M ∧ M.sum = (m, n)} :=
  Bipartitions.bipartitions_eq m n

example : bipartitions 3 2 = 16 := by decide +kernel

end Rosemary.Props
