import Verif.Spec.Randomness
import Mathlib.Probability.BorelCantelli

/-!
# Lemmas: infinitely many lucky calls
-/

namespace Rosemary.RandomRuns

open MeasureTheory ProbabilityTheory Rosemary.Spec Filter
open scoped ENNReal

/-- The probability of a set of outcomes of `randint(a, b)`. -/
theorem randintLaw_apply {a b : ℤ} (h : a ≤ b) (s : Finset ℤ) (hs : s ⊆ Finset.Icc a b) :
    randintLaw a b s = s.card / ((b + 1 - a).toNat : ℝ≥0∞) := by
  unfold randintLaw
  rw [if_pos h, ← Finset.coe_Icc, uniformOn_apply_finset, Finset.inter_eq_right.2 hs, Int.card_Icc]

/-- The probability of an event. -/
theorem randintLaw_set {a b : ℤ} (h : a ≤ b) (P : ℤ → Prop) [DecidablePred P] :
    randintLaw a b {x | P x} = ((Finset.Icc a b).filter P).card / ((b + 1 - a).toNat : ℝ≥0∞) := by
  rw [← randintLaw_apply h _ (Finset.filter_subset P _)]
  unfold randintLaw
  rw [if_pos h, uniformOn, ← cond_inter_self measurableSet_Icc]
  congr 1
  ext x
  simp

theorem randintLaw_support {a b : ℤ} (h : a ≤ b) : randintLaw a b (Set.Icc a b) = 1 := by
  unfold randintLaw
  rw [if_pos h, uniformOn_self (Set.finite_Icc a b) (Set.nonempty_Icc.2 h)]

/-- A single outcome. -/
theorem randintLaw_singleton {a b x : ℤ} (h1 : a ≤ x) (h2 : x ≤ b) :
    randintLaw a b {x} = 1 / ((b + 1 - a).toNat : ℝ≥0∞) := by
  have := randintLaw_apply (h1.trans h2) {x} (by simp [h1, h2])
  simpa using this

theorem randintLaw_singleton_ne {a b x : ℤ} (h1 : a ≤ x) (h2 : x ≤ b) : randintLaw a b {x} ≠ 0 := by
  rw [randintLaw_singleton h1 h2]
  simp

/-- Independent events over disjoint finite sets of coordinates, each with probability at least `ε > 0`: almost surely
infinitely many of them happen. -/
theorem ae_frequently {ι X : Type*} [MeasurableSpace X] (μ : ι → Measure X) [∀ i, IsProbabilityMeasure (μ i)]
    (F : ℕ → Finset ι) (hF : Pairwise (Function.onFun Disjoint F)) (t : ι → Set X) (ht : ∀ i, MeasurableSet (t i))
    (ε : ℝ≥0∞) (hε : ε ≠ 0) (h : ∀ j, ε ≤ ∏ i ∈ F j, μ i (t i)) :
    ∀ᵐ ω ∂(Measure.infinitePi μ), ∀ k, ∃ j, k ≤ j ∧ ∀ i ∈ F j, ω i ∈ t i := by
  classical
  set s : ℕ → Set (ι → X) := fun j => Set.pi (F j) t with hs
  have hm : ∀ j, MeasurableSet (s j) := fun j => MeasurableSet.pi (F j).countable_toSet fun i _ => ht i
  have hμ : ∀ j, Measure.infinitePi μ (s j) = ∏ i ∈ F j, μ i (t i) := fun j =>
    Measure.infinitePi_pi _ (fun i _ => ht i)
  have hind : iIndepSet s (Measure.infinitePi μ) := by
    rw [iIndepSet_iff_meas_biInter hm]
    intro J
    have : (⋂ j ∈ J, s j) = Set.pi (J.biUnion F) t := by
      ext ω
      simp only [hs, Set.mem_iInter, Set.mem_pi, Finset.coe_biUnion, Set.mem_iUnion, Finset.mem_coe]
      constructor
      · rintro h i ⟨j, hj, hi⟩; exact h j hj i hi
      · intro h j hj i hi; exact h i ⟨j, hj, hi⟩
    rw [this, Measure.infinitePi_pi _ (fun i _ => ht i), Finset.prod_biUnion (fun i _ j _ hij => hF hij)]
    exact Finset.prod_congr rfl fun j _ => (hμ j).symm
  have hsum : (∑' j, Measure.infinitePi μ (s j)) = ∞ := by
    refine top_unique ?_
    rw [← ENNReal.tsum_const_eq_top_of_ne_zero (α := ℕ) hε]
    exact ENNReal.tsum_le_tsum fun j => by rw [hμ]; exact h j
  have h1 := measure_limsup_eq_one hm hind hsum
  have h2 : ∀ᵐ ω ∂(Measure.infinitePi μ), ω ∈ limsup s atTop :=
    (prob_compl_eq_zero_iff (MeasurableSet.measurableSet_limsup hm)).2 h1
  filter_upwards [h2] with ω hω k
  rw [mem_limsup_iff_frequently_mem, frequently_atTop] at hω
  obtain ⟨j, hj, hmem⟩ := hω k
  exact ⟨j, hj, fun i hi => hmem i hi⟩

/-- Drawing repeatedly. -/
theorem repeated_le {μ : Measure ℤ} [IsProbabilityMeasure μ] (P : ℤ → Prop) {ε : ℝ≥0∞} (h : μ {x | P x} ≤ ε) (k : ℕ) :
    Measure.infinitePi (fun _ : ℕ => μ) {ω | ∀ i < k, P (ω i)} ≤ ε ^ k := by
  have : {ω : ℕ → ℤ | ∀ i < k, P (ω i)} = Set.pi (Finset.range k) (fun _ => {x | P x}) := by
    ext ω; simp [Set.mem_pi]
  rw [this, Measure.infinitePi_pi _ (fun _ _ => MeasurableSet.of_discrete), Finset.prod_const, Finset.card_range]
  exact pow_le_pow_left' h k

/-- Drawing until `P` holds: the probability that the value found is `x`. -/
theorem first_success {μ : Measure ℤ} [IsProbabilityMeasure μ] (P : ℤ → Prop) (x : ℤ) (hx : P x) :
    Measure.infinitePi (fun _ : ℕ => μ) {ω | ∃ i, (∀ j < i, ¬ P (ω j)) ∧ ω i = x} = μ {x} / μ {y | P y} := by
  classical
  set t : ℕ → ℕ → Set ℤ := fun i j => if j < i then {y | ¬ P y} else {x} with ht
  have hset : {ω : ℕ → ℤ | ∃ i, (∀ j < i, ¬ P (ω j)) ∧ ω i = x} = ⋃ i, Set.pi (Finset.range (i + 1)) (t i) := by
    ext ω
    simp only [Set.mem_setOf_eq, Set.mem_iUnion, Set.mem_pi, Finset.coe_range, Set.mem_Iio, ht]
    refine exists_congr fun i => ⟨?_, ?_⟩
    · rintro ⟨h1, h2⟩ j hj
      by_cases hji : j < i
      · rw [if_pos hji]; exact h1 j hji
      · rw [if_neg hji, show j = i by omega]; exact h2
    · intro h
      refine ⟨fun j hj => ?_, ?_⟩
      · have := h j (by omega); rwa [if_pos hj] at this
      · have := h i (by omega); rwa [if_neg (by omega)] at this
  have hdis : Pairwise (Function.onFun Disjoint fun i => Set.pi (Finset.range (i + 1)) (t i)) := by
    have key : ∀ i k, i < k → Disjoint (Set.pi (Finset.range (i + 1)) (t i)) (Set.pi (Finset.range (k + 1)) (t k)) := by
      intro i k hik
      rw [Set.disjoint_left]
      intro ω h1 h2
      have h3 := h1 i (by simp)
      have h4 := h2 i (by simp; omega)
      simp only [ht] at h3 h4
      rw [if_neg (by omega)] at h3
      rw [if_pos hik] at h4
      exact h4 (by rw [show ω i = x from h3]; exact hx)
    intro i k hik
    rcases Nat.lt_or_gt_of_ne hik with h | h
    · exact key i k h
    · exact (key k i h).symm
  have hm : ∀ i, Measure.infinitePi (fun _ : ℕ => μ) (Set.pi (Finset.range (i + 1)) (t i)) = μ {y | ¬ P y} ^ i * μ {x} := by
    intro i
    rw [Measure.infinitePi_pi _ (fun _ _ => MeasurableSet.of_discrete), Finset.prod_range_succ]
    congr 1
    · rw [Finset.prod_congr rfl (g := fun _ => μ {y | ¬ P y}) (fun j hj => by
        simp only [ht]; rw [if_pos (Finset.mem_range.1 hj)]), Finset.prod_const, Finset.card_range]
    · simp only [ht]; rw [if_neg (by omega)]
  rw [hset, measure_iUnion hdis (fun i => MeasurableSet.pi (Finset.range (i + 1)).countable_toSet
    fun _ _ => MeasurableSet.of_discrete)]
  simp only [hm]
  rw [ENNReal.tsum_mul_right, ENNReal.tsum_geometric, ENNReal.div_eq_inv_mul]
  congr 2
  have : {y | ¬ P y} = {y | P y}ᶜ := rfl
  rw [this, ← prob_compl_eq_one_sub MeasurableSet.of_discrete, compl_compl]

end Rosemary.RandomRuns
