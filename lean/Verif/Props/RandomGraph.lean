import Verif.Props.Graph
import Verif.Lemmas.RandomRuns

/-!
# Property C152: the distribution of `random_graph`
-/

namespace Rosemary.Props

open Rosemary Rosemary.Graph Rosemary.Spec Rosemary.RandomRuns
open MeasureTheory
open scoped ENNReal

/-- The numbers `r` drawn for the pairs, and their comparison with `d` (graphs.py:1103-1104). -/
noncomputable def drawBelow (d : ℝ) (r : ℕ × ℕ → ℝ) (i j : ℕ) : Bool := by
  classical exact decide (r (i, j) ≤ d)

private theorem below_meas (d : ℝ) : MeasurableSet {r : ℝ | r ≤ d} := measurableSet_Iic

/-- The probability that a number drawn is at most `d`. -/
theorem C152_draw (d : ℝ) (h0 : 0 ≤ d) (h1 : d < 1) :
    randomLaw {r | r ≤ d} = ((⌊d * 2 ^ 53⌋₊ + 1 : ℕ) : ℝ≥0∞) / (2 ^ 53 : ℕ) := by
  classical
  unfold randomLaw
  rw [Measure.map_apply (measurable_of_countable _) (below_meas d)]
  have hpre : (fun k : ℤ => (k : ℝ) / 2 ^ 53) ⁻¹' {r | r ≤ d} = {k | k ≤ (⌊d * 2 ^ 53⌋₊ : ℤ)} := by
    ext k
    simp only [Set.mem_preimage, Set.mem_setOf_eq]
    rw [div_le_iff₀ (by positivity), ← Int.le_floor, Int.natCast_floor_eq_floor (by positivity)]
  have hlt : ⌊d * 2 ^ 53⌋₊ < 2 ^ 53 := by
    rw [Nat.floor_lt (by positivity)]
    push_cast
    nlinarith
  rw [hpre, randintLaw_set (by norm_num)]
  have hc : ((Finset.Icc (0 : ℤ) (2 ^ 53 - 1)).filter fun k => k ≤ (⌊d * 2 ^ 53⌋₊ : ℤ)) =
      Finset.Icc (0 : ℤ) ⌊d * 2 ^ 53⌋₊ := by
    ext k
    rw [Finset.mem_filter, Finset.mem_Icc, Finset.mem_Icc]
    generalize ⌊d * 2 ^ 53⌋₊ = m at hlt
    omega
  rw [hc, Int.card_Icc]
  congr 2

/-- C152: in `random_graph(n, d)` the probability that two given vertices are adjacent is the same for all pairs. -/
theorem C152_edge_probability (n : ℕ) (d : ℝ) (u v : ℕ) (hu : u < n) (hv : v < n) (huv : u ≠ v) :
    Measure.infinitePi (fun _ : ℕ × ℕ => randomLaw) {r | (toAbs (randomGraph n (drawBelow d r))).weight u v = some 1} =
      randomLaw {r | r ≤ d} := by
  have h1 : {r : ℕ × ℕ → ℝ | (toAbs (randomGraph n (drawBelow d r))).weight u v = some 1} =
      Set.pi ({(min u v, max u v)} : Finset (ℕ × ℕ)) (fun _ => {r | r ≤ d}) := by
    ext r
    rw [Set.mem_setOf_eq, (C88_random_graph n _).2]
    simp [drawBelow, hu, hv, huv]
  rw [h1, Measure.infinitePi_pi _ (fun _ _ => (below_meas d)), Finset.prod_singleton]

/-- The pairs of vertices. -/
private def pairs (n : ℕ) : Finset (ℕ × ℕ) := (Finset.range n ×ˢ Finset.range n).filter fun e => e.1 < e.2

/-- C152: the pairs are independent: a graph with `m` edges has the probability `q^m * (1-q)^(n(n-1)/2 - m)`. -/
theorem C152_graph_probability (n : ℕ) (d : ℝ) (E : Finset (ℕ × ℕ)) (hE : ∀ e ∈ E, e.1 < e.2 ∧ e.2 < n) :
    Measure.infinitePi (fun _ : ℕ × ℕ => randomLaw)
      {r | ∀ u v, u < v → v < n → ((toAbs (randomGraph n (drawBelow d r))).weight u v = some 1 ↔ (u, v) ∈ E)} =
      randomLaw {r | r ≤ d} ^ E.card * (1 - randomLaw {r | r ≤ d}) ^ (n * (n - 1) / 2 - E.card) := by
  classical
  have hmem : ∀ e, e ∈ pairs n ↔ e.1 < e.2 ∧ e.2 < n := by
    intro e
    unfold pairs
    rw [Finset.mem_filter, Finset.mem_product, Finset.mem_range, Finset.mem_range]
    omega
  have hsub : E ⊆ pairs n := fun e he => (hmem e).2 (hE e he)
  have h1 : {r : ℕ × ℕ → ℝ | ∀ u v, u < v → v < n →
        ((toAbs (randomGraph n (drawBelow d r))).weight u v = some 1 ↔ (u, v) ∈ E)} =
      Set.pi (pairs n) (fun e => if e ∈ E then {r | r ≤ d} else {r | r ≤ d}ᶜ) := by
    ext r
    simp only [Set.mem_setOf_eq, (C88_random_graph n _).2, Set.mem_pi, Finset.mem_coe]
    constructor
    · intro h e he
      obtain ⟨h2, h3⟩ := (hmem e).1 he
      have := h e.1 e.2 h2 h3
      rw [min_eq_left h2.le, max_eq_right h2.le] at this
      by_cases hin : e ∈ E
      · rw [if_pos hin]
        have := (this.2 hin).2.2.2.2
        simpa [drawBelow] using this
      · rw [if_neg hin]
        intro hle
        exact hin (this.1 ⟨trivial, by omega, h3, by omega, by simpa [drawBelow] using hle⟩)
    · intro h u v h2 h3
      have := h (u, v) ((hmem _).2 ⟨h2, h3⟩)
      rw [min_eq_left h2.le, max_eq_right h2.le]
      by_cases hin : (u, v) ∈ E
      · rw [if_pos hin] at this
        exact ⟨fun _ => hin, fun _ => ⟨trivial, by omega, h3, by omega, by simpa [drawBelow] using this⟩⟩
      · rw [if_neg hin] at this
        exact ⟨fun h4 => absurd (by simpa [drawBelow] using h4.2.2.2.2) this, fun h4 => absurd h4 hin⟩
  have hcard : (pairs n).card = n * (n - 1) / 2 := by
    rw [← Nat.choose_two_right, ← Finset.card_range n, ← Finset.card_powersetCard, Finset.card_range]
    refine Finset.card_bij (fun e _ => {e.1, e.2}) ?_ ?_ ?_
    · intro e he
      have := (hmem e).1 he
      rw [Finset.mem_powersetCard]
      refine ⟨?_, Finset.card_pair (by omega)⟩
      intro x hx
      rw [Finset.mem_insert, Finset.mem_singleton] at hx
      rw [Finset.mem_range]
      omega
    · intro e he f hf h
      have h2 := (hmem e).1 he
      have h3 := (hmem f).1 hf
      have h4 : e.1 ∈ ({f.1, f.2} : Finset ℕ) := by rw [← h]; simp
      have h5 : e.2 ∈ ({f.1, f.2} : Finset ℕ) := by rw [← h]; simp
      rw [Finset.mem_insert, Finset.mem_singleton] at h4 h5
      ext <;> omega
    · intro s hs
      rw [Finset.mem_powersetCard] at hs
      obtain ⟨x, y, hxy, rfl⟩ := Finset.card_eq_two.1 hs.2
      have hx := Finset.mem_range.1 (hs.1 (by simp : x ∈ ({x, y} : Finset ℕ)))
      have hy := Finset.mem_range.1 (hs.1 (by simp : y ∈ ({x, y} : Finset ℕ)))
      rcases Nat.lt_or_gt_of_ne hxy with h | h
      · exact ⟨(x, y), (hmem _).2 ⟨h, hy⟩, rfl⟩
      · exact ⟨(y, x), (hmem _).2 ⟨h, hx⟩, Finset.pair_comm _ _⟩
  rw [h1, Measure.infinitePi_pi _ (fun e _ => by split <;> [exact (below_meas d); exact (below_meas d).compl])]
  simp only [apply_ite randomLaw]
  rw [Finset.prod_ite, Finset.prod_const, Finset.prod_const, prob_compl_eq_one_sub (below_meas d)]
  have e1 : (pairs n).filter (fun e => e ∈ E) = E := by
    rw [Finset.filter_mem_eq_inter, Finset.inter_eq_right.2 hsub]
  have e2 : (pairs n).filter (fun e => e ∉ E) = pairs n \ E := by
    ext e; simp
  rw [e1, e2, Finset.card_sdiff_of_subset hsub, hcard]

/-- C152: the edge probability is `d` up to `1 / 2 ^ 53`. -/
theorem C152_close_partial (d : ℝ) (h0 : 0 ≤ d) (h1 : d < 1) :
    d < (randomLaw {r | r ≤ d}).toReal ∧ (randomLaw {r | r ≤ d}).toReal ≤ d + 1 / 2 ^ 53 := by
  rw [C152_draw d h0 h1, ENNReal.toReal_div, ENNReal.toReal_natCast, ENNReal.toReal_natCast]
  push_cast
  have h2 := Nat.floor_le (show 0 ≤ d * 2 ^ 53 by positivity)
  have h3 := Nat.lt_floor_add_one (d * 2 ^ 53)
  constructor
  · rw [lt_div_iff₀ (by positivity)]; linarith
  · rw [div_le_iff₀ (by positivity), add_mul]; norm_num at h2 ⊢; exact h2

/-- C152 (the docstring says that the probability is precisely `d`): it is larger than `d` for every `d < 1`; with `d = 0` an
edge appears with probability `1 / 2 ^ 53`.  For `d ≥ 1` all edges are present, always. -/
theorem C152_precisely_violation (n u v : ℕ) (hu : u < n) (hv : v < n) (huv : u ≠ v) :
    (∀ d : ℝ, 0 ≤ d → d < 1 → Measure.infinitePi (fun _ : ℕ × ℕ => randomLaw)
      {r | (toAbs (randomGraph n (drawBelow d r))).weight u v = some 1} ≠ ENNReal.ofReal d) ∧
    Measure.infinitePi (fun _ : ℕ × ℕ => randomLaw)
      {r | (toAbs (randomGraph n (drawBelow 0 r))).weight u v = some 1} = 1 / (2 ^ 53 : ℕ) ∧
    ∀ d : ℝ, 1 ≤ d → Measure.infinitePi (fun _ : ℕ × ℕ => randomLaw)
      {r | (toAbs (randomGraph n (drawBelow d r))).weight u v = some 1} = 1 := by
  refine ⟨fun d h0 h1 h => ?_, ?_, fun d h1 => ?_⟩
  · rw [C152_edge_probability n d u v hu hv huv] at h
    have := (C152_close_partial d h0 h1).1
    rw [h, ENNReal.toReal_ofReal h0] at this
    exact lt_irrefl _ this
  · rw [C152_edge_probability n 0 u v hu hv huv, C152_draw 0 le_rfl one_pos]
    simp
  · rw [C152_edge_probability n d u v hu hv huv]
    unfold randomLaw
    rw [Measure.map_apply (measurable_of_countable _) (below_meas d)]
    refine le_antisymm prob_le_one ?_
    rw [← randintLaw_support (show (0 : ℤ) ≤ 2 ^ 53 - 1 by norm_num)]
    refine measure_mono fun k hk => ?_
    rw [Set.mem_preimage, Set.mem_setOf_eq, div_le_iff₀ (by positivity)]
    have : (k : ℝ) ≤ 2 ^ 53 := by
      have : k ≤ 2 ^ 53 := by have := hk.2; omega
      exact_mod_cast this
    nlinarith [show (0 : ℝ) < 2 ^ 53 by positivity]

/-- The path 0 - 1 - 2 among the graphs on three vertices, with `d = 1/2`. -/
example : Measure.infinitePi (fun _ : ℕ × ℕ => randomLaw)
      {r | ∀ u v, u < v → v < 3 → ((toAbs (randomGraph 3 (drawBelow (1 / 2) r))).weight u v = some 1 ↔
        (u, v) ∈ ({(0, 1), (1, 2)} : Finset (ℕ × ℕ)))} =
      (((2 ^ 52 + 1 : ℕ) : ℝ≥0∞) / (2 ^ 53 : ℕ)) ^ 2 * (1 - ((2 ^ 52 + 1 : ℕ) : ℝ≥0∞) / (2 ^ 53 : ℕ)) ^ 1 := by
  rw [C152_graph_probability 3 (1 / 2) _ (by decide), C152_draw _ (by norm_num) (by norm_num)]
  have : ⌊(1 / 2 : ℝ) * 2 ^ 53⌋₊ = 2 ^ 52 := by
    rw [show (1 / 2 : ℝ) * 2 ^ 53 = ((2 ^ 52 : ℕ) : ℝ) by norm_num, Nat.floor_natCast]
  rw [this]
  rfl

end Rosemary.Props
