import Verif.Lemmas.GreedyRatio
import Verif.Props.MaxCliques
import Mathlib.Data.Set.Card

/-!
# How good the independent set of `greedy` is (C153)

Graphs are those that any sequence of `Graph` operations builds.  The order of iteration of Python sets and the choices
made by `random.choice` are parameters.
-/

namespace Rosemary.Props

open Rosemary.Graph Rosemary.Cliques Rosemary.Spec
open Rosemary.Traversal (E)

variable {V W : Type} [LinearOrder V]

omit [LinearOrder V] in
private theorem greedy_nb_card [DecidableEq V] (g : Graph V W) (v : V) : (nb g v).card = {w | Linked g v w}.ncard := by
  rw [← Set.ncard_coe_finset]
  congr 1
  ext w
  rw [Finset.mem_coe, mem_nb, E_eq, Set.mem_setOf_eq]

private theorem greedy_run {ord : Finset V → List V} (hord : ∀ S, (ord S).Nodup ∧ ∀ x, x ∈ ord S ↔ x ∈ S)
    {pick : List V → List V → V} (hpick : ∀ acc l, l ≠ [] → pick acc l ∈ l) {ops : List (Op V W)} {r : ℕ × List V}
    (h : IndependentSets.greedy ord pick (history ops) = .ok r) :
    ∃ l, r.1 = l.length ∧ IndependentSets.MinDegreeRun (nb (history ops)) (vertexSet (history ops)) l := by
  have hg := (history_spec ops).1
  have hcard : (vertexSet (history ops)).card ≤ numVertices (history ops) :=
    (List.toFinset_card_le _).trans (by simp [numVertices, Dict.keys])
  rw [IndependentSets.greedy] at h
  cases hl : IndependentSets.greedyLoop ord pick (numVertices (history ops)) [] (history ops) with
  | error e => rw [hl] at h; cases h
  | ok l =>
    rw [hl] at h
    cases h
    obtain ⟨l', h1, h2⟩ := IndependentSets.greedyLoop_run hord hpick (numVertices (history ops)) [] (history ops) l hg hcard
      (fun u v => ⟨fun h => ⟨E_mem hg ((E_symm hg).1 h), E_mem hg h, h⟩, fun h => h.2.2⟩) hl
    rw [List.nil_append] at h1
    exact ⟨l, rfl, by rw [h1]; exact h2⟩

/-- C153: in a graph without loops in which no vertex has more than `d ≥ 1` neighbors, no independent set is more than
`(d + 2) / 3` times as large as the one that `greedy` returns, whichever vertices `random.choice` selects. -/
theorem C153_performance_ratio (ord : Finset V → List V) (hord : ∀ S, (ord S).Nodup ∧ ∀ x, x ∈ ord S ↔ x ∈ S)
    (pick : List V → List V → V) (hpick : ∀ acc l, l ≠ [] → pick acc l ∈ l) (ops : List (Op V W))
    (hloop : ∀ v, ¬ Linked (history ops) v v) (d : ℕ) (hd : 1 ≤ d)
    (hdeg : ∀ v ∈ (toAbs (history ops)).verts, {w | Linked (history ops) v w}.ncard ≤ d) :
    ∃ size l, IndependentSets.greedy ord pick (history ops) = .ok (size, l) ∧
      ∀ I, IsIndependent (toAbs (history ops)).verts (Linked (history ops)) I → 3 * I.card ≤ (d + 2) * size := by
  have hg := (history_spec ops).1
  obtain ⟨l, h1, -, -⟩ := C93_greedy ord hord pick hpick ops
  obtain ⟨m, h2, h3⟩ := greedy_run hord hpick h1
  refine ⟨_, _, h1, fun I hI => ?_⟩
  dsimp only at h2
  rw [h2]
  have hsymm : ∀ u v, u ∈ nb (history ops) v ↔ v ∈ nb (history ops) u := by
    intro u v; rw [mem_nb, mem_nb]; exact E_symm hg
  have hirr : ∀ v, v ∉ nb (history ops) v := by
    intro v; rw [mem_nb, E_eq]; exact hloop v
  have hI' : ∀ u ∈ I, ∀ v ∈ I, v ∉ nb (history ops) u := by
    intro u hu v hv hm
    by_cases he : u = v
    · exact hirr u (he ▸ hm)
    · rw [mem_nb, E_eq] at hm
      exact hI.2 u hu v hv he hm
  obtain ⟨c, hc0, hc⟩ := IndependentSets.ratio_ineq (d := (d : ℤ)) (by exact_mod_cast hd)
  have h4 := IndependentSets.run_ratio hsymm hirr hI' hc h3
  have h5 : ∑ b ∈ vertexSet (history ops) \ I, (nb (history ops) b ∩ vertexSet (history ops)).card ≤
      (vertexSet (history ops) \ I).card * d := by
    rw [← smul_eq_mul]
    refine Finset.sum_le_card_nsmul _ _ _ fun b hb => ?_
    refine (Finset.card_le_card Finset.inter_subset_left).trans ?_
    rw [greedy_nb_card]
    exact hdeg b (Graph.mem_vertexSet.1 (Finset.mem_sdiff.1 hb).1)
  have h6 : vertexSet (history ops) ∩ I = I := by
    refine Finset.inter_eq_right.2 fun x hx => ?_
    exact Graph.mem_vertexSet.2 (hI.1 x hx)
  rw [h6] at h4
  have h5' : ((∑ b ∈ vertexSet (history ops) \ I, (nb (history ops) b ∩ vertexSet (history ops)).card : ℕ) : ℤ) ≤
      ((vertexSet (history ops) \ I).card : ℤ) * d := by exact_mod_cast h5
  have h7 : c * (3 * (I.card : ℤ) - (d + 2) * m.length) ≤ 0 := by nlinarith
  have h8 : 3 * (I.card : ℤ) - (d + 2) * m.length ≤ 0 := by
    by_contra hcon
    push Not at hcon
    have := mul_pos hc0 hcon
    linarith
  zify
  linarith

/-- C153, the size is at least the sum of `1 / (degree + 1)` over all vertices (bound of Caro and Wei). -/
theorem C153_caro_wei (ord : Finset V → List V) (hord : ∀ S, (ord S).Nodup ∧ ∀ x, x ∈ ord S ↔ x ∈ S)
    (pick : List V → List V → V) (hpick : ∀ acc l, l ≠ [] → pick acc l ∈ l) (ops : List (Op V W))
    (hloop : ∀ v, ¬ Linked (history ops) v v) :
    ∃ size l, IndependentSets.greedy ord pick (history ops) = .ok (size, l) ∧
      ∀ S : Finset V, (∀ v ∈ S, v ∈ (toAbs (history ops)).verts) →
        ∑ v ∈ S, (1 : ℚ) / ({w | Linked (history ops) v w}.ncard + 1) ≤ size := by
  obtain ⟨l, h1, -, -⟩ := C93_greedy ord hord pick hpick ops
  obtain ⟨m, h2, h3⟩ := greedy_run hord hpick h1
  refine ⟨_, _, h1, fun S hS => ?_⟩
  dsimp only at h2
  rw [h2]
  have hirr : ∀ v, v ∉ nb (history ops) v := by
    intro v; rw [mem_nb, E_eq]; exact hloop v
  have h4 := IndependentSets.run_caro_wei hirr h3
  simp only [greedy_nb_card] at h4
  refine le_trans (Finset.sum_le_sum_of_subset_of_nonneg ?_ ?_) h4
  · intro v hv
    exact Graph.mem_vertexSet.2 (hS v hv)
  · intro v _ _
    positivity

/-- C153, at least `n / (d + 1)` of the `n` vertices are selected if no vertex has more than `d` neighbors. -/
theorem C153_turan (ord : Finset V → List V) (hord : ∀ S, (ord S).Nodup ∧ ∀ x, x ∈ ord S ↔ x ∈ S)
    (pick : List V → List V → V) (hpick : ∀ acc l, l ≠ [] → pick acc l ∈ l) (ops : List (Op V W))
    (hloop : ∀ v, ¬ Linked (history ops) v v) (d : ℕ)
    (hdeg : ∀ v ∈ (toAbs (history ops)).verts, {w | Linked (history ops) v w}.ncard ≤ d) :
    ∃ size l, IndependentSets.greedy ord pick (history ops) = .ok (size, l) ∧
      ∀ S : Finset V, (∀ v ∈ S, v ∈ (toAbs (history ops)).verts) → S.card ≤ (d + 1) * size := by
  obtain ⟨size, l, h1, h2⟩ := C153_caro_wei ord hord pick hpick ops hloop
  refine ⟨size, l, h1, fun S hS => ?_⟩
  have h3 := h2 S hS
  have h4 : (S.card : ℚ) * (1 / (d + 1)) ≤ ∑ v ∈ S, (1 : ℚ) / ({w | Linked (history ops) v w}.ncard + 1) := by
    rw [← nsmul_eq_mul]
    refine Finset.card_nsmul_le_sum _ _ _ fun v hv => ?_
    refine one_div_le_one_div_of_le (by positivity) ?_
    have : ({w | Linked (history ops) v w}.ncard : ℚ) ≤ d := by exact_mod_cast hdeg v (hS v hv)
    linarith
  have h5 := h4.trans h3
  have h6 : (0 : ℚ) < d + 1 := by positivity
  rw [mul_one_div, div_le_iff₀ h6] at h5
  have : (S.card : ℚ) ≤ ((d + 1) * size : ℕ) := by push_cast; linarith
  exact_mod_cast this

/-- A path of three vertices. -/
def threePathOps : List (Op ℕ ℕ) := [.addEdge 0 1 1, .addEdge 1 2 1]

/-- The path of three vertices with loops at both ends: all degrees are two. -/
def loopedPathOps : List (Op ℕ ℕ) := [.addEdge 0 1 1, .addEdge 1 2 1, .addEdge 0 0 1, .addEdge 2 2 1]

/-- C153 does not extend to graphs with loops: `greedy` may select the vertex in the middle of the path, although the
two ends are independent and all degrees are at most two. -/
theorem C153_loop_violation :
    IndependentSets.greedy (fun S => (List.range 3).filter (· ∈ S)) (fun _ l => l.getD 1 0) (history loopedPathOps)
      = .ok (1, [1]) ∧ IsIndependent (toAbs (history loopedPathOps)).verts (Linked (history loopedPathOps)) {0, 2} ∧
      (∀ v, {w | Linked (history loopedPathOps) v w}.ncard ≤ 2) ∧ ¬ 3 * ({0, 2} : Finset ℕ).card ≤ (2 + 2) * 1 := by
  refine ⟨by decide +kernel, ?_, ?_, by decide⟩
  · constructor
    · intro v hv
      have h : ({0, 2} : Finset ℕ) ⊆ vertexSet (history loopedPathOps) := by decide +kernel
      exact Graph.mem_vertexSet.1 (h hv)
    · intro u hu v hv hne he
      rw [← E_eq, ← mem_nb] at he
      have h : ∀ u ∈ ({0, 2} : Finset ℕ), ∀ v ∈ ({0, 2} : Finset ℕ), u ≠ v → v ∉ nb (history loopedPathOps) u := by
        decide +kernel
      exact h u hu v hv hne he
  · intro v
    rw [← greedy_nb_card]
    by_cases h : v < 3
    · revert h; revert v; decide +kernel
    · have : nb (history loopedPathOps) v = ∅ := by
        by_contra hne
        obtain ⟨w, hw⟩ := Finset.nonempty_iff_ne_empty.2 hne
        have hg := (history_spec loopedPathOps).1
        have hm := E_mem hg ((E_symm hg).1 (mem_nb.1 hw))
        have hm' := Graph.mem_vertexSet.2 hm
        have hv : vertexSet (history loopedPathOps) = {0, 1, 2} := by decide +kernel
        rw [hv] at hm'
        simp at hm'
        omega
      rw [this]; simp

/-- In the path the ends are selected. -/
example : IndependentSets.greedy (fun S => (List.range 3).filter (· ∈ S)) (fun _ l => l.getD 1 0) (history threePathOps)
    = .ok (2, [0, 2]) := by decide +kernel

end Rosemary.Props
