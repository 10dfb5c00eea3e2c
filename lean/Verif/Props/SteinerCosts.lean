import Verif.Lemmas.SteinerCosts
import Verif.Props.SteinerTrees
import Mathlib.Tactic.Ring
import Mathlib.Data.Nat.Log

/-!
# C165: the number of comparisons in `minimum_cost_paths_heuristic`
-/

namespace Rosemary.Props

open Rosemary.Graph Rosemary.SpanningTrees Rosemary.Spec Rosemary.Paths Rosemary.SteinerTrees

section

variable {V W : Type} [LinearOrder V] [AddCommMonoid W] [LinearOrder W] [IsOrderedCancelAddMonoid W]

/-- C165: with `t` terminals the search for the nearest terminal makes at most `t^3 |V|` comparisons.  Missing is the bound
`O(t^2 |E| log |V|)` of the docstring, which is false. -/
theorem C165_comparisons_partial {ord : Finset V → List V} (hord : ∀ S, (ord S).Nodup ∧ ∀ x, x ∈ ord S ↔ x ∈ S) (one : W)
    (ops : List (Op V W)) (hN : ∀ u v x, (toAbs (history ops)).weight u v = some x → 0 < x) (terminals : List V)
    (hm : ∀ u ∈ terminals, u ∈ (toAbs (history ops)).verts)
    (hr : ∀ u ∈ terminals, ∀ v ∈ terminals, Reach (EdgeOf ops) u v) (hR : 2 ≤ terminals.toFinset.card) :
    ∃ r k, minimumCostPathsHeuristic ord one (history ops) terminals = some (.ok r) ∧
      minimumCostPathsC ord one (history ops) terminals = some (.ok r, k) ∧
      k ≤ terminals.length ^ 3 * numVertices (history ops) := by
  obtain ⟨D, P, t1, t2⟩ := tables (history_spec ops).1 (fun u v x h => (hN u v x h).le) terminals hm
  obtain ⟨r, k, h1, h2, h3, -⟩ := rootsLoopC_spec hord (history_spec ops).1 hN one hR hm hr t2 terminals none none 0 (fun x hx => hx)
    (fun _ e => by rw [e] at hR; simp at hR)
  refine ⟨r, k, by rw [minimumCostPathsHeuristic, t1]; exact h2, by rw [minimumCostPathsC, t1]; exact h1, h3.trans ?_⟩
  have hc : terminals.toFinset.card ≤ terminals.length := List.toFinset_card_le _
  have hc' : terminals.toFinset.card - 1 ≤ terminals.length := by omega
  rw [Nat.zero_add, show terminals.length ^ 3 * numVertices (history ops) =
    terminals.length * (terminals.length * (terminals.length * numVertices (history ops))) by ring]
  exact Nat.mul_le_mul le_rfl (Nat.mul_le_mul hc' (Nat.mul_le_mul hc le_rfl))

/-- C165: if all `n` vertices of a connected graph are terminals there are precisely `n^2 (n^2 - 1) / 6` comparisons. -/
theorem C165_all_terminals {ord : Finset V → List V} (hord : ∀ S, (ord S).Nodup ∧ ∀ x, x ∈ ord S ↔ x ∈ S) (one : W)
    (ops : List (Op V W)) (hN : ∀ u v x, (toAbs (history ops)).weight u v = some x → 0 < x) (terminals : List V)
    (hnd : terminals.Nodup) (hm : ∀ u, u ∈ terminals ↔ u ∈ (toAbs (history ops)).verts)
    (hr : ∀ u ∈ terminals, ∀ v ∈ terminals, Reach (EdgeOf ops) u v) (hR : 2 ≤ terminals.length) :
    ∃ r k, minimumCostPathsHeuristic ord one (history ops) terminals = some (.ok r) ∧
      minimumCostPathsC ord one (history ops) terminals = some (.ok r, k) ∧
      6 * k = terminals.length ^ 2 * (terminals.length ^ 2 - 1) := by
  have hcard := List.toFinset_card_of_nodup hnd
  obtain ⟨D, P, t1, t2⟩ := tables (history_spec ops).1 (fun u v x h => (hN u v x h).le) terminals (fun u hu => (hm u).1 hu)
  obtain ⟨r, k, h1, h2, -, h3⟩ := rootsLoopC_spec hord (history_spec ops).1 hN one (by rw [hcard]; exact hR)
    (fun u hu => (hm u).1 hu) hr t2 terminals none none 0 (fun x hx => hx) (fun _ e => by rw [e] at hR; simp at hR)
  refine ⟨r, k, by rw [minimumCostPathsHeuristic, t1]; exact h2, by rw [minimumCostPathsC, t1]; exact h1, ?_⟩
  have h4 := h3 (fun v hv => (hm v).2 hv)
  rw [hcard] at h4
  obtain ⟨n, hn⟩ : ∃ n, terminals.length = n + 1 := ⟨_, (Nat.succ_pred_eq_of_pos (by omega)).symm⟩
  rw [hn] at h4 ⊢
  rw [h4, show (n + 1) ^ 2 - 1 = n * (n + 2) by
    rw [show (n + 1) ^ 2 = n * (n + 2) + 1 by ring]; rfl]
  simp only [Nat.add_sub_cancel]
  ring

end

/-- A star: vertex 0 is joined to the vertices `1, ..., n`. -/
def wheelSpokes (n : ℕ) : List (Op ℕ ℤ) := [.addEdges ((List.range n).map (fun i => (0, i + 1, 1)))]

theorem spokes_mem (n : ℕ) (hn : 1 ≤ n) (v : ℕ) : v ∈ (toAbs (history (wheelSpokes n))).verts ↔ v < n + 1 := by
  have h : v ∈ (toAbs (history (wheelSpokes n))).verts ↔
      Mem (addEdges ([] : Graph ℕ ℤ) ((List.range n).map (fun i => (0, i + 1, 1)))) v := Iff.rfl
  rw [h, mem_addEdges]
  have h0 : ¬ Mem ([] : Graph ℕ ℤ) v := by simp [Mem, Dict.keys]
  constructor
  · rintro (⟨e, he, h1⟩ | h1)
    · obtain ⟨i, hi, rfl⟩ := List.mem_map.1 he
      rw [List.mem_range] at hi
      rcases h1 with h1 | h1 <;> dsimp only at h1 <;> omega
    · exact absurd h1 h0
  · intro h1
    left
    rcases v with _ | v
    · exact ⟨(0, 1, 1), List.mem_map.2 ⟨0, List.mem_range.2 (by omega), rfl⟩, Or.inl rfl⟩
    · exact ⟨(0, v + 1, 1), List.mem_map.2 ⟨v, List.mem_range.2 (by omega), rfl⟩, Or.inr rfl⟩

theorem spokes_weight (n u v : ℕ) : (toAbs (history (wheelSpokes n))).weight u v =
    if (u = 0 ∧ 1 ≤ v ∧ v ≤ n) ∨ (v = 0 ∧ 1 ≤ u ∧ u ≤ n) then some 1 else none := by
  have hmem : ∀ a b : ℕ, ((a, b, (1 : ℤ)) ∈ (List.range n).map (fun i => (0, i + 1, (1 : ℤ)))) ↔ a = 0 ∧ 1 ≤ b ∧ b ≤ n := by
    intro a b
    simp only [List.mem_map, List.mem_range, Prod.mk.injEq]
    constructor
    · rintro ⟨i, hi, h1, h2, -⟩; omega
    · rintro ⟨rfl, h1, h2⟩; exact ⟨b - 1, by omega, rfl, by omega, trivial⟩
  have h : (toAbs (history (wheelSpokes n))).weight u v =
      adj (addEdges ([] : Graph ℕ ℤ) ((List.range n).map (fun i => (0, i + 1, 1)))) u v := rfl
  rw [h, adj_addEdges_const _ _ 1 (by
    intro e he
    obtain ⟨i, -, rfl⟩ := List.mem_map.1 he
    rfl)]
  simp only [hmem]
  rfl

theorem spokes_numEdges (n : ℕ) : numEdges (history (wheelSpokes n)) = n := by
  have : edgeSet (history (wheelSpokes n)) = (Finset.range n).image (fun i => (0, i + 1)) := by
    ext ⟨a, b⟩
    rw [mem_edgeSet (history_spec (wheelSpokes n)).1, Finset.mem_image]
    have := spokes_weight n a b
    rw [show (toAbs (history (wheelSpokes n))).weight a b = adj (history (wheelSpokes n)) a b from rfl] at this
    rw [this]
    constructor
    · rintro ⟨h1, w, h2⟩
      split at h2
      · rename_i h3
        have h4 : a = 0 ∧ 1 ≤ b ∧ b ≤ n := by omega
        exact ⟨b - 1, Finset.mem_range.2 (by omega), by rw [h4.1, Nat.sub_add_cancel h4.2.1]⟩
      · simp at h2
    · rintro ⟨i, hi, h1⟩
      rw [Finset.mem_range] at hi
      simp only [Prod.mk.injEq] at h1
      refine ⟨by omega, 1, if_pos (Or.inl (by omega))⟩
  rw [numEdges, this, Finset.card_image_of_injective, Finset.card_range]
  intro i j h
  simpa using h

theorem spokes_reach (n u v : ℕ) (hu : u < n + 1) (hv : v < n + 1) : Reach (EdgeOf (wheelSpokes n)) u v := by
  have h0 : ∀ x, x < n + 1 → Reach (EdgeOf (wheelSpokes n)) u 0 ∧ Reach (EdgeOf (wheelSpokes n)) 0 x := by
    intro x hx
    refine ⟨?_, ?_⟩
    · rcases Nat.eq_zero_or_pos u with rfl | h
      · exact Reach.refl _ _
      · exact (Reach.refl _ _).step ⟨1, by rw [spokes_weight, if_pos (Or.inr ⟨rfl, h, by omega⟩)]⟩
    · rcases Nat.eq_zero_or_pos x with rfl | h
      · exact Reach.refl _ _
      · exact (Reach.refl _ _).step ⟨1, by rw [spokes_weight, if_pos (Or.inl ⟨rfl, h, by omega⟩)]⟩
  exact (h0 v hv).1.trans (h0 v hv).2

/-- C165 is violated: for every constant `c` there is a connected graph with positive weights and a list of `t` terminals for
which `minimum_cost_paths_heuristic` makes more than `c t^2 |E| log |V|` comparisons. -/
theorem C165_time_violation {ord : Finset ℕ → List ℕ} (hord : ∀ S, (ord S).Nodup ∧ ∀ x, x ∈ ord S ↔ x ∈ S) (c : ℕ) :
    ∃ (ops : List (Op ℕ ℤ)) (terminals : List ℕ) (r : ℤ × List (ℕ × ℕ)) (k : ℕ),
      (∀ u v x, (toAbs (history ops)).weight u v = some x → 0 < x) ∧
      (∀ u ∈ (toAbs (history ops)).verts, ∀ v ∈ (toAbs (history ops)).verts, Reach (EdgeOf ops) u v) ∧
      minimumCostPathsC ord 1 (history ops) terminals = some (.ok r, k) ∧
      c * terminals.length ^ 2 * numEdges (history ops) * Nat.log 2 (numVertices (history ops)) < k := by
  obtain ⟨j, hj, hj4⟩ : ∃ j, 6 * c * j < 2 ^ j ∧ 1 ≤ j := by
    refine ⟨6 * c + 4, ?_, by omega⟩
    have : ∀ i : ℕ, (i + 4) * (i + 4) ≤ 2 ^ (i + 4) := by
      intro i
      induction i with
      | zero => norm_num
      | succ i ih => rw [show i + 1 + 4 = (i + 4) + 1 by ring, pow_succ]; nlinarith
    have h := this (6 * c)
    nlinarith
  have h2j : 2 ≤ 2 ^ j := by
    calc 2 = 2 ^ 1 := rfl
      _ ≤ 2 ^ j := Nat.pow_le_pow_right (by norm_num) hj4
  obtain ⟨n, hn⟩ : ∃ n, 2 ^ j = n + 1 := ⟨_, (Nat.succ_pred_eq_of_pos (by omega)).symm⟩
  have hn1 : 1 ≤ n := by omega
  have hpos : ∀ u v x, (toAbs (history (wheelSpokes n))).weight u v = some x → 0 < x := by
    intro u v x h
    rw [spokes_weight] at h
    split at h
    · injection h with h; rw [← h]; norm_num
    · simp at h
  obtain ⟨r, k, -, h1, h2⟩ := C165_all_terminals hord (1 : ℤ) (wheelSpokes n) hpos (List.range (n + 1)) List.nodup_range
    (fun u => by rw [List.mem_range, spokes_mem n hn1]) (fun u hu v hv => spokes_reach n u v (List.mem_range.1 hu) (List.mem_range.1 hv))
    (by rw [List.length_range]; omega)
  refine ⟨wheelSpokes n, List.range (n + 1), r, k, hpos, fun u hu v hv =>
    spokes_reach n u v ((spokes_mem n hn1 u).1 hu) ((spokes_mem n hn1 v).1 hv), h1, ?_⟩
  have hV : numVertices (history (wheelSpokes n)) = n + 1 := by
    have hperm : (Dict.keys (history (wheelSpokes n))).Perm (List.range (n + 1)) :=
      (List.perm_ext_iff_of_nodup (history_spec (wheelSpokes n)).1.wf List.nodup_range).2 (fun v => by
        rw [List.mem_range]; exact spokes_mem n hn1 v)
    rw [numVertices, ← List.length_range (n := n + 1), ← hperm.length_eq, Dict.keys, List.length_map]
  have hlog : Nat.log 2 (n + 1) = j := by rw [← hn, Nat.log_pow (by norm_num)]
  rw [hV, hlog, spokes_numEdges, List.length_range]
  rw [List.length_range, show (n + 1) ^ 2 - 1 = n * (n + 2) by
    rw [show (n + 1) ^ 2 = n * (n + 2) + 1 by ring]; rfl] at h2
  have h3 : 6 * c * j < n + 2 := by omega
  have h4 : 6 * (c * (n + 1) ^ 2 * n * j) < 6 * k := by
    rw [h2, show 6 * (c * (n + 1) ^ 2 * n * j) = ((n + 1) ^ 2 * n) * (6 * c * j) by ring,
      show (n + 1) ^ 2 * (n * (n + 2)) = ((n + 1) ^ 2 * n) * (n + 2) by ring]
    exact Nat.mul_lt_mul_of_pos_left h3 (by positivity)
  omega

/-- On the star with five vertices: 100 comparisons. -/
example (ord : Finset ℕ → List ℕ) (hord : ∀ S, (ord S).Nodup ∧ ∀ x, x ∈ ord S ↔ x ∈ S) :
    ∃ r, minimumCostPathsC ord 1 (history (wheelSpokes 4)) [0, 1, 2, 3, 4] = some (.ok r, 100) := by
  obtain ⟨r, k, -, h, h2⟩ := C165_all_terminals hord (1 : ℤ) (wheelSpokes 4) (by
      intro u v x h
      rw [spokes_weight] at h
      split at h
      · injection h with h; rw [← h]; norm_num
      · simp at h) [0, 1, 2, 3, 4] (by decide)
    (fun u => by rw [spokes_mem 4 (by norm_num)]; simp; omega)
    (fun u hu v hv => spokes_reach 4 u v (by simp at hu; omega) (by simp at hv; omega)) (by simp)
  have : k = 100 := by simp at h2; omega
  exact ⟨r, this ▸ h⟩

end Rosemary.Props
