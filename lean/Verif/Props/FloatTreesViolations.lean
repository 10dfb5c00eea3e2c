import Verif.Props.FloatSpanningTrees
import Verif.Props.FloatPathsViolations

/-!
# The total depends on the order of the additions (C174)
-/

namespace Rosemary.Props

open Rosemary.Graph Rosemary.SpanningTrees Rosemary.Spec Rosemary.Paths Rosemary.WeightOrder Rosemary.Floats

/-- A path 3-0-1-2 with two kinds of weights. -/
def kindOps : List (Op ℕ (Fin 2)) := [Op.addVertices [0, 1, 2, 3], Op.addEdges [(3, 0, 1), (0, 1, 0), (1, 2, 0)]]

/-- The weights. -/
noncomputable def kindWeight (k : Fin 2) : PyFloat := if k = 0 then tiny else one

theorem tiny_lt_one : tiny < one := by
  refine lt_of_not_ge fun h => ?_
  have := Double.le_iff.1 h
  rw [one_val, tiny_val] at this
  norm_num at this

theorem kindWeight_mono : StrictMono kindWeight := by
  intro a b h
  have h1 : a = 0 := by omega
  have h2 : b ≠ 0 := by omega
  rw [kindWeight, kindWeight, if_pos h1, if_neg h2]
  exact tiny_lt_one

/-- The path with the weights `1.0` (3-0) and `2**-53` (0-1 and 1-2). -/
noncomputable def floatPath : List (Op ℕ PyFloat) := [Op.addVertices [0, 1, 2, 3], Op.addEdges [(3, 0, one), (0, 1, tiny), (1, 2, tiny)]]

theorem floatPath_eq : floatPath = kindOps.map (Op.reweight kindWeight) := rfl

theorem floatPath_history : history floatPath = [(0, [(3, one), (1, tiny)]), (1, [(0, tiny), (2, tiny)]), (2, [(1, tiny)]), (3, [(0, one)])] := rfl

theorem zero_add_tiny : (0 : PyFloat) + tiny = tiny := Subtype.ext (by
  change nearestEven.rnd ((0 : ℝ) + tiny.1) = tiny.1
  rw [zero_add]; exact nearestEven.exact _ tiny.2)

theorem tiny_tiny_one : tiny + tiny + one = next := by
  have h1 : tiny + tiny = pyFloat 1 (-52) (by norm_num) := by
    refine Subtype.ext (?_ : nearestEven.rnd (tiny.val + tiny.val) = (pyFloat 1 (-52) _).val)
    have : tiny.val + tiny.val = (pyFloat 1 (-52) (by norm_num)).val := by
      rw [tiny_val]
      simp only [pyFloat, Double.val]
      norm_num
    rw [this]
    exact nearestEven.exact _ (pyFloat 1 (-52) (by norm_num)).2
  rw [h1]
  refine Subtype.ext (?_ : nearestEven.rnd ((pyFloat 1 (-52) _).val + one.val) = next.val)
  have : (pyFloat 1 (-52) (by norm_num)).val + one.val = next.val := by
    rw [one_val, next_val]
    simp only [pyFloat, Double.val]
    norm_num
  rw [this]
  exact nearestEven.exact _ next.2

theorem floatPath_links (s : ℕ) (P : Dict ℕ (Option ℕ))
    (h : primLoopN (history kindOps) 20 (Dict.set ((history kindOps).map (fun e => (e.1, ⊤))) s ((0 : Fin 2) : WithTop (Fin 2)))
      ((history floatPath).map (fun e => (e.1, none))) [(0, s)] ∅ = some (.ok P)) :
    prim (history floatPath) (some s) = some ((collect (history floatPath) P 0 []).map (fun x => (x.1, sortPairs x.2))) := by
  have h1 := primLoop_of_fuel _ _ _ _ _ _ _ h
  rw [primStart_eq (ordered_of_strictMono kindWeight_mono) (rg_reweight kindWeight kindOps), ← floatPath_eq] at h1
  rw [prim, primCore, primRoot]
  dsimp only
  rw [h1]
  dsimp only
  cases collect (history floatPath) P 0 [] <;> rfl

/-- C174, violation: with floats the total that `prim` returns for a connected graph depends on the root, although the tree
is the same: 1.0 from the root 3, `1 + 2**-52` from the root 2. -/
theorem C174_total_depends_on_root_violation :
    prim (history floatPath) (some 3) = some (.ok (one, [(0, 1), (0, 3), (1, 2)])) ∧
    prim (history floatPath) (some 2) = some (.ok (next, [(0, 1), (0, 3), (1, 2)])) ∧ one ≠ next := by
  refine ⟨?_, ?_, ?_⟩
  · rw [floatPath_links 3 [(0, some 3), (1, some 0), (2, some 1), (3, none)] (by rw [floatPath_history]; decide +kernel)]
    have : collect (history floatPath) [(0, some 3), (1, some 0), (2, some 1), (3, none)] 0 [] =
        .ok (0 + one + tiny + tiny, [(0, 3), (0, 1), (1, 2)]) := rfl
    rw [this, zero_add_one, one_add_tiny, one_add_tiny]
    rfl
  · rw [floatPath_links 2 [(0, some 1), (1, some 2), (2, none), (3, some 0)] (by rw [floatPath_history]; decide +kernel)]
    have : collect (history floatPath) [(0, some 1), (1, some 2), (2, none), (3, some 0)] 0 [] =
        .ok (0 + tiny + tiny + one, [(0, 1), (1, 2), (0, 3)]) := rfl
    rw [this, zero_add_tiny, tiny_tiny_one]
    rfl
  · intro h
    have := congrArg Double.val h
    rw [one_val, next_val] at this
    norm_num at this

theorem floatPath_reach {v : ℕ} (hv : v ∈ (toAbs (history floatPath)).verts) : Reach (EdgeOf floatPath) 0 v := by
  change v ∈ Dict.keys (history floatPath) at hv
  rw [floatPath_history] at hv
  simp only [Dict.keys, List.map_cons, List.map_nil, List.mem_cons, List.not_mem_nil, or_false] at hv
  have h1 : Reach (EdgeOf floatPath) 0 1 := (Reach.refl _ 0).step ⟨tiny, rfl⟩
  rcases hv with rfl | rfl | rfl | rfl
  · exact Reach.refl _ 0
  · exact h1
  · exact h1.step ⟨tiny, rfl⟩
  · exact (Reach.refl _ 0).step ⟨one, rfl⟩

/-- C174, violation: so `prim` and `kruskal` do not return the same total. -/
theorem C174_totals_differ_violation : ∃ s t total edges edges', kruskal (history floatPath) = some (.ok (total, edges)) ∧
    prim (history floatPath) (some s) = some (.ok (t, edges')) ∧ t ≠ total := by
  have hs : ∀ u v, EdgeOf floatPath u v → EdgeOf floatPath v u := by
    rintro u v ⟨w, hw⟩
    exact ⟨w, ((history_spec floatPath).1.symm v u).trans hw⟩
  obtain ⟨total, edges, h, -⟩ := C174_kruskal_float floatPath
    (Set.nonempty_iff_ne_empty.1 ⟨0, by change 0 ∈ Dict.keys _; rw [floatPath_history]; decide⟩)
    (fun u hu v hv => ((floatPath_reach hu).symm hs).trans (floatPath_reach hv))
  obtain ⟨h1, h2, h3⟩ := C174_total_depends_on_root_violation
  by_cases hc : one = total
  · exact ⟨2, next, total, edges, _, h, h2, fun h => h3 (hc.trans h.symm)⟩
  · exact ⟨3, one, total, edges, _, h, h1, hc⟩

/-! ## Examples -/

/-- Weights that are doubled and shifted: the same tree. -/
example : (prim (history (treeOps.map (Op.reweight fun w : ℤ => 2 * w + 7))) none).map (Except.map Prod.snd) =
    (prim (history treeOps) none).map (Except.map Prod.snd) :=
  C174_prim_order (fun a b h => by omega) treeOps none

/-- The totals of the path are within the bounds. -/
example : ∃ total edges, prim (history floatPath) (some 3) = some (.ok (total, edges)) ∧ ∃ C : Finset ℕ, 3 ∈ C ∧
    MinSpanningTree (Double.exactWeight (toAbs (history floatPath)).weight) C edges.toFinset := by
  obtain ⟨t, e, h1, -, C, h2, h3, -⟩ := C174_prim_float floatPath 3 (by change 3 ∈ Dict.keys _; rw [floatPath_history]; decide)
  exact ⟨t, e, h1, C, (h2 3).2 ⟨0, .zero 3⟩, h3⟩

end Rosemary.Props
