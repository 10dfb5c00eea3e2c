import Verif.Lemmas.SteinerHeuristics
import Verif.Props.SpanningTrees
import Verif.Props.Paths
import Mathlib.Data.Finset.Sort

/-!
# Properties of the Steiner tree heuristics (C105, C106)
-/

namespace Rosemary.Props

open Rosemary.Graph Rosemary.SpanningTrees Rosemary.Spec Rosemary.Paths Rosemary.SteinerTrees

variable {V W : Type} [LinearOrder V] [AddCommMonoid W] [LinearOrder W] [IsOrderedCancelAddMonoid W]

/-- The edges `es` are a tree in the graph that contains the vertices `R`, all its leaves are in `R`, `weight` is its weight,
and this is at most `2 (1 - 1 / |R|)` times the weight of any tree in the graph that contains `R`.  If no edge leaves `R`, it
is a spanning tree of least weight.  It is never heavier than a spanning tree of the complete graph on `R` with the distances
`B` as weights. -/
structure SteinerResult (A : V → V → Option W) (R : Finset V) (weight : W) (es : List (V × V)) : Prop where
  sorted : es.Pairwise (fun a b => toLex a < toLex b)
  total : weight = totalWeight A es.toFinset
  tree : ∃ S, R ⊆ S ∧ SpanningTree A S es.toFinset ∧ ∀ x ∈ S, x ∉ R → 2 ≤ (es.filter (fun e => e.1 = x ∨ e.2 = x)).length
  bound : ∀ S T, SpanningTree A S T → R ⊆ S → R.card • weight ≤ (2 * (R.card - 1)) • totalWeight A T
  closed : (∀ u ∈ R, ∀ v w, A u v = some w → v ∈ R) → ∀ T, SpanningTree A R T → weight ≤ totalWeight A T
  network : ∀ B : V → V → Option W, (∀ x ∈ R, ∀ y ∈ R, x ≠ y → ∃ c, IsShortest A x y c ∧ B x y = some c) →
    ∀ T, SpanningTree B R T → weight ≤ totalWeight B T

theorem steinerResult {A : V → V → Option W} {R : Finset V} {r : W × List (V × V)} (hR : 2 ≤ R.card) (h : Steiner A R r) :
    SteinerResult A R r.1 r.2 := by
  obtain ⟨S, h1, h2, h3⟩ := h.tree
  refine ⟨h.sorted, h.weight, ⟨S, h1, h2, fun x hx hxR => ?_⟩, h.bound, h.closed, fun B hB T hT =>
    h.network B (fun x hx y hy hne => by obtain ⟨c, k1, k2⟩ := hB x hx y hy hne; rw [k2, dist_eq k1]) T hT⟩
  have hnd : r.2.Nodup := h.sorted.imp (fun h => by rintro rfl; exact lt_irrefl _ h)
  have hS := Finset.card_le_card h1
  obtain ⟨y, hy, hne⟩ := Finset.exists_mem_ne (by omega : 1 < S.card) x
  obtain ⟨e, he, hex⟩ := h2.exists_edge hx hy hne
  have hno := h3 x hx hxR
  obtain ⟨f, hf, hfx, hfe⟩ : ∃ f ∈ r.2.toFinset, (f.1 = x ∨ f.2 = x) ∧ f ≠ e := by
    by_contra hc
    push Not at hc
    exact hno ⟨e, he, hex, fun f hf hfx => hc f hf hfx⟩
  have h5 : ({e, f} : Finset (V × V)) ⊆ (r.2.filter (fun e => e.1 = x ∨ e.2 = x)).toFinset := by
    intro g hg
    rw [List.mem_toFinset, List.mem_filter]
    rcases Finset.mem_insert.1 hg with rfl | hg
    · exact ⟨List.mem_toFinset.1 he, decide_eq_true hex⟩
    · rw [Finset.mem_singleton.1 hg]; exact ⟨List.mem_toFinset.1 hf, decide_eq_true hfx⟩
  have h6 := Finset.card_le_card h5
  rw [Finset.card_pair hfe.symm, List.toFinset_card_of_nodup (hnd.filter _)] at h6
  exact h6

theorem shortest_valueError {g : Graph V W} (hg : Good g) (hA : ∀ u v x, adj g u v = some x → 0 ≤ x) (us : List V)
    (D : Dict V (Dict V (WithTop W))) (P : Dict V (Dict V (Option V))) (h : ∃ u ∈ us, ¬ Mem g u) :
    shortest g us D P = some (.error .valueError) := by
  induction us generalizing D P with
  | nil => obtain ⟨u, hu, -⟩ := h; simp at hu
  | cons x us ih =>
    rw [shortest]
    by_cases hx : Mem g x
    · obtain ⟨D', P', vis, h1, -⟩ := dijkstra_spec hg hA hx
      rw [h1]
      obtain ⟨u, hu, hum⟩ := h
      rcases List.mem_cons.1 hu with rfl | hu
      · exact absurd hx hum
      · exact ih _ _ ⟨u, hu, hum⟩
    · have : dijkstra g x = some (.error .valueError) := by rw [dijkstra, if_pos (show x ∉ Dict.keys g from hx)]
      rw [this]

/-! ## C105 -/

/-- C105: for nonnegative weights and at least two terminals in one component `distance_network_heuristic` returns a Steiner
tree of at most `2 (1 - 1 / t)` times the least possible weight, where `t` is the number of terminals.  Every leaf of the
tree is a terminal. -/
theorem C105_distance_network {ord : Finset V → List V} (hord : ∀ S, (ord S).Nodup ∧ ∀ x, x ∈ ord S ↔ x ∈ S) (one : W)
    (ops : List (Op V W)) (hN : Nonneg ops) (terminals : List V) (hm : ∀ u ∈ terminals, u ∈ (toAbs (history ops)).verts)
    (hr : ∀ u ∈ terminals, ∀ v ∈ terminals, Reach (EdgeOf ops) u v) (hR : 2 ≤ terminals.toFinset.card) :
    ∃ weight es, distanceNetworkHeuristic ord one (history ops) terminals = some (.ok (weight, es)) ∧
      SteinerResult (toAbs (history ops)).weight terminals.toFinset weight es := by
  cases terminals with
  | nil => simp at hR
  | cons s us =>
    obtain ⟨h1, -⟩ := distanceNetwork_spec hord (history_spec ops).1 hN one s us hm (R := (s :: us).toFinset) (fun v => by
      rw [List.mem_toFinset]
      exact ⟨fun h => ⟨h, hr s List.mem_cons_self v h⟩, And.left⟩)
    obtain ⟨r, k1, k2⟩ := h1 hR
    exact ⟨r.1, r.2, k1, steinerResult hR k2⟩

/-- C105: for terminals in several components the result is a tree only for the terminals in the component of the first one.
If there is no other terminal in this component: StopIteration. -/
theorem C105_disconnected {ord : Finset V → List V} (hord : ∀ S, (ord S).Nodup ∧ ∀ x, x ∈ ord S ↔ x ∈ S) (one : W)
    (ops : List (Op V W)) (hN : Nonneg ops) (s : V) (us : List V) (hm : ∀ u ∈ s :: us, u ∈ (toAbs (history ops)).verts)
    (R : Finset V) (hR : ∀ v, v ∈ R ↔ v ∈ s :: us ∧ Reach (EdgeOf ops) s v) :
    (2 ≤ R.card → ∃ weight es, distanceNetworkHeuristic ord one (history ops) (s :: us) = some (.ok (weight, es)) ∧
      SteinerResult (toAbs (history ops)).weight R weight es) ∧
    (R.card < 2 → distanceNetworkHeuristic ord one (history ops) (s :: us) = some (.error .stopIteration)) := by
  obtain ⟨h1, h2⟩ := distanceNetwork_spec hord (history_spec ops).1 hN one s us hm hR
  refine ⟨fun h => ?_, h2⟩
  obtain ⟨r, k1, k2⟩ := h1 h
  exact ⟨r.1, r.2, k1, steinerResult h k2⟩

/-- C105: no terminals, or only one: StopIteration; a terminal that is not a vertex: ValueError. -/
theorem C105_errors {ord : Finset V → List V} (hord : ∀ S, (ord S).Nodup ∧ ∀ x, x ∈ ord S ↔ x ∈ S) (one : W)
    (ops : List (Op V W)) (hN : Nonneg ops) (terminals : List V) :
    (terminals.toFinset.card ≤ 1 → (∀ u ∈ terminals, u ∈ (toAbs (history ops)).verts) →
      distanceNetworkHeuristic ord one (history ops) terminals = some (.error .stopIteration)) ∧
    ((∃ u ∈ terminals, u ∉ (toAbs (history ops)).verts) →
      distanceNetworkHeuristic ord one (history ops) terminals = some (.error .valueError)) := by
  refine ⟨fun h hm => ?_, fun h => ?_⟩
  · cases terminals with
    | nil => rfl
    | cons s us =>
      obtain ⟨-, h2⟩ := distanceNetwork_spec hord (history_spec ops).1 hN one s us hm (R := {s}) (fun v => by
        rw [Finset.mem_singleton]
        constructor
        · rintro rfl; exact ⟨List.mem_cons_self, Reach.refl _ _⟩
        · intro hv
          exact Finset.card_le_one.1 h v (List.mem_toFinset.2 hv.1) s (List.mem_toFinset.2 List.mem_cons_self))
      exact h2 (by rw [Finset.card_singleton]; omega)
  · rw [distanceNetworkHeuristic, shortest_valueError (history_spec ops).1 hN terminals [] [] h]

/-! ## C106 -/

/-- C106: for positive weights and at least two terminals in one component `minimum_cost_paths_heuristic` returns a Steiner
tree of at most `2 (1 - 1 / t)` times the least possible weight, where `t` is the number of terminals.  Every leaf of the
tree is a terminal. -/
theorem C106_minimum_cost_paths {ord : Finset V → List V} (hord : ∀ S, (ord S).Nodup ∧ ∀ x, x ∈ ord S ↔ x ∈ S) (one : W)
    (ops : List (Op V W)) (hN : ∀ u v x, (toAbs (history ops)).weight u v = some x → 0 < x) (terminals : List V)
    (hm : ∀ u ∈ terminals, u ∈ (toAbs (history ops)).verts)
    (hr : ∀ u ∈ terminals, ∀ v ∈ terminals, Reach (EdgeOf ops) u v) (hR : 2 ≤ terminals.toFinset.card) :
    ∃ weight es, minimumCostPathsHeuristic ord one (history ops) terminals = some (.ok (weight, es)) ∧
      SteinerResult (toAbs (history ops)).weight terminals.toFinset weight es := by
  obtain ⟨r, k1, k2⟩ := minimumCostPaths_spec hord (history_spec ops).1 hN one hR hm hr
  exact ⟨r.1, r.2, k1, steinerResult hR k2⟩

/-- C106: no terminals: UnboundLocalError; only one: StopIteration; a terminal that is not a vertex: ValueError. -/
theorem C106_errors {ord : Finset V → List V} (hord : ∀ S, (ord S).Nodup ∧ ∀ x, x ∈ ord S ↔ x ∈ S) (one : W)
    (ops : List (Op V W)) (hN : Nonneg ops) (terminals : List V) :
    minimumCostPathsHeuristic ord one (history ops) [] = some (.error .unboundLocalError) ∧
    (terminals.toFinset.card = 1 → (∀ u ∈ terminals, u ∈ (toAbs (history ops)).verts) →
      minimumCostPathsHeuristic ord one (history ops) terminals = some (.error .stopIteration)) ∧
    ((∃ u ∈ terminals, u ∉ (toAbs (history ops)).verts) →
      minimumCostPathsHeuristic ord one (history ops) terminals = some (.error .valueError)) := by
  refine ⟨rfl, fun h hm => ?_, fun h => ?_⟩
  · cases terminals with
    | nil => simp at h
    | cons s us =>
      obtain ⟨D, P, t1, -⟩ := tables (history_spec ops).1 hN (s :: us) hm
      have he : (s :: us).toFinset.erase s = ∅ := by
        apply Finset.card_eq_zero.1
        rw [Finset.card_erase_of_mem (List.mem_toFinset.2 List.mem_cons_self), h]
      have h0 : ord ∅ = [] := List.eq_nil_iff_forall_not_mem.2 (fun x hx => by rw [(hord _).2] at hx; simp at hx)
      have hi : inducedSubgraph ord (history ops) [] = .ok [] := by
        rw [inducedSubgraph, List.toFinset_nil, h0]; rfl
      rw [minimumCostPathsHeuristic, t1]
      dsimp only
      rw [rootsLoop, he, growLoop, if_pos rfl]
      dsimp only
      rw [improve, List.flatMap_nil, hi]
      dsimp only
      rw [prim_empty]
  · rw [minimumCostPathsHeuristic, shortest_valueError (history_spec ops).1 hN terminals [] [] h]

/-- C106: if a terminal cannot be reached from the first one, `minimum_cost_paths_heuristic` does not return: it raises an
UnboundLocalError or its loop does not end.  The error is certain if no other terminal can be reached. -/
theorem C106_disconnected {ord : Finset V → List V} (hord : ∀ S, (ord S).Nodup ∧ ∀ x, x ∈ ord S ↔ x ∈ S) (one : W)
    (ops : List (Op V W)) (hN : Nonneg ops) (s : V) (us : List V) (hm : ∀ u ∈ s :: us, u ∈ (toAbs (history ops)).verts)
    (t : V) (ht : t ∈ us) (hst : ¬ Reach (EdgeOf ops) s t) :
    (minimumCostPathsHeuristic ord one (history ops) (s :: us) = some (.error .unboundLocalError) ∨
      minimumCostPathsHeuristic ord one (history ops) (s :: us) = none) ∧
    ((∀ t ∈ us, t ≠ s → ¬ Reach (EdgeOf ops) s t) →
      minimumCostPathsHeuristic ord one (history ops) (s :: us) = some (.error .unboundLocalError)) := by
  refine ⟨?_, fun h => ?_⟩
  · cases hr : minimumCostPathsHeuristic ord one (history ops) (s :: us) with
    | none => exact Or.inr rfl
    | some r =>
      left
      rw [minimumCostPaths_disconnected hord (history_spec ops).1 hN one s us hm (List.mem_cons_of_mem _ ht) hst r hr]
  · exact minimumCostPaths_isolated hord (history_spec ops).1 hN one s us hm (List.mem_cons_of_mem _ ht)
      (fun e => hst (e ▸ Reach.refl _ _)) (fun t ht hts => by
        rcases List.mem_cons.1 ht with rfl | ht
        · exact absurd rfl hts
        · exact h t ht hts)

/-! ## Examples -/

/-- A centre 0 with three neighbours 1, 2, 3, and direct edges between these. -/
def starOps : List (Op ℕ ℤ) := [Op.addEdges [(0, 1, 2), (0, 2, 2), (0, 3, 2), (1, 2, 3), (2, 3, 3), (1, 3, 3), (3, 4, 7)]]

theorem starOps_pos : ∀ u v x, (toAbs (history starOps)).weight u v = some x → 0 < x := by
  intro u v x h
  obtain ⟨N, hN, hx⟩ : ∃ N, Dict.get? (history starOps) u = some N ∧ Dict.get? N v = some x := by
    change adj (history starOps) u v = some x at h
    rw [adj] at h
    cases e : Dict.get? (history starOps) u with
    | none => rw [e] at h; simp at h
    | some N => rw [e] at h; exact ⟨N, rfl, h⟩
  have h1 := Dict.mem_of_get? hN
  have h2 := Dict.mem_of_get? hx
  have : ∀ e ∈ history starOps, ∀ f ∈ e.2, 0 < f.2 := by decide +kernel
  exact this _ h1 _ h2

theorem starOps_reach : ∀ u ∈ [1, 2, 3], ∀ v ∈ [1, 2, 3], Reach (EdgeOf starOps) u v := by
  have h : ∀ u ∈ [1, 2, 3], Reach (EdgeOf starOps) u 0 ∧ Reach (EdgeOf starOps) 0 u := by
    intro u hu
    have e1 : (toAbs (history starOps)).weight u 0 = some 2 := by
      have : ∀ u ∈ [1, 2, 3], adj (history starOps) u 0 = some 2 := by decide +kernel
      exact this u hu
    have e2 : (toAbs (history starOps)).weight 0 u = some 2 := by
      have : ∀ u ∈ [1, 2, 3], adj (history starOps) 0 u = some 2 := by decide +kernel
      exact this u hu
    exact ⟨(Reach.refl _ u).step ⟨2, e1⟩, (Reach.refl _ 0).step ⟨2, e2⟩⟩
  exact fun u hu v hv => (h u hu).1.trans (h v hv).2

/-- The tree with centre 0 has weight 6, so the bound is `3 * weight ≤ 4 * 6`. -/
theorem starOps_tree : SpanningTree (toAbs (history starOps)).weight {0, 1, 2, 3} {(0, 1), (0, 2), (0, 3)} := by
  refine ⟨fun u v h => ?_, ?_, rfl⟩
  · have : ∀ e ∈ ({(0, 1), (0, 2), (0, 3)} : Finset (ℕ × ℕ)), e.1 < e.2 ∧ e.1 ∈ ({0, 1, 2, 3} : Finset ℕ) ∧
        e.2 ∈ ({0, 1, 2, 3} : Finset ℕ) ∧ adj (history starOps) e.1 e.2 = some 2 := by decide +kernel
    obtain ⟨h1, h2, h3, h4⟩ := this (u, v) h
    exact ⟨h1, h2, h3, 2, h4⟩
  · have h0 : ∀ u ∈ ({0, 1, 2, 3} : Finset ℕ), Joined ({(0, 1), (0, 2), (0, 3)} : Finset (ℕ × ℕ)) 0 u := by
      intro u hu
      have : ∀ u ∈ ({0, 1, 2, 3} : Finset ℕ), u = 0 ∨ (0, u) ∈ ({(0, 1), (0, 2), (0, 3)} : Finset (ℕ × ℕ)) := by decide +kernel
      rcases this u hu with rfl | h
      · exact Joined.refl _ _
      · exact Joined.of_mem h
    exact fun u hu v hv => (h0 u hu).symm.trans (h0 v hv)

example {ord : Finset ℕ → List ℕ} (hord : ∀ S, (ord S).Nodup ∧ ∀ x, x ∈ ord S ↔ x ∈ S) :
    ∃ weight es, distanceNetworkHeuristic ord 1 (history starOps) [1, 2, 3] = some (.ok (weight, es)) ∧ weight ≤ 8 := by
  obtain ⟨weight, es, h1, h2⟩ := C105_distance_network hord 1 starOps (fun u v x h => (starOps_pos u v x h).le) [1, 2, 3]
    (show ∀ u ∈ [1, 2, 3], u ∈ Dict.keys (history starOps) by decide +kernel) starOps_reach (by decide +kernel)
  refine ⟨weight, es, h1, ?_⟩
  have h3 := h2.bound _ _ starOps_tree (by decide +kernel)
  have h4 : totalWeight (toAbs (history starOps)).weight {(0, 1), (0, 2), (0, 3)} = 6 := by decide +kernel
  have h5 : ([1, 2, 3] : List ℕ).toFinset.card = 3 := by decide +kernel
  rw [h4, h5] at h3
  norm_num at h3
  omega

example {ord : Finset ℕ → List ℕ} (hord : ∀ S, (ord S).Nodup ∧ ∀ x, x ∈ ord S ↔ x ∈ S) :
    ∃ weight es, minimumCostPathsHeuristic ord 1 (history starOps) [1, 2, 3] = some (.ok (weight, es)) ∧ weight ≤ 8 := by
  obtain ⟨weight, es, h1, h2⟩ := C106_minimum_cost_paths hord 1 starOps starOps_pos [1, 2, 3]
    (show ∀ u ∈ [1, 2, 3], u ∈ Dict.keys (history starOps) by decide +kernel) starOps_reach (by decide +kernel)
  refine ⟨weight, es, h1, ?_⟩
  have h3 := h2.bound _ _ starOps_tree (by decide +kernel)
  have h4 : totalWeight (toAbs (history starOps)).weight {(0, 1), (0, 2), (0, 3)} = 6 := by decide +kernel
  have h5 : ([1, 2, 3] : List ℕ).toFinset.card = 3 := by decide +kernel
  rw [h4, h5] at h3
  norm_num at h3
  omega

/-- A path 0 - 1 - 2 of weight zero. -/
def zeroOps : List (Op ℕ ℤ) := [Op.addEdges [(0, 1, 0), (1, 2, 0)]]

/-- An order of iteration in which 2 comes before 1. -/
def downOrd (S : Finset ℕ) : List ℕ := if S ⊆ {0, 1, 2} then [2, 1, 0].filter (fun x => x ∈ S) else S.sort (· ≤ ·)

theorem downOrd_spec (S : Finset ℕ) : (downOrd S).Nodup ∧ ∀ x, x ∈ downOrd S ↔ x ∈ S := by
  rw [downOrd]
  split_ifs with h
  · refine ⟨List.Nodup.filter _ (by decide), fun x => ?_⟩
    rw [List.mem_filter, decide_eq_true_eq]
    refine ⟨And.right, fun hx => ⟨?_, hx⟩⟩
    have := h hx
    simp only [Finset.mem_insert, Finset.mem_singleton] at this
    simp only [List.mem_cons, List.not_mem_nil, or_false]
    omega
  · exact ⟨S.sort_nodup _, fun x => Finset.mem_sort _⟩

/-- C106: with weights that are zero the loop of `minimum_cost_paths_heuristic` may not end: a terminal inside of a path to
another one stays in `terminal_set`.  The documentation asks for positive weights. -/
theorem C106_zero_weights : minimumCostPathsHeuristic downOrd 1 (history zeroOps) [0, 1, 2] = none := by
  have d0 : dijkstra (history zeroOps) 0 = some (.ok
      ([(0, ((0 : ℤ) : WithTop ℤ)), (1, ((0 : ℤ) : WithTop ℤ)), (2, ((0 : ℤ) : WithTop ℤ))], [(0, none), (1, some 0), (2, some 1)])) := by
    rw [dijkstra, if_neg (by decide +kernel)]
    exact dijkstraLoop_of_fuel _ 20 _ _ _ _ _ (by decide +kernel)
  have d1 : dijkstra (history zeroOps) 1 = some (.ok
      ([(0, ((0 : ℤ) : WithTop ℤ)), (1, ((0 : ℤ) : WithTop ℤ)), (2, ((0 : ℤ) : WithTop ℤ))], [(0, some 1), (1, none), (2, some 1)])) := by
    rw [dijkstra, if_neg (by decide +kernel)]
    exact dijkstraLoop_of_fuel _ 20 _ _ _ _ _ (by decide +kernel)
  have d2 : dijkstra (history zeroOps) 2 = some (.ok
      ([(0, ((0 : ℤ) : WithTop ℤ)), (1, ((0 : ℤ) : WithTop ℤ)), (2, ((0 : ℤ) : WithTop ℤ))], [(0, some 1), (1, some 2), (2, none)])) := by
    rw [dijkstra, if_neg (by decide +kernel)]
    exact dijkstraLoop_of_fuel _ 20 _ _ _ _ _ (by decide +kernel)
  have htrace : ∀ es S, tracePath [(0, [(0, none), (1, some 0), (2, some 1)]), (1, [(0, some 1), (1, none), (2, some 1)]),
      (2, [(0, some 1), (1, some 2), (2, none)])] 2 (some 1) 0 es S =
      some (.ok (es ++ [(0, 1)] ++ [(1, 2)], insert 2 (insert (1 : ℕ) S))) := by
    intro es S
    rw [tracePath.eq_def]
    dsimp only
    rw [show look [((0 : ℕ), [((0 : ℕ), (none : Option ℕ)), (1, some 0), (2, some 1)]), (1, [(0, some 1), (1, none), (2, some 1)]),
      (2, [(0, some 1), (1, some 2), (2, none)])] 2 1 = .ok (some 2) from rfl]
    dsimp only
    rw [tracePath.eq_def]
    dsimp only
    rw [show look [((0 : ℕ), [((0 : ℕ), (none : Option ℕ)), (1, some 0), (2, some 1)]), (1, [(0, some 1), (1, none), (2, some 1)]),
      (2, [(0, some 1), (1, some 2), (2, none)])] 2 2 = .ok none from rfl]
    dsimp only
    rw [tracePath.eq_def]
    rfl
  rw [minimumCostPathsHeuristic, shortest, d0]
  dsimp only
  rw [shortest, d1]
  dsimp only
  rw [shortest, d2]
  dsimp only
  rw [shortest]
  dsimp only
  rw [rootsLoop]
  have hg : growLoop downOrd
      [((0 : ℕ), [((0 : ℕ), ((0 : ℤ) : WithTop ℤ)), (1, ((0 : ℤ) : WithTop ℤ)), (2, ((0 : ℤ) : WithTop ℤ))]),
       (1, [(0, ((0 : ℤ) : WithTop ℤ)), (1, ((0 : ℤ) : WithTop ℤ)), (2, ((0 : ℤ) : WithTop ℤ))]),
       (2, [(0, ((0 : ℤ) : WithTop ℤ)), (1, ((0 : ℤ) : WithTop ℤ)), (2, ((0 : ℤ) : WithTop ℤ))])]
      [(0, [(0, none), (1, some 0), (2, some 1)]), (1, [(0, some 1), (1, none), (2, some 1)]),
      (2, [(0, some 1), (1, some 2), (2, none)])] [] {0} (([0, 1, 2] : List ℕ).toFinset.erase 0) none = none := by
    rw [growLoop.eq_def, if_neg (by decide +kernel)]
    rw [show closest [((0 : ℕ), [((0 : ℕ), ((0 : ℤ) : WithTop ℤ)), (1, ((0 : ℤ) : WithTop ℤ)), (2, ((0 : ℤ) : WithTop ℤ))]),
       (1, [(0, ((0 : ℤ) : WithTop ℤ)), (1, ((0 : ℤ) : WithTop ℤ)), (2, ((0 : ℤ) : WithTop ℤ))]),
       (2, [(0, ((0 : ℤ) : WithTop ℤ)), (1, ((0 : ℤ) : WithTop ℤ)), (2, ((0 : ℤ) : WithTop ℤ))])]
       (downOrd {0}) (downOrd (([0, 1, 2] : List ℕ).toFinset.erase 0 \ {0})) ⊤ none =
       .ok (((0 : ℤ) : WithTop ℤ), some (2, 0)) by decide +kernel]
    dsimp only
    rw [show look [((0 : ℕ), [((0 : ℕ), (none : Option ℕ)), (1, some 0), (2, some 1)]), (1, [(0, some 1), (1, none), (2, some 1)]),
      (2, [(0, some 1), (1, some 2), (2, none)])] 2 0 = .ok (some 1) from rfl]
    dsimp only
    rw [htrace]
    dsimp only
    exact grow_stale downOrd_spec (a := some 1) (by decide +kernel) (by decide +kernel) (by decide +kernel) (by decide +kernel) rfl
      (fun es => ⟨_, by rw [htrace]; congr 3⟩) _
  rw [show Dict.set (Dict.set (Dict.set [] 0 [((0 : ℕ), ((0 : ℤ) : WithTop ℤ)), (1, ((0 : ℤ) : WithTop ℤ)), (2, ((0 : ℤ) : WithTop ℤ))])
    1 [((0 : ℕ), ((0 : ℤ) : WithTop ℤ)), (1, ((0 : ℤ) : WithTop ℤ)), (2, ((0 : ℤ) : WithTop ℤ))])
    (2 : ℕ) [((0 : ℕ), ((0 : ℤ) : WithTop ℤ)), (1, ((0 : ℤ) : WithTop ℤ)), (2, ((0 : ℤ) : WithTop ℤ))] = _ from rfl,
    show Dict.set (Dict.set (Dict.set [] 0 [((0 : ℕ), (none : Option ℕ)), (1, some 0), (2, some 1)]) 1 [(0, some 1), (1, none), (2, some 1)])
      (2 : ℕ) [(0, some 1), (1, some 2), (2, none)] = _ from rfl]
  erw [hg]

/-- The hypotheses of `C106_disconnected`: an isolated terminal. -/
example {ord : Finset ℕ → List ℕ} (hord : ∀ S, (ord S).Nodup ∧ ∀ x, x ∈ ord S ↔ x ∈ S) :
    minimumCostPathsHeuristic ord 1 (history [Op.addEdge 0 1 (2 : ℤ), Op.addVertex 7]) [7, 1] = some (.error .unboundLocalError) := by
  have hno : ¬ Reach (EdgeOf [Op.addEdge 0 1 (2 : ℤ), Op.addVertex 7]) 7 1 := by
    rintro ⟨n, hn⟩
    have : ∀ n b, Steps (EdgeOf [Op.addEdge 0 1 (2 : ℤ), Op.addVertex 7]) n 7 b → b = 7 := by
      intro n
      induction n with
      | zero => intro b h; cases h; rfl
      | succ n ih =>
        intro b h
        cases h with
        | succ h1 he =>
          obtain ⟨w, hw⟩ := he
          rw [ih _ h1] at hw
          exact absurd hw (by
            have : ∀ v, (toAbs (history [Op.addEdge 0 1 (2 : ℤ), Op.addVertex 7])).weight 7 v = none := fun v => rfl
            rw [this]; simp)
    exact absurd (this n 1 hn) (by decide)
  refine (C106_disconnected hord 1 [Op.addEdge 0 1 (2 : ℤ), Op.addVertex 7] ?_ 7 [1]
    (show ∀ u ∈ [7, 1], u ∈ Dict.keys (history [Op.addEdge 0 1 (2 : ℤ), Op.addVertex 7]) by decide +kernel) 1 (by decide) hno).2 ?_
  · intro u v x h
    obtain ⟨N, hN, hx⟩ : ∃ N, Dict.get? (history [Op.addEdge 0 1 (2 : ℤ), Op.addVertex 7]) u = some N ∧ Dict.get? N v = some x := by
      change adj (history [Op.addEdge 0 1 (2 : ℤ), Op.addVertex 7]) u v = some x at h
      rw [adj] at h
      cases e : Dict.get? (history [Op.addEdge 0 1 (2 : ℤ), Op.addVertex 7]) u with
      | none => rw [e] at h; simp at h
      | some N => rw [e] at h; exact ⟨N, rfl, h⟩
    have : ∀ e ∈ history [Op.addEdge 0 1 (2 : ℤ), Op.addVertex 7], ∀ f ∈ e.2, 0 ≤ f.2 := by decide +kernel
    exact this _ (Dict.mem_of_get? hN) _ (Dict.mem_of_get? hx)
  · intro t ht _
    rw [List.mem_singleton.1 ht]
    exact hno

end Rosemary.Props
