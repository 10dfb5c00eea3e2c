import Verif.Props.Graph
import Verif.Lemmas.Kruskal

/-!
# Properties of the spanning tree functions (C70)
-/

namespace Rosemary.Props

open Rosemary.Graph Rosemary.SpanningTrees Rosemary.Spec Rosemary.Paths

variable {V W : Type} [LinearOrder V] [AddCommMonoid W] [LinearOrder W] [IsOrderedCancelAddMonoid W]

/-- There is an edge between the vertices. -/
def EdgeOf (ops : List (Op V W)) (a b : V) : Prop := ∃ w, (toAbs (history ops)).weight a b = some w

omit [AddCommMonoid W] [LinearOrder W] [IsOrderedCancelAddMonoid W] in
theorem exists_component (ops : List (Op V W)) {s : V} (hs : s ∈ (toAbs (history ops)).verts) :
    ∃ C : Finset V, ∀ v, v ∈ C ↔ Reach (EdgeOf ops) s v := by
  classical
  refine ⟨(vertexSet (history ops)).filter (fun v => Reach (EdgeOf ops) s v), fun v => ?_⟩
  rw [Finset.mem_filter]
  refine ⟨fun h => h.2, fun h => ⟨?_, h⟩⟩
  obtain ⟨n, hn⟩ := h
  cases hn with
  | zero => exact Graph.mem_vertexSet.2 hs
  | succ _ he =>
    obtain ⟨w, hw⟩ := he
    exact Graph.mem_vertexSet.2 ((history_spec ops).1.mem_right hw)

/-- C70: `prim(graph, root)` returns a minimum spanning tree of the component of the root: its weight, and its edges as
increasing pairs in increasing order. -/
theorem C70_prim (ops : List (Op V W)) (s : V) (hs : s ∈ (toAbs (history ops)).verts) :
    ∃ total edges, prim (history ops) (some s) = some (.ok (total, edges)) ∧
      edges.Pairwise (fun a b => toLex a < toLex b) ∧ total = totalWeight (toAbs (history ops)).weight edges.toFinset ∧
      ∃ C : Finset V, (∀ v, v ∈ C ↔ Reach (EdgeOf ops) s v) ∧ MinSpanningTree (toAbs (history ops)).weight C edges.toFinset := by
  obtain ⟨C, hC⟩ := exists_component ops hs
  obtain ⟨P, h1, h2, h3, -⟩ := prim_spec (history_spec ops).1 hs (C := C) hC
  obtain ⟨k1, k2⟩ := sortPairs_spec h2
  refine ⟨_, sortPairs (linkEdges P), by rw [prim, h1]; rfl, k1, by rw [k2]; rfl, C, hC, by rw [k2]; exact h3⟩

/-- C70: `prim(graph, root, edge_list=False)` returns the weight and a dictionary with an entry for every vertex: no
predecessor for the root and the vertices outside of its component, a neighbour for all others, and these links are a
minimum spanning tree of the component. -/
theorem C70_prim_links (ops : List (Op V W)) (s : V) (hs : s ∈ (toAbs (history ops)).verts) :
    ∃ total P, primLinks (history ops) (some s) = some (.ok (total, P)) ∧
      ∃ C : Finset V, (∀ v, v ∈ C ↔ Reach (EdgeOf ops) s v) ∧
      (∀ v, v ∈ (toAbs (history ops)).verts ↔ ∃ d, Dict.get? P v = some d) ∧
      (∀ v ∈ (toAbs (history ops)).verts, Dict.get? P v = some none ↔ v = s ∨ v ∉ C) ∧
      ∃ T : Finset (V × V), MinSpanningTree (toAbs (history ops)).weight C T ∧ total = totalWeight (toAbs (history ops)).weight T ∧
        ∀ a b, (a, b) ∈ T ↔ a < b ∧ (Dict.get? P a = some (some b) ∨ Dict.get? P b = some (some a)) := by
  obtain ⟨C, hC⟩ := exists_component ops hs
  have hg := (history_spec ops).1
  obtain ⟨P, h1, h2, h3, h4, h5, h6, h7⟩ := prim_spec hg hs (C := C) hC
  have hkeys : ∀ v, v ∈ (toAbs (history ops)).verts ↔ ∃ d, Dict.get? P v = some d := by
    intro v; rw [Dict.get?_isSome, h4]; exact Iff.rfl
  have hPwf : Dict.WF P := by
    show (Dict.keys P).Nodup
    rw [h4]; exact hg.wf
  have hmem : ∀ e, e ∈ (linkEdges P).toFinset ↔ ∃ u v, Dict.get? P u = some (some v) ∧ e = pair u v := by
    intro e
    rw [List.mem_toFinset, linkEdges, List.mem_filterMap]
    constructor
    · rintro ⟨⟨u, o⟩, k2, k3⟩
      cases o with
      | none => simp at k3
      | some v =>
        simp only [Option.map_some, Option.some.injEq] at k3
        exact ⟨u, v, Dict.get?_of_mem hPwf k2, k3.symm⟩
    · rintro ⟨u, v, k1, rfl⟩
      exact ⟨(u, some v), Dict.mem_of_get? k1, rfl⟩
  have hne : ∀ u v, Dict.get? P u = some (some v) → u ≠ v := by
    rintro u v hP rfl
    have := (h3.tree.edge _ _ ((hmem (pair u u)).2 ⟨u, u, hP, rfl⟩)).1
    rw [min_self, max_self] at this
    exact lt_irrefl _ this
  refine ⟨_, P, by rw [primLinks, h1]; rfl, C, hC, hkeys, fun v hv => ⟨fun hn => ?_, ?_⟩, (linkEdges P).toFinset, h3, rfl, fun a b => ?_⟩
  · -- every other vertex of the component has a link, for the number of edges is one less than that of the vertices
    by_contra hno
    push Not at hno
    obtain ⟨hvs, hvC⟩ := hno
    have hlen : (linkEdges P).length ≤ ((C.erase s).erase v).card := by
      have e1 : (linkEdges P).length = ((P.filter (fun e => e.2.isSome)).map Prod.fst).length := by
        rw [List.length_map, linkEdges]
        generalize P = Q
        induction Q with
        | nil => rfl
        | cons e Q ih =>
          obtain ⟨u, o⟩ := e
          cases o with
          | none => simpa using ih
          | some v => simpa using ih
      have e2 : ((P.filter (fun e => e.2.isSome)).map Prod.fst).Nodup :=
        List.Nodup.sublist (List.Sublist.map _ List.filter_sublist) hPwf
      rw [e1, ← List.toFinset_card_of_nodup e2]
      refine Finset.card_le_card (fun x hx => ?_)
      rw [List.mem_toFinset, List.mem_map] at hx
      obtain ⟨⟨a, o⟩, k2, rfl⟩ := hx
      obtain ⟨k3, k4⟩ := List.mem_filter.1 k2
      have k5 := Dict.get?_of_mem hPwf k3
      cases o with
      | none => simp at k4
      | some u =>
        refine Finset.mem_erase.2 ⟨?_, Finset.mem_erase.2 ⟨?_, ?_⟩⟩
        · rintro rfl; rw [hn] at k5; simp at k5
        · rintro rfl; rw [h5] at k5; simp at k5
        · by_contra hno
          rw [h6 a ((hkeys a).2 ⟨_, k5⟩) hno] at k5; simp at k5
    have hsC : s ∈ C := (hC s).2 (Reach.refl _ s)
    have hc1 := Finset.card_erase_add_one (Finset.mem_erase.2 ⟨hvs, hvC⟩)
    have hc2 := Finset.card_erase_add_one hsC
    have hc3 := h3.tree.card
    rw [List.toFinset_card_of_nodup h2] at hc3
    omega
  · rintro (rfl | hvC)
    · exact h5
    · exact h6 v hv hvC
  · rw [hmem]
    constructor
    · rintro ⟨u, v, hP, he⟩
      rcases pair_cases (hne u v hP) with ⟨k1, k2⟩ | ⟨k1, k2⟩ <;> rw [k2] at he <;> injection he with e1 e2 <;> subst e1 e2
      · exact ⟨k1, Or.inl hP⟩
      · exact ⟨k1, Or.inr hP⟩
    · rintro ⟨hab, hP | hP⟩
      · exact ⟨a, b, hP, by rw [pair, min_eq_left hab.le, max_eq_right hab.le]⟩
      · exact ⟨b, a, hP, by rw [pair, min_eq_right hab.le, max_eq_left hab.le]⟩

omit [IsOrderedCancelAddMonoid W] in
/-- C70: without a root `prim` starts at a vertex of the graph, and raises StopIteration if there is none; a root that is
not a vertex raises a KeyError. -/
theorem C70_prim_root (ops : List (Op V W)) :
    ((toAbs (history ops)).verts = ∅ → prim (history ops) none = some (.error .stopIteration)) ∧
    ((toAbs (history ops)).verts ≠ ∅ → ∃ s ∈ (toAbs (history ops)).verts, prim (history ops) none = prim (history ops) (some s)) ∧
    ∀ s, s ∉ (toAbs (history ops)).verts → prim (history ops) (some s) = some (.error .keyError) := by
  have hm : ∀ v, v ∈ (toAbs (history ops)).verts ↔ v ∈ Dict.keys (history ops) := fun v => Iff.rfl
  refine ⟨fun h => ?_, fun h => ?_, fun s hs => ?_⟩
  · have h0 : Dict.keys (history ops) = [] := by
      rw [List.eq_nil_iff_forall_not_mem]
      intro v hv
      have : v ∈ (toAbs (history ops)).verts := hv
      rw [h] at this
      exact this
    rw [prim, primCore, primRoot, h0]
    rfl
  · cases h0 : Dict.keys (history ops) with
    | nil =>
      exfalso
      apply h
      rw [Set.eq_empty_iff_forall_notMem]
      intro v hv
      rw [hm, h0] at hv
      simp at hv
    | cons u us =>
      refine ⟨u, by rw [hm, h0]; exact List.mem_cons_self, ?_⟩
      rw [prim, prim, primCore, primCore, primRoot, primRoot, h0]
  · rw [prim, primCore, primRoot]
    dsimp only
    rw [primLoop.eq_def]
    have hpop : popMin key2 [((0 : W), s)] = some ((0, s), []) := rfl
    have hN : Dict.get? (history ops) s = none := Dict.get?_eq_none.2 hs
    rw [hpop]
    dsimp only
    rw [if_neg (Finset.notMem_empty s), hN]
    rfl

/-- C70: on a connected graph `kruskal` returns a minimum spanning tree: its weight, and its edges as increasing pairs in
increasing order. -/
theorem C70_kruskal (ops : List (Op V W)) (hne : (toAbs (history ops)).verts ≠ ∅)
    (hc : ∀ u ∈ (toAbs (history ops)).verts, ∀ v ∈ (toAbs (history ops)).verts, Reach (EdgeOf ops) u v) :
    ∃ total edges, kruskal (history ops) = some (.ok (total, edges)) ∧
      edges.Pairwise (fun a b => toLex a < toLex b) ∧ total = totalWeight (toAbs (history ops)).weight edges.toFinset ∧
      ∃ C : Finset V, (∀ v, v ∈ C ↔ v ∈ (toAbs (history ops)).verts) ∧
        MinSpanningTree (toAbs (history ops)).weight C edges.toFinset := by
  rcases kruskal_spec (history_spec ops).1 with ⟨t, h1, h2, h3⟩ | ⟨-, h2⟩
  · obtain ⟨k1, k2⟩ := sortPairs_spec h2
    refine ⟨_, sortPairs t, h1, k1, by rw [k2]; rfl, vertexSet (history ops), fun v => Graph.mem_vertexSet, ?_⟩
    rw [k2]
    rcases h3 with ⟨h3, -⟩ | h3
    · exfalso
      apply hne
      rw [Set.eq_empty_iff_forall_notMem]
      intro v hv
      have : v ∈ vertexSet (history ops) := Graph.mem_vertexSet.2 hv
      rw [h3] at this
      simp at this
    · exact h3
  · exact absurd (fun u v hu hv => hc u hu v hv) h2

/-- C70, against the documentation ("In the case that the graph is not connected, it returns a list of the edges of a minimum
spanning tree for each connected component"): on a graph that is not connected `kruskal` raises an IndexError. -/
theorem C70_kruskal_disconnected (ops : List (Op V W))
    (hc : ¬ ∀ u ∈ (toAbs (history ops)).verts, ∀ v ∈ (toAbs (history ops)).verts, Reach (EdgeOf ops) u v) :
    kruskal (history ops) = some (.error .indexError) := by
  have hg := (history_spec ops).1
  rcases kruskal_spec hg with ⟨t, -, -, h3⟩ | ⟨h1, -⟩
  · exfalso
    apply hc
    intro u hu v hv
    have hu' : u ∈ vertexSet (history ops) := Graph.mem_vertexSet.2 hu
    have hv' : v ∈ vertexSet (history ops) := Graph.mem_vertexSet.2 hv
    rcases h3 with ⟨h3, -⟩ | h3
    · rw [h3] at hu'; simp at hu'
    · have hj := h3.tree.joined u hu' v hv'
      clear hu hv hu' hv'
      have hsymm : ∀ a b, EdgeOf ops a b → EdgeOf ops b a := by
        rintro a b ⟨w, hw⟩
        exact ⟨w, by rw [← hw]; exact hg.symm b a⟩
      induction hj with
      | rel a b hab => exact (Reach.refl _ a).step (h3.tree.edge a b hab).2.2.2
      | refl a => exact Reach.refl _ a
      | symm a b _ ih => exact ih.symm hsymm
      | trans a b c _ _ ih1 ih2 => exact ih1.trans ih2
  · exact h1

/-! ## Examples -/

/-- With fuel, for examples. -/
def primLoopN (g : Graph V W) : ℕ → Dict V (WithTop W) → Dict V (Option V) → List (W × V) → Finset V →
    Option (Except PyErr (Dict V (Option V)))
  | 0, _, _, _, _ => none
  | fuel + 1, D, P, H, vis =>
    match popMin key2 H with
    | none => some (.ok P)
    | some ((_, u), H) =>
      if u ∈ vis then primLoopN g fuel D P H vis
      else
        match Dict.get? g u with
        | none => some (.error .keyError)
        | some N =>
          match primRelax u (insert u vis) N D P H with
          | .error e => some (.error e)
          | .ok (D, P, H) => primLoopN g fuel D P H (insert u vis)

omit [AddCommMonoid W] [IsOrderedCancelAddMonoid W] in
theorem primLoop_of_fuel (g : Graph V W) (fuel : ℕ) (D : Dict V (WithTop W)) (P : Dict V (Option V)) (H : List (W × V))
    (vis : Finset V) (r) (h : primLoopN g fuel D P H vis = some r) : primLoop g D P H vis = some r := by
  induction fuel generalizing D P H vis r with
  | zero => simp [primLoopN] at h
  | succ fuel ih =>
    rw [primLoop.eq_def]
    rw [primLoopN] at h
    split at h <;> rename_i e <;> rw [e] <;> dsimp only
    · exact h
    · split_ifs at h ⊢
      · exact ih _ _ _ _ _ h
      · split at h <;> rename_i e2 <;> rw [e2] <;> dsimp only
        · exact h
        · split at h <;> rename_i e3 <;> rw [e3] <;> dsimp only
          · exact h
          · exact ih _ _ _ _ _ h

/-- The graph of the docstring (spanning_trees.py:71-74), with a loop and a negative weight added. -/
def treeOps : List (Op ℕ ℤ) :=
  [.addEdges [(0, 1, 5), (0, 2, 6), (0, 3, 4), (1, 2, 1), (1, 3, 2), (2, 3, 2), (2, 4, 5), (2, 5, 3), (3, 5, 4), (4, 5, -4)],
   .addEdge 3 3 (-7)]

example : prim (history treeOps) none = some (.ok (6, [(0, 3), (1, 2), (1, 3), (2, 5), (4, 5)])) := by
  have h : primLoop (history treeOps) (Dict.set ((history treeOps).map (fun e => (e.1, ⊤))) 0 ((0 : ℤ) : WithTop ℤ))
      ((history treeOps).map (fun e => (e.1, none))) [(0, 0)] ∅ =
      some (.ok [(0, none), (1, some 3), (2, some 1), (3, some 0), (4, some 5), (5, some 2)]) :=
    primLoop_of_fuel _ 30 _ _ _ _ _ (by decide +kernel)
  have hr : primRoot (history treeOps) none = .ok 0 := by decide +kernel
  rw [prim, primCore, hr]
  dsimp only
  rw [h]
  decide +kernel

/-- A graph that is not connected. -/
example : kruskal (history [Op.addEdge 0 1 (2 : ℤ), Op.addVertex 7]) = some (.error .indexError) := by
  apply C70_kruskal_disconnected
  intro h
  obtain ⟨n, hn⟩ := h 0 (show 0 ∈ Dict.keys (history [Op.addEdge 0 1 (2 : ℤ), Op.addVertex 7]) by decide +kernel)
    7 (show 7 ∈ Dict.keys (history [Op.addEdge 0 1 (2 : ℤ), Op.addVertex 7]) by decide +kernel)
  cases hn with
  | succ _ he =>
    obtain ⟨w, hw⟩ := he
    have : ∀ v, (toAbs (history [Op.addEdge 0 1 (2 : ℤ), Op.addVertex 7])).weight 7 v = none := fun v => rfl
    have hs := (history_spec [Op.addEdge 0 1 (2 : ℤ), Op.addVertex 7]).1.symm
    rename_i v _
    have h7 := (hs v 7).symm.trans hw
    exact absurd ((this v).symm.trans h7) (by simp)

end Rosemary.Props
