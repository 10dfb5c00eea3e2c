import Verif.Lemmas.CheritonTarjan
import Verif.Props.SpanningTrees

/-!
# Properties of `cheriton_tarjan` (C107)
-/

namespace Rosemary.Props

open Rosemary.Graph Rosemary.SpanningTrees Rosemary.Spec Rosemary.Paths

variable {V W : Type} [LinearOrder V] [AddCommMonoid W] [LinearOrder W] [IsOrderedCancelAddMonoid W]

omit [AddCommMonoid W] [LinearOrder W] [IsOrderedCancelAddMonoid W] in
theorem two_le_entries (ops : List (Op V W)) (u : V) (N : Dict V W) (hN : Dict.get? (history ops) u = some N) :
    2 ≤ N.length ↔ ∃ a b, a ≠ b ∧ EdgeOf ops u a ∧ EdgeOf ops u b := by
  have hwf : (Dict.keys N).Nodup := (history_spec ops).1.inner u N hN
  have hE : ∀ a, EdgeOf ops u a ↔ a ∈ Dict.keys N := by
    intro a
    rw [← Dict.get?_isSome]
    refine exists_congr (fun w => ?_)
    show adj (history ops) u a = some w ↔ _
    rw [adj, hN]
    exact Iff.rfl
  have hl : N.length = (Dict.keys N).toFinset.card := by
    rw [List.toFinset_card_of_nodup hwf, Dict.keys, List.length_map]
  rw [hl, show 2 ≤ (Dict.keys N).toFinset.card ↔ 1 < (Dict.keys N).toFinset.card from Iff.rfl, Finset.one_lt_card]
  constructor
  · rintro ⟨a, ha, b, hb, hab⟩
    exact ⟨a, b, hab, (hE a).2 (List.mem_toFinset.1 ha), (hE b).2 (List.mem_toFinset.1 hb)⟩
  · rintro ⟨a, b, hab, ha, hb⟩
    exact ⟨a, List.mem_toFinset.2 ((hE a).1 ha), b, List.mem_toFinset.2 ((hE b).1 hb), hab⟩

/-- C107: on a connected graph in which every vertex has at least two neighbours `cheriton_tarjan` returns a minimum spanning
tree, whatever `choice` returns: its weight, and its edges as increasing pairs in increasing order.

The full claim, for all connected graphs, is false: see `C107_small_degree_violation`. -/
theorem C107_cheriton_tarjan_partial {ch : ℕ → List V → V} (hch : ∀ i l, l ≠ [] → ch i l ∈ l) (ops : List (Op V W))
    (hne : (toAbs (history ops)).verts ≠ ∅)
    (hdeg : ∀ u ∈ (toAbs (history ops)).verts, ∃ a b, a ≠ b ∧ EdgeOf ops u a ∧ EdgeOf ops u b)
    (hc : ∀ u ∈ (toAbs (history ops)).verts, ∀ v ∈ (toAbs (history ops)).verts, Reach (EdgeOf ops) u v) :
    ∃ total edges, cheritonTarjan ch (history ops) = some (.ok (total, edges)) ∧
      edges.Pairwise (fun a b => toLex a < toLex b) ∧ total = totalWeight (toAbs (history ops)).weight edges.toFinset ∧
      ∃ C : Finset V, (∀ v, v ∈ C ↔ v ∈ (toAbs (history ops)).verts) ∧
        MinSpanningTree (toAbs (history ops)).weight C edges.toFinset := by
  have hne' : vertexSet (history ops) ≠ ∅ := by
    intro h3
    apply hne
    rw [Set.eq_empty_iff_forall_notMem]
    intro v hv
    have : v ∈ vertexSet (history ops) := Graph.mem_vertexSet.2 hv
    rw [h3] at this
    simp at this
  rcases cheritonTarjan_spec (history_spec ops).1 hch hne' (fun u N hN => (two_le_entries ops u N hN).2
    (hdeg u (Dict.get?_isSome.1 ⟨N, hN⟩))) with ⟨t, h1, h2, h3⟩ | ⟨-, h2⟩
  · obtain ⟨k1, k2⟩ := sortPairs_spec h2
    refine ⟨_, sortPairs t, h1, k1, by rw [k2]; rfl, vertexSet (history ops), fun v => Graph.mem_vertexSet, ?_⟩
    rw [k2]
    exact h3
  · exact absurd (fun u v hu hv => hc u hu v hv) h2

/-- C107 (violation): if some vertex has fewer than two neighbours (in every tree, for example), `cheriton_tarjan` raises an
UnboundLocalError, since a `LeftistHeap` cannot be made from fewer than two values. -/
theorem C107_small_degree_violation (ch : ℕ → List V → V) (ops : List (Op V W)) (u : V) (hu : u ∈ (toAbs (history ops)).verts)
    (hd : ¬ ∃ a b, a ≠ b ∧ EdgeOf ops u a ∧ EdgeOf ops u b) :
    cheritonTarjan ch (history ops) = some (.error .unboundLocalError) := by
  obtain ⟨N, hN⟩ := Dict.get?_isSome.2 (show u ∈ Dict.keys (history ops) from hu)
  rw [← two_le_entries ops u N hN] at hd
  rw [cheritonTarjan, ctQueues_error (vertices (history ops)) [] (fun v hv => SpanningTrees.mem_vertices.1 hv)
    (SpanningTrees.mem_vertices.2 hu) hN (by omega)]

/-- C107 (violation): against the documentation ("In the case that the graph is not connected, it returns a list of the edges
of a minimum spanning tree for each connected component") the call raises a TypeError when the graph is not connected and
every vertex has two neighbours. -/
theorem C107_disconnected_violation {ch : ℕ → List V → V} (hch : ∀ i l, l ≠ [] → ch i l ∈ l) (ops : List (Op V W))
    (hdeg : ∀ u ∈ (toAbs (history ops)).verts, ∃ a b, a ≠ b ∧ EdgeOf ops u a ∧ EdgeOf ops u b)
    (hc : ¬ ∀ u ∈ (toAbs (history ops)).verts, ∀ v ∈ (toAbs (history ops)).verts, Reach (EdgeOf ops) u v) :
    cheritonTarjan ch (history ops) = some (.error .typeError) := by
  have hg := (history_spec ops).1
  have hne' : vertexSet (history ops) ≠ ∅ := by
    intro h3
    apply hc
    intro u hu
    have : u ∈ vertexSet (history ops) := Graph.mem_vertexSet.2 hu
    rw [h3] at this
    simp at this
  rcases cheritonTarjan_spec hg hch hne' (fun u N hN => (two_le_entries ops u N hN).2
    (hdeg u (Dict.get?_isSome.1 ⟨N, hN⟩))) with ⟨t, -, -, h3⟩ | ⟨h1, -⟩
  · exfalso
    apply hc
    intro u hu v hv
    have hj := h3.tree.joined u (Graph.mem_vertexSet.2 hu) v (Graph.mem_vertexSet.2 hv)
    clear hu hv
    have hsymm : ∀ a b, EdgeOf ops a b → EdgeOf ops b a := by
      rintro a b ⟨w, hw⟩
      exact ⟨w, by rw [← hw]; exact hg.symm b a⟩
    induction hj with
    | rel a b hab => exact (Reach.refl _ a).step (h3.tree.edge a b hab).2.2.2
    | refl a => exact Reach.refl _ a
    | symm a b _ ih => exact ih.symm hsymm
    | trans a b c _ _ ih1 ih2 => exact ih1.trans ih2
  · exact h1

omit [IsOrderedCancelAddMonoid W] in
/-- C107: the graph without vertices gives the weight 0 and no edges. -/
theorem C107_no_vertices (ch : ℕ → List V → V) : cheritonTarjan ch ([] : Graph V W) = some (.ok (0, [])) := by
  rw [cheritonTarjan, show vertices ([] : Graph V W) = [] from rfl, ctQueues]
  dsimp only
  rw [ctLoop.eq_def, if_neg (by simp)]
  rfl

/-! ## Examples -/

/-- A complete graph with a cheap star. -/
def fullOps : List (Op ℕ ℤ) := [Op.addEdges [(0, 1, 2), (0, 2, -2), (0, 3, 2), (1, 2, 3), (2, 3, 3), (1, 3, 3)]]

theorem fullOps_edge : ∀ u ∈ (toAbs (history fullOps)).verts, u ≠ 0 → EdgeOf fullOps u 0 ∧ EdgeOf fullOps 0 u := by
  intro u hu h0
  have h1 : ∀ u ∈ Dict.keys (history fullOps), u ≠ 0 → (adj (history fullOps) u 0).isSome ∧ (adj (history fullOps) 0 u).isSome := by
    decide +kernel
  obtain ⟨h2, h3⟩ := h1 u hu h0
  exact ⟨Option.isSome_iff_exists.1 h2, Option.isSome_iff_exists.1 h3⟩

theorem fullOps_tree : SpanningTree (toAbs (history fullOps)).weight {0, 1, 2, 3} {(0, 1), (0, 2), (0, 3)} := by
  refine ⟨fun u v h => ?_, ?_, rfl⟩
  · have : ∀ e ∈ ({(0, 1), (0, 2), (0, 3)} : Finset (ℕ × ℕ)), e.1 < e.2 ∧ e.1 ∈ ({0, 1, 2, 3} : Finset ℕ) ∧
        e.2 ∈ ({0, 1, 2, 3} : Finset ℕ) ∧ (adj (history fullOps) e.1 e.2).isSome := by decide +kernel
    obtain ⟨h1, h2, h3, h4⟩ := this (u, v) h
    exact ⟨h1, h2, h3, Option.isSome_iff_exists.1 h4⟩
  · have h0 : ∀ u ∈ ({0, 1, 2, 3} : Finset ℕ), Joined ({(0, 1), (0, 2), (0, 3)} : Finset (ℕ × ℕ)) 0 u := by
      intro u hu
      have : ∀ u ∈ ({0, 1, 2, 3} : Finset ℕ), u = 0 ∨ (0, u) ∈ ({(0, 1), (0, 2), (0, 3)} : Finset (ℕ × ℕ)) := by decide +kernel
      rcases this u hu with rfl | h
      · exact Joined.refl _ _
      · exact Joined.of_mem h
    exact fun u hu v hv => (h0 u hu).symm.trans (h0 v hv)

example {ch : ℕ → List ℕ → ℕ} (hch : ∀ i l, l ≠ [] → ch i l ∈ l) :
    ∃ total edges, cheritonTarjan ch (history fullOps) = some (.ok (total, edges)) ∧ total ≤ 2 := by
  obtain ⟨total, edges, h1, -, h2, C, h3, h4⟩ := C107_cheriton_tarjan_partial hch fullOps
    (fun h => by
      have : (0 : ℕ) ∈ (toAbs (history fullOps)).verts := show 0 ∈ Dict.keys (history fullOps) by decide +kernel
      rw [h] at this
      exact this)
    (fun u hu => by
      have h1 : ∀ u ∈ Dict.keys (history fullOps), ∃ a < 4, ∃ b < 4, a ≠ b ∧ (adj (history fullOps) u a).isSome ∧
        (adj (history fullOps) u b).isSome := by decide +kernel
      obtain ⟨a, -, b, -, hab, ha, hb⟩ := h1 u hu
      exact ⟨a, b, hab, Option.isSome_iff_exists.1 ha, Option.isSome_iff_exists.1 hb⟩)
    (fun u hu v hv => by
      have hu0 : Reach (EdgeOf fullOps) u 0 := by
        by_cases e : u = 0
        · rw [e]; exact Reach.refl _ _
        · exact (Reach.refl _ u).step (fullOps_edge u hu e).1
      have h0v : Reach (EdgeOf fullOps) 0 v := by
        by_cases e : v = 0
        · rw [e]; exact Reach.refl _ _
        · exact (Reach.refl _ 0).step (fullOps_edge v hv e).2
      exact hu0.trans h0v)
  refine ⟨total, edges, h1, ?_⟩
  have hC : C = {0, 1, 2, 3} := by
    ext v
    rw [h3]
    show v ∈ Dict.keys (history fullOps) ↔ _
    rw [show Dict.keys (history fullOps) = [0, 1, 2, 3] by decide +kernel]
    simp
  rw [hC] at h4
  have h5 : totalWeight (toAbs (history fullOps)).weight {(0, 1), (0, 2), (0, 3)} = 2 := by decide +kernel
  rw [h2, ← h5]
  exact h4.min _ fullOps_tree

/-- Two triangles. -/
example {ch : ℕ → List ℕ → ℕ} (hch : ∀ i l, l ≠ [] → ch i l ∈ l) : cheritonTarjan ch (history
    [Op.addEdges [(0, 1, (2 : ℤ)), (1, 2, 3), (0, 2, 5), (3, 4, 1), (4, 5, 1), (3, 5, 1)]]) = some (.error .typeError) := by
  set ops := [Op.addEdges [(0, 1, (2 : ℤ)), (1, 2, 3), (0, 2, 5), (3, 4, 1), (4, 5, 1), (3, 5, 1)]] with hops
  have hk : Dict.keys (history ops) = [0, 1, 2, 3, 4, 5] := by decide +kernel
  refine C107_disconnected_violation hch ops (fun u hu => ?_) (fun h => ?_)
  · have h1 : ∀ u ∈ Dict.keys (history ops), ∃ a < 6, ∃ b < 6, a ≠ b ∧ (adj (history ops) u a).isSome ∧
      (adj (history ops) u b).isSome := by decide +kernel
    obtain ⟨a, -, b, -, hab, ha, hb⟩ := h1 u hu
    exact ⟨a, b, hab, Option.isSome_iff_exists.1 ha, Option.isSome_iff_exists.1 hb⟩
  · have hm : ∀ u, u ∈ [0, 1, 2, 3, 4, 5] → u ∈ (toAbs (history ops)).verts := by
      intro u hu
      show u ∈ Dict.keys (history ops)
      rw [hk]; exact hu
    obtain ⟨n, hn⟩ := h 0 (hm 0 (by decide)) 3 (hm 3 (by decide))
    have hstay : ∀ n b, Steps (EdgeOf ops) n 0 b → b < 3 := by
      intro n
      induction n with
      | zero => intro b h; cases h; decide
      | succ n ih =>
        intro b h
        cases h with
        | succ h1 he =>
          obtain ⟨w, hw⟩ := he
          rename_i x
          have hx := ih _ h1
          have hb : b ∈ Dict.keys (history ops) := (history_spec ops).1.mem_right hw
          have : ∀ x < 3, ∀ b ∈ Dict.keys (history ops), (adj (history ops) x b).isSome → b < 3 := by decide +kernel
          exact this x hx b hb (Option.isSome_iff_exists.2 ⟨w, hw⟩)
    exact absurd (hstay n 3 hn) (by decide)

/-- A path. -/
example (ch : ℕ → List ℕ → ℕ) :
    cheritonTarjan ch (history [Op.addEdges [(0, 1, (2 : ℤ)), (1, 2, 3)]]) = some (.error .unboundLocalError) := by
  refine C107_small_degree_violation ch _ 0 (show 0 ∈ Dict.keys (history [Op.addEdges [(0, 1, (2 : ℤ)), (1, 2, 3)]]) by decide +kernel) ?_
  intro h
  rw [← two_le_entries _ 0 [(1, (2 : ℤ))] (by decide +kernel)] at h
  simp at h

end Rosemary.Props
