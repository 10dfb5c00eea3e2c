import Verif.Props.ColoringBounds
import Verif.Props.HamiltonianPaths
import Verif.Props.Gabow
import Verif.Props.Traversal
import Mathlib.Data.Finset.Powerset

/-!
# What one more edge or one vertex less does to the exact answers (C187)
-/

namespace Rosemary.Props

open Rosemary.Graph Rosemary.Coloring Rosemary.Spec Rosemary.HamiltonianPaths Rosemary.Traversal

variable {V W : Type} [LinearOrder V]

/-- `small` is a subgraph of `big`, and they differ only at `a`. -/
structure DifferAt (small big : List (Op V W)) (a : V) : Prop where
  verts : ∀ v, v ∈ (toAbs (history small)).verts → v ∈ (toAbs (history big)).verts
  verts' : ∀ v, v ∈ (toAbs (history big)).verts → v = a ∨ v ∈ (toAbs (history small)).verts
  linked : ∀ u v, Linked (history small) u v → Linked (history big) u v
  linked' : ∀ u v, Linked (history big) u v → u ≠ a → v ≠ a → Linked (history small) u v

theorem toAbs_append (ops : List (Op V W)) (op : Op V W) : toAbs (history (ops ++ [op])) = Op.meaning (toAbs (history ops)) op := by
  rw [(history_spec (ops ++ [op])).2, List.foldl_append, ← (history_spec ops).2]
  rfl

theorem add_edge_verts {ops : List (Op V W)} {a b : V} {w : W} (ha : a ∈ (toAbs (history ops)).verts)
    (hb : b ∈ (toAbs (history ops)).verts) (x : V) :
    x ∈ (toAbs (history (ops ++ [Op.addEdge a b w]))).verts ↔ x ∈ (toAbs (history ops)).verts := by
  rw [toAbs_append]
  refine ⟨fun h => ?_, fun h => Or.inl h⟩
  rcases h with h | h | h
  · exact h
  · exact h ▸ ha
  · rw [Set.mem_singleton_iff] at h; exact h ▸ hb

theorem add_edge_linked (ops : List (Op V W)) (a b : V) (w : W) (x y : V) :
    Linked (history (ops ++ [Op.addEdge a b w])) x y ↔ s(a, b) = s(x, y) ∨ Linked (history ops) x y := by
  rw [Linked, toAbs_append]
  change (∃ z, (if s(a, b) = s(x, y) then some w else _) = some z) ↔ _
  by_cases h : s(a, b) = s(x, y)
  · rw [if_pos h]; simp [h]
  · rw [if_neg h]; simp only [h, false_or]; exact Iff.rfl

theorem add_edge_differ {ops : List (Op V W)} {a b : V} (w : W) (ha : a ∈ (toAbs (history ops)).verts)
    (hb : b ∈ (toAbs (history ops)).verts) : DifferAt ops (ops ++ [Op.addEdge a b w]) a where
  verts v hv := (add_edge_verts ha hb v).2 hv
  verts' v hv := Or.inr ((add_edge_verts ha hb v).1 hv)
  linked u v h := (add_edge_linked ops a b w u v).2 (Or.inr h)
  linked' u v h hu hv := by
    rcases (add_edge_linked ops a b w u v).1 h with h | h
    · rcases Sym2.eq_iff.1 h with ⟨h1, -⟩ | ⟨h1, -⟩
      · exact absurd h1.symm hu
      · exact absurd h1.symm hv
    · exact h

theorem delete_edge_linked (ops : List (Op V W)) (a b : V) (x y : V) :
    Linked (history (ops ++ [Op.deleteEdge a b])) x y ↔ s(a, b) ≠ s(x, y) ∧ Linked (history ops) x y := by
  rw [Linked, toAbs_append]
  change (∃ z, (if s(a, b) = s(x, y) then none else _) = some z) ↔ _
  by_cases h : s(a, b) = s(x, y)
  · rw [if_pos h]; simp [h]
  · rw [if_neg h]; simp only [ne_eq, h, not_false_iff, true_and]; exact Iff.rfl

theorem delete_edge_differ (ops : List (Op V W)) (a b : V) : DifferAt (ops ++ [Op.deleteEdge a b]) ops a where
  verts v hv := by rw [toAbs_append] at hv; exact hv
  verts' v hv := by rw [toAbs_append]; exact Or.inr hv
  linked u v h := ((delete_edge_linked ops a b u v).1 h).2
  linked' u v h hu hv := (delete_edge_linked ops a b u v).2 ⟨fun e => by
    rcases Sym2.eq_iff.1 e with ⟨h1, -⟩ | ⟨h1, -⟩
    · exact absurd h1.symm hu
    · exact absurd h1.symm hv, h⟩

theorem delete_vertex_verts (ops : List (Op V W)) (a x : V) :
    x ∈ (toAbs (history (ops ++ [Op.deleteVertex a]))).verts ↔ x ∈ (toAbs (history ops)).verts ∧ x ≠ a := by
  rw [toAbs_append]; exact Iff.rfl

theorem delete_vertex_linked (ops : List (Op V W)) (a x y : V) :
    Linked (history (ops ++ [Op.deleteVertex a])) x y ↔ x ≠ a ∧ y ≠ a ∧ Linked (history ops) x y := by
  rw [Linked, toAbs_append]
  change (∃ z, (if x = a ∨ y = a then none else _) = some z) ↔ _
  by_cases h : x = a ∨ y = a
  · rw [if_pos h]
    rcases h with h | h <;> simp [h]
  · rw [if_neg h]
    push Not at h
    exact ⟨fun k => ⟨h.1, h.2, k⟩, fun k => k.2.2⟩

theorem delete_vertex_differ (ops : List (Op V W)) (a : V) : DifferAt (ops ++ [Op.deleteVertex a]) ops a where
  verts v hv := ((delete_vertex_verts ops a v).1 hv).1
  verts' v hv := by
    by_cases h : v = a
    · exact Or.inl h
    · exact Or.inr ((delete_vertex_verts ops a v).2 ⟨hv, h⟩)
  linked u v h := ((delete_vertex_linked ops a u v).1 h).2.2
  linked' u v h hu hv := (delete_vertex_linked ops a u v).2 ⟨hu, hv, h⟩

/-! ### Chromatic number -/

theorem DifferAt.chromatic {small big : List (Op V W)} {a : V} (h : DifferAt small big a) {k k' : ℕ}
    (hk : IsChromaticNumber (history small) k) (hk' : IsChromaticNumber (history big) k') : k ≤ k' ∧ k' ≤ k + 1 := by
  obtain ⟨⟨f, hf, rfl⟩, hmin⟩ := hk
  obtain ⟨⟨f', hf', rfl⟩, hmin'⟩ := hk'
  have hfin := verts_finite (history small)
  constructor
  · refine (hmin f' fun u hu v hv hl hne => hf' u (h.verts u hu) v (h.verts v hv) (h.linked u v hl) hne).trans ?_
    exact Set.ncard_le_ncard (Set.image_mono h.verts) ((verts_finite (history big)).image f')
  · -- a new color for `a`
    obtain ⟨c, hc⟩ : ∃ c, c ∉ f '' (toAbs (history small)).verts := (hfin.image f).exists_notMem
    refine (hmin' (Function.update f a c) fun u hu v hv hl hne => ?_).trans ?_
    · rcases eq_or_ne u a with rfl | hua
      · rw [Function.update_self, Function.update_of_ne hne.symm]
        rintro rfl
        exact hc ⟨v, (h.verts' v hv).resolve_left hne.symm, rfl⟩
      · rw [Function.update_of_ne hua]
        rcases eq_or_ne v a with rfl | hva
        · rw [Function.update_self]
          rintro rfl
          exact hc ⟨u, (h.verts' u hu).resolve_left hua, rfl⟩
        · rw [Function.update_of_ne hva]
          exact hf u ((h.verts' u hu).resolve_left hua) v ((h.verts' v hv).resolve_left hva) (h.linked' u v hl hua hva) hne
    · refine (Set.ncard_le_ncard (t := insert c (f '' (toAbs (history small)).verts)) ?_ ((hfin.image f).insert c)).trans
        (Set.ncard_insert_le _ _)
      rintro _ ⟨v, hv, rfl⟩
      rcases eq_or_ne v a with rfl | hva
      · rw [Function.update_self]; exact Or.inl rfl
      · rw [Function.update_of_ne hva]; exact Or.inr ⟨v, (h.verts' v hv).resolve_left hva, rfl⟩

/-- C187, `branch_and_bound` for colorings: with one more edge, or one more edge deleted, the number of colors grows or
shrinks by at most one; likewise if a vertex is deleted. -/
theorem C187_chromatic_number (ord : Finset V → List V) (hord : ∀ S, (ord S).Nodup ∧ ∀ x, x ∈ ord S ↔ x ∈ S)
    (ops : List (Op V W)) (hne : (toAbs (history ops)).verts.Nonempty) :
    ∃ k m, branchAndBound ord (history ops) false = .ok (k, .colorMap m) ∧
      (∀ a ∈ (toAbs (history ops)).verts, ∀ b ∈ (toAbs (history ops)).verts, ∀ w, ∃ k' m',
        branchAndBound ord (history (ops ++ [Op.addEdge a b w])) false = .ok (k', .colorMap m') ∧ k ≤ k' ∧ k' ≤ k + 1) ∧
      (∀ a b, ∃ k' m', branchAndBound ord (history (ops ++ [Op.deleteEdge a b])) false = .ok (k', .colorMap m') ∧
        k' ≤ k ∧ k ≤ k' + 1) ∧
      ∀ a, (∃ v ∈ (toAbs (history ops)).verts, v ≠ a) →
        ∃ k' m', branchAndBound ord (history (ops ++ [Op.deleteVertex a])) false = .ok (k', .colorMap m') ∧
          k' ≤ k ∧ k ≤ k' + 1 := by
  obtain ⟨k, m, -, h1, -, h2⟩ := C92_number ord hord ops hne
  obtain ⟨v₀, hv₀⟩ := id hne
  refine ⟨k, m, h1, fun a ha b hb w => ?_, fun a b => ?_, fun a ⟨v, hv, hva⟩ => ?_⟩
  · obtain ⟨k', m', -, k1, -, k2⟩ := C92_number ord hord (ops ++ [Op.addEdge a b w]) ⟨v₀, (add_edge_verts ha hb v₀).2 hv₀⟩
    exact ⟨k', m', k1, (add_edge_differ w ha hb).chromatic h2 k2⟩
  · obtain ⟨k', m', -, k1, -, k2⟩ := C92_number ord hord (ops ++ [Op.deleteEdge a b]) ⟨v₀, by rw [toAbs_append]; exact hv₀⟩
    exact ⟨k', m', k1, (delete_edge_differ ops a b).chromatic k2 h2⟩
  · obtain ⟨k', m', -, k1, -, k2⟩ := C92_number ord hord (ops ++ [Op.deleteVertex a]) ⟨v, (delete_vertex_verts ops a v).2 ⟨hv, hva⟩⟩
    exact ⟨k', m', k1, (delete_vertex_differ ops a).chromatic k2 h2⟩

/-! ### Clique number -/

theorem DifferAt.clique {small big : List (Op V W)} {a : V} (h : DifferAt small big a) {r r' : ℕ × List V}
    (hr : ReturnsMaximumClique (history small) r) (hr' : ReturnsMaximumClique (history big) r') : r.1 ≤ r'.1 ∧ r'.1 ≤ r.1 + 1 := by
  obtain ⟨n, e, c, hm⟩ := hr
  obtain ⟨n', e', c', hm'⟩ := hr'
  rw [e, e', ← List.toFinset_card_of_nodup n, ← List.toFinset_card_of_nodup n']
  constructor
  · exact hm' _ ⟨fun v hv => h.verts v (c.1 v hv), fun u hu v hv hne => h.linked u v (c.2 u hu v hv hne)⟩
  · have := hm (r'.2.toFinset.erase a) ⟨fun v hv => (h.verts' v (c'.1 v (Finset.mem_of_mem_erase hv))).resolve_left
      (Finset.ne_of_mem_erase hv), fun u hu v hv hne => h.linked' u v
        (c'.2 u (Finset.mem_of_mem_erase hu) v (Finset.mem_of_mem_erase hv) hne) (Finset.ne_of_mem_erase hu) (Finset.ne_of_mem_erase hv)⟩
    have h2 := Finset.pred_card_le_card_erase (s := r'.2.toFinset) (a := a)
    omega

/-- C187, `pardalos`: likewise for the size of the largest clique. -/
theorem C187_clique_number (ord : Finset V → List V) (hord : ∀ S, (ord S).Nodup ∧ ∀ x, x ∈ ord S ↔ x ∈ S) (ops : List (Op V W)) :
    ∃ r, Cliques.pardalos ord (history ops) = .ok r ∧
      (∀ a ∈ (toAbs (history ops)).verts, ∀ b ∈ (toAbs (history ops)).verts, ∀ w, ∃ r',
        Cliques.pardalos ord (history (ops ++ [Op.addEdge a b w])) = .ok r' ∧ r.1 ≤ r'.1 ∧ r'.1 ≤ r.1 + 1) ∧
      (∀ a b, ∃ r', Cliques.pardalos ord (history (ops ++ [Op.deleteEdge a b])) = .ok r' ∧ r'.1 ≤ r.1 ∧ r.1 ≤ r'.1 + 1) ∧
      ∀ a, ∃ r', Cliques.pardalos ord (history (ops ++ [Op.deleteVertex a])) = .ok r' ∧ r'.1 ≤ r.1 ∧ r.1 ≤ r'.1 + 1 := by
  obtain ⟨r, h1, h2⟩ := C73_pardalos ord hord ops
  refine ⟨r, h1, fun a ha b hb w => ?_, fun a b => ?_, fun a => ?_⟩
  · obtain ⟨r', k1, k2⟩ := C73_pardalos ord hord (ops ++ [Op.addEdge a b w])
    exact ⟨r', k1, (add_edge_differ w ha hb).clique h2 k2⟩
  · obtain ⟨r', k1, k2⟩ := C73_pardalos ord hord (ops ++ [Op.deleteEdge a b])
    exact ⟨r', k1, (delete_edge_differ ops a b).clique k2 h2⟩
  · obtain ⟨r', k1, k2⟩ := C73_pardalos ord hord (ops ++ [Op.deleteVertex a])
    exact ⟨r', k1, (delete_vertex_differ ops a).clique k2 h2⟩

/-! ### Independence number -/

theorem DifferAt.independent_edge {small big : List (Op V W)} {a : V} (h : DifferAt small big a)
    (hv : ∀ v, v ∈ (toAbs (history big)).verts → v ∈ (toAbs (history small)).verts) {r r' : ℕ × List V}
    (hr : ReturnsMaximumIndependentSet (history small) r) (hr' : ReturnsMaximumIndependentSet (history big) r') :
    r'.1 ≤ r.1 ∧ r.1 ≤ r'.1 + 1 := by
  obtain ⟨n, e, c, hm⟩ := hr
  obtain ⟨n', e', c', hm'⟩ := hr'
  rw [e, e', ← List.toFinset_card_of_nodup n, ← List.toFinset_card_of_nodup n']
  constructor
  · exact hm _ ⟨fun v hv' => hv v (c'.1 v hv'), fun u hu v hv hne hl => c'.2 u hu v hv hne (h.linked u v hl)⟩
  · have := hm' (r.2.toFinset.erase a) ⟨fun v hv => h.verts v (c.1 v (Finset.mem_of_mem_erase hv)),
      fun u hu v hv hne hl => c.2 u (Finset.mem_of_mem_erase hu) v (Finset.mem_of_mem_erase hv) hne
        (h.linked' u v hl (Finset.ne_of_mem_erase hu) (Finset.ne_of_mem_erase hv))⟩
    have h2 := Finset.pred_card_le_card_erase (s := r.2.toFinset) (a := a)
    omega

/-- C187, `branch_and_bound` for independent sets: the other way round for edges; a deleted vertex does not make the
largest independent set larger and costs it at most one vertex. -/
theorem C187_independence_number (ops : List (Op V W)) :
    ∃ r, IndependentSets.branchAndBound (history ops) = .ok r ∧
      (∀ a ∈ (toAbs (history ops)).verts, ∀ b ∈ (toAbs (history ops)).verts, ∀ w, ∃ r',
        IndependentSets.branchAndBound (history (ops ++ [Op.addEdge a b w])) = .ok r' ∧ r'.1 ≤ r.1 ∧ r.1 ≤ r'.1 + 1) ∧
      (∀ a b, ∃ r', IndependentSets.branchAndBound (history (ops ++ [Op.deleteEdge a b])) = .ok r' ∧ r.1 ≤ r'.1 ∧ r'.1 ≤ r.1 + 1) ∧
      ∀ a, ∃ r', IndependentSets.branchAndBound (history (ops ++ [Op.deleteVertex a])) = .ok r' ∧ r'.1 ≤ r.1 ∧ r.1 ≤ r'.1 + 1 := by
  obtain ⟨r, h1, h2⟩ := C73_branch_and_bound ops
  refine ⟨r, h1, fun a ha b hb w => ?_, fun a b => ?_, fun a => ?_⟩
  · obtain ⟨r', k1, k2⟩ := C73_branch_and_bound (ops ++ [Op.addEdge a b w])
    exact ⟨r', k1, (add_edge_differ w ha hb).independent_edge (fun v hv => (add_edge_verts ha hb v).1 hv) h2 k2⟩
  · obtain ⟨r', k1, k2⟩ := C73_branch_and_bound (ops ++ [Op.deleteEdge a b])
    exact ⟨r', k1, (delete_edge_differ ops a b).independent_edge (fun v hv => by rw [toAbs_append]; exact hv) k2 h2⟩
  · obtain ⟨r', k1, k2⟩ := C73_branch_and_bound (ops ++ [Op.deleteVertex a])
    refine ⟨r', k1, ?_⟩
    obtain ⟨n, e, c, hm⟩ := h2
    obtain ⟨n', e', c', hm'⟩ := k2
    rw [e, e', ← List.toFinset_card_of_nodup n, ← List.toFinset_card_of_nodup n']
    constructor
    · refine hm _ ⟨fun v hv => ((delete_vertex_verts ops a v).1 (c'.1 v hv)).1, fun u hu v hv hne hl => c'.2 u hu v hv hne ?_⟩
      exact (delete_vertex_linked ops a u v).2
        ⟨((delete_vertex_verts ops a u).1 (c'.1 u hu)).2, ((delete_vertex_verts ops a v).1 (c'.1 v hv)).2, hl⟩
    · have := hm' (r.2.toFinset.erase a) ⟨fun v hv => (delete_vertex_verts ops a v).2
        ⟨c.1 v (Finset.mem_of_mem_erase hv), Finset.ne_of_mem_erase hv⟩, fun u hu v hv hne hl =>
          c.2 u (Finset.mem_of_mem_erase hu) v (Finset.mem_of_mem_erase hv) hne ((delete_vertex_linked ops a u v).1 hl).2.2⟩
      have h2 := Finset.pred_card_le_card_erase (s := r.2.toFinset) (a := a)
      omega

/-! ### Connectivity, Hamiltonian paths, spanning trees -/

/-- C187, `is_connected`: a connected graph stays connected with one more edge. -/
theorem C187_is_connected (ord : Finset V → List V) (hord : ∀ S, (ord S).Nodup ∧ ∀ x, x ∈ ord S ↔ x ∈ S) (ops : List (Op V W))
    (a b : V) (w : W) (ha : a ∈ (toAbs (history ops)).verts) (hb : b ∈ (toAbs (history ops)).verts)
    (h : isConnected ord (history ops) = some (.ok true)) : isConnected ord (history (ops ++ [Op.addEdge a b w])) = some (.ok true) := by
  obtain ⟨c, h1, h2⟩ := C66_is_connected ord hord ops
  obtain ⟨c', k1, k2⟩ := C66_is_connected ord hord (ops ++ [Op.addEdge a b w])
  rw [h1] at h
  simp only [Option.some.injEq, Except.ok.injEq] at h
  rw [k1, k2.2]
  intro u hu v hv
  obtain ⟨n, hn⟩ := h2.1 h u ((add_edge_verts ha hb u).1 hu) v ((add_edge_verts ha hb v).1 hv)
  refine ⟨n, ?_⟩
  clear hu hv
  induction hn with
  | zero => exact Steps.zero _
  | succ _ he ih => exact Steps.succ ih ((add_edge_linked ops a b w _ _).2 (Or.inr he))

theorem hamiltonian_finite (ops : List (Op V W)) : {l | IsHamiltonianPath (toAbs (history ops)).verts (Linked (history ops)) l}.Finite := by
  refine (List.finite_toSet (Dict.keys (history ops)).permutations).subset fun l hl => ?_
  rw [Set.mem_setOf_eq, List.mem_permutations]
  exact (List.perm_ext_iff_of_nodup hl.nodup (history_spec ops).1.wf).2 fun v => hl.verts v

/-- C187, `number_of_hamiltonian_paths`: one more edge takes no Hamiltonian path away. -/
theorem C187_hamiltonian_paths (ord : Finset V → List V) (hord : ∀ S, (ord S).Nodup ∧ ∀ x, x ∈ ord S ↔ x ∈ S) (ops : List (Op V W))
    (a b : V) (w : W) (ha : a ∈ (toAbs (history ops)).verts) (hb : b ∈ (toAbs (history ops)).verts) :
    numberOfHamiltonianPaths ord (history ops) ≤ numberOfHamiltonianPaths ord (history (ops ++ [Op.addEdge a b w])) := by
  rw [C75_number ord hord, C75_number ord hord, hamiltonianNumber, hamiltonianNumber]
  refine Set.ncard_le_ncard (fun l hl => ?_) (hamiltonian_finite _)
  exact ⟨hl.ne_nil, hl.nodup, fun v => (hl.verts v).trans (add_edge_verts ha hb v).symm,
    hl.chain.imp fun x y h => (add_edge_linked ops a b w x y).2 (Or.inr h)⟩

theorem spanningTrees_finite (ops : List (Op V W)) (C : Finset V) : (spanningTrees ops C).Finite := by
  refine Set.Finite.subset (C ×ˢ C).powerset.finite_toSet fun T hT => ?_
  rw [Finset.mem_coe, Finset.mem_powerset]
  rintro ⟨u, v⟩ huv
  obtain ⟨-, h1, h2, -⟩ := hT.edge u v huv
  exact Finset.mem_product.2 ⟨h1, h2⟩

/-- C187, the determinant of the Laplacian matrix without one row and column: one more edge does not make the number of
spanning trees smaller. -/
theorem C187_spanning_trees (ops : List (Op V W)) {m : ℕ} (hm : 2 ≤ m) (x : Fin (m + 1) → V) (hx : Enumerates ops x)
    (i : Fin (m + 1)) (a b : V) (w : W) (ha : a ∈ (toAbs (history ops)).verts) (hb : b ∈ (toAbs (history ops)).verts) :
    ∃ (n n' : ℕ) (left left' : List (List ℤ)), minorDeterminant (history ops) i.val = .ok ((n : ℤ), left) ∧
      minorDeterminant (history (ops ++ [Op.addEdge a b w])) i.val = .ok ((n' : ℤ), left') ∧ n ≤ n' := by
  have hC : ∀ v, v ∈ vertexSet (history ops) ↔ v ∈ (toAbs (history ops)).verts := fun v => Graph.mem_vertexSet
  obtain ⟨left, h1⟩ := C111_spanning_trees_partial ops hm x hx _ hC i
  obtain ⟨left', h2⟩ := C111_spanning_trees_partial (ops ++ [Op.addEdge a b w]) hm x
    ⟨hx.1, fun v => (add_edge_verts ha hb v).trans (hx.2 v)⟩ (vertexSet (history ops))
    (fun v => (hC v).trans (add_edge_verts ha hb v).symm) i
  refine ⟨_, _, left, left', h1, h2, Set.ncard_le_ncard (fun T hT => ?_) (spanningTrees_finite _ _)⟩
  refine ⟨fun u v huv => ?_, hT.joined, hT.card⟩
  obtain ⟨k1, k2, k3, z, hz⟩ := hT.edge u v huv
  obtain ⟨z', hz'⟩ := (add_edge_linked ops a b w u v).2 (Or.inr ⟨z, hz⟩)
  exact ⟨k1, k2, k3, z', hz'⟩

/-! ### What does not carry over to the greedy coloring -/

/-- C187: with one more edge, the default order of `greedy_sequential` may need fewer colors than before: on `doubleBroom`
three, and two with the edge between 0 and 3. -/
theorem C187_greedy_violation :
    (∃ m, greedySequential (history doubleBroom) none 1 false = .ok (3, .colorMap m)) ∧
      ∃ m, greedySequential (history (doubleBroom ++ [Op.addEdge 0 3 1])) none 1 false = .ok (2, .colorMap m) :=
  ⟨⟨_, rfl⟩, ⟨_, rfl⟩⟩

/-! ### Examples -/

/-- One more edge may leave the number of colors as it is ... -/
example : ∃ m, branchAndBound (fun S => (List.range 5).filter (· ∈ S)) (history (colorOps ++ [Op.addEdge 0 3 1])) false =
    .ok (3, .colorMap m) := ⟨_, rfl⟩

/-- ... or increase it: the path 0, 1, 2 closed to a triangle. -/
example : (∃ m, branchAndBound (fun S => (List.range 3).filter (· ∈ S)) (history [Op.addEdges [(0, 1, 1), (1, 2, (1 : ℤ))]]) false =
      .ok (2, .colorMap m)) ∧
    ∃ m, branchAndBound (fun S => (List.range 3).filter (· ∈ S))
      (history ([Op.addEdges [(0, 1, 1), (1, 2, (1 : ℤ))]] ++ [Op.addEdge 2 0 1])) false = .ok (3, .colorMap m) := ⟨⟨_, rfl⟩, ⟨_, rfl⟩⟩

example : Cliques.pardalos (fun S => (List.range 5).filter (· ∈ S)) (history (colorOps ++ [Op.deleteVertex 0])) = .ok (2, [1, 2]) := by
  rfl

example : (∃ I, IndependentSets.branchAndBound (history colorOps) = .ok (2, I)) ∧
    ∃ I, IndependentSets.branchAndBound (history (colorOps ++ [Op.deleteEdge 3 4])) = .ok (3, I) := ⟨⟨_, by rfl⟩, ⟨_, by rfl⟩⟩

example : numberOfHamiltonianPaths (fun S => (List.range 6).filter (· ∈ S)) (history hamiltonOps) = 4 ∧
    numberOfHamiltonianPaths (fun S => (List.range 6).filter (· ∈ S)) (history (hamiltonOps ++ [Op.addEdge 4 0 1])) = 14 := by
  constructor <;> decide +kernel

example : (minorDeterminant (history matrixOps) 0).map Prod.fst = .ok 8 ∧
    (minorDeterminant (history (matrixOps ++ [Op.addEdge 0 3 1])) 0).map Prod.fst = .ok 16 := by decide

end Rosemary.Props
