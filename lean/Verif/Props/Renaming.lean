import Verif.Props.MaxCliques
import Verif.Props.HamiltonianPaths
import Verif.Props.Paths
import Verif.Props.SpanningTrees

/-!
# Results that depend on the graph only (C172)

Two graphs that are the same up to the names of the vertices, built by any two sequences of calls and searched with any
two orders of iteration of the sets, give the same numbers.
-/

namespace Rosemary.Props

open Rosemary.Graph Rosemary.Cliques Rosemary.Coloring Rosemary.Spec Rosemary.Traversal Rosemary.HamiltonianPaths

variable {V V' W : Type}

/-- The second graph is the first one with the vertex `v` renamed to `φ v`. -/
structure RenamedBy [DecidableEq V] [DecidableEq V'] (φ : V ≃ V') (ops : List (Op V W)) (ops' : List (Op V' W)) : Prop where
  verts : ∀ v, φ v ∈ (toAbs (history ops')).verts ↔ v ∈ (toAbs (history ops)).verts
  weight : ∀ u v, (toAbs (history ops')).weight (φ u) (φ v) = (toAbs (history ops)).weight u v

/-- The call with the vertices renamed. -/
def Op.rename (φ : V → V') : Op V W → Op V' W
  | .addVertex u => .addVertex (φ u)
  | .addVertices us => .addVertices (us.map φ)
  | .deleteVertex u => .deleteVertex (φ u)
  | .deleteVertices us => .deleteVertices (us.map φ)
  | .addEdge u v w => .addEdge (φ u) (φ v) w
  | .addEdges es => .addEdges (es.map fun e => (φ e.1, φ e.2.1, e.2.2))
  | .deleteEdge u v => .deleteEdge (φ u) (φ v)

section Calls

variable [DecidableEq V] [DecidableEq V']

theorem link_rename (φ : V ≃ V') {A : Abs V W} {A' : Abs V' W} (h1 : ∀ v, φ v ∈ A'.verts ↔ v ∈ A.verts)
    (h2 : ∀ u v, A'.weight (φ u) (φ v) = A.weight u v) (a b : V) (w : W) :
    (∀ v, φ v ∈ (A'.link (φ a) (φ b) w).verts ↔ v ∈ (A.link a b w).verts) ∧
      ∀ u v, (A'.link (φ a) (φ b) w).weight (φ u) (φ v) = (A.link a b w).weight u v := by
  refine ⟨fun v => ?_, fun u v => ?_⟩
  · simp [Abs.link, h1]
  · simp [Abs.link, h2]

/-- C172: the same calls with renamed vertices build the renamed graph. -/
theorem C172_renamed_calls (φ : V ≃ V') (ops : List (Op V W)) : RenamedBy φ ops (ops.map (Op.rename φ)) := by
  suffices h : ∀ (ops : List (Op V W)) (A : Abs V W) (A' : Abs V' W), (∀ v, φ v ∈ A'.verts ↔ v ∈ A.verts) →
      (∀ u v, A'.weight (φ u) (φ v) = A.weight u v) →
      (∀ v, φ v ∈ ((ops.map (Op.rename φ)).foldl Op.meaning A').verts ↔ v ∈ (ops.foldl Op.meaning A).verts) ∧
        ∀ u v, ((ops.map (Op.rename φ)).foldl Op.meaning A').weight (φ u) (φ v) = (ops.foldl Op.meaning A).weight u v by
    have := h ops ⟨∅, fun _ _ => none⟩ ⟨∅, fun _ _ => none⟩ (by simp) (by simp)
    rw [← C63_history, ← C63_history] at this
    exact ⟨this.1, this.2⟩
  intro ops
  induction ops with
  | nil => exact fun A A' h1 h2 => ⟨h1, h2⟩
  | cons op ops ih =>
    intro A A' h1 h2
    rw [List.map_cons, List.foldl_cons, List.foldl_cons]
    have key : (∀ v, φ v ∈ (Op.meaning A' (Op.rename φ op)).verts ↔ v ∈ (Op.meaning A op).verts) ∧
        ∀ u v, (Op.meaning A' (Op.rename φ op)).weight (φ u) (φ v) = (Op.meaning A op).weight u v := by
      cases op with
      | addEdge a b w => exact link_rename φ h1 h2 a b w
      | addEdges es =>
        clear ih
        simp only [Op.rename, Op.meaning]
        induction es generalizing A A' with
        | nil => exact ⟨h1, h2⟩
        | cons e es ihe =>
          rw [List.map_cons, List.foldl_cons, List.foldl_cons]
          obtain ⟨k1, k2⟩ := link_rename φ h1 h2 e.1 e.2.1 e.2.2
          exact ihe _ _ k1 k2
      | _ => simp [Op.rename, Op.meaning, h1, h2]
    exact ih _ _ key.1 key.2

end Calls

section Sets

variable [DecidableEq V] [DecidableEq V'] {φ : V ≃ V'} {ops : List (Op V W)} {ops' : List (Op V' W)}

theorem RenamedBy.symm (h : RenamedBy φ ops ops') : RenamedBy φ.symm ops' ops where
  verts v := by rw [← h.verts, φ.apply_symm_apply]
  weight u v := by rw [← h.weight, φ.apply_symm_apply, φ.apply_symm_apply]

theorem RenamedBy.linked (h : RenamedBy φ ops ops') (u v : V) :
    Linked (history ops') (φ u) (φ v) ↔ Linked (history ops) u v := by
  rw [Linked, Linked, h.weight]

theorem RenamedBy.verts_eq (h : RenamedBy φ ops ops') :
    (toAbs (history ops')).verts = φ '' (toAbs (history ops)).verts := by
  ext v
  constructor
  · intro hv
    exact ⟨φ.symm v, (h.symm.verts v).2 hv, φ.apply_symm_apply v⟩
  · rintro ⟨u, hu, rfl⟩
    exact (h.verts u).2 hu

theorem RenamedBy.steps (h : RenamedBy φ ops ops') {n : ℕ} {u v : V} (hs : Steps (Linked (history ops)) n u v) :
    Steps (Linked (history ops')) n (φ u) (φ v) := by
  induction hs with
  | zero u => exact .zero _
  | succ _ he ih => exact .succ ih ((h.linked _ _).2 he)

theorem RenamedBy.reach (h : RenamedBy φ ops ops') {u v : V} (hs : Reach (Linked (history ops)) u v) :
    Reach (Linked (history ops')) (φ u) (φ v) := hs.imp fun _ k => h.steps k

theorem RenamedBy.degree_eq (h : RenamedBy φ ops ops') (u : V) :
    {v | (toAbs (history ops')).weight (φ u) v ≠ none}.ncard = {v | (toAbs (history ops)).weight u v ≠ none}.ncard := by
  rw [← Set.ncard_image_of_injective {v | (toAbs (history ops)).weight u v ≠ none} φ.injective]
  congr 1
  ext v
  constructor
  · intro hv
    refine ⟨φ.symm v, ?_, φ.apply_symm_apply v⟩
    rw [Set.mem_setOf_eq, ← h.weight, φ.apply_symm_apply]
    exact hv
  · rintro ⟨w, hw, rfl⟩
    rw [Set.mem_setOf_eq, h.weight]
    exact hw

/-- C172: `num_vertices()` and the degree of each vertex do not depend on the names. -/
theorem C172_degrees (h : RenamedBy φ ops ops') (u : V) :
    numVertices (history ops') = numVertices (history ops) ∧ degree (history ops') (φ u) = degree (history ops) u := by
  constructor
  · have e : ∀ {U : Type} [DecidableEq U] (o : List (Op U W)), numVertices (history o) = (toAbs (history o)).verts.ncard := by
      intro U _ o
      have : (toAbs (history o)).verts = ((Dict.keys (history o)).toFinset : Set U) := by
        ext u; simp [toAbs]
      rw [this, Set.ncard_coe_finset, List.toFinset_card_of_nodup (history_spec o).1.wf, Dict.keys, List.length_map,
        numVertices]
    rw [e, e, h.verts_eq, Set.ncard_image_of_injective _ φ.injective]
  · rw [C63_degree, C63_degree, h.degree_eq]
    exact if_congr (h.verts u) rfl rfl

/-- C172: nor do `maximum_degree()` and `minimum_degree()`. -/
theorem C172_extreme_degrees (ord : Finset V → List V) (hord : ∀ S, (ord S).Nodup ∧ ∀ x, x ∈ ord S ↔ x ∈ S)
    (ord' : Finset V' → List V') (hord' : ∀ S, (ord' S).Nodup ∧ ∀ x, x ∈ ord' S ↔ x ∈ S) (h : RenamedBy φ ops ops')
    (hne : (toAbs (history ops)).verts.Nonempty) :
    maximumDegree ord' (history ops') = maximumDegree ord (history ops) ∧
      minimumDegree ord' (history ops') = minimumDegree ord (history ops) := by
  obtain ⟨a, b, ha, hb, hl, h1, h2, -⟩ := C87_extreme_degrees ord hord ops hne
  obtain ⟨a', b', ha', hb', hl', h1', h2', -⟩ := C87_extreme_degrees ord' hord' ops'
    (by rw [h.verts_eq]; exact hne.image _)
  have hd : ∀ u, degreeWithout (history ops') [] (φ u) = degreeWithout (history ops) [] u := by
    intro u
    have := h.degree_eq u
    simpa [degreeWithout] using this
  rw [h.verts_eq] at ha' hb'
  obtain ⟨x, hx, rfl⟩ := ha'
  obtain ⟨y, hy, rfl⟩ := hb'
  rw [h1, h2, h1', h2', hd, hd]
  have k1 := (hl' (φ a) ((h.verts a).2 ha)).1
  have k2 := (hl' (φ b) ((h.verts b).2 hb)).2
  rw [hd, hd] at k1 k2
  exact ⟨congrArg _ (le_antisymm (hl x hx).1 k1), congrArg _ (le_antisymm k2 (hl y hy).2)⟩

/-- C172: nor does `is_connected`. -/
theorem C172_is_connected (ord : Finset V → List V) (hord : ∀ S, (ord S).Nodup ∧ ∀ x, x ∈ ord S ↔ x ∈ S)
    (ord' : Finset V' → List V') (hord' : ∀ S, (ord' S).Nodup ∧ ∀ x, x ∈ ord' S ↔ x ∈ S) (h : RenamedBy φ ops ops') :
    isConnected ord' (history ops') = isConnected ord (history ops) := by
  obtain ⟨b, e, hb⟩ := C66_is_connected ord hord ops
  obtain ⟨b', e', hb'⟩ := C66_is_connected ord' hord' ops'
  rw [e, e']
  congr 2
  rw [Bool.eq_iff_iff, hb, hb']
  constructor
  · intro k u hu v hv
    have := h.symm.reach (k _ ((h.verts u).2 hu) _ ((h.verts v).2 hv))
    rwa [φ.symm_apply_apply, φ.symm_apply_apply] at this
  · intro k u hu v hv
    have := h.reach (k _ ((h.symm.verts u).2 hu) _ ((h.symm.verts v).2 hv))
    rwa [φ.apply_symm_apply, φ.apply_symm_apply] at this

theorem RenamedBy.clique (h : RenamedBy φ ops ops') {C : Finset V}
    (hC : IsClique (toAbs (history ops)).verts (Linked (history ops)) C) :
    IsClique (toAbs (history ops')).verts (Linked (history ops')) (C.map φ.toEmbedding) := by
  refine ⟨fun v hv => ?_, fun u hu v hv hne => ?_⟩
  · obtain ⟨w, hw, rfl⟩ := Finset.mem_map.1 hv
    exact (h.verts w).2 (hC.1 w hw)
  · obtain ⟨a, ha, rfl⟩ := Finset.mem_map.1 hu
    obtain ⟨b, hb, rfl⟩ := Finset.mem_map.1 hv
    exact (h.linked a b).2 (hC.2 a ha b hb fun e => hne (by rw [e]))

theorem RenamedBy.maximal (h : RenamedBy φ ops ops') {C : Finset V}
    (hC : IsMaximalClique (toAbs (history ops)).verts (Linked (history ops)) C) :
    IsMaximalClique (toAbs (history ops')).verts (Linked (history ops')) (C.map φ.toEmbedding) := by
  refine ⟨h.clique hC.1, fun D hD hs => ?_⟩
  have := hC.2 _ (h.symm.clique hD) (fun v hv => Finset.mem_map.2
    ⟨φ v, hs (Finset.mem_map.2 ⟨v, hv, rfl⟩), φ.symm_apply_apply v⟩)
  rw [← this, Finset.map_map]
  ext v
  simp

/-- C172: nor does the size of the clique found by `pardalos`. -/
theorem C172_clique_number (ord : Finset V → List V) (hord : ∀ S, (ord S).Nodup ∧ ∀ x, x ∈ ord S ↔ x ∈ S)
    (ord' : Finset V' → List V') (hord' : ∀ S, (ord' S).Nodup ∧ ∀ x, x ∈ ord' S ↔ x ∈ S) (h : RenamedBy φ ops ops') :
    ∃ k c c', pardalos ord (history ops) = .ok (k, c) ∧ pardalos ord' (history ops') = .ok (k, c') := by
  obtain ⟨⟨k, c⟩, e, n1, s1, h1⟩ := C73_pardalos ord hord ops
  obtain ⟨⟨k', c'⟩, e', n2, s2, h2⟩ := C73_pardalos ord' hord' ops'
  refine ⟨k, c, c', e, ?_⟩
  rw [e']
  dsimp only at n1 n2 s1 s2 h1 h2
  have k1 := h2.2 _ (h.clique h1.1)
  have k2 := h1.2 _ (h.symm.clique h2.1)
  rw [Finset.card_map, List.toFinset_card_of_nodup n1, List.toFinset_card_of_nodup n2] at k1 k2
  rw [s1, s2, le_antisymm k2 k1]

/-- C172: nor does the list of the maximal cliques of `tomita`, up to the order of the list and of each clique. -/
theorem C172_maximal_cliques (ord : Finset V → List V) (hord : ∀ S, (ord S).Nodup ∧ ∀ x, x ∈ ord S ↔ x ∈ S)
    (ord' : Finset V' → List V') (hord' : ∀ S, (ord' S).Nodup ∧ ∀ x, x ∈ ord' S ↔ x ∈ S) (h : RenamedBy φ ops ops')
    (hloop : ∀ v, ¬ Linked (history ops) v v) :
    ∃ l l', tomita ord (history ops) = some l ∧ tomita ord' (history ops') = some l' ∧
      (l'.map List.toFinset).Perm (l.map (fun c => (c.map φ).toFinset)) := by
  obtain ⟨l, e, -, n1, h1⟩ := C72_tomita ord hord ops hloop
  obtain ⟨l', e', -, n2, h2⟩ := C72_tomita ord' hord' ops' (fun v hv => hloop _ ((h.symm.linked v v).2 hv))
  refine ⟨l, l', e, e', ?_⟩
  have hm : l.map (fun c => (c.map φ).toFinset) = (l.map List.toFinset).map (fun S => S.map φ.toEmbedding) := by
    rw [List.map_map]
    refine List.map_congr_left fun c _ => ?_
    ext v
    rw [List.mem_toFinset, List.mem_map, Function.comp_apply, Finset.mem_map]
    exact exists_congr fun u => and_congr_left' List.mem_toFinset.symm
  rw [hm]
  refine (List.perm_ext_iff_of_nodup n2 (n1.map (Finset.map_injective _))).2 fun S => ?_
  rw [h2, List.mem_map]
  constructor
  · intro hS
    refine ⟨_, (h1 _).2 (h.symm.maximal hS), ?_⟩
    rw [Finset.map_map]
    ext v
    simp
  · rintro ⟨S, hS, rfl⟩
    exact h.maximal ((h1 _).1 hS)

theorem RenamedBy.hamiltonian (h : RenamedBy φ ops ops') {l : List V}
    (hl : IsHamiltonianPath (toAbs (history ops)).verts (Linked (history ops)) l) :
    IsHamiltonianPath (toAbs (history ops')).verts (Linked (history ops')) (l.map φ) where
  ne_nil := by simpa using hl.ne_nil
  nodup := hl.nodup.map φ.injective
  verts v := by
    rw [h.verts_eq, List.mem_map]
    exact exists_congr fun u => and_congr_left' (hl.verts u)
  chain := (List.isChain_map φ).2 (hl.chain.imp fun a b k => (h.linked a b).2 k)

/-- C172: nor does the number of Hamiltonian paths. -/
theorem C172_hamiltonian (ord : Finset V → List V) (hord : ∀ S, (ord S).Nodup ∧ ∀ x, x ∈ ord S ↔ x ∈ S)
    (ord' : Finset V' → List V') (hord' : ∀ S, (ord' S).Nodup ∧ ∀ x, x ∈ ord' S ↔ x ∈ S) (h : RenamedBy φ ops ops') :
    numberOfHamiltonianPaths ord' (history ops') = numberOfHamiltonianPaths ord (history ops) := by
  rw [C75_number ord hord, C75_number ord' hord', hamiltonianNumber, hamiltonianNumber,
    ← Set.ncard_image_of_injective {l | IsHamiltonianPath (toAbs (history ops)).verts (Linked (history ops)) l}
      (List.map_injective_iff.2 φ.injective)]
  congr 1
  ext l
  constructor
  · intro hl
    refine ⟨_, h.symm.hamiltonian hl, ?_⟩
    rw [List.map_map]
    simp
  · rintro ⟨l, hl, rfl⟩
    exact h.hamiltonian hl

end Sets

section Ordered

variable [LinearOrder V] [LinearOrder V'] {φ : V ≃ V'} {ops : List (Op V W)} {ops' : List (Op V' W)}

/-- C172: nor does `num_edges()`. -/
theorem C172_num_edges (h : RenamedBy φ ops ops') : numEdges (history ops') = numEdges (history ops) := by
  have hg := (history_spec ops).1
  have hg' := (history_spec ops').1
  have hn : ∀ u v, φ v ∈ nbrs (history ops') (φ u) ↔ v ∈ nbrs (history ops) u := by
    intro u v
    rw [mem_nbrs, mem_nbrs]
    exact h.linked u v
  have h1 := handshake hg (Dict.keys (history ops)) hg.wf (fun u => Iff.rfl)
  have h2 := handshake hg' ((Dict.keys (history ops)).map φ) (hg.wf.map φ.injective) (fun u => by
    have := congrArg (u ∈ ·) h.verts_eq
    simp only [eq_iff_iff] at this
    rw [List.mem_map]
    exact this.symm)
  have e1 : (((Dict.keys (history ops)).map φ).map (fun u => (nbrs (history ops') u).length)).sum =
      ((Dict.keys (history ops)).map (fun u => (nbrs (history ops) u).length)).sum := by
    rw [List.map_map]
    congr 1
    refine List.map_congr_left fun u _ => ?_
    rw [Function.comp_apply, length_nbrs' hg', length_nbrs' hg]
    simpa [degreeWithout] using h.degree_eq u
  have e2 : (((Dict.keys (history ops)).map φ).filter (fun u => u ∈ nbrs (history ops') u)).length =
      ((Dict.keys (history ops)).filter (fun u => u ∈ nbrs (history ops) u)).length := by
    rw [List.filter_map, List.length_map]
    congr 1
    refine List.filter_congr fun u _ => ?_
    simp only [Function.comp_apply, hn]
  rw [e1, e2, h1] at h2
  omega

theorem RenamedBy.proper (h : RenamedBy φ ops ops') {f : V → ℕ} (hf : ProperColoring (history ops) f) :
    ProperColoring (history ops') (f ∘ φ.symm) ∧
      ((f ∘ φ.symm) '' (toAbs (history ops')).verts) = f '' (toAbs (history ops)).verts := by
  constructor
  · intro u hu v hv he hne
    exact hf _ ((h.symm.verts u).2 hu) _ ((h.symm.verts v).2 hv) ((h.symm.linked u v).2 he)
      (fun e => hne (φ.symm.injective e))
  · rw [h.verts_eq, ← Set.image_comp]
    congr 1
    funext v
    simp

/-- C172: nor does the number of colors of `branch_and_bound`. -/
theorem C172_chromatic_number (ord : Finset V → List V) (hord : ∀ S, (ord S).Nodup ∧ ∀ x, x ∈ ord S ↔ x ∈ S)
    (ord' : Finset V' → List V') (hord' : ∀ S, (ord' S).Nodup ∧ ∀ x, x ∈ ord' S ↔ x ∈ S) (h : RenamedBy φ ops ops')
    (hne : (toAbs (history ops)).verts.Nonempty) :
    ∃ k m m', branchAndBound ord (history ops) false = .ok (k, .colorMap m) ∧
      branchAndBound ord' (history ops') false = .ok (k, .colorMap m') := by
  obtain ⟨k, m, -, e, -, ⟨f, hf, c⟩, hk⟩ := C92_number ord hord ops hne
  obtain ⟨k', m', -, e', -, ⟨f', hf', c'⟩, hk'⟩ := C92_number ord' hord' ops' (by rw [h.verts_eq]; exact hne.image _)
  refine ⟨k, m, m', e, ?_⟩
  obtain ⟨p, q⟩ := h.proper hf
  obtain ⟨p', q'⟩ := h.symm.proper hf'
  have k1 := hk' _ p
  have k2 := hk _ p'
  rw [q, c] at k1
  rw [q', c'] at k2
  rw [e', le_antisymm k1 k2]

variable [AddCommMonoid W] [LinearOrder W] [IsOrderedCancelAddMonoid W]

omit [LinearOrder W] [IsOrderedCancelAddMonoid W] in
theorem RenamedBy.walk (h : RenamedBy φ ops ops') {s v : V} {p : List V} {c : W}
    (hw : WalkOf (toAbs (history ops)).weight s p v c) :
    WalkOf (toAbs (history ops')).weight (φ s) (p.map φ) (φ v) c := by
  induction hw with
  | start => exact .start
  | step _ he ih =>
    rw [List.map_append]
    exact .step ih (by rw [h.weight]; exact he)

/-- C172: the distances of `dijkstra` are those of the other graph at the renamed vertices. -/
theorem C172_dijkstra (h : RenamedBy φ ops ops') (hN : Nonneg ops) (s : V) (hs : s ∈ (toAbs (history ops)).verts) :
    ∃ D P D' P', Paths.dijkstra (history ops) s = some (.ok (D, P)) ∧
      Paths.dijkstra (history ops') (φ s) = some (.ok (D', P')) ∧ ∀ v, Dict.get? D' (φ v) = Dict.get? D v := by
  have hN' : Nonneg ops' := by
    intro u v x e
    rw [← h.symm.weight] at e
    exact hN _ _ _ e
  obtain ⟨D, P, e, hk, hd, -⟩ := C67_dijkstra ops hN s hs
  obtain ⟨D', P', e', hk', hd', -⟩ := C67_dijkstra ops' hN' (φ s) ((h.verts s).2 hs)
  refine ⟨D, P, D', P', e, e', fun v => ?_⟩
  by_cases hv : v ∈ (toAbs (history ops)).verts
  · obtain ⟨d, hd1⟩ := (hk v).1 hv
    obtain ⟨d', hd1'⟩ := (hk' (φ v)).1 ((h.verts v).2 hv)
    rw [hd1, hd1']
    obtain ⟨a1, a2⟩ := hd v d hd1
    obtain ⟨b1, b2⟩ := hd' _ d' hd1'
    have hback : ∀ p c, WalkOf (toAbs (history ops')).weight (φ s) p (φ v) c →
        WalkOf (toAbs (history ops)).weight s (p.map φ.symm) v c := by
      intro p c k
      have := h.symm.walk k
      rwa [φ.symm_apply_apply, φ.symm_apply_apply] at this
    congr 1
    induction d using WithTop.recTopCoe with
    | top =>
      induction d' using WithTop.recTopCoe with
      | top => rfl
      | coe c' =>
        obtain ⟨⟨p, hp⟩, -⟩ := b1 c' rfl
        exact absurd (hback _ _ hp) (a2 rfl _ _)
    | coe c =>
      obtain ⟨⟨p, hp⟩, hm⟩ := a1 c rfl
      induction d' using WithTop.recTopCoe with
      | top => exact absurd (h.walk hp) (b2 rfl _ _)
      | coe c' =>
        obtain ⟨⟨p', hp'⟩, hm'⟩ := b1 c' rfl
        rw [le_antisymm (hm' _ _ (h.walk hp)) (hm _ _ (hback _ _ hp'))]
  · have h1 : Dict.get? D v = none := by
      rw [Option.eq_none_iff_forall_ne_some]
      exact fun d k => hv ((hk v).2 ⟨d, k⟩)
    have h2 : Dict.get? D' (φ v) = none := by
      rw [Option.eq_none_iff_forall_ne_some]
      exact fun d k => hv ((h.verts v).1 ((hk' _).2 ⟨d, k⟩))
    rw [h1, h2]

/-- The edge with renamed ends, smaller end first. -/
def renameEdge (φ : V ≃ V') (e : V × V) : V' × V' := if φ e.1 < φ e.2 then (φ e.1, φ e.2) else (φ e.2, φ e.1)

omit [LinearOrder W] [IsOrderedCancelAddMonoid W] in
theorem RenamedBy.tree (h : RenamedBy φ ops ops') {C : Finset V} {T : Finset (V × V)}
    (hT : SpanningTree (toAbs (history ops)).weight C T) :
    ∃ T', SpanningTree (toAbs (history ops')).weight (C.map φ.toEmbedding) T' ∧
      totalWeight (toAbs (history ops')).weight T' = totalWeight (toAbs (history ops)).weight T := by
  have hsy : ∀ u v, (toAbs (history ops)).weight u v = (toAbs (history ops)).weight v u := (C63_symmetric ops).2.1
  have hinj : Set.InjOn (renameEdge φ) (T : Set (V × V)) := by
    rintro ⟨a, b⟩ hab ⟨c, d⟩ hcd e
    have h1 := (hT.edge a b hab).1
    have h2 := (hT.edge c d hcd).1
    simp only [renameEdge] at e
    split_ifs at e with k1 k2 k2
    · simpa using e
    · simp only [Prod.mk.injEq, EmbeddingLike.apply_eq_iff_eq] at e
      obtain ⟨rfl, rfl⟩ := e
      exact absurd h1 h2.not_gt
    · simp only [Prod.mk.injEq, EmbeddingLike.apply_eq_iff_eq] at e
      obtain ⟨rfl, rfl⟩ := e
      exact absurd h1 h2.not_gt
    · simp only [Prod.mk.injEq, EmbeddingLike.apply_eq_iff_eq] at e
      rw [e.1, e.2]
  have hw : ∀ e, (toAbs (history ops')).weight (renameEdge φ e).1 (renameEdge φ e).2 = (toAbs (history ops)).weight e.1 e.2 := by
    intro e
    rw [renameEdge]
    split_ifs
    · rw [h.weight]
    · rw [h.weight, hsy]
  refine ⟨T.image (renameEdge φ), ⟨?_, ?_, ?_⟩, ?_⟩
  · intro u v huv
    obtain ⟨⟨a, b⟩, hab, e⟩ := Finset.mem_image.1 huv
    obtain ⟨h1, h2, h3, w, h4⟩ := hT.edge a b hab
    have k := hw (a, b)
    rw [e] at k
    rw [renameEdge] at e
    dsimp only at k e
    split_ifs at e with k1
    · simp only [Prod.mk.injEq] at e
      obtain ⟨rfl, rfl⟩ := e
      exact ⟨k1, Finset.mem_map.2 ⟨a, h2, rfl⟩, Finset.mem_map.2 ⟨b, h3, rfl⟩, w, by rw [k, h4]⟩
    · simp only [Prod.mk.injEq] at e
      obtain ⟨rfl, rfl⟩ := e
      exact ⟨lt_of_le_of_ne (not_lt.1 k1) (fun e => h1.ne' (φ.injective e)), Finset.mem_map.2 ⟨b, h3, rfl⟩,
        Finset.mem_map.2 ⟨a, h2, rfl⟩, w, by rw [k, h4]⟩
  · intro u hu v hv
    obtain ⟨a, ha, rfl⟩ := Finset.mem_map.1 hu
    obtain ⟨b, hb, rfl⟩ := Finset.mem_map.1 hv
    have := hT.joined a ha b hb
    clear hu hv ha hb
    change Spec.Joined _ (φ a) (φ b)
    unfold Spec.Joined at this ⊢
    induction this with
    | rel x y hxy =>
      have hm := Finset.mem_image_of_mem (renameEdge φ) hxy
      rw [renameEdge] at hm
      dsimp only at hm
      split_ifs at hm
      · exact .rel _ _ hm
      · exact .symm _ _ (.rel _ _ hm)
    | refl x => exact .refl _
    | symm x y _ ih => exact .symm _ _ ih
    | trans x y z _ _ ih1 ih2 => exact .trans _ _ _ ih1 ih2
  · rw [Finset.card_image_of_injOn hinj, Finset.card_map]
    exact hT.card
  · rw [totalWeight, totalWeight, Finset.sum_image hinj]
    exact Finset.sum_congr rfl fun e _ => by rw [hw]

omit [IsOrderedCancelAddMonoid W] in
theorem RenamedBy.minWeight (h : RenamedBy φ ops ops') {C : Finset V} {C' : Finset V'} (hC : ∀ v, φ v ∈ C' ↔ v ∈ C)
    {T : Finset (V × V)} {T' : Finset (V' × V')} (hT : MinSpanningTree (toAbs (history ops)).weight C T)
    (hT' : MinSpanningTree (toAbs (history ops')).weight C' T') :
    totalWeight (toAbs (history ops')).weight T' = totalWeight (toAbs (history ops)).weight T := by
  have e1 : C.map φ.toEmbedding = C' := by
    ext v
    rw [Finset.mem_map_equiv, ← hC, φ.apply_symm_apply]
  have e2 : C'.map φ.symm.toEmbedding = C := by
    ext v
    rw [Finset.mem_map_equiv, ← hC, φ.symm_symm]
  obtain ⟨S, hS, k⟩ := h.tree hT.tree
  obtain ⟨S', hS', k'⟩ := h.symm.tree hT'.tree
  rw [e1] at hS
  rw [e2] at hS'
  have m1 := hT'.min _ hS
  have m2 := hT.min _ hS'
  rw [k] at m1
  rw [k'] at m2
  exact le_antisymm m1 m2

/-- C172: the weight of the tree of `prim` is the same, started at the renamed root. -/
theorem C172_prim (h : RenamedBy φ ops ops') (s : V) (hs : s ∈ (toAbs (history ops)).verts) :
    ∃ total edges edges', SpanningTrees.prim (history ops) (some s) = some (.ok (total, edges)) ∧
      SpanningTrees.prim (history ops') (some (φ s)) = some (.ok (total, edges')) := by
  obtain ⟨t, T, e, -, ht, C, hC, hT⟩ := C70_prim ops s hs
  obtain ⟨t', T', e', -, ht', C', hC', hT'⟩ := C70_prim ops' (φ s) ((h.verts s).2 hs)
  refine ⟨t, T, T', e, ?_⟩
  rw [e', ht', ht, h.minWeight (fun v => ?_) hT hT']
  rw [hC, hC']
  constructor
  · intro k
    have := h.symm.reach k
    rwa [φ.symm_apply_apply, φ.symm_apply_apply] at this
  · exact h.reach

/-- C172: the weight of the tree of `kruskal` is the same, or both calls raise an IndexError. -/
theorem C172_kruskal (h : RenamedBy φ ops ops') (hne : (toAbs (history ops)).verts ≠ ∅) :
    (∃ total edges edges', SpanningTrees.kruskal (history ops) = some (.ok (total, edges)) ∧
      SpanningTrees.kruskal (history ops') = some (.ok (total, edges'))) ∨
    (SpanningTrees.kruskal (history ops) = some (.error .indexError) ∧
      SpanningTrees.kruskal (history ops') = some (.error .indexError)) := by
  have hiff : (∀ u ∈ (toAbs (history ops)).verts, ∀ v ∈ (toAbs (history ops)).verts, Reach (EdgeOf ops) u v) ↔
      ∀ u ∈ (toAbs (history ops')).verts, ∀ v ∈ (toAbs (history ops')).verts, Reach (EdgeOf ops') u v := by
    constructor
    · intro k u hu v hv
      have := h.reach (k _ ((h.symm.verts u).2 hu) _ ((h.symm.verts v).2 hv))
      rwa [φ.apply_symm_apply, φ.apply_symm_apply] at this
    · intro k u hu v hv
      have := h.symm.reach (k _ ((h.verts u).2 hu) _ ((h.verts v).2 hv))
      rwa [φ.symm_apply_apply, φ.symm_apply_apply] at this
  by_cases hc : ∀ u ∈ (toAbs (history ops)).verts, ∀ v ∈ (toAbs (history ops)).verts, Reach (EdgeOf ops) u v
  · left
    obtain ⟨t, T, e, -, ht, C, hC, hT⟩ := C70_kruskal ops hne hc
    obtain ⟨t', T', e', -, ht', C', hC', hT'⟩ := C70_kruskal ops'
      (by rw [h.verts_eq]; simpa using hne) (hiff.1 hc)
    refine ⟨t, T, T', e, ?_⟩
    rw [e', ht', ht, h.minWeight (fun v => ?_) hT hT']
    rw [hC, hC', h.verts]
  · exact Or.inr ⟨C70_kruskal_disconnected ops hc, C70_kruskal_disconnected ops' (hiff.not.1 hc)⟩

end Ordered

/-! ## Instances -/

/-- A graph with seven vertices, the vertices named as the list says. -/
def sevenCalls (q : List ℕ) : List (Op ℕ ℤ) :=
  [(2, 1), (3, 1), (3, 2), (4, 0), (4, 1), (5, 0), (5, 2), (6, 0), (6, 4), (6, 5)].map
    fun e => Op.addEdge (q.getD e.1 0) (q.getD e.2 0) 1

/-- The number of colors of a result. -/
def colorsUsed : Except PyErr (ℕ × Result ℕ) → Option ℕ
  | .ok r => some r.1
  | .error _ => none

/-- C172 fails for `dsatur`: on the same graph with seven vertices it uses three or four colors, according to the order
of iteration of the set of vertices, and also when the order is that of the names and two names are exchanged. -/
theorem C172_dsatur_violation :
    RenamedBy (Equiv.swap 0 1) (sevenCalls [0, 1, 3, 4, 2, 5, 6]) (sevenCalls [1, 0, 3, 4, 2, 5, 6]) ∧
    colorsUsed (dsatur (fun S => (List.range 7).filter (· ∈ S)) (history (sevenCalls [0, 1, 3, 4, 2, 5, 6])) false) = some 3 ∧
    colorsUsed (dsatur (fun S => (List.range 7).filter (· ∈ S)) (history (sevenCalls [1, 0, 3, 4, 2, 5, 6])) false) = some 4 ∧
    colorsUsed (dsatur (fun S => [1, 0, 2, 3, 4, 5, 6].filter (· ∈ S)) (history (sevenCalls [0, 1, 3, 4, 2, 5, 6])) false) = some 4 := by
  refine ⟨?_, by decide +kernel, by decide +kernel, by decide +kernel⟩
  have e : sevenCalls [1, 0, 3, 4, 2, 5, 6] = (sevenCalls [0, 1, 3, 4, 2, 5, 6]).map (Op.rename (Equiv.swap 0 1)) := by
    simp only [sevenCalls, List.map_cons, List.map_nil, Op.rename]
    congr 1
  rw [e]
  exact C172_renamed_calls _ _

/-- Two ways to build a triangle with a tail, the second one with other names and a detour. -/
example : ∃ total edges edges', SpanningTrees.prim (history [Op.addEdge 0 1 (4 : ℤ), .addEdge 1 2 3, .addEdge 0 2 9, .addEdge 2 3 1]) (some 0) =
      some (.ok (total, edges)) ∧
    SpanningTrees.prim (history ([Op.addEdge 0 1 (4 : ℤ), .addEdge 1 2 3, .addEdge 0 2 9, .addEdge 2 3 1].map
      (Op.rename (Equiv.swap 0 3)))) (some 3) = some (.ok (total, edges')) :=
  C172_prim (C172_renamed_calls (Equiv.swap 0 3) _) 0 (by rw [C63_history]; simp [Op.meaning, Abs.link])

end Rosemary.Props
