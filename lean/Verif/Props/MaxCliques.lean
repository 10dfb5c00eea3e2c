import Verif.Lemmas.ClassOrder
import Verif.Props.Cliques
import Verif.Props.Coloring

/-!
# Properties of the searches for maximum cliques and independent sets (C73, C93)

Graphs are those that any sequence of `Graph` operations builds.  The order of iteration of Python sets and the choices
made by `random.choice` are parameters.
-/

namespace Rosemary.Props

open Rosemary.Graph Rosemary.Cliques Rosemary.Spec
open Rosemary.Traversal (E)

variable {V W : Type}

/-- `r` is the size of a largest clique together with its vertices, each once. -/
def ReturnsMaximumClique [DecidableEq V] (g : Graph V W) (r : ℕ × List V) : Prop :=
  r.2.Nodup ∧ r.1 = r.2.length ∧ IsMaximumClique (toAbs g).verts (Linked g) r.2.toFinset

/-- `r` is the size of a largest independent set together with its vertices, each once. -/
def ReturnsMaximumIndependentSet [DecidableEq V] (g : Graph V W) (r : ℕ × List V) : Prop :=
  r.2.Nodup ∧ r.1 = r.2.length ∧ IsMaximumIndependent (toAbs g).verts (Linked g) r.2.toFinset

section Sets

variable [DecidableEq V]

theorem returns_of_valid {g : Graph V W} {k : ℕ} {l : List V} (h : Valid g (k, l)) (hm : ∀ Q, Clq g Q → Q.card ≤ k) :
    ReturnsMaximumClique g (k, l) := by
  obtain ⟨h1, h2, h3⟩ := h
  refine ⟨h1, h3, ?_⟩
  rw [← E_eq]
  refine ⟨h2, fun D hD => (hm D hD).trans ?_⟩
  rw [List.toFinset_card_of_nodup h1]
  exact le_of_eq h3

/-- C73, `pardalos` returns a maximum clique and its size, for every graph, with or without loops. -/
theorem C73_pardalos (ord : Finset V → List V) (hord : ∀ S, (ord S).Nodup ∧ ∀ x, x ∈ ord S ↔ x ∈ S)
    (ops : List (Op V W)) : ∃ r, pardalos ord (history ops) = .ok r ∧ ReturnsMaximumClique (history ops) r := by
  obtain ⟨vs, h1, -, h3, -⟩ := C87_induced_order ord hord ops
  obtain ⟨k, l, k1, k2, k3⟩ := pardalos_spec (history_spec ops).1 h1 h3
  exact ⟨_, k1, returns_of_valid k2 k3⟩

/-- C73, `pardalos_binary` returns the same clique as `pardalos`, hence a maximum clique and its size. -/
theorem C73_pardalos_binary (ord : Finset V → List V) (hord : ∀ S, (ord S).Nodup ∧ ∀ x, x ∈ ord S ↔ x ∈ S)
    (ops : List (Op V W)) : pardalosBinary ord (history ops) = pardalos ord (history ops) ∧
      ∃ r, pardalosBinary ord (history ops) = .ok r ∧ ReturnsMaximumClique (history ops) r := by
  obtain ⟨vs, h1, h2, h3, -⟩ := C87_induced_order ord hord ops
  have he := pardalosBinary_eq hord (history_spec ops).1 h1 h2 h3
  refine ⟨he, ?_⟩
  rw [he]
  exact C73_pardalos ord hord ops

/-- C73, `ostergard`, the default of `maximum_clique`: on a graph without loops that has a vertex it returns a maximum
clique and its size.  Not covered: the graph without vertices and graphs with loops, where the claim fails, see below. -/
theorem C73_ostergard_partial (ops : List (Op V W)) (hne : (toAbs (history ops)).verts.Nonempty)
    (hloop : ∀ v, ¬ Linked (history ops) v v) :
    ∃ r, ostergard (history ops) = .ok r ∧ ReturnsMaximumClique (history ops) r := by
  obtain ⟨k, l, k1, k2, k3⟩ := ostergard_spec (history_spec ops).1 (by rw [E_eq]; exact hloop) hne
  exact ⟨_, k1, returns_of_valid k2 k3⟩

/-- C73, `ostergard_binary` gives the same result as `ostergard` on every graph without loops. -/
theorem C73_ostergard_binary (ord : Finset V → List V) (hord : ∀ S, (ord S).Nodup ∧ ∀ x, x ∈ ord S ↔ x ∈ S)
    (ops : List (Op V W)) (hloop : ∀ v, ¬ Linked (history ops) v v) :
    ostergardBinary ord (history ops) = ostergard (history ops) :=
  ostergardBinary_eq hord (history_spec ops).1 (by rw [E_eq]; exact hloop)

/-- C73 fails for the graph without vertices: both versions of `ostergard` raise IndexError, while `pardalos` returns
the empty clique. -/
theorem C73_empty_violation (ord : Finset V → List V) :
    ostergard ([] : Graph V W) = .error .indexError ∧ ostergardBinary ord ([] : Graph V W) = .error .indexError ∧
      pardalos ord ([] : Graph V W) = .ok (0, []) := ⟨rfl, rfl, rfl⟩

/-- C73 fails for graphs with loops: `ostergard` counts a vertex with a loop twice. -/
theorem C73_loop_violation : ostergard (history [Op.addEdge 0 0 (1 : ℤ)]) = .ok (2, [0, 0]) := by decide +kernel

/-- C73, `maximum_weight_clique` with nonnegative integer weights returns, on a graph without loops, a clique of the
largest total weight and this weight. -/
theorem C73_maximum_weight_clique (ord : Finset V → List V) (hord : ∀ S, (ord S).Nodup ∧ ∀ x, x ∈ ord S ↔ x ∈ S)
    (ops : List (Op V W)) (hloop : ∀ v, ¬ Linked (history ops) v v) (wt : V → ℤ)
    (hwt : ∀ v ∈ (toAbs (history ops)).verts, 0 ≤ wt v) :
    ∃ k l, maximumWeightClique ord (history ops) wt = .ok (k, l) ∧ l.Nodup ∧ k = (l.map wt).sum ∧
      IsClique (toAbs (history ops)).verts (Linked (history ops)) l.toFinset ∧
      ∀ Q, IsClique (toAbs (history ops)).verts (Linked (history ops)) Q → ∑ v ∈ Q, wt v ≤ k := by
  obtain ⟨k, l, k1, ⟨k2, k3, k4⟩, k5⟩ := maximumWeightClique_spec hord (history_spec ops).1
    (by rw [E_eq]; exact hloop) hwt
  rw [← E_eq]
  refine ⟨k, l, k1, k2, ?_, k3, k5⟩
  rw [← List.sum_toFinset wt k2]
  exact k4

/-- With a negative weight the search can miss the optimum: the edge between vertices of weights 5 and -3. -/
theorem C73_negative_weight_violation :
    maximumWeightClique (fun S => (List.range 2).filter (· ∈ S)) (history [Op.addEdge 0 1 (1 : ℤ)])
      (fun v => if v = 0 then 5 else -3) = .ok (2, [0, 1]) := by decide +kernel

end Sets

section Independent

variable [LinearOrder V]

theorem returns_of_found {g : Graph V W} {k : ℕ} {l : List V} (h : IndependentSets.Found g (k, l))
    (hm : ∀ Q, IndependentSets.Ind g Q → Q.card ≤ k) : ReturnsMaximumIndependentSet g (k, l) := by
  obtain ⟨h1, h2, h3⟩ := h
  refine ⟨h1, h3, ?_⟩
  rw [← E_eq]
  refine ⟨h2, fun D hD => (hm D hD).trans ?_⟩
  rw [List.toFinset_card_of_nodup h1]
  exact le_of_eq h3

/-- C73, `branch_and_bound` returns a maximum independent set and its size, for every graph. -/
theorem C73_branch_and_bound (ops : List (Op V W)) :
    ∃ r, IndependentSets.branchAndBound (history ops) = .ok r ∧ ReturnsMaximumIndependentSet (history ops) r := by
  have hg := (history_spec ops).1
  obtain ⟨-, hmem⟩ := vertices_spec hg
  rw [IndependentSets.branchAndBound]
  have hp := pySort_perm (vertices (history ops))
    (fun a b => Cliques.degreeOf (history ops) b ≤ Cliques.degreeOf (history ops) a)
  generalize pySort (vertices (history ops)) _ = vs at hp
  have hvs : ∀ v, v ∈ vs ↔ Mem (history ops) v := fun v => by rw [hp.mem_iff, hmem]
  obtain ⟨⟨k, l⟩, h1, h2, -, h3⟩ := IndependentSets.bbLoop_spec hg vs vs.length [] 0 0 vs.toFinset (0, [])
    (List.toFinset_card_le _) (IndependentSets.start_node (fun v hv => (hvs v).1 (List.mem_toFinset.1 hv))) rfl
    (fun v hv => by simpa using hv) ⟨by simp, ⟨by simp, by simp⟩, rfl⟩ le_rfl
  refine ⟨_, h1, returns_of_found h2 (fun Q hQ => ?_)⟩
  have := h3 Q (fun v hv => List.mem_toFinset.2 ((hvs v).2 (hQ.1 v hv))) hQ
  simpa using this

/-- C73, `maximum_independent_set` on a graph that has a vertex returns a maximum independent set and its size.
Not covered: the graph without vertices, where the claim fails, see below. -/
theorem C73_maximum_independent_set_partial [DecidableEq W] (ops : List (Op V W))
    (hne : (toAbs (history ops)).verts.Nonempty) (w : W) :
    ∃ r, IndependentSets.maximumIndependentSet (history ops) w = .ok r ∧
      ReturnsMaximumIndependentSet (history ops) r := by
  have hg := (history_spec ops).1
  obtain ⟨h, h1, h2, h3, h4⟩ := complement_spec hg w
  have hE : ∀ u v, E h u v ↔ Mem (history ops) u ∧ Mem (history ops) v ∧ u ≠ v ∧ ¬ E (history ops) u v := by
    intro u v
    rw [E, E, mem_nbrs, mem_nbrs]
    constructor
    · rintro ⟨x, hx⟩
      obtain ⟨-, k1, k2, k3, k4⟩ := (h4 u v x).1 hx
      exact ⟨k1, k2, k3, by rw [k4]; simp⟩
    · rintro ⟨k1, k2, k3, k4⟩
      refine ⟨w, (h4 u v w).2 ⟨rfl, k1, k2, k3, ?_⟩⟩
      rw [← Option.not_isSome_iff_eq_none, Option.isSome_iff_exists]
      exact k4
  have hcl : ∀ C : Finset V, Clq h C ↔ IndependentSets.Ind (history ops) C := by
    intro C
    constructor
    · rintro ⟨k1, k2⟩
      exact ⟨fun v hv => (h3 v).1 (k1 v hv), fun u hu v hv hne => ((hE u v).1 (k2 u hu v hv hne)).2.2.2⟩
    · rintro ⟨k1, k2⟩
      exact ⟨fun v hv => (h3 v).2 (k1 v hv),
        fun u hu v hv hne => (hE u v).2 ⟨k1 u hu, k1 v hv, hne, k2 u hu v hv hne⟩⟩
  obtain ⟨v0, hv0⟩ := hne
  obtain ⟨k, l, k1, ⟨k2, k3, k4⟩, k5⟩ := ostergard_spec h2 (by intro v hv; exact ((hE v v).1 hv).2.2.1 rfl)
    ⟨v0, (h3 v0).2 hv0⟩
  refine ⟨(k, l), ?_, returns_of_found ⟨k2, (hcl _).1 k3, k4⟩ (fun Q hQ => k5 Q ((hcl Q).2 hQ))⟩
  rw [IndependentSets.maximumIndependentSet, h1]
  exact k1

/-- C73 fails for the graph without vertices: `maximum_independent_set` raises IndexError, while `branch_and_bound`
returns the empty set. -/
theorem C73_independent_empty_violation (w : W) :
    IndependentSets.maximumIndependentSet ([] : Graph V W) w = .error .indexError ∧
      IndependentSets.branchAndBound ([] : Graph V W) = .ok (0, []) := ⟨rfl, rfl⟩

/-- C93, `greedy` returns a maximal independent set in increasing order and its size, whichever vertices
`random.choice` selects. -/
theorem C93_greedy (ord : Finset V → List V) (hord : ∀ S, (ord S).Nodup ∧ ∀ x, x ∈ ord S ↔ x ∈ S)
    (pick : List V → List V → V) (hpick : ∀ acc l, l ≠ [] → pick acc l ∈ l) (ops : List (Op V W)) :
    ∃ l, IndependentSets.greedy ord pick (history ops) = .ok (l.length, l) ∧ l.Pairwise (· < ·) ∧
      IsMaximalIndependent (toAbs (history ops)).verts (Linked (history ops)) l.toFinset := by
  have hg := (history_spec ops).1
  have hcard : (vertexSet (history ops)).card ≤ numVertices (history ops) :=
    (List.toFinset_card_le _).trans (by simp [numVertices, Dict.keys])
  obtain ⟨l, h1, h2, h3⟩ := IndependentSets.greedyLoop_spec hord hpick hg (numVertices (history ops)) [] (history ops) hg
    hcard (by simp) ⟨by simp, by simp⟩ (by simp) (fun u v => ⟨fun h => ⟨E_mem hg ((E_symm hg).1 h), E_mem hg h, h⟩,
      fun h => h.2.2⟩)
  have hp := pySort_perm l (fun a b : V => decide (a ≤ b))
  have hs := pairwise_pySort (le := fun a b : V => decide (a ≤ b)) (by simpa using fun a b c => le_trans)
    (by simpa using le_total) l
  have hnd : (pySort l (fun a b : V => decide (a ≤ b))).Nodup := hp.nodup_iff.2 h2
  refine ⟨pySort l (fun a b => a ≤ b), ?_, (hs.and hnd).imp fun h => lt_of_le_of_ne (by simpa using h.1) h.2, ?_⟩
  · rw [IndependentSets.greedy, h1, hp.length_eq]
  · rw [← E_eq, List.toFinset_eq_of_perm _ _ hp]
    exact h3

omit [LinearOrder V] in
/-- C93, `culberson` returns an independent set of different vertices and its size; it is not empty when there is an
edge. -/
theorem C93_culberson_partial [DecidableEq V] (ord : Finset V → List V)
    (hord : ∀ S, (ord S).Nodup ∧ ∀ x, x ∈ ord S ↔ x ∈ S) (ops : List (Op V W)) :
    ∃ l, IndependentSets.culberson ord (history ops) = .ok (l.length, l) ∧ l.Nodup ∧
      IsIndependent (toAbs (history ops)).verts (Linked (history ops)) l.toFinset ∧
      (l ≠ [] ↔ ∃ u v, Linked (history ops) u v) := by
  have hg := (history_spec ops).1
  have hcard : (vertexSet (history ops)).card ≤ numVertices (history ops) :=
    (List.toFinset_card_le _).trans (by simp [numVertices, Dict.keys])
  obtain ⟨⟨k, d, l⟩, h1, ⟨h2, h3, h4, h5⟩, h6, h7⟩ := IndependentSets.indset_spec hord (Cliques.degreeOf (history ops))
    (numVertices (history ops)) (history ops) hg hcard
  dsimp only at h2 h3 h4 h5 h6 h7
  refine ⟨l, ?_, h2, ?_, ?_⟩
  · rw [IndependentSets.culberson, h1, ← h4]
  · rw [← E_eq]; exact h3
  · rw [← E_eq]
    constructor
    · intro hl
      have hd : 0 < d := by
        rcases h7 with h | h
        · cases h; exact absurd rfl hl
        · exact h
      rw [h5] at hd
      obtain ⟨v, hv, hpos⟩ := Finset.exists_ne_zero_of_sum_ne_zero (ne_of_gt hd)
      have hmem := h3.1 v hv
      rw [IndependentSets.degreeOf_eq hmem] at hpos
      obtain ⟨u, hu⟩ := List.exists_mem_of_ne_nil _ (fun h => hpos (List.length_eq_zero_iff.2 h))
      exact ⟨v, u, hu⟩
    · rintro ⟨u, v, huv⟩ rfl
      have hd : d = 0 := by simpa using h5
      subst hd
      obtain ⟨o1, o2, o3⟩ := C87_degree_order ops
      have hu : Mem (history ops) u := E_mem hg ((E_symm hg).1 huv)
      have hne : degreeOrder (history ops) ≠ [] := List.ne_nil_of_mem ((o2 u).2 hu)
      have hlast := List.getLast?_eq_some_getLast hne
      have h0 := h6 _ hlast
      have hm : Mem (history ops) ((degreeOrder (history ops)).getLast hne) := (o2 _).1 (List.getLast_mem hne)
      rw [IndependentSets.degreeOf_eq hm] at h0
      have hle : (nbrs (history ops) u).length ≤
          (nbrs (history ops) ((degreeOrder (history ops)).getLast hne)).length := by
        have hul := (o2 u).2 hu
        rw [← List.dropLast_append_getLast hne] at o3 hul
        rcases List.mem_append.1 hul with h | h
        · have := (List.pairwise_append.1 o3).2.2 u h _ (List.mem_singleton.2 rfl)
          rwa [← length_nbrs_delete hg [] _ (by simp), ← length_nbrs_delete hg [] _ (by simp)] at this
        · rw [List.mem_singleton.1 h]
      have : 0 < (nbrs (history ops) u).length := List.length_pos_of_mem huv
      omega

omit [LinearOrder V] in
/-- C93 fails for `culberson`: on a graph with vertices but without edges it returns the empty set, which is not
maximal. -/
theorem C93_culberson_violation [DecidableEq V] (ord : Finset V → List V)
    (hord : ∀ S, (ord S).Nodup ∧ ∀ x, x ∈ ord S ↔ x ∈ S) (ops : List (Op V W))
    (hne : (toAbs (history ops)).verts.Nonempty) (he : ∀ u v, ¬ Linked (history ops) u v) :
    IndependentSets.culberson ord (history ops) = .ok (0, []) ∧
      ¬ IsMaximalIndependent (toAbs (history ops)).verts (Linked (history ops)) ∅ := by
  obtain ⟨l, h1, -, -, h2⟩ := C93_culberson_partial ord hord ops
  have hl : l = [] := by
    by_contra hc
    obtain ⟨u, v, h⟩ := h2.1 hc
    exact he u v h
  refine ⟨by rw [h1, hl]; rfl, fun hmax => ?_⟩
  obtain ⟨v, hv⟩ := hne
  have := hmax.2 {v} ⟨by simpa using hv, fun a _ b _ _ => he a b⟩ (Finset.empty_subset _)
  simp at this

end Independent

/-! ## Examples -/

example : pardalos (fun S => (List.range 6).filter (· ∈ S)) (history cliqueOps) = .ok (3, [0, 1, 2]) := by decide +kernel

example : pardalosBinary (fun S => (List.range 6).filter (· ∈ S)) (history cliqueOps) = .ok (3, [0, 1, 2]) := by decide +kernel

example : ostergard (history cliqueOps) = .ok (3, [0, 1, 2]) := by decide +kernel

example : ostergardBinary (fun S => (List.range 6).filter (· ∈ S)) (history cliqueOps) = .ok (3, [0, 1, 2]) := by decide +kernel

example : maximumWeightClique (fun S => (List.range 6).filter (· ∈ S)) (history cliqueOps) (fun v => v * v) = .ok (25, [4, 3]) := by decide +kernel

example : IndependentSets.branchAndBound (history cliqueOps) = .ok (3, [2, 4, 5]) := by decide +kernel

example : IndependentSets.maximumIndependentSet (history cliqueOps) 1 = .ok (3, [1, 3, 5]) := by decide +kernel

example : IndependentSets.greedy (fun S => (List.range 6).filter (· ∈ S)) (fun _ l => l.headD 0) (history cliqueOps) = .ok (3, [0, 4, 5]) := by decide +kernel

example : IndependentSets.culberson (fun S => (List.range 6).filter (· ∈ S)) (history cliqueOps) = .ok (3, [4, 5, 2]) := by decide +kernel


end Rosemary.Props
