import Verif.Lemmas.HamiltonianBits
import Verif.Lemmas.HamiltonianSum
import Verif.Props.Cliques

/-!
# Properties of the search for Hamiltonian paths (C75)

Graphs are those that any sequence of `Graph` operations builds.  The order of iteration of Python sets and the result
of `random.shuffle` are parameters.
-/

namespace Rosemary.Props

open Rosemary.Graph Rosemary.HamiltonianPaths Rosemary.Spec
open Rosemary.Traversal (E)

variable {V W : Type}

/-- The number of Hamiltonian paths of a graph. -/
noncomputable def hamiltonianNumber [DecidableEq V] (g : Graph V W) : ℕ := {l | IsHamiltonianPath (toAbs g).verts (Linked g) l}.ncard

section Sets

variable [DecidableEq V]

/-- C75, `hamiltonian_paths` yields every Hamiltonian path exactly once and nothing else. -/
theorem C75_hamiltonian_paths (ord : List V → Finset V → List V)
    (hord : ∀ c S, (ord c S).Nodup ∧ ∀ x, x ∈ ord c S ↔ x ∈ S) (ops : List (Op V W)) :
    (hamiltonianPaths ord (history ops)).Nodup ∧ ∀ l, l ∈ hamiltonianPaths ord (history ops) ↔
      IsHamiltonianPath (toAbs (history ops)).verts (Linked (history ops)) l := by
  obtain ⟨h1, h2⟩ := hamiltonianPaths_spec hord (history ops)
  refine ⟨h1, fun l => ?_⟩
  rw [h2, ← E_eq]; exact Iff.rfl

/-- C75, `hamiltonian_paths_con` yields the same paths in the same order: the branches that it leaves out contain no
Hamiltonian path. -/
theorem C75_hamiltonian_paths_con (ord : List V → Finset V → List V)
    (hord : ∀ c S, (ord c S).Nodup ∧ ∀ x, x ∈ ord c S ↔ x ∈ S) (ops : List (Op V W)) :
    hamiltonianPathsCon ord (history ops) = hamiltonianPaths ord (history ops) := by
  rw [hamiltonianPathsCon, hamiltonianPaths]
  congr 1
  funext v
  exact extendCon_eq hord (history_spec ops).1 _ _ _ _
    ((Finset.card_le_card (Finset.erase_subset _ _)).trans (card_vertexSet_le _))

/-- C75, `is_connected2(graph, allowed)` is true exactly when any two vertices of `allowed` are joined by a walk within
`allowed`. -/
theorem C75_is_connected2 (ord : Finset V → List V) (hord : ∀ S, (ord S).Nodup ∧ ∀ x, x ∈ ord S ↔ x ∈ S)
    (ops : List (Op V W)) (allowed : Finset V) : isConnected2 ord (history ops) allowed = true ↔
      ∀ a ∈ allowed, ∀ b ∈ allowed, Relation.ReflTransGen (fun x y => Linked (history ops) x y ∧ y ∈ allowed) a b := by
  have hg := (history_spec ops).1
  by_cases he : allowed = ∅
  · subst he
    rw [isConnected2]
    have : ord ∅ = [] := by
      rw [List.eq_nil_iff_forall_not_mem]
      intro v hv
      simpa using ((hord ∅).2 v).1 hv
    rw [this]
    simp
  · obtain ⟨start, h1, R, h2, h3, h4⟩ := isConnected2_spec hord (history ops) he
    have hrel : ∀ x y, (y ∈ Cliques.nb (history ops) x ∩ allowed) ↔ (Linked (history ops) x y ∧ y ∈ allowed) := by
      intro x y
      rw [Finset.mem_inter, Cliques.mem_nb, E_eq]
    have hdone : ∀ v, v ∈ R ↔ Relation.ReflTransGen (fun x y => Linked (history ops) x y ∧ y ∈ allowed) start v := by
      intro v
      rw [h3.done v]
      simp only [hrel]
    rw [h4]
    constructor
    · rintro rfl
      have hback : ∀ v, Relation.ReflTransGen (fun x y => Linked (history ops) x y ∧ y ∈ R) start v →
          Relation.ReflTransGen (fun x y => Linked (history ops) x y ∧ y ∈ R) v start := by
        intro v hv
        induction hv with
        | refl => exact Relation.ReflTransGen.refl
        | tail hab hbc ih =>
          refine Relation.ReflTransGen.head ⟨linked_symm ops _ _ hbc.1, (hdone _).2 hab⟩ ih
      intro a ha b hb
      exact (hback a ((hdone a).1 ha)).trans ((hdone b).1 hb)
    · intro h
      refine Finset.Subset.antisymm h2 (fun v hv => (hdone v).2 (h start h1 v hv))

/-- C75, `number_of_hamiltonian_paths` returns the number of Hamiltonian paths. -/
theorem C75_number (ord : Finset V → List V) (hord : ∀ S, (ord S).Nodup ∧ ∀ x, x ∈ ord S ↔ x ∈ S)
    (ops : List (Op V W)) : numberOfHamiltonianPaths ord (history ops) = hamiltonianNumber (history ops) := by
  have ht := total_eq (history ops)
  rw [hamiltonianNumber, ← E_eq]
  refine Eq.trans ?_ ht.symm
  rw [numberOfHamiltonianPaths, foldl_add, Nat.zero_add, ord_sum hord]
  exact Finset.sum_congr rfl (fun v _ => count_eq hord _ _ v _
    ((Finset.card_le_card (Finset.erase_subset _ _)).trans (card_vertexSet_le _)))

/-- C75, `number_of_hamiltonian_paths_bits` returns the number of Hamiltonian paths, however the vertices are
shuffled. -/
theorem C75_number_bits (ord : Finset V → List V) (hord : ∀ S, (ord S).Nodup ∧ ∀ x, x ∈ ord S ↔ x ∈ S)
    (ops : List (Op V W)) (vs : List V) (hnd : vs.Nodup) (hvs : ∀ v, v ∈ vs ↔ v ∈ (toAbs (history ops)).verts) :
    numberBits ord (history ops) vs = hamiltonianNumber (history ops) := by
  have hg := (history_spec ops).1
  rw [hamiltonianNumber, ← E_eq]
  exact sumBits_total hnd hvs (extendBits_spec hord hnd (fun u v h => (hvs v).2 (Cliques.E_mem hg h)) _)

/-- C75, `number_of_hamiltonian_paths_bits_con` returns the number of Hamiltonian paths. -/
theorem C75_number_bits_con (ord : Finset V → List V) (hord : ∀ S, (ord S).Nodup ∧ ∀ x, x ∈ ord S ↔ x ∈ S)
    (ops : List (Op V W)) (vs : List V) (hnd : vs.Nodup) (hvs : ∀ v, v ∈ vs ↔ v ∈ (toAbs (history ops)).verts) :
    numberBitsCon ord (history ops) vs = hamiltonianNumber (history ops) := by
  have hg := (history_spec ops).1
  rw [hamiltonianNumber, ← E_eq]
  exact sumBits_total hnd hvs (extendBitsCon_spec hord hg hnd (fun u v h => (hvs v).2 (Cliques.E_mem hg h)) _)

/-- C75, `number_of_hamiltonian_paths5` returns the number of Hamiltonian paths of a graph with at least two vertices.
Not covered: a single vertex, where the claim fails, see below. -/
theorem C75_number5_partial (ord : Finset V → List V) (hord : ∀ S, (ord S).Nodup ∧ ∀ x, x ∈ ord S ↔ x ∈ S)
    (ops : List (Op V W)) (h2 : 2 ≤ (toAbs (history ops)).verts.ncard) :
    number5 ord (history ops) = (hamiltonianNumber (history ops) : ℤ) := by
  have hg := (history_spec ops).1
  rw [hamiltonianNumber, ← E_eq]
  refine number5_spec hord hg ?_
  have : (toAbs (history ops)).verts = (vertexSet (history ops) : Set V) := by
    ext v; rw [Finset.mem_coe, Graph.mem_vertexSet]; rfl
  rwa [this, Set.ncard_coe_finset] at h2

end Sets

/-- C75 fails for `number_of_hamiltonian_paths5` on a single vertex: the result is 0, while there is one path. -/
theorem C75_number5_violation :
    number5 (fun S => (List.range 1).filter (· ∈ S)) (history [Op.addVertex (V := ℕ) (W := ℤ) 0]) = 0 ∧
      numberOfHamiltonianPaths (fun S => (List.range 1).filter (· ∈ S)) (history [Op.addVertex (V := ℕ) (W := ℤ) 0]) = 1 := by
  decide +kernel

/-- C75 fails for `number_of_hamiltonian_paths5_con` on the path with three vertices: the result is 4, while there are
two Hamiltonian paths.  The sets whose complement is not connected must not be left out of the sum. -/
theorem C75_number5_con_violation :
    number5Con (fun S => (List.range 3).filter (· ∈ S)) (history [Op.addEdges [(0, 1, (1 : ℤ)), (1, 2, 1)]]) = 4 ∧
      number5 (fun S => (List.range 3).filter (· ∈ S)) (history [Op.addEdges [(0, 1, (1 : ℤ)), (1, 2, 1)]]) = 2 ∧
      numberOfHamiltonianPaths (fun S => (List.range 3).filter (· ∈ S))
        (history [Op.addEdges [(0, 1, (1 : ℤ)), (1, 2, 1)]]) = 2 := by
  decide +kernel

/-! ## Examples -/

/-- A triangle with a path of two edges attached. -/
def hamiltonOps : List (Op ℕ ℤ) := [Op.addEdges [(0, 1, 1), (1, 2, 1), (2, 0, 1), (2, 3, 1), (3, 4, 1)]]

example : hamiltonianPaths (fun _ S => (List.range 6).filter (· ∈ S)) (history hamiltonOps) =
    [[0, 1, 2, 3, 4], [1, 0, 2, 3, 4], [4, 3, 2, 0, 1], [4, 3, 2, 1, 0]] := by decide +kernel

example : hamiltonianPathsCon (fun _ S => (List.range 6).filter (· ∈ S)) (history hamiltonOps) =
    [[0, 1, 2, 3, 4], [1, 0, 2, 3, 4], [4, 3, 2, 0, 1], [4, 3, 2, 1, 0]] := by decide +kernel

example : isConnected2 (fun S => (List.range 6).filter (· ∈ S)) (history hamiltonOps) {0, 1, 3, 4} = false := by
  decide +kernel

example : isConnected2 (fun S => (List.range 6).filter (· ∈ S)) (history hamiltonOps) {0, 2, 3, 4} = true := by
  decide +kernel

example : numberOfHamiltonianPaths (fun S => (List.range 6).filter (· ∈ S)) (history hamiltonOps) = 4 := by
  decide +kernel

example : numberBits (fun S => (List.range 6).filter (· ∈ S)) (history hamiltonOps) [3, 1, 0, 4, 2] = 4 := by
  decide +kernel

example : numberBitsCon (fun S => (List.range 6).filter (· ∈ S)) (history hamiltonOps) [3, 1, 0, 4, 2] = 4 := by
  decide +kernel

example : number5 (fun S => (List.range 6).filter (· ∈ S)) (history hamiltonOps) = 4 := by decide +kernel

end Rosemary.Props
