import Verif.Lemmas.MaxCliqueMasks
import Verif.Lemmas.WeightCliques
import Verif.Lemmas.IndependentSets
import Verif.Lemmas.Coloring

/-!
# The order of the vertices in `ostergard`
-/

namespace Rosemary.Cliques

open Rosemary.Graph Rosemary.Spec
open Rosemary.Traversal (E)

variable {V W : Type} [DecidableEq V]

theorem classOrder_spec {g : Graph V W} (hg : Good g) (hne : ∃ v, Mem g v) :
    ∃ vs, classOrder g = .ok vs ∧ vs.Nodup ∧ ∀ v, v ∈ vs ↔ Mem g v := by
  have hperm := IndependentSets.degreeOrder_perm g
  have hmem : ∀ v, v ∈ (degreeOrder g).reverse ↔ Mem g v := fun v => by
    rw [List.mem_reverse, hperm.mem_iff]; exact Iff.rfl
  have hnd : (degreeOrder g).reverse.Nodup := List.nodup_reverse.2 (hperm.nodup_iff.2 hg.wf)
  obtain ⟨v0, hv0⟩ := hne
  obtain ⟨m, k, h1, h2, h3⟩ := Coloring.greedyMap_spec (g := g) (List.ne_nil_of_mem ((hmem v0).2 hv0)) hnd
    (fun v hv => (hmem v).1 hv)
  have hcol : IsColoring {v | v ∈ (degreeOrder g).reverse} (E g) 0 k m :=
    h2.coloring (fun u v h => (E_symm hg).1 h) (fun v => by rw [h3]; rfl)
  have hpart := Coloring.partition_of_coloring hcol
  have hcl : Coloring.greedySequential g none 1 true =
      .ok (k, .classes ((List.range k).map (fun i => (m.filter (fun e => e.2 = i)).map Prod.fst))) := by
    rw [Coloring.greedySequential, h1]
    dsimp only
    rw [if_pos (Or.inl rfl), Coloring.classesOf_spec h2.bound]
    rfl
  rw [classOrder, hcl]
  dsimp only
  generalize (List.range k).map (fun i => (m.filter (fun e => e.2 = i)).map Prod.fst) = cl at hpart
  refine ⟨_, rfl, ?_⟩
  have hp : ∀ cl : List (List V), (cl.flatMap (fun l => pySort l (fun a b => degreeOf g b ≤ degreeOf g a))).Perm cl.flatten := by
    intro cl
    induction cl with
    | nil => simp
    | cons a cl ih =>
      rw [List.flatMap_cons, List.flatten_cons]
      exact (pySort_perm _ _).append ih
  refine ⟨List.nodup_reverse.2 ((hp cl).nodup_iff.2 hpart.nodup), fun v => ?_⟩
  rw [List.mem_reverse, (hp cl).mem_iff, hpart.verts, ← hmem]
  exact Iff.rfl

/-- `ostergard` on a graph without loops. -/
theorem ostergard_spec {g : Graph V W} (hg : Good g) (hloop : ∀ v, ¬ E g v v) (hne : ∃ v, Mem g v) :
    ∃ k l, ostergard g = .ok (k, l) ∧ Valid g (k, l) ∧ ∀ Q, Clq g Q → Q.card ≤ k := by
  obtain ⟨vs, h1, h2, h3⟩ := classOrder_spec hg hne
  obtain ⟨⟨k, l⟩, k1, k2, k3⟩ := ostergardOuter_spec hg hloop h2 (fun v hv => (h3 v).1 hv) vs.length
    (List.replicate vs.length 0) (0, []) le_rfl (by simp) (fun j h4 h5 => by omega) (valid_zero g) (by
      intro Q hQ _
      rw [List.drop_length] at hQ
      have : Q = ∅ := Finset.eq_empty_iff_forall_notMem.2 (fun v hv => by simpa using hQ v hv)
      rw [this]; simp)
  refine ⟨k, l, ?_, k2, fun Q hQ => k3 Q (fun v hv => (h3 v).2 (hQ.1 v hv)) hQ⟩
  rw [ostergard, h1]
  exact k1

theorem ostergard_empty {g : Graph V W} (hne : ∀ v, ¬ Mem g v) : classOrder g = .error .indexError := by
  have : degreeOrder g = [] := by
    rw [List.eq_nil_iff_forall_not_mem]
    intro v hv
    exact hne v ((IndependentSets.degreeOrder_perm g).mem_iff.1 hv)
  rw [classOrder, Coloring.greedySequential]
  rw [this]
  rfl

theorem pardalos_spec {ord : Finset V → List V} {g : Graph V W} (hg : Good g) {vs : List V}
    (h : inducedOrder ord (numVertices g) g = .ok vs) (hmem : ∀ v, v ∈ vs ↔ Mem g v) :
    ∃ k l, pardalos ord g = .ok (k, l) ∧ Valid g (k, l) ∧ ∀ Q, Clq g Q → Q.card ≤ k := by
  obtain ⟨k, l, h1, h2, h3⟩ := pardalosLoop_top hg hmem
  refine ⟨k, l, ?_, h2, h3⟩
  rw [pardalos, h]
  exact h1

theorem pardalosBinary_eq {ord : Finset V → List V} (hord : ∀ S, (ord S).Nodup ∧ ∀ x, x ∈ ord S ↔ x ∈ S)
    {g : Graph V W} (hg : Good g) {vs : List V}
    (h : inducedOrder ord (numVertices g) g = .ok vs) (hnd : vs.Nodup) (hmem : ∀ v, v ∈ vs ↔ Mem g v) :
    pardalosBinary ord g = pardalos ord g := by
  rw [pardalosBinary, pardalos, h]
  have hd : dec vs (2 ^ vs.length - 1) = vs.toFinset := dec_full
  have hc : (Nat.digits 2 (2 ^ vs.length - 1)).count 1 = vs.toFinset.card :=
    count_bits_eq hnd _ _ (full_lt _) (by rw [hd])
  have hs := (pardalosMask_sim hord hnd (fun u v he => (hmem v).2 (E_mem hg he)) vs.length 0 0 0
    ((Nat.digits 2 (2 ^ vs.length - 1)).count 1) (2 ^ vs.length - 1) (0, 0) (by positivity) (full_lt _) (by positivity)
    (by simp) (by simp) (by rw [hd, hc])).2
  rw [lst_zero, hd] at hs
  change Except.ok (_, unmask vs _) = pardalosLoop g vs vs.length [] 0 0 vs.toFinset (0, [])
  rw [hs, unmask_eq hnd]

theorem ostergardBinary_eq {ord : Finset V → List V} (hord : ∀ S, (ord S).Nodup ∧ ∀ x, x ∈ ord S ↔ x ∈ S)
    {g : Graph V W} (hg : Good g) (hloop : ∀ v, ¬ E g v v) : ostergardBinary ord g = ostergard g := by
  by_cases hne : ∃ v, Mem g v
  · obtain ⟨vs, h1, h2, h3⟩ := classOrder_spec hg hne
    rw [ostergardBinary, ostergard, h1]
    have hs := ostergardMaskOuter_sim hord hloop h2 (fun u v he => (h3 v).2 (E_mem hg he)) vs.length
      (List.replicate vs.length 0) [] (0, 0) le_rfl (by simp) (by
        intro j hj
        simp [hj, Dict.get?]) (by positivity)
    change Except.ok (_, unmask vs _) = ostergardOuter g vs (List.range vs.length).reverse
      (List.replicate vs.length 0) (0, [])
    dsimp only at hs
    rw [lst_zero] at hs
    rw [hs, unmask_eq h2]
  · push Not at hne
    rw [ostergardBinary, ostergard, ostergard_empty hne]
    rfl

theorem maximumWeightClique_spec {ord : Finset V → List V} (hord : ∀ S, (ord S).Nodup ∧ ∀ x, x ∈ ord S ↔ x ∈ S)
    {g : Graph V W} (hg : Good g) (hloop : ∀ v, ¬ E g v v) {wt : V → ℤ} (hwt : ∀ v, Mem g v → 0 ≤ wt v) :
    ∃ k l, maximumWeightClique ord g wt = .ok (k, l) ∧ ValidW g wt (k, l) ∧ ∀ Q, Clq g Q → ∑ v ∈ Q, wt v ≤ k := by
  rw [maximumWeightClique]
  have hp := pySort_perm (ord (vertexSet g)) (fun a b => ∑ v ∈ nb g a, wt v ≤ ∑ v ∈ nb g b, wt v)
  generalize pySort (ord (vertexSet g)) _ = vs at hp
  have hnd : vs.Nodup := hp.nodup_iff.2 (hord _).1
  have hmem : ∀ v, v ∈ vs ↔ Mem g v := fun v => by rw [hp.mem_iff, (hord _).2, Graph.mem_vertexSet]
  obtain ⟨⟨k, l⟩, k1, k2, k3⟩ := weightOuter_spec hg hloop hwt hnd (fun v hv => (hmem v).1 hv) vs.length
    (List.replicate vs.length 0) (0, []) le_rfl (by simp) (fun j h4 h5 => by omega)
    ⟨by simp, ⟨by simp, by simp⟩, by simp⟩ (by
      intro Q hQ _
      rw [List.drop_length] at hQ
      have : Q = ∅ := Finset.eq_empty_iff_forall_notMem.2 (fun v hv => by simpa using hQ v hv)
      rw [this]; simp)
  exact ⟨k, l, k1, k2, fun Q hQ => k3 Q (fun v hv => (hmem v).2 (hQ.1 v hv)) hQ⟩

end Rosemary.Cliques
