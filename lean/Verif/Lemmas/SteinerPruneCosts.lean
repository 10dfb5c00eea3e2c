import Verif.Lemmas.SteinerHeuristics
import Mathlib.Tactic.Linarith
import Mathlib.Tactic.Ring

/-!
# The search for leaves in `_delete_nonterminal_leaves`
-/

namespace Rosemary.SteinerTrees

open Graph Paths SpanningTrees Spec

variable {V W : Type} [LinearOrder V]

theorem TreeGraph.numVertices {one : W} {h : Graph V W} {S : Finset V} {T : Finset (V × V)} (ht : TreeGraph one h S T) :
    numVertices h = S.card := by
  have h1 : (Dict.keys h).toFinset = S := by
    ext v
    rw [List.mem_toFinset]
    exact ht.mem v
  rw [← h1, List.toFinset_card_of_nodup ht.good.wf, Dict.keys, List.length_map]
  rfl

variable [AddCommMonoid W] [LinearOrder W] [IsOrderedCancelAddMonoid W]

/-- The loop stops, and with `n` vertices it looks at no more than `n (n + 1) / 2` of them. -/
theorem pruneLoopC_spec {ord : Finset V → List V} (hord : ∀ S, (ord S).Nodup ∧ ∀ x, x ∈ ord S ↔ x ∈ S) {A : V → V → Option W}
    (hA : ∀ u v x, A u v = some x → 0 ≤ x) (one : W) (terminals : List V) {R : Finset V} (hR : 2 ≤ R.card) :
    ∀ (n : ℕ) (h : Graph V W) (S : Finset V) (T : Finset (V × V)) (k : ℕ), S.card = n → TreeGraph one h S T → SpanningTree A S T →
      R ⊆ S → (∀ x ∈ S, x ∈ terminals ↔ x ∈ R) →
      ∃ h' S' T' c, pruneLoop ord terminals h = some h' ∧ pruneLoopC ord terminals h k = some (h', k + c) ∧
        TreeGraph one h' S' T' ∧ Pruned A R S T S' T' ∧ 2 * c ≤ n * (n + 1) := by
  intro n
  induction n using Nat.strong_induction_on with
  | _ n ih =>
    intro h S T k hn ht hT hsub hRt
    obtain ⟨h1, b1, S1, T1, k1, k2, k3, k4, k5⟩ := prune_spec hA one terminals hR (ord (leaves h)) h false S T ht hT hsub hRt (hord _).1
      (fun x hx => (ht.mem_leaves hT).1 (((hord _).2 x).1 hx))
    have hnv := ht.numVertices
    rw [pruneLoop, pruneLoopC, k1]
    cases b1 with
    | false =>
      refine ⟨h1, S1, T1, n, rfl, by dsimp only; rw [hnv, hn], k2, k3, ?_⟩
      have : 1 ≤ n := by
        have := Finset.card_le_card hsub
        omega
      nlinarith
    | true =>
      have hlt := (k5 rfl).resolve_left (by simp)
      obtain ⟨h', S', T', c, j1, j2, j3, j4, j5⟩ := ih S1.card (by omega) h1 S1 T1 (k + n) rfl k2 k3.tree k3.term
        (fun x hx => hRt x (k3.sub hx))
      refine ⟨h', S', T', n + c, j1, ?_, j3, k3.trans j4, ?_⟩
      · dsimp only
        rw [hnv, hn, j2, Nat.add_assoc]
      · have : S1.card + 1 ≤ n := by omega
        nlinarith

/-- `_improve` prunes a minimum spanning tree of the given vertices. -/
theorem improve_stages {ord : Finset V → List V} (hord : ∀ S, (ord S).Nodup ∧ ∀ x, x ∈ ord S ↔ x ∈ S) {g : Graph V W} (hg : Good g)
    (one : W) (terminals : List V) (es : List (V × V)) (h2 : 2 ≤ (ends es).card) (hes : ∀ e ∈ es, ∃ w, adj g e.1 e.2 = some w)
    (hj : ∀ u ∈ ends es, ∀ v ∈ ends es, Joined es.toFinset u v) :
    ∃ h0 T0, TreeGraph one h0 (ends es) T0 ∧ MinSpanningTree (adj g) (ends es) T0 ∧
      ∀ h' S' T' k, pruneLoop ord terminals h0 = some h' → pruneLoopC ord terminals h0 0 = some (h', k) →
        TreeGraph one h' S' T' → SpanningTree (adj g) S' T' →
        ∃ r, improve ord one g es terminals = some (.ok r) ∧ improveC ord one g es terminals = some (.ok r, k) := by
  have hmem : ∀ v ∈ ends es, Mem g v := by
    intro v hv
    obtain ⟨e, he, h1⟩ := mem_ends.1 hv
    obtain ⟨w, hw⟩ := hes e he
    rcases h1 with rfl | rfl
    · exact mem_of_adj hw
    · exact hg.mem_right hw
  obtain ⟨h, i1, i2, i3, i4⟩ := Rosemary.Graph.induced_spec hord hg (es.flatMap (fun e => [e.1, e.2]))
    (fun u hu => hmem u (List.mem_toFinset.2 hu))
  have hin : ∀ v, v ∈ es.flatMap (fun e => [e.1, e.2]) ↔ v ∈ ends es := fun v => List.mem_toFinset.symm
  simp only [hin] at i3 i4
  have hne : (ends es).Nonempty := Finset.card_pos.1 (by omega)
  obtain ⟨t1, mst, p1, p2, p3⟩ := prim_none i2 hne i3 (fun u hu v hv => reach_of_joined i2 (fun e he => by
    rw [List.mem_toFinset] at he
    obtain ⟨w, hw⟩ := hes e he
    exact ⟨w, by rw [i4, if_pos ⟨mem_ends.2 ⟨e, he, Or.inl rfl⟩, mem_ends.2 ⟨e, he, Or.inr rfl⟩⟩]; exact hw⟩) (hj u hu v hv))
  have htree : ∀ T, SpanningTree (adj h) (ends es) T ↔ SpanningTree (adj g) (ends es) T := by
    intro T
    constructor
    · intro hT
      refine ⟨fun u v huv => ?_, hT.joined, hT.card⟩
      obtain ⟨k1, k2, k3, w, k4⟩ := hT.edge u v huv
      rw [i4, if_pos ⟨k2, k3⟩] at k4
      exact ⟨k1, k2, k3, w, k4⟩
    · intro hT
      refine ⟨fun u v huv => ?_, hT.joined, hT.card⟩
      obtain ⟨k1, k2, k3, w, k4⟩ := hT.edge u v huv
      exact ⟨k1, k2, k3, w, by rw [i4, if_pos ⟨k2, k3⟩]; exact k4⟩
  have hweight : ∀ T, SpanningTree (adj g) (ends es) T → totalWeight (adj h) T = totalWeight (adj g) T := by
    intro T hT
    apply Finset.sum_congr rfl
    rintro ⟨u, v⟩ huv
    obtain ⟨-, k2, k3, -⟩ := hT.edge u v huv
    dsimp only
    rw [i4, if_pos ⟨k2, k3⟩]
  have hT0 := (htree _).1 p3.tree
  obtain ⟨q1, q2, q3⟩ := addOnes_spec one mst ([] : Graph V W) good_empty
  have htg : TreeGraph one (mst.foldl (fun tree e => addEdge tree e.1 e.2 one) []) (ends es) mst.toFinset := by
    refine ⟨q1, fun v => ?_, fun u v => ?_⟩
    · rw [q2]
      constructor
      · rintro (⟨⟨a, b⟩, he, h1⟩ | h1)
        · obtain ⟨-, k2, k3, -⟩ := hT0.edge a b (List.mem_toFinset.2 he)
          rcases h1 with rfl | rfl
          · exact k2
          · exact k3
        · simp [Mem, Dict.keys] at h1
      · intro hv
        left
        obtain ⟨y, hy, hyv⟩ := Finset.exists_mem_ne (by omega : 1 < (ends es).card) v
        obtain ⟨e, he, h1⟩ := hT0.exists_edge hv hy hyv
        exact ⟨e, List.mem_toFinset.1 he, h1.imp Eq.symm Eq.symm⟩
    · rw [q3]; simp only [List.mem_toFinset]; rfl
  refine ⟨_, _, htg, ⟨hT0, fun T hT => ?_⟩, fun h' S' T' k r0 r1 r2 r3 => ?_⟩
  · rw [← hweight _ hT0, ← hweight _ hT]
    exact p3.min T ((htree T).2 hT)
  · obtain ⟨s1, s2⟩ := r2.edges r3
    have hsw : sumWeights g (edges h') 0 = .ok (0 + ((edges h').map (fun e => (adj g e.1 e.2).getD 0)).sum) :=
      sumWeights_spec _ _ (fun e he => by
        obtain ⟨u, v⟩ := e
        rw [← List.mem_toFinset, s2] at he
        exact (r3.edge u v he).2.2.2)
    refine ⟨(0 + ((edges h').map (fun e => (adj g e.1 e.2).getD 0)).sum, edges h'), ?_, ?_⟩
    · rw [improve, i1]
      dsimp only
      rw [p1]
      dsimp only
      rw [deleteNonterminalLeaves, r0, Option.map_some]
      dsimp only
      rw [hsw]
    · rw [improveC, i1]
      dsimp only
      rw [p1]
      dsimp only
      rw [deleteNonterminalLeavesC, r1, Option.map_some]
      dsimp only
      rw [hsw]

/-- `distance_network_heuristic` with the number of vertices looked at. -/
theorem distanceNetworkC_spec {ord : Finset V → List V} (hord : ∀ S, (ord S).Nodup ∧ ∀ x, x ∈ ord S ↔ x ∈ S) {g : Graph V W}
    (hg : Good g) (hA : ∀ u v x, adj g u v = some x → 0 ≤ x) (one : W) (s : V) (us : List V)
    (hm : ∀ u ∈ s :: us, Mem g u) {R : Finset V}
    (hR : ∀ v, v ∈ R ↔ v ∈ s :: us ∧ Reach (fun a b => ∃ w, adj g a b = some w) s v) (hR2 : 2 ≤ R.card) :
    ∃ r c, distanceNetworkHeuristic ord one g (s :: us) = some (.ok r) ∧ distanceNetworkC ord one g (s :: us) = some (.ok r, c) ∧
      2 * c ≤ numVertices g * (numVertices g + 1) := by
  obtain ⟨B, mst, L, es, hs, e1, e2⟩ := (distanceNetwork_stages hg hA s us hm hR).1 hR2
  have hcard := Finset.card_le_card hs.sub
  have hes : ∀ e ∈ es, ∃ w, adj g e.1 e.2 = some w := fun e he => (hs.tree.edge e.1 e.2 (List.mem_toFinset.2 he)).2.2.2
  obtain ⟨h0, T0, f1, f2, f3⟩ := improve_stages hord hg one (s :: us) es (by rw [hs.ends]; omega) hes
    (by rw [hs.ends]; exact hs.tree.joined)
  obtain ⟨h', S', T', c, k1, k2, k3, k4, k5⟩ := pruneLoopC_spec hord hA one (s :: us) hR2 _ h0 _ T0 0 rfl f1 f2.tree
    (by rw [hs.ends]; exact hs.sub) (fun x hx => by rw [hs.ends] at hx; exact hs.term x hx)
  rw [Nat.zero_add] at k2
  obtain ⟨r, r1, r2⟩ := f3 h' S' T' c k1 k2 k3 k4.tree
  refine ⟨r, c, by rw [e1]; exact r1, by rw [e2]; exact r2, k5.trans ?_⟩
  have hle : (ends es).card ≤ numVertices g := by
    have h1 : ends es ⊆ (Dict.keys g).toFinset := by
      intro v hv
      rw [List.mem_toFinset]
      obtain ⟨e, he, h1⟩ := mem_ends.1 hv
      obtain ⟨w, hw⟩ := hes e he
      rcases h1 with rfl | rfl
      · exact mem_of_adj hw
      · exact hg.mem_right hw
    have h2 := Finset.card_le_card h1
    rw [List.toFinset_card_of_nodup hg.wf, Dict.keys, List.length_map] at h2
    exact h2
  exact Nat.mul_le_mul hle (Nat.succ_le_succ hle)

end Rosemary.SteinerTrees
