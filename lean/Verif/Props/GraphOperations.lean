import Verif.Props.Graph
import Verif.Props.DegreeSequences

/-!
# C196: the operations of `Graph` together

Complements, induced subgraphs and deletions, each of them described in C63, applied one after the other; and the
degrees of a graph handed to the tests for degree sequences (C74, C90).
-/

namespace Rosemary.Props

open Rosemary Rosemary.Graph Rosemary.DegreeSequences

variable {V W : Type}

private theorem abs_ext {A B : Abs V W} (h1 : ∀ u, u ∈ A.verts ↔ u ∈ B.verts)
    (h2 : ∀ u v, A.weight u v = B.weight u v) : A = B := by
  cases A; cases B
  congr
  · exact Set.ext h1
  · funext u v; exact h2 u v

/-- C196, `complement` twice: the vertices are the old ones, and two are adjacent exactly when they are different and
were adjacent; all weights are now the default one. -/
theorem C196_complement_twice [LinearOrder V] [DecidableEq W] (ops : List (Op V W)) (one : W) :
    ∃ h k, complement (history ops) one = .ok h ∧ complement h one = .ok k ∧
      (toAbs k).verts = (toAbs (history ops)).verts ∧
      ∀ u v w, (toAbs k).weight u v = some w ↔ w = one ∧ u ≠ v ∧ (toAbs (history ops)).weight u v ≠ none := by
  have hg := (history_spec ops).1
  obtain ⟨h, h1, h2, h3, h4⟩ := complement_spec hg one
  obtain ⟨k, k1, -, k3, k4⟩ := complement_spec h2 one
  refine ⟨h, k, h1, k1, Set.ext fun u => (k3 u).trans (h3 u), fun u v w => ?_⟩
  change adj k u v = some w ↔ w = one ∧ u ≠ v ∧ adj (history ops) u v ≠ none
  rw [k4, h3, h3]
  constructor
  · rintro ⟨e, hu, hv, huv, hn⟩
    refine ⟨e, huv, fun e' => ?_⟩
    rw [(h4 u v one).2 ⟨rfl, hu, hv, huv, e'⟩] at hn
    simp at hn
  · rintro ⟨e, huv, hn⟩
    obtain ⟨x, hx⟩ := Option.ne_none_iff_exists'.1 hn
    refine ⟨e, mem_of_adj hx, hg.mem_right hx, huv, ?_⟩
    rw [Option.eq_none_iff_forall_ne_some]
    intro y hy
    exact hn ((h4 u v y).1 hy).2.2.2.2

/-- C196: a graph without loops all of whose weights are the default is its own double complement. -/
theorem C196_complement_involution [LinearOrder V] [DecidableEq W] (ops : List (Op V W)) (one : W)
    (hw : ∀ u v w, (toAbs (history ops)).weight u v = some w → u ≠ v ∧ w = one) :
    ∃ h k, complement (history ops) one = .ok h ∧ complement h one = .ok k ∧ toAbs k = toAbs (history ops) := by
  obtain ⟨h, k, h1, h2, h3, h4⟩ := C196_complement_twice ops one
  refine ⟨h, k, h1, h2, abs_ext (fun u => by rw [h3]) fun u v => Option.ext fun w => ?_⟩
  rw [h4]
  constructor
  · rintro ⟨rfl, -, hn⟩
    obtain ⟨x, hx⟩ := Option.ne_none_iff_exists'.1 hn
    rw [hx, (hw u v x hx).2]
  · intro h
    exact ⟨(hw u v w h).2, (hw u v w h).1, by rw [h]; simp⟩

/-- C196, `induced_subgraph` twice is `induced_subgraph` once, for the smaller set. -/
theorem C196_induced_twice [DecidableEq V] (ord : Finset V → List V)
    (hord : ∀ S, (ord S).Nodup ∧ ∀ x, x ∈ ord S ↔ x ∈ S) (ops : List (Op V W)) (us vs : List V)
    (hus : ∀ u ∈ us, u ∈ (toAbs (history ops)).verts) (hvs : ∀ v ∈ vs, v ∈ us) :
    ∃ h k k', inducedSubgraph ord (history ops) us = .ok h ∧ inducedSubgraph ord h vs = .ok k ∧
      inducedSubgraph ord (history ops) vs = .ok k' ∧ toAbs k = toAbs k' := by
  have hg := (history_spec ops).1
  obtain ⟨h, h1, h2, h3, h4⟩ := induced_spec hord hg us hus
  obtain ⟨k, k1, -, k3, k4⟩ := induced_spec hord h2 vs fun v hv => (h3 v).2 (hvs v hv)
  obtain ⟨l, l1, -, l3, l4⟩ := induced_spec hord hg vs fun v hv => hus v (hvs v hv)
  refine ⟨h, k, l, h1, k1, l1, abs_ext (fun u => (k3 u).trans (l3 u).symm) fun u v => ?_⟩
  change adj k u v = adj l u v
  rw [k4, l4, h4]
  by_cases e : u ∈ vs ∧ v ∈ vs
  · rw [if_pos e, if_pos e, if_pos ⟨hvs u e.1, hvs v e.2⟩]
  · rw [if_neg e, if_neg e]

/-- C196, `complement` and `induced_subgraph` commute. -/
theorem C196_complement_induced [LinearOrder V] [DecidableEq W] (ord : Finset V → List V)
    (hord : ∀ S, (ord S).Nodup ∧ ∀ x, x ∈ ord S ↔ x ∈ S) (ops : List (Op V W)) (one : W) (us : List V)
    (hus : ∀ u ∈ us, u ∈ (toAbs (history ops)).verts) :
    ∃ h h' k k', inducedSubgraph ord (history ops) us = .ok h ∧ complement h one = .ok h' ∧
      complement (history ops) one = .ok k ∧ inducedSubgraph ord k us = .ok k' ∧ toAbs h' = toAbs k' := by
  have hg := (history_spec ops).1
  obtain ⟨h, h1, h2, h3, h4⟩ := induced_spec hord hg us hus
  obtain ⟨h', i1, -, i3, i4⟩ := complement_spec h2 one
  obtain ⟨k, k1, k2, k3, k4⟩ := complement_spec hg one
  obtain ⟨k', l1, -, l3, l4⟩ := induced_spec hord k2 us fun u hu => (k3 u).2 (hus u hu)
  refine ⟨h, h', k, k', h1, i1, k1, l1,
    abs_ext (fun u => ((i3 u).trans (h3 u)).trans (l3 u).symm) fun u v => Option.ext fun w => ?_⟩
  change adj h' u v = some w ↔ adj k' u v = some w
  rw [i4, l4, h3, h3, h4]
  by_cases e : u ∈ us ∧ v ∈ us
  · rw [if_pos e, if_pos e, k4]
    have := hus u e.1
    have := hus v e.2
    exact ⟨fun a => ⟨a.1, hus u e.1, hus v e.2, a.2.2.2⟩, fun a => ⟨a.1, e.1, e.2, a.2.2.2⟩⟩
  · rw [if_neg e, if_neg e]
    constructor
    · rintro ⟨-, hu, hv, -⟩; exact absurd ⟨hu, hv⟩ e
    · intro a; simp at a

/-- C196, deletions: the order and repetition of deleted vertices do not matter, and `remove_vertices(us)` is
`induced_subgraph` of the others. -/
theorem C196_deletions [DecidableEq V] (ord : Finset V → List V)
    (hord : ∀ S, (ord S).Nodup ∧ ∀ x, x ∈ ord S ↔ x ∈ S) (ops : List (Op V W)) (us us' rest : List V)
    (hs : ∀ u, u ∈ us ↔ u ∈ us') (hrest : ∀ u, u ∈ rest ↔ u ∈ (toAbs (history ops)).verts ∧ u ∉ us) :
    toAbs (removeVertices (history ops) us) = toAbs (removeVertices (history ops) us') ∧
      ∃ h, inducedSubgraph ord (history ops) rest = .ok h ∧ toAbs h = toAbs (removeVertices (history ops) us) := by
  have hg := (history_spec ops).1
  constructor
  · refine abs_ext (fun u => ?_) fun u v => ?_
    · change Mem (deleteVertices _ _) u ↔ Mem (deleteVertices _ _) u
      rw [mem_deleteVertices hg, mem_deleteVertices hg, hs]
    · change adj (deleteVertices _ _) u v = adj (deleteVertices _ _) u v
      rw [adj_deleteVertices hg, adj_deleteVertices hg]
      simp only [hs]
  · obtain ⟨h, h1, -, h3, h4⟩ := induced_spec hord hg rest fun u hu => ((hrest u).1 hu).1
    refine ⟨h, h1, abs_ext (fun u => ?_) fun u v => ?_⟩
    · change Mem h u ↔ Mem (deleteVertices _ _) u
      rw [h3, mem_deleteVertices hg, hrest]
      exact and_comm
    · change adj h u v = adj (deleteVertices _ _) u v
      rw [h4, adj_deleteVertices hg]
      cases e : adj (history ops) u v with
      | none => simp
      | some w =>
        have hu : u ∈ (toAbs (history ops)).verts := mem_of_adj e
        have hv : v ∈ (toAbs (history ops)).verts := hg.mem_right e
        by_cases hus : u ∈ us ∨ v ∈ us
        · rw [if_pos hus, if_neg]
          rintro ⟨a, b⟩
          rcases hus with c | c
          · exact ((hrest u).1 a).2 c
          · exact ((hrest v).1 b).2 c
        · rw [if_neg hus, if_pos]
          exact ⟨(hrest u).2 ⟨hu, fun c => hus (Or.inl c)⟩, (hrest v).2 ⟨hv, fun c => hus (Or.inr c)⟩⟩

/-- C196, edges: deleting an edge just added between two vertices that were not adjacent restores the graph, and
deleting and adding an edge with its weight changes nothing. -/
theorem C196_edges [DecidableEq V] (ops : List (Op V W)) (a b : V) (w : W) :
    (a ∈ (toAbs (history ops)).verts → b ∈ (toAbs (history ops)).verts → (toAbs (history ops)).weight a b = none →
      toAbs (history (ops ++ [.addEdge a b w, .deleteEdge a b])) = toAbs (history ops)) ∧
      ((toAbs (history ops)).weight a b = some w →
        toAbs (history (ops ++ [.deleteEdge a b, .addEdge a b w])) = toAbs (history ops)) := by
  have hg := (history_spec ops).1
  simp only [C63_history, List.foldl_append, List.foldl_cons, List.foldl_nil, Op.meaning, Abs.link]
  rw [← C63_history]
  have key : ∀ u v, s(a, b) = s(u, v) → (toAbs (history ops)).weight u v = (toAbs (history ops)).weight a b := by
    intro u v h
    rcases Sym2.eq_iff.1 h with ⟨rfl, rfl⟩ | ⟨rfl, rfl⟩
    · rfl
    · exact hg.symm _ _
  constructor
  · intro ha hb hn
    refine abs_ext (fun u => ?_) fun u v => ?_
    · constructor
      · rintro (h | rfl | rfl)
        · exact h
        · exact ha
        · exact hb
      · exact Or.inl
    · dsimp only
      by_cases h : s(a, b) = s(u, v)
      · rw [if_pos h, key u v h, hn]
      · rw [if_neg h, if_neg h]
  · intro hn
    refine abs_ext (fun u => ?_) fun u v => ?_
    · constructor
      · rintro (h | rfl | rfl)
        · exact h
        · exact mem_of_adj (show adj (history ops) _ _ = some w from hn)
        · exact hg.mem_right (show adj (history ops) _ _ = some w from hn)
      · exact Or.inl
    · dsimp only
      by_cases h : s(a, b) = s(u, v)
      · rw [if_pos h, key u v h, hn]
      · rw [if_neg h, if_neg h]

/-- C196, degrees: the degrees of all vertices of a graph without loops, in any order, pass both tests for degree
sequences. -/
theorem C196_degree_sequence [DecidableEq V] (ops : List (Op V W))
    (hloop : ∀ u, (toAbs (history ops)).weight u u = none) (us : List V) (hnd : us.Nodup)
    (hus : ∀ u, u ∈ us ↔ u ∈ (toAbs (history ops)).verts) :
    ∃ ds, degrees (history ops) us = .ok ds ∧ isGraphic (ds.map (fun d : ℕ => (d : ℤ))) = .ok true ∧
      isGraphicErdosGallai (ds.map (fun d : ℕ => (d : ℤ))) = true := by
  have hg := (history_spec ops).1
  refine ⟨_, degrees_eq us fun u hu => (hus u).1 hu, ?_⟩
  set S := (us.map fun u => (nbrs (history ops) u).length).map (fun d : ℕ => (d : ℤ)) with hS
  have hlen : S.length = us.length := by simp [hS]
  suffices hd : IsDegreeSequence S by
    obtain ⟨b, hb, hb'⟩ := C74_is_graphic S
    rw [hb, hb'.2 hd]
    exact ⟨rfl, C90_erdos_gallai_accepts S hd⟩
  let x : Fin S.length → V := fun i => us.get (i.cast hlen)
  have hx : Function.Injective x := fun i j h => by
    have := (List.nodup_iff_injective_get.1 hnd) h
    exact Fin.ext (by simpa using congrArg Fin.val this)
  refine ⟨⟨fun i j => adj (history ops) (x i) (x j) ≠ none, ⟨fun i j h => by rw [hg.symm]; exact h⟩,
    ⟨fun i h => h (hloop (x i))⟩⟩, fun i => ?_⟩
  have hget : S.get i = ((nbrs (history ops) (x i)).length : ℤ) := by simp [hS, x]
  rw [hget, length_nbrs hg]
  congr 1
  refine Set.ncard_congr (fun j _ => x j) ?_ (fun _ _ _ _ h => hx h) ?_
  · intro j hj
    exact Option.ne_none_iff_exists'.1 hj
  · rintro v ⟨w, hw⟩
    have hv : v ∈ us := (hus v).2 (hg.mem_right hw)
    obtain ⟨j, hj⟩ := List.get_of_mem hv
    refine ⟨j.cast hlen.symm, ?_, hj⟩
    change adj (history ops) (x i) (us.get j) ≠ none
    rw [hj, hw]
    simp

example : degrees petersenGraph [0, 1, 2, 3, 4, 5, 6, 7, 8, 9] = .ok (List.replicate 10 3) ∧
    isGraphicErdosGallai (List.replicate 10 3) = true := by decide +kernel

example : ∃ h k : Graph ℕ ℤ, complement (history [.addEdge 1 2 (7 : ℤ), .addVertex 3]) 1 = .ok h ∧ complement h 1 = .ok k ∧
    (toAbs k).weight 1 2 = some 1 ∧ (toAbs k).weight 1 3 = none ∧ (toAbs h).weight 1 3 = some 1 := by
  refine ⟨[(1, [(3, 1)]), (2, [(3, 1)]), (3, [(1, 1), (2, 1)])], [(1, [(2, 1)]), (2, [(1, 1)]), (3, [])], ?_⟩
  decide +kernel

end Rosemary.Props
