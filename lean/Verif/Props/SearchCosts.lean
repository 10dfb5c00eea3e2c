import Verif.Lemmas.SearchCosts
import Mathlib.Algebra.BigOperators.Ring.Finset
import Verif.Props.SpanningTrees
import Verif.Props.DijkstraVariants

/-!
# The work of the graph searches (C160)

`Model/SearchCosts.lean` repeats the searches together with the number of elements taken from the queue, heap or buckets
and the number of adjacency entries looked at.  The bounds are in terms of `num_vertices()` and `num_edges()`.
-/

namespace Rosemary.Props

open Rosemary.Graph Rosemary.Paths Rosemary.Traversal Rosemary.SpanningTrees Rosemary.Spec

section

variable {V W : Type} [LinearOrder V]

theorem entries_le {g : Graph V W} (hg : Good g) : entries g ≤ 2 * numEdges g := by
  have h := handshake hg (Dict.keys g) hg.wf (fun u => Iff.rfl)
  have e : (Dict.keys g).map (fun u => (nbrs g u).length) = g.map (fun e => e.2.length) := by
    rw [Dict.keys, List.map_map]
    refine List.map_congr_left fun e he => ?_
    rw [Function.comp_apply, nbrs, Dict.get?_of_mem hg.wf he]
    simp [Dict.keys]
  rw [e] at h
  rw [entries]
  omega

theorem sum_sub_le {g : Graph V W} (hg : Good g) {l : List V} (hl : l.Nodup) (hm : ∀ v ∈ l, Mem g v) :
    l.length ≤ numVertices g ∧ (l.map (degOf g)).sum ≤ 2 * numEdges g := by
  have hs : l.toFinset ⊆ vertexSet g := fun v hv => List.mem_toFinset.2 (hm v (List.mem_toFinset.1 hv))
  constructor
  · have := (Finset.card_le_card hs).trans (List.toFinset_card_le (Dict.keys g))
    rw [List.toFinset_card_of_nodup hl] at this
    simpa [numVertices, Dict.keys] using this
  · rw [← List.sum_toFinset _ hl]
    exact ((Finset.sum_le_sum_of_subset hs).trans (le_of_eq (sum_degOf hg.wf))).trans (entries_le hg)

/-- C160: `breadth_first_search` takes every vertex that it yields from the queue once and never another one, so at most
`num_vertices()` elements, and it looks at every edge at most twice. -/
theorem C160_bfs (ops : List (Op V W)) (s : V) (hs : s ∈ (toAbs (history ops)).verts) (md : Option ℤ) :
    ∃ l pops scans, breadthFirstSearchC (history ops) s md = some ((l, none), pops, scans) ∧
      breadthFirstSearch (history ops) s md = some (l, none) ∧ pops = l.length ∧ pops ≤ numVertices (history ops) ∧
      scans ≤ 2 * numEdges (history ops) := by
  have hg := (history_spec ops).1
  obtain ⟨l, prev, h1, -, h⟩ := bfs_spec hg hs md
  obtain ⟨p, k, h2, -, h3, h4⟩ := breadthFirstSearchC_spec h1
  obtain ⟨h5, h6⟩ := sum_sub_le hg h.nodup h.mem
  have h7 := (h4 rfl).1
  exact ⟨s :: l, p, k, h2, h1, h7, h7 ▸ h5, h3.trans h6⟩

/-- C160: the searches of `connected_components` together take exactly `num_vertices()` elements from their queues, and look at
every edge at most twice. -/
theorem C160_components (ops : List (Op V W)) :
    ∃ cs scans, connectedComponentsC (history ops) = some (.ok cs, numVertices (history ops), scans) ∧
      connectedComponents (history ops) = some (.ok cs) ∧ scans ≤ 2 * numEdges (history ops) := by
  have hg := (history_spec ops).1
  obtain ⟨cs, h1, h2, h3, h4⟩ := C66_components ops
  obtain ⟨p, k, i1, i2, i3⟩ := componentsLoopC_spec _ _ _ h1
  have hnd : cs.flatten.Nodup := List.nodup_flatten.2 ⟨fun c hc => (h4 c hc).2.1, h3⟩
  have hm : ∀ v, v ∈ cs.flatten ↔ Mem (history ops) v := by
    intro v
    rw [List.mem_flatten]
    exact (h2 v).symm
  have hn : cs.flatten.length = numVertices (history ops) := by
    have : cs.flatten.Perm (Dict.keys (history ops)) := (List.perm_ext_iff_of_nodup hnd hg.wf).2 hm
    rw [this.length_eq, numVertices, Dict.keys, List.length_map]
  refine ⟨cs, k, ?_, h1, ?_⟩
  · rw [connectedComponentsC, i1, i2, hn]
  · rw [i3]
    exact (sum_sub_le hg hnd fun v hv => (hm v).1 hv).2

end

section

variable {V W : Type} [LinearOrder V] [AddCommMonoid W] [LinearOrder W]

theorem keys_init (g : Graph V W) {α : Type} (a b : α) {s : V} (hs : Mem g s) :
    Dict.keys (Dict.set (g.map (fun e => (e.1, a))) s b) = Dict.keys g := by
  have h : Dict.keys (g.map (fun e => (e.1, a))) = Dict.keys g := by
    simp [Dict.keys, Function.comp_def]
  rw [Dict.keys_set, h, if_pos (show s ∈ Dict.keys g from hs)]

/-- C160: `dijkstra` takes at most `2 * num_edges() + 1` elements from the heap and looks at every edge at most twice, whatever
the weights are (also for negative ones, where the distances are wrong). -/
theorem C160_dijkstra (ops : List (Op V W)) (s : V) (hs : s ∈ (toAbs (history ops)).verts) :
    ∃ r pops scans, dijkstraC (history ops) s = some (.ok r, pops, scans) ∧ dijkstra (history ops) s = some (.ok r) ∧
      pops ≤ 2 * numEdges (history ops) + 1 ∧ scans ≤ 2 * numEdges (history ops) := by
  have hg := (history_spec ops).1
  have hs' : s ∈ Dict.keys (history ops) := hs
  have he := entries_le hg
  have hr := restDeg_empty hg.wf
  obtain ⟨r, p, k, h1, h2, h3, h4⟩ := dijkstraLoopC_spec hg _ _ (((history ops).map (fun e => (e.1, none)))) [((0 : W), s)] ∅ 0 0
    (keys_init (history ops) ⊤ ((0 : W) : WithTop W) hs') (by intro e he; rw [List.mem_singleton.1 he]; exact hs') rfl
  refine ⟨r, p, k, ?_, ?_, ?_, ?_⟩
  · rw [dijkstraC, if_neg (not_not.2 hs'), h1]
  · rw [dijkstra, if_neg (not_not.2 hs'), h2]
  · rw [hr, List.length_singleton] at h3; omega
  · omega

/-- C160: `bellman_ford` takes at most `n * n + 1` elements from the queue and looks at an edge at most `2 * n` times, where `n` is
`num_vertices()`, also when it raises a `ValueError`. -/
theorem C160_bellman_ford (ops : List (Op V W)) (s : V) (hs : s ∈ (toAbs (history ops)).verts) :
    ∃ r pops scans, bellmanFordC (history ops) s = some (r, pops, scans) ∧ bellmanFord (history ops) s = some r ∧
      pops ≤ numVertices (history ops) * numVertices (history ops) + 1 ∧
      scans ≤ 2 * numVertices (history ops) * numEdges (history ops) := by
  have hg := (history_spec ops).1
  have hs' : s ∈ Dict.keys (history ops) := hs
  have he := entries_le hg
  obtain ⟨r, p, k, h1, h2, h3, h4⟩ := bfLoopC_spec hg (history ops).length _ ((history ops).map (fun e => (e.1, 0))) _
    (((history ops).map (fun e => (e.1, none)))) [s] {s} 0 0
    (keys_init (history ops) ⊤ ((0 : W) : WithTop W) hs') (by simp [Dict.keys, Function.comp_def])
    (by intro e he; rw [List.mem_singleton.1 he]; exact hs') rfl
  have hl : ∀ v, left (history ops).length ((history ops).map (fun e => (e.1, 0))) v ≤ numVertices (history ops) := fun v => by
    rw [left, numVertices]; omega
  refine ⟨r, p, k, ?_, ?_, ?_, ?_⟩
  · rw [bellmanFordC, if_neg (not_not.2 hs'), h1]
  · rw [bellmanFord, if_neg (not_not.2 hs'), h2]
  · have : ∑ v ∈ vertexSet (history ops), left (history ops).length ((history ops).map (fun e => (e.1, 0))) v * 1 ≤
        numVertices (history ops) * numVertices (history ops) := by
      refine (Finset.sum_le_card_nsmul _ _ (numVertices (history ops)) fun v _ => by rw [mul_one]; exact hl v).trans ?_
      rw [smul_eq_mul]
      refine Nat.mul_le_mul_right _ ?_
      have := List.toFinset_card_le (Dict.keys (history ops))
      simpa [numVertices, vertexSet, Dict.keys] using this
    omega
  · have : ∑ v ∈ vertexSet (history ops), left (history ops).length ((history ops).map (fun e => (e.1, 0))) v * degOf (history ops) v ≤
        numVertices (history ops) * entries (history ops) := by
      rw [← sum_degOf hg.wf, Finset.mul_sum]
      exact Finset.sum_le_sum fun v _ => Nat.mul_le_mul_right _ (hl v)
    have h5 := Nat.mul_le_mul_left (numVertices (history ops)) he
    have h6 : numVertices (history ops) * (2 * numEdges (history ops)) = 2 * numVertices (history ops) * numEdges (history ops) := by ring
    omega

/-- C160: if all weights are integers between 0 and `c`, then `dijkstra_buckets` tries at most `n * c + 2 * m + 1` weights, visits at
most `2 * m + 1` elements of buckets and looks at every edge at most twice, for `n` vertices and `m` edges. -/
theorem C160_buckets (asInt : W → Option ℤ) (ops : List (Op V W)) (c : ℕ)
    (hc : ∀ u v x, (toAbs (history ops)).weight u v = some x → ∃ i : ℕ, asInt x = some (i : ℤ) ∧ i ≤ c)
    (s : V) (hs : s ∈ (toAbs (history ops)).verts) :
    ∃ r tries pops scans, dijkstraBucketsC asInt (history ops) s = some (.ok r, tries, pops, scans) ∧
      dijkstraBuckets asInt (history ops) s = some (.ok r) ∧
      tries ≤ numVertices (history ops) * c + 2 * numEdges (history ops) + 1 ∧ pops ≤ 2 * numEdges (history ops) + 1 ∧
      scans ≤ 2 * numEdges (history ops) := by
  have hg := (history_spec ops).1
  have hs' : s ∈ Dict.keys (history ops) := hs
  have he := entries_le hg
  have hr := restDeg_empty hg.wf
  have hI : BkCost (history ops) (c : ℤ) 0 (Dict.set ((history ops).map (fun e => (e.1, ⊤))) s ((0 : ℤ) : WithTop ℤ)) [(0, [s])] ∅ := by
    refine ⟨keys_init (history ops) ⊤ ((0 : ℤ) : WithTop ℤ) hs', by simp [Dict.WF, Dict.keys], by simp [Dict.keys], by simp [Dict.keys], ?_, ?_,
      by simp⟩
    · intro k l hl
      rw [Dict.get?] at hl
      split at hl
      · injection hl with hl; rw [← hl]; simp
      · simp [Dict.get?] at hl
    · intro k l hl v hv
      rw [Dict.get?] at hl
      split at hl
      · injection hl with hl
        rw [← hl] at hv
        rw [List.mem_singleton.1 hv]; exact hs'
      · simp [Dict.get?] at hl
  obtain ⟨r, t, p, k, h1, h2, h3, h4, h5⟩ := bucketsLoopC_spec hg (asInt := asInt) (c := (c : ℤ)) (by omega)
    (fun u v x hx => by
      obtain ⟨i, h1, h2⟩ := hc u v x hx
      exact ⟨i, h1, by omega, by exact_mod_cast h2⟩) _ 0 _ [(s, none)] [(0, [s])] ∅ 0 0 0 hI (by positivity) rfl
  have ht : tot ([(0, [s])] : Dict ℤ (List V)) = 1 := rfl
  rw [ht, hr] at h3 h4
  refine ⟨r, t, p, k, ?_, ?_, ?_, ?_, ?_⟩
  · rw [dijkstraBucketsC, if_neg (not_not.2 hs'), h1]
  · rw [dijkstraBuckets, if_neg (not_not.2 hs'), h2]
  · have : (t : ℤ) ≤ ((numVertices (history ops) * c + (1 + entries (history ops)) : ℕ) : ℤ) := by
      rw [numVertices]; push_cast at h3 ⊢; omega
    have : t ≤ numVertices (history ops) * c + (1 + entries (history ops)) := by exact_mod_cast this
    omega
  · omega
  · omega

end

section

variable {V W : Type} [LinearOrder V] [AddCommMonoid W] [LinearOrder W] [IsOrderedCancelAddMonoid W]

/-- C160: `prim` takes at most `2 * num_edges() + 1` elements from the heap and looks at every edge at most twice. -/
theorem C160_prim (ops : List (Op V W)) (s : V) (hs : s ∈ (toAbs (history ops)).verts) :
    ∃ r pops scans, primCoreC (history ops) (some s) = some (.ok r, pops, scans) ∧
      prim (history ops) (some s) = some (.ok (r.1, sortPairs r.2.1)) ∧
      pops ≤ 2 * numEdges (history ops) + 1 ∧ scans ≤ 2 * numEdges (history ops) := by
  have hg := (history_spec ops).1
  have hs' : s ∈ Dict.keys (history ops) := hs
  have he := entries_le hg
  have hr := restDeg_empty hg.wf
  obtain ⟨C, hC⟩ := exists_component ops hs
  obtain ⟨P, h0, -⟩ := prim_spec hg hs (C := C) hC
  obtain ⟨r, p, k, h1, h2, h3, h4⟩ := primLoopC_spec hg _ _ (((history ops).map (fun e => (e.1, none)))) [((0 : W), s)] ∅ 0 0
    (keys_init (history ops) ⊤ ((0 : W) : WithTop W) hs') (by intro e he; rw [List.mem_singleton.1 he]; exact hs') rfl
  have hroot : primRoot (history ops) (some s) = .ok s := rfl
  have h0' := h0
  rw [primCore, hroot] at h0
  dsimp only at h0
  rw [h2] at h0
  dsimp only at h0
  cases hc : collect (history ops) r 0 [] with
  | error e => rw [hc] at h0; simp at h0
  | ok x =>
    rw [hc] at h0
    refine ⟨(x.1, x.2, r), p, k, ?_, ?_, ?_, ?_⟩
    · rw [primCoreC, hroot]
      dsimp only
      rw [h1]
      dsimp only
      rw [hc]
    · rw [prim, h0', ← h0]; rfl
    · rw [hr, List.length_singleton] at h3; omega
    · omega

end

/-- A triangle with a shortcut and a pendant vertex. -/
def costOps : List (Op ℕ ℤ) := [.addEdges [(0, 1, 1), (1, 2, 1), (0, 2, 5), (2, 3, 1)]]

/-- `dijkstraLoopC` cut off after a number of passes, to evaluate it on examples. -/
def dijkstraCut (g : Graph ℕ ℤ) : ℕ → Dict ℕ (WithTop ℤ) → Dict ℕ (Option ℕ) → List (ℤ × ℕ) → Finset ℕ → ℕ → ℕ →
    Option (Except PyErr (Dict ℕ (WithTop ℤ) × Dict ℕ (Option ℕ)) × ℕ × ℕ)
  | 0, _, _, _, _, _, _ => none
  | f + 1, D, P, H, vis, pops, scans =>
    match popMin key2 H with
    | none => some (.ok (D, P), pops, scans)
    | some ((w, u), H) =>
      if u ∈ vis then dijkstraCut g f D P H vis (pops + 1) scans
      else
        match Dict.get? g u with
        | none => some (.error .keyError, pops + 1, scans)
        | some N =>
          match relax w u N D P H with
          | .error e => some (.error e, pops + 1, scans + N.length)
          | .ok (D, P, H) => dijkstraCut g f D P H (insert u vis) (pops + 1) (scans + N.length)

theorem dijkstraLoopC_of_cut (g : Graph ℕ ℤ) : ∀ (f : ℕ) D P H vis p k r, dijkstraCut g f D P H vis p k = some r →
    dijkstraLoopC g D P H vis p k = some r := by
  intro f
  induction f with
  | zero => intro D P H vis p k r h; simp [dijkstraCut] at h
  | succ f ih =>
    intro D P H vis p k r h
    rw [dijkstraCut] at h
    rw [dijkstraLoopC.eq_def]
    split at h <;> rename_i e <;> rw [e] <;> dsimp only
    · exact h
    · split_ifs at h ⊢
      · exact ih _ _ _ _ _ _ _ h
      · split at h <;> rename_i e2 <;> rw [e2] <;> dsimp only
        · exact h
        · split at h <;> rename_i e3 <;> rw [e3] <;> dsimp only
          · exact h
          · exact ih _ _ _ _ _ _ _ h

set_option synthInstance.maxSize 1024 in
/-- The vertex 2 is put on the heap twice: five elements are taken from it, every one of the four edges is looked at twice. -/
example : dijkstraC (history costOps) 0 = some (.ok ([(0, ((0 : ℤ) : WithTop ℤ)), (1, ((1 : ℤ) : WithTop ℤ)), (2, ((2 : ℤ) : WithTop ℤ)),
    (3, ((3 : ℤ) : WithTop ℤ))], [(0, none), (1, some 0), (2, some 1), (3, some 2)]), 5, 8) ∧ numEdges (history costOps) = 4 := by
  refine ⟨?_, by decide +kernel⟩
  rw [dijkstraC, if_neg (by decide +kernel)]
  exact dijkstraLoopC_of_cut _ 6 _ _ _ _ _ _ _ (by decide +kernel)

example : ∃ r pops scans, bellmanFordC (history costOps) 0 = some (r, pops, scans) ∧ pops ≤ 17 ∧ scans ≤ 32 := by
  obtain ⟨r, p, k, h1, -, h2, h3⟩ := C160_bellman_ford costOps 0 (show 0 ∈ Dict.keys (history costOps) by decide +kernel)
  rw [show numVertices (history costOps) = 4 by decide +kernel] at h2 h3
  rw [show numEdges (history costOps) = 4 by decide +kernel] at h3
  exact ⟨r, p, k, h1, h2, h3⟩

example : ∃ cs scans, connectedComponentsC (history costOps) = some (.ok cs, 4, scans) ∧ scans ≤ 8 := by
  obtain ⟨cs, k, h1, -, h2⟩ := C160_components costOps
  rw [show numVertices (history costOps) = 4 by decide +kernel] at h1
  rw [show numEdges (history costOps) = 4 by decide +kernel] at h2
  exact ⟨cs, k, h1, h2⟩

end Rosemary.Props
