import Verif.Props.Graph
import Verif.Lemmas.Traversal

/-!
# Properties of the graph searches (C64, C65, C66)

Graphs are those that any sequence of `Graph` operations builds (`history ops`).  The statements use the weight
function of the mathematical graph (`toAbs`) and walks in the resulting relation.
-/

namespace Rosemary.Props

open Rosemary.Graph Rosemary.Traversal Rosemary.Spec

variable {V W : Type} [DecidableEq V]

/-- There is an edge from `u` to `v`. -/
def Linked (g : Graph V W) (u v : V) : Prop := ∃ w, (toAbs g).weight u v = some w

theorem E_eq (g : Graph V W) : E g = Linked g := by
  funext u v
  exact propext mem_nbrs

theorem linked_symm (ops : List (Op V W)) (u v : V) (h : Linked (history ops) u v) : Linked (history ops) v u := by
  have hg := (history_spec ops).1
  rw [← E_eq] at h ⊢
  exact (mem_nbrs_symm hg).1 h

theorem below_iff {md : Option ℤ} {n : ℕ} : below md (n - 1 : ℤ) = true ↔ ∀ m, md = some m → (n : ℤ) ≤ m := by
  cases md with
  | none => simp [below]
  | some m =>
    simp only [below, decide_eq_true_eq, Option.some.injEq, forall_eq']
    omega

/-! ## C64 -/

/-- C64: `breadth_first_search` from a vertex yields exactly the vertices within the maximal depth, each once, by
nondecreasing distance, starting with the start. -/
theorem C64_order (ops : List (Op V W)) (s : V) (hs : s ∈ (toAbs (history ops)).verts) (md : Option ℤ) :
    ∃ l, breadthFirstSearch (history ops) s md = some (s :: l, none) ∧ (s :: l).Nodup ∧
      (∀ v, v ∈ s :: l ↔ ∃ n : ℕ, IsDist (Linked (history ops)) s v n ∧ (n = 0 ∨ ∀ m, md = some m → (n : ℤ) ≤ m)) ∧
      (s :: l).Pairwise (fun u v => ∀ n m, IsDist (Linked (history ops)) s u n → IsDist (Linked (history ops)) s v m →
        n ≤ m) := by
  obtain ⟨l, prev, h1, -, h⟩ := bfs_spec (history_spec ops).1 hs md
  rw [← E_eq]
  refine ⟨l, h1, h.nodup, fun v => ⟨fun hv => ?_, ?_⟩, h.sorted⟩
  · obtain ⟨n, h2, h3, -⟩ := h.fin v hv
    rw [below_iff] at h3
    exact ⟨n, h2, h3⟩
  · rintro ⟨n, h2, h3⟩
    rw [← below_iff] at h3
    exact h.complete' n v h2 h3

/-- C64: without a maximal depth exactly the vertices that can be reached are yielded. -/
theorem C64_reachable (ops : List (Op V W)) (s : V) (hs : s ∈ (toAbs (history ops)).verts) :
    ∃ l, breadthFirstSearch (history ops) s none = some (l, none) ∧ l.Nodup ∧
      ∀ v, v ∈ l ↔ Reach (Linked (history ops)) s v := by
  obtain ⟨l, h1, h2, h3, -⟩ := C64_order ops s hs none
  refine ⟨s :: l, h1, h2, fun v => ?_⟩
  rw [h3]
  constructor
  · rintro ⟨n, h, -⟩; exact ⟨n, h.1⟩
  · intro h
    obtain ⟨n, hn⟩ := h.isDist
    exact ⟨n, hn, Or.inr (by simp)⟩

/-- C64: the order is a breadth-first order: if a neighbour `c` of `a` comes after `b`, which comes after `a`, then
`b` has a neighbour not after `a`. -/
theorem C64_queue_order (ops : List (Op V W)) (s : V) (hs : s ∈ (toAbs (history ops)).verts) :
    ∃ l, breadthFirstSearch (history ops) s none = some (l, none) ∧
      ∀ l1 a l2 b l3 c, l = l1 ++ a :: (l2 ++ b :: l3) → c ∈ l3 → Linked (history ops) a c →
        ∃ d ∈ l1 ++ [a], Linked (history ops) d b := by
  obtain ⟨l, prev, h1, -, h⟩ := bfs_spec (history_spec ops).1 hs none
  rw [← E_eq]
  refine ⟨s :: l, h1, fun l1 a l2 b l3 c e hc hac => ?_⟩
  obtain ⟨m, k1, k2, k3⟩ := h.order rfl l1 a (l2 ++ b :: l3) e
  have hcm : c ∈ m := k2 c hac
  have hb : b ∈ m := by
    by_contra hb
    obtain ⟨t, ht⟩ := k1
    have hnd := h.nodup
    have e2 : m ++ t = (l1 ++ a :: l2 ++ [b]) ++ l3 := by rw [ht, e]; simp
    rw [← ht] at hnd
    rcases List.append_eq_append_iff.1 e2 with ⟨x, hx, hy⟩ | ⟨x, hx, hy⟩
    · have hnd2 : (l1 ++ a :: l2 ++ [b] ++ l3).Nodup := by rw [← e2]; exact hnd
      have h5 := (List.nodup_append.1 hnd2).2.2 c (by rw [hx]; exact List.mem_append_left _ hcm) c hc
      exact h5 rfl
    · apply hb; rw [hx]; simp
  rcases k3 b hb with rfl | h'
  · exfalso
    have hnd := h.nodup
    rw [e] at hnd
    cases l1 with
    | nil =>
      rw [List.nil_append, List.cons.injEq] at e
      rw [List.nil_append, ← e.1] at hnd
      exact (List.nodup_cons.1 hnd).1 (by simp)
    | cons y l1 =>
      rw [List.cons_append, List.cons.injEq] at e
      rw [List.cons_append, ← e.1] at hnd
      exact (List.nodup_cons.1 hnd).1 (by simp)
  · exact h'

/-- C64, `breadth_first_search_tree`: the keys are the vertices in the order of the search, the root has no parent,
every other vertex has a parent adjacent to it and one step nearer to the root. -/
theorem C64_tree (ops : List (Op V W)) (s : V) (hs : s ∈ (toAbs (history ops)).verts) :
    ∃ l prev, breadthFirstSearch (history ops) s none = some (l, none) ∧
      breadthFirstSearchTree (history ops) s = some (.ok prev) ∧ prev.map Prod.fst = l ∧ (s, none) ∈ prev ∧
      ∀ v p, (v, p) ∈ prev → v ≠ s → ∃ u, p = some u ∧ Linked (history ops) u v ∧
        ∃ n, IsDist (Linked (history ops)) s u n ∧ IsDist (Linked (history ops)) s v (n + 1) := by
  obtain ⟨l, prev, h1, h2, h⟩ := bfs_spec (history_spec ops).1 hs none
  rw [← E_eq]
  have hwf : Dict.WF prev := by rw [Dict.WF, h.keys]; exact h.nodup
  refine ⟨s :: l, prev, h1, h2 rfl, h.keys, Dict.mem_of_get? h.root, fun v p hv hne => ?_⟩
  obtain ⟨u, h3, -, h4, h5⟩ := h.link v p (Dict.get?_of_mem hwf hv) hne
  exact ⟨u, h3, h4, h5⟩

/-- C64: a start that is not a vertex is yielded before KeyError is raised. -/
theorem C64_not_a_vertex (ops : List (Op V W)) (s : V) (hs : s ∉ (toAbs (history ops)).verts) :
    breadthFirstSearch (history ops) s none = some ([s], some .keyError) ∧
      breadthFirstSearchTree (history ops) s = some (.error .keyError) := by
  have h : Dict.get? (history ops) s = none := Dict.get?_eq_none.2 hs
  constructor
  · rw [breadthFirstSearch, bfsLoop.eq_def]
    simp [below, h]
  · rw [breadthFirstSearchTree, treeLoop.eq_def]
    simp [h]

/-- Example graph: two triangles joined by a path, and another component. -/
def exampleOps : List (Op ℕ ℤ) := [Op.addEdges [(0, 1, 1), (1, 2, 1), (2, 0, 1), (2, 3, 1), (3, 4, 1), (4, 5, 1), (5, 3, 1),
  (7, 8, 1)], Op.deleteEdge 0 1]

/-- With fuel, for examples. -/
def bfsLoopN (g : Graph V W) (md : Option ℤ) : ℕ → List (V × ℤ) → Finset V → Option (List V × Option PyErr)
  | 0, _, _ => none
  | _ + 1, [], _ => some ([], none)
  | fuel + 1, (u, d) :: q, vis =>
    if below md d = true then
      match Dict.get? g u with
      | none => some ([], some .keyError)
      | some N =>
        match bfsLoopN g md fuel (q ++ (bfsScan (Dict.keys N) vis).1.map (fun v => (v, d + 1))) (bfsScan (Dict.keys N) vis).2 with
        | none => none
        | some r => some ((bfsScan (Dict.keys N) vis).1 ++ r.1, r.2)
    else bfsLoopN g md fuel q vis

theorem bfsLoop_of_fuel (g : Graph V W) (md : Option ℤ) (fuel : ℕ) (q : List (V × ℤ)) (vis : Finset V)
    (r : List V × Option PyErr) (h : bfsLoopN g md fuel q vis = some r) : bfsLoop g md q vis = some r := by
  induction fuel generalizing q vis r with
  | zero => simp [bfsLoopN] at h
  | succ fuel ih =>
    cases q with
    | nil => rw [bfsLoop.eq_def]; simpa [bfsLoopN] using h
    | cons e q =>
      obtain ⟨u, d⟩ := e
      rw [bfsLoopN] at h
      rw [bfsLoop.eq_def]
      dsimp only
      by_cases hb : below md d = true
      · rw [if_pos hb] at h ⊢
        cases hN : Dict.get? g u with
        | none => rw [hN] at h; exact h
        | some N =>
          rw [hN] at h
          dsimp only at h ⊢
          cases hr : bfsLoopN g md fuel (q ++ (bfsScan (Dict.keys N) vis).1.map (fun v => (v, d + 1)))
              (bfsScan (Dict.keys N) vis).2 with
          | none => rw [hr] at h; simp at h
          | some r' =>
            rw [hr] at h
            rw [ih _ _ _ hr]
            exact h
      · rw [if_neg hb] at h ⊢
        exact ih _ _ _ h

example : breadthFirstSearch (history exampleOps) 0 (some 3) = some ([0, 2, 1, 3, 4, 5], none) := by
  rw [breadthFirstSearch, bfsLoop_of_fuel _ _ 20 _ _ ([2, 1, 3, 4, 5], none) (by decide +kernel)]; rfl

example : breadthFirstSearch (history exampleOps) 0 (some 2) = some ([0, 2, 1, 3], none) := by
  rw [breadthFirstSearch, bfsLoop_of_fuel _ _ 20 _ _ ([2, 1, 3], none) (by decide +kernel)]; rfl

/-! ## C65 -/

/-- C65: `depth_first_search` from a vertex yields the start first and exactly the vertices that can be reached, each
once, and in a depth-first order: if a neighbour `c` of `a` comes after `b`, which comes after `a`, then `b` has a
neighbour among `a` and the vertices between `a` and `b`. -/
theorem C65_order (ops : List (Op V W)) (s : V) (hs : s ∈ (toAbs (history ops)).verts) :
    ∃ l, depthFirstSearch (history ops) s none = some (s :: l, none) ∧ (s :: l).Nodup ∧
      (∀ v, v ∈ s :: l ↔ Reach (Linked (history ops)) s v) ∧
      ∀ l1 a l2 b l3 c, s :: l = l1 ++ a :: (l2 ++ b :: l3) → c ∈ l3 → Linked (history ops) a c →
        ∃ d ∈ a :: l2, Linked (history ops) d b := by
  obtain ⟨l, h1, h⟩ := dfs_spec (history_spec ops).1 hs none
  rw [← E_eq]
  refine ⟨l, h1, h.nodup, fun v => ⟨fun hv => ?_, h.complete⟩, fun l1 a l2 b l3 c e hc hac => ?_⟩
  · obtain ⟨n, h2, -⟩ := h.sound v hv
    exact ⟨n, h2⟩
  · have hnd := h.nodup
    have e2 : s :: l = (l1 ++ a :: l2) ++ b :: l3 := by rw [e]; simp
    rw [e2, List.nodup_append] at hnd
    refine h.order rfl l1 a l2 b l3 e2 c (fun hc' => hnd.2.2 c hc' c (List.mem_cons_of_mem _ hc) rfl) ?_ hac
    rintro rfl
    exact (List.nodup_cons.1 hnd.2.1).1 hc

/-- C65: with a maximal depth the vertices yielded are different, begin with the start, and every one is within that
distance.  Missing: that all vertices within that distance are yielded, which is false (`C65_max_depth_misses`). -/
theorem C65_max_depth_partial (ops : List (Op V W)) (s : V) (hs : s ∈ (toAbs (history ops)).verts) (m : ℤ) :
    ∃ l, depthFirstSearch (history ops) s (some m) = some (s :: l, none) ∧ (s :: l).Nodup ∧
      ∀ v ∈ s :: l, ∃ n : ℕ, IsDist (Linked (history ops)) s v n ∧ (n = 0 ∨ (n : ℤ) ≤ m) := by
  obtain ⟨l, h1, h⟩ := dfs_spec (history_spec ops).1 hs (some m)
  rw [← E_eq]
  refine ⟨l, h1, h.nodup, fun v hv => ?_⟩
  obtain ⟨n, h2, h3⟩ := h.sound v hv
  rw [below_iff] at h3
  obtain ⟨k, hk⟩ := Reach.isDist ⟨n, h2⟩
  have hkn := hk.2 n h2
  refine ⟨k, hk, ?_⟩
  rcases h3 with h3 | h3
  · left; omega
  · right
    have := h3 m rfl
    omega

/-- C65, `depth_first_search_tree`: the keys are exactly the vertices that can be reached, in a depth-first order; the
root comes first and has no parent; the parent of every other vertex is the last of its neighbours before it. -/
theorem C65_tree (ops : List (Op V W)) (s : V) (hs : s ∈ (toAbs (history ops)).verts) :
    ∃ l prev, depthFirstSearchTree (history ops) s = some (.ok prev) ∧ prev.map Prod.fst = s :: l ∧ (s :: l).Nodup ∧
      (∀ v, v ∈ s :: l ↔ Reach (Linked (history ops)) s v) ∧
      (∀ l1 a l2 b l3 c, s :: l = l1 ++ a :: (l2 ++ b :: l3) → c ∈ l3 → Linked (history ops) a c →
        ∃ d ∈ a :: l2, Linked (history ops) d b) ∧ (s, none) ∈ prev ∧
      ∀ v p, (v, p) ∈ prev → v ≠ s → ∃ u l1 l2 l3, p = some u ∧ s :: l = l1 ++ u :: (l2 ++ v :: l3) ∧
        Linked (history ops) u v ∧ ∀ x ∈ l2, ¬ Linked (history ops) x v := by
  obtain ⟨l, prev, h1, h⟩ := dfsTree_spec (history_spec ops).1 hs
  rw [← E_eq]
  have hwf : Dict.WF prev := by rw [Dict.WF, h.keys]; exact h.nodup
  refine ⟨l, prev, h1, h.keys, h.nodup, fun v => ⟨h.sound v, h.complete⟩, fun l1 a l2 b l3 c e hc hac => ?_,
    Dict.mem_of_get? (h.root (by simp)), fun v p hv hne => ?_⟩
  · have hnd := h.nodup
    have e2 : s :: l = (l1 ++ a :: l2) ++ b :: l3 := by rw [e]; simp
    rw [e2, List.nodup_append] at hnd
    refine h.order l1 a l2 b l3 e2 c (fun hc' => hnd.2.2 c hc' c (List.mem_cons_of_mem _ hc) rfl) ?_ hac
    rintro rfl
    exact (List.nodup_cons.1 hnd.2.1).1 hc
  · obtain ⟨u, l1, l2, l3, h3, h4, h5, h6⟩ := h.link v p (Dict.get?_of_mem hwf hv) hne
    exact ⟨u, l1, l2, l3, h3, by rw [h4]; simp, h5, h6⟩

/-- C65: a start that is not a vertex. -/
theorem C65_not_a_vertex (ops : List (Op V W)) (s : V) (hs : s ∉ (toAbs (history ops)).verts) :
    depthFirstSearch (history ops) s none = some ([s], some .keyError) ∧
      depthFirstSearchTree (history ops) s = some (.error .keyError) := by
  have h : Dict.get? (history ops) s = none := Dict.get?_eq_none.2 hs
  constructor
  · rw [depthFirstSearch, dfsLoop.eq_def]
    simp [below, h]
  · rw [depthFirstSearchTree, dfsTreeLoop.eq_def]
    simp [h, Dict.keys]

/-- With fuel, for examples. -/
def dfsLoopN (g : Graph V W) (md : Option ℤ) : ℕ → List (V × ℤ) → Finset V → Option (List V × Option PyErr)
  | 0, _, _ => none
  | _ + 1, [], _ => some ([], none)
  | fuel + 1, (u, d) :: st, vis =>
    if u ∈ vis then dfsLoopN g md fuel st vis
    else if below md d = true then
      match Dict.get? g u with
      | none => some ([u], some .keyError)
      | some N =>
        match dfsLoopN g md fuel (dfsPush d (insert u vis) (Dict.keys N) st) (insert u vis) with
        | none => none
        | some r => some (u :: r.1, r.2)
    else
      match dfsLoopN g md fuel st (insert u vis) with
      | none => none
      | some r => some (u :: r.1, r.2)

theorem dfsLoop_of_fuel (g : Graph V W) (md : Option ℤ) (fuel : ℕ) (st : List (V × ℤ)) (vis : Finset V)
    (r : List V × Option PyErr) (h : dfsLoopN g md fuel st vis = some r) : dfsLoop g md st vis = some r := by
  induction fuel generalizing st vis r with
  | zero => simp [dfsLoopN] at h
  | succ fuel ih =>
    cases st with
    | nil => rw [dfsLoop.eq_def]; simpa [dfsLoopN] using h
    | cons e st =>
      obtain ⟨u, d⟩ := e
      rw [dfsLoopN] at h
      rw [dfsLoop.eq_def]
      dsimp only
      by_cases hu : u ∈ vis
      · rw [if_pos hu] at h ⊢; exact ih _ _ _ h
      rw [if_neg hu] at h ⊢
      by_cases hb : below md d = true
      · rw [if_pos hb] at h ⊢
        cases hN : Dict.get? g u with
        | none => rw [hN] at h; exact h
        | some N =>
          rw [hN] at h
          dsimp only at h ⊢
          cases hr : dfsLoopN g md fuel (dfsPush d (insert u vis) (Dict.keys N) st) (insert u vis) with
          | none => rw [hr] at h; simp at h
          | some r' =>
            rw [hr] at h
            rw [ih _ _ _ hr]
            exact h
      · rw [if_neg hb] at h ⊢
        cases hr : dfsLoopN g md fuel st (insert u vis) with
        | none => rw [hr] at h; simp at h
        | some r' =>
          rw [hr] at h
          rw [ih _ _ _ hr]
          exact h

/-- C65: in the graph with edges 0-1, 0-2, 1-2, 1-3 vertex 3 is at distance 2 from 0, but
`depth_first_search(graph, 0, 2)` does not yield it: vertex 1 is first entered at depth 2. -/
theorem C65_max_depth_misses :
    depthFirstSearch (history [Op.addEdges [(0, 1, (1 : ℤ)), (0, 2, 1), (1, 2, 1), (1, 3, 1)]]) 0 (some 2) =
      some ([0, 2, 1], none) ∧
    Linked (history [Op.addEdges [(0, 1, (1 : ℤ)), (0, 2, 1), (1, 2, 1), (1, 3, 1)]]) 0 1 ∧
    Linked (history [Op.addEdges [(0, 1, (1 : ℤ)), (0, 2, 1), (1, 2, 1), (1, 3, 1)]]) 1 3 := by
  refine ⟨?_, ⟨1, by decide +kernel⟩, ⟨1, by decide +kernel⟩⟩
  exact dfsLoop_of_fuel _ _ 20 _ _ _ (by decide +kernel)

example : depthFirstSearch (history exampleOps) 0 none = some ([0, 2, 3, 5, 4, 1], none) :=
  dfsLoop_of_fuel _ _ 30 _ _ _ (by decide +kernel)

/-! ## C66 -/

theorem components_spec (ops : List (Op V W)) : ∀ (us : List V) (vis : Finset V),
    (∀ u ∈ us, u ∈ (toAbs (history ops)).verts) → (∀ u v, u ∈ vis → Reach (Linked (history ops)) u v → v ∈ vis) →
    ∃ cs, componentsLoop (history ops) us vis = some (.ok cs) ∧
      (∀ c ∈ cs, c.Nodup ∧ ∃ u ∈ c, u ∈ us ∧ (∀ v, v ∈ c ↔ Reach (Linked (history ops)) u v) ∧ ∀ v ∈ c, v ∉ vis) ∧
      cs.Pairwise List.Disjoint ∧ ∀ u ∈ us, u ∈ vis ∨ ∃ c ∈ cs, u ∈ c := by
  intro us
  induction us with
  | nil => intro vis _ _; exact ⟨[], rfl, by simp, List.Pairwise.nil, by simp⟩
  | cons u us ih =>
    intro vis hus hvis
    rw [componentsLoop]
    by_cases hu : u ∈ vis
    · rw [if_pos hu]
      obtain ⟨cs, h1, h2, h3, h4⟩ := ih vis (fun x hx => hus x (List.mem_cons_of_mem _ hx)) hvis
      refine ⟨cs, h1, fun c hc => ?_, h3, fun x hx => ?_⟩
      · obtain ⟨k1, y, k2, k3, k4⟩ := h2 c hc
        exact ⟨k1, y, k2, List.mem_cons_of_mem _ k3, k4⟩
      · rcases List.mem_cons.1 hx with rfl | hx
        · exact Or.inl hu
        · exact h4 x hx
    · rw [if_neg hu]
      obtain ⟨l, b1, b2, b3⟩ := C64_reachable ops u (hus u List.mem_cons_self)
      rw [b1]
      dsimp only [toList]
      have hvis' : ∀ x v, x ∈ vis ∪ l.toFinset → Reach (Linked (history ops)) x v → v ∈ vis ∪ l.toFinset := by
        intro x v hx hr
        rw [Finset.mem_union, List.mem_toFinset] at hx ⊢
        rcases hx with hx | hx
        · exact Or.inl (hvis x v hx hr)
        · exact Or.inr ((b3 v).2 (((b3 x).1 hx).trans hr))
      obtain ⟨cs, h1, h2, h3, h4⟩ := ih (vis ∪ l.toFinset) (fun x hx => hus x (List.mem_cons_of_mem _ hx)) hvis'
      rw [h1]
      have hul : u ∈ l := (b3 u).2 (Reach.refl _ _)
      refine ⟨l :: cs, rfl, fun c hc => ?_, List.pairwise_cons.2 ⟨fun c hc => ?_, h3⟩, fun x hx => ?_⟩
      · rcases List.mem_cons.1 hc with rfl | hc
        · refine ⟨b2, u, hul, List.mem_cons_self, b3, fun v hv hv' => hu ?_⟩
          exact hvis v u hv' (Reach.symm (linked_symm ops) ((b3 v).1 hv))
        · obtain ⟨k1, y, k2, k3, k4, k5⟩ := h2 c hc
          refine ⟨k1, y, k2, List.mem_cons_of_mem _ k3, k4, fun v hv hv' => k5 v hv (Finset.mem_union_left _ hv')⟩
      · intro x hx hx'
        obtain ⟨k1, y, k2, k3, k4, k5⟩ := h2 c hc
        exact k5 x hx' (Finset.mem_union_right _ (List.mem_toFinset.2 hx))
      · rcases List.mem_cons.1 hx with rfl | hx
        · exact Or.inr ⟨l, List.mem_cons_self, hul⟩
        · rcases h4 x hx with h | ⟨c, hc, hx⟩
          · rw [Finset.mem_union, List.mem_toFinset] at h
            rcases h with h | h
            · exact Or.inl h
            · exact Or.inr ⟨l, List.mem_cons_self, h⟩
          · exact Or.inr ⟨c, List.mem_cons_of_mem _ hc, hx⟩

/-- C66: `connected_components` returns the classes of reachability: the lists are disjoint, cover the vertices, and
each consists, without repetition, of the vertices that can be reached from any one of its members. -/
theorem C66_components (ops : List (Op V W)) :
    ∃ cs, connectedComponents (history ops) = some (.ok cs) ∧
      (∀ v, v ∈ (toAbs (history ops)).verts ↔ ∃ c ∈ cs, v ∈ c) ∧ cs.Pairwise List.Disjoint ∧
      ∀ c ∈ cs, c ≠ [] ∧ c.Nodup ∧ ∀ u ∈ c, ∀ v, v ∈ c ↔ Reach (Linked (history ops)) u v := by
  have hg := (history_spec ops).1
  obtain ⟨cs, h1, h2, h3, h4⟩ := components_spec ops (Dict.keys (history ops)) ∅ (fun u hu => hu) (by simp)
  have hmem : ∀ u v, u ∈ (toAbs (history ops)).verts → Reach (Linked (history ops)) u v → v ∈ (toAbs (history ops)).verts := by
    rintro u v hu ⟨n, hn⟩
    rw [← E_eq] at hn
    cases hn with
    | zero => exact hu
    | succ _ he => exact mem_of_mem_nbrs hg he
  refine ⟨cs, h1, fun v => ⟨fun hv => ?_, ?_⟩, h3, fun c hc => ?_⟩
  · rcases h4 v hv with h | h
    · simp at h
    · exact h
  · rintro ⟨c, hc, hv⟩
    obtain ⟨-, u, -, k3, k4, -⟩ := h2 c hc
    exact hmem u v k3 ((k4 v).1 hv)
  · obtain ⟨k1, u, k2, -, k4, -⟩ := h2 c hc
    refine ⟨List.ne_nil_of_mem k2, k1, fun x hx v => ?_⟩
    have hux := (k4 x).1 hx
    rw [k4]
    exact ⟨fun h => (Reach.symm (linked_symm ops) hux).trans h, fun h => hux.trans h⟩

/-- C66: `connected_component(graph, u)`. -/
theorem C66_component (ops : List (Op V W)) (u : V) (hu : u ∈ (toAbs (history ops)).verts) :
    ∃ c, connectedComponent (history ops) u = some (.ok c) ∧ c.Nodup ∧ ∀ v, v ∈ c ↔ Reach (Linked (history ops)) u v := by
  obtain ⟨l, h1, h2, h3⟩ := C64_reachable ops u hu
  exact ⟨l, by rw [connectedComponent, h1]; rfl, h2, h3⟩

/-- C66: `is_connected` is `True` exactly when every vertex can be reached from every vertex (also without vertices). -/
theorem C66_is_connected (ord : Finset V → List V) (hord : ∀ S, (ord S).Nodup ∧ ∀ x, x ∈ ord S ↔ x ∈ S)
    (ops : List (Op V W)) : ∃ b, isConnected ord (history ops) = some (.ok b) ∧
      (b = true ↔ ∀ u ∈ (toAbs (history ops)).verts, ∀ v ∈ (toAbs (history ops)).verts,
        Reach (Linked (history ops)) u v) := by
  have hg := (history_spec ops).1
  have hmem : ∀ u v, u ∈ (toAbs (history ops)).verts → Reach (Linked (history ops)) u v → v ∈ (toAbs (history ops)).verts := by
    rintro u v hu ⟨n, hn⟩
    rw [← E_eq] at hn
    cases hn with
    | zero => exact hu
    | succ _ he => exact mem_of_mem_nbrs hg he
  have hvs : ∀ x, x ∈ vertexSet (history ops) ↔ x ∈ (toAbs (history ops)).verts := fun x => mem_vertexSet
  rw [isConnected]
  by_cases h0 : (vertexSet (history ops)).card = 0
  · rw [if_pos h0]
    rw [Finset.card_eq_zero] at h0
    refine ⟨true, rfl, fun _ u hu => ?_, fun _ => rfl⟩
    have := (hvs u).2 hu
    rw [h0] at this; simp at this
  · rw [if_neg h0]
    cases ho : ord (vertexSet (history ops)) with
    | nil =>
      exfalso
      obtain ⟨x, hx⟩ := Finset.card_ne_zero.1 h0
      have := ((hord _).2 x).2 hx
      rw [ho] at this; simp at this
    | cons u t =>
      have hu : u ∈ (toAbs (history ops)).verts := by
        rw [← hvs, ← (hord _).2, ho]; exact List.mem_cons_self
      obtain ⟨l, h1, h2, h3⟩ := C64_reachable ops u hu
      dsimp only
      rw [h1]
      dsimp only [toList]
      refine ⟨_, rfl, ?_⟩
      rw [decide_eq_true_eq]
      constructor
      · intro e x hx y hy
        have hx' : x ∈ l := by rw [← List.mem_toFinset, e, hvs]; exact hx
        have hy' : y ∈ l := by rw [← List.mem_toFinset, e, hvs]; exact hy
        exact (Reach.symm (linked_symm ops) ((h3 x).1 hx')).trans ((h3 y).1 hy')
      · intro h
        ext x
        rw [List.mem_toFinset, h3, hvs]
        exact ⟨fun h' => hmem u x hu h', fun h' => h u hu x h'⟩

example : connectedComponents (history exampleOps) = some (.ok [[0, 2, 1, 3, 4, 5], [7, 8]]) := by
  have b0 : breadthFirstSearch (history exampleOps) 0 none = some ([0, 2, 1, 3, 4, 5], none) := by
    rw [breadthFirstSearch, bfsLoop_of_fuel _ _ 20 _ _ ([2, 1, 3, 4, 5], none) (by decide +kernel)]; rfl
  have b7 : breadthFirstSearch (history exampleOps) 7 none = some ([7, 8], none) := by
    rw [breadthFirstSearch, bfsLoop_of_fuel _ _ 20 _ _ ([8], none) (by decide +kernel)]; rfl
  have k : Dict.keys (history exampleOps) = [0, 1, 2, 3, 4, 5, 7, 8] := by decide +kernel
  rw [connectedComponents, k]
  simp [componentsLoop, b0, b7, toList]

end Rosemary.Props
