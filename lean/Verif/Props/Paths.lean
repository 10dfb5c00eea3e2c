import Verif.Props.Traversal
import Verif.Lemmas.BellmanFord

/-!
# Properties of the shortest path functions (C67, C68, C69)

Graphs are those that any sequence of `Graph` operations builds (`history ops`); walks and their weights are those of
the mathematical graph.
-/

namespace Rosemary.Props

open Rosemary.Graph Rosemary.Paths Rosemary.Spec

variable {V W : Type} [LinearOrder V] [AddCommMonoid W] [LinearOrder W] [IsOrderedCancelAddMonoid W]

/-- No edge has negative weight. -/
def Nonneg {V W : Type} [LinearOrder V] [Zero W] [LinearOrder W] (ops : List (Op V W)) : Prop := ∀ u v x, (toAbs (history ops)).weight u v = some x → 0 ≤ x

/-! ## C67 -/

/-- C67: for nonnegative weights `dijkstra` returns for every vertex its distance from `s` (infinite for vertices that
cannot be reached), and links that lead along a shortest path; the start and the vertices that cannot be reached have
no predecessor. -/
theorem C67_dijkstra (ops : List (Op V W)) (hN : Nonneg ops) (s : V) (hs : s ∈ (toAbs (history ops)).verts) :
    ∃ D P, dijkstra (history ops) s = some (.ok (D, P)) ∧
      (∀ v, v ∈ (toAbs (history ops)).verts ↔ ∃ d, Dict.get? D v = some d) ∧
      (∀ v d, Dict.get? D v = some d → IsDistance (toAbs (history ops)).weight s v d) ∧
      (∀ v (c : W), Dict.get? D v = some (c : WithTop W) →
        ∃ p, LinkPath (Dict.get? P) s p v ∧ WalkOf (toAbs (history ops)).weight s p v c) ∧
      (∀ v, Dict.get? D v = some ⊤ → Dict.get? P v = some none) ∧ Dict.get? P s = some none := by
  obtain ⟨D, P, vis, h1, h⟩ := dijkstra_spec (history_spec ops).1 hN hs
  have hd : ∀ v d, Dict.get? D v = some d → dg D v = d := fun v d e => by rw [dg, e]; rfl
  refine ⟨D, P, h1, fun v => ?_, fun v d e => ?_, fun v c e => ?_, fun v e => ?_, h.root⟩
  · rw [Dict.get?_isSome, h.keysD]; exact Iff.rfl
  · rw [← hd v d e]; exact h.core.final (by simp) v
  · obtain ⟨p, k1, k2, -⟩ := h.link v c (hd v _ e)
    exact ⟨p, k1, k2⟩
  · exact h.nolink v (hd v _ e) (by rw [Graph.Mem, ← h.keysD, ← Dict.get?_isSome]; exact ⟨_, e⟩)

/-- C67: a start that is not a vertex: ValueError. -/
theorem C67_not_a_vertex (ops : List (Op V W)) (s t : V) (hs : s ∉ (toAbs (history ops)).verts) :
    dijkstra (history ops) s = some (.error .valueError) ∧ dijkstraIterator (history ops) s = some (.error .valueError) ∧
      bellmanFord (history ops) s = some (.error .valueError) ∧
      dijkstraBidirectional (history ops) s t = some (.error .valueError) ∧
      dijkstraBidirectional (history ops) t s = some (.error .valueError) := by
  have h : s ∉ Dict.keys (history ops) := hs
  refine ⟨?_, ?_, ?_, ?_, ?_⟩
  · rw [dijkstra, if_pos h]
  · rw [dijkstraIterator, if_pos h]
  · rw [bellmanFord, if_pos h]
  · rw [dijkstraBidirectional, if_pos h]
  · rw [dijkstraBidirectional]
    split_ifs <;> rfl

/-- C67, `dijkstra_iterator`: for nonnegative weights exactly the vertices that can be reached are yielded, each once,
by nondecreasing distance, each with its distance and a shortest path. -/
theorem C67_iterator (ops : List (Op V W)) (hN : Nonneg ops) (s : V) (hs : s ∈ (toAbs (history ops)).verts) :
    ∃ l, dijkstraIterator (history ops) s = some (.ok l) ∧ (l.map Prod.fst).Nodup ∧
      (∀ v, v ∈ l.map Prod.fst ↔ ∃ p c, WalkOf (toAbs (history ops)).weight s p v c) ∧
      l.Pairwise (fun e f => e.2.1 ≤ f.2.1) ∧
      ∀ v d p, (v, d, p) ∈ l → IsShortest (toAbs (history ops)).weight s v d ∧ WalkOf (toAbs (history ops)).weight s p v d := by
  obtain ⟨l, D, vis, h1, h⟩ := iterator_spec (history_spec ops).1 hN hs
  refine ⟨l, h1, h.nodup, fun v => ⟨fun hv => ?_, ?_⟩, h.sorted, fun v d p he => ⟨h.shortest he, h.path' he⟩⟩
  · obtain ⟨e, he, rfl⟩ := List.mem_map.1 hv
    exact ⟨_, _, h.path' he⟩
  · rintro ⟨p, c, hp⟩
    obtain ⟨e, he, rfl⟩ := h.reached hp
    exact List.mem_map_of_mem he

/-! ## C68 -/

/-- C68: `bellman_ford` returns if and only if no edge that can be reached has negative weight (in an undirected graph
such an edge is a negative cycle); else it raises ValueError. -/
theorem C68_bellman_ford_raises (ops : List (Op V W)) (s : V) (hs : s ∈ (toAbs (history ops)).verts) :
    ((∃ r, bellmanFord (history ops) s = some (.ok r)) ↔
      ∀ p u c v x, WalkOf (toAbs (history ops)).weight s p u c → (toAbs (history ops)).weight u v = some x → 0 ≤ x) ∧
    ((∃ r, bellmanFord (history ops) s = some (.ok r)) ∨ bellmanFord (history ops) s = some (.error .valueError)) := by
  rcases bellmanFord_spec (history_spec ops).1 hs with ⟨h1, h2⟩ | ⟨C, P, h1, h2, h3, -⟩
  · refine ⟨⟨fun ⟨r, hr⟩ => ?_, fun h => absurd h h1⟩, Or.inr h2⟩
    rw [h2] at hr; simp at hr
  · exact ⟨⟨fun _ => (bf_distance (history_spec ops).1 h2 h3).2, fun _ => ⟨_, h1⟩⟩, Or.inl ⟨_, h1⟩⟩

/-- C68: whenever `bellman_ford` returns, the costs are the distances and the links lead along shortest paths. -/
theorem C68_bellman_ford (ops : List (Op V W)) (s : V) (hs : s ∈ (toAbs (history ops)).verts) (C : Dict V (WithTop W))
    (P : Dict V (Option V)) (h : bellmanFord (history ops) s = some (.ok (C, P))) :
      (∀ v, v ∈ (toAbs (history ops)).verts ↔ ∃ d, Dict.get? C v = some d) ∧
      (∀ v d, Dict.get? C v = some d → IsDistance (toAbs (history ops)).weight s v d) ∧
      (∀ v (c : W), Dict.get? C v = some (c : WithTop W) →
        ∃ p, LinkPath (Dict.get? P) s p v ∧ WalkOf (toAbs (history ops)).weight s p v c) ∧
      (∀ v, Dict.get? C v = some ⊤ → Dict.get? P v = some none) ∧ Dict.get? P s = some none := by
  rcases bellmanFord_spec (history_spec ops).1 hs with ⟨h1, h2⟩ | ⟨C', P', h1, h2, h3, h4⟩
  · rw [h2] at h; simp at h
  · rw [h1] at h
    simp only [Option.some.injEq, Except.ok.injEq, Prod.mk.injEq] at h
    obtain ⟨rfl, rfl⟩ := h
    obtain ⟨hd, hn⟩ := bf_distance (history_spec ops).1 h2 h3
    have hP := h4 hn
    have he : ∀ v d, Dict.get? C' v = some d → dg C' v = d := fun v d e => by rw [dg, e]; rfl
    refine ⟨fun v => ?_, fun v d e => ?_, fun v c e => ?_, fun v e => ?_, hP.root⟩
    · rw [Dict.get?_isSome, h2.keysC]; exact Iff.rfl
    · rw [← he v d e]; exact hd v
    · obtain ⟨p, hp⟩ := hP.link v (by rw [he v _ e]; exact WithTop.coe_ne_top)
      exact ⟨p, hp, bf_path h3 hP hp c (he v _ e)⟩
    · exact hP.nolink v (he v _ e) (by rw [Graph.Mem, ← h2.keysC, ← Dict.get?_isSome]; exact ⟨_, e⟩)

/-- C68: `floyd_warshall` raises ValueError if and only if an edge between different vertices is negative; else it
returns. -/
theorem C68_floyd_warshall_raises (ops : List (Op V W)) :
    ((∃ D, floydWarshall (history ops) = .ok D) ↔
      ∀ u v x, u ≠ v → (toAbs (history ops)).weight u v = some x → 0 ≤ x) ∧
    ((∃ D, floydWarshall (history ops) = .ok D) ∨ floydWarshall (history ops) = .error .valueError) := by
  by_cases h : ∀ u v x, noLoop (adj (history ops)) u v = some x → 0 ≤ x
  · obtain ⟨D, f, h1, -⟩ := floydWarshall_spec (history_spec ops).1 h
    exact ⟨⟨fun _ u v x hne hx => h u v x (by rw [noLoop, if_neg hne]; exact hx), fun _ => ⟨D, h1⟩⟩, Or.inl ⟨D, h1⟩⟩
  · push Not at h
    obtain ⟨u, v, x, hx, hlt⟩ := h
    have h1 := floydWarshall_negative (history_spec ops).1 hx hlt
    refine ⟨⟨fun ⟨D, hD⟩ => ?_, fun h2 => ?_⟩, Or.inr h1⟩
    · rw [h1] at hD; simp at hD
    · exact absurd (h2 u v x (noLoop_eq hx).1 (noLoop_eq hx).2) (not_le.2 hlt)

/-- C68: whenever `floyd_warshall` returns, it gives for each pair of vertices the distance in the graph without its
loops, and links along shortest paths. -/
theorem C68_floyd_warshall_loopless (ops : List (Op V W)) (D : Dict (V × V) (WithTop W × Option V))
    (h : floydWarshall (history ops) = .ok D) :
    (∀ u v, u ∈ (toAbs (history ops)).verts → v ∈ (toAbs (history ops)).verts → ∃ d p, Dict.get? D (u, v) = some (d, p) ∧
        IsDistance (fun a b => if a = b then none else (toAbs (history ops)).weight a b) u v d ∧ (d = ⊤ → p = none)) ∧
    ∀ u v (c : W) p, u ∈ (toAbs (history ops)).verts → v ∈ (toAbs (history ops)).verts →
      Dict.get? D (u, v) = some ((c : WithTop W), p) →
      ∃ l, LinkPath (fun w => (Dict.get? D (u, w)).map Prod.snd) u l v ∧ WalkOf (toAbs (history ops)).weight u l v c := by
  have hg := (history_spec ops).1
  have hN : ∀ u v x, noLoop (adj (history ops)) u v = some x → 0 ≤ x := fun u v x hx =>
    ((C68_floyd_warshall_raises ops).1.1 ⟨D, h⟩) u v x (noLoop_eq hx).1 (noLoop_eq hx).2
  obtain ⟨D', f, h1, h2, h3⟩ := floydWarshall_spec hg hN
  rw [h1] at h
  injection h with h
  subst h
  constructor
  · intro u v hu hv
    exact ⟨(f u v).1, (f u v).2, h2 u v hu hv, h3.distance hg hu hv, h3.predt u v hu hv⟩
  · intro u v c p hu hv e
    rw [h2 u v hu hv] at e
    injection e with e
    obtain ⟨l, k1, k2⟩ := h3.path hu (P := fun w => (Dict.get? D' (u, w)).map Prod.snd)
      (fun w hw => by rw [h2 u w hu hw]; rfl) v hv c (by rw [e])
    refine ⟨l, k1, ?_⟩
    clear k1 e hv
    induction k2 with
    | start => exact WalkOf.start
    | step _ hx ih => exact WalkOf.step ih (noLoop_eq hx).2

/-- C68: for nonnegative weights the distances of `floyd_warshall` are those of the graph. -/
theorem C68_floyd_warshall_partial (ops : List (Op V W)) (hN : Nonneg ops) :
    ∃ D, floydWarshall (history ops) = .ok D ∧
      ∀ u v, u ∈ (toAbs (history ops)).verts → v ∈ (toAbs (history ops)).verts → ∃ d p, Dict.get? D (u, v) = some (d, p) ∧
        IsDistance (toAbs (history ops)).weight u v d := by
  obtain ⟨D, hD⟩ := (C68_floyd_warshall_raises ops).1.2 (fun u v x _ hx => hN u v x hx)
  refine ⟨D, hD, fun u v hu hv => ?_⟩
  obtain ⟨d, p, h1, h2, -⟩ := (C68_floyd_warshall_loopless ops D hD).1 u v hu hv
  have key : ∀ q w c, WalkOf (toAbs (history ops)).weight u q w c →
      ∃ q' c', WalkOf (fun a b => if a = b then none else (toAbs (history ops)).weight a b) u q' w c' ∧ c' ≤ c := by
    intro q w c hq
    induction hq with
    | start => exact ⟨_, _, WalkOf.start, le_refl _⟩
    | step _ hx ih =>
      rename_i q y w c x _
      obtain ⟨q', c', k1, k2⟩ := ih
      by_cases e : y = w
      · exact ⟨q', c', e ▸ k1, k2.trans (le_add_of_nonneg_right (hN _ _ _ hx))⟩
      · exact ⟨_, _, WalkOf.step k1 (by rw [if_neg e]; exact hx), add_le_add k2 (le_refl _)⟩
  refine ⟨d, p, h1, fun c hc => ⟨?_, fun q c' hq => ?_⟩, fun hd q c hq => ?_⟩
  · obtain ⟨l, -, k⟩ := (C68_floyd_warshall_loopless ops D hD).2 u v c p hu hv (by rw [h1, hc])
    exact ⟨l, k⟩
  · obtain ⟨q', c'', k1, k2⟩ := key q v c' hq
    exact ((h2.1 c hc).2 q' c'' k1).trans k2
  · obtain ⟨q', c'', k1, k2⟩ := key q v c hq
    exact h2.2 hd q' c'' k1

/-- C68, the missing part: a loop of negative weight is a negative cycle that `floyd_warshall` ignores; it returns 0
for a vertex that has closed walks of negative weight. -/
theorem C68_floyd_warshall_negative_loop_violation :
    ∃ (ops : List (Op ℕ ℤ)) (D : Dict (ℕ × ℕ) (WithTop ℤ × Option ℕ)), floydWarshall (history ops) = .ok D ∧
      Dict.get? D (0, 0) = some (((0 : ℤ) : WithTop ℤ), none) ∧ WalkOf (toAbs (history ops)).weight 0 [0, 0] 0 (-1) := by
  refine ⟨[Op.addEdges [(0, 0, -1)]], [((0, 0), (((0 : ℤ) : WithTop ℤ), none))], by decide +kernel, by decide +kernel, ?_⟩
  have h : (toAbs (history [Op.addEdges [(0, 0, (-1 : ℤ))]])).weight 0 0 = some (-1) := by
    change adj (history [Op.addEdges [(0, 0, (-1 : ℤ))]]) 0 0 = some (-1)
    decide +kernel
  exact WalkOf.step (p := [0]) (c := 0) (x := -1) WalkOf.start h

/-! ## C69 -/

/-- C69, for different vertices: the result is the distance with a shortest path; if `t` cannot be reached the result
is `inf` alone (not a pair). -/
theorem C69_bidirectional_partial (ops : List (Op V W)) (hN : Nonneg ops) (s t : V) (hs : s ∈ (toAbs (history ops)).verts)
    (ht : t ∈ (toAbs (history ops)).verts) (hst : s ≠ t) :
    ((∃ p c, WalkOf (toAbs (history ops)).weight s p t c) → ∃ (c : W) (p : List V),
        dijkstraBidirectional (history ops) s t = some (.ok (.pair (c : WithTop W) p)) ∧
        WalkOf (toAbs (history ops)).weight s p t c ∧ IsShortest (toAbs (history ops)).weight s t c) ∧
    ((¬ ∃ p c, WalkOf (toAbs (history ops)).weight s p t c) →
        dijkstraBidirectional (history ops) s t = some (.ok .bareInf)) := by
  rcases bidirectional_spec (history_spec ops).1 hN hs ht hst with ⟨c, p, h1, h2, h3⟩ | ⟨h1, h2⟩
  · exact ⟨fun _ => ⟨c, p, h1, h2, h3⟩, fun h => absurd ⟨p, c, h2⟩ h⟩
  · exact ⟨fun ⟨p, c, hp⟩ => absurd hp (h2 p c), fun _ => h1⟩

/-- C69, the missing part: from a vertex without a loop to itself the result is `(inf, [])`, although the distance
is 0. -/
theorem C69_same_vertex_violation (ops : List (Op V W)) (hN : Nonneg ops) (s : V) (hs : s ∈ (toAbs (history ops)).verts)
    (h0 : (toAbs (history ops)).weight s s = none) :
    dijkstraBidirectional (history ops) s s = some (.ok (.pair ⊤ [])) ∧ WalkOf (toAbs (history ops)).weight s [s] s 0 :=
  ⟨bidirectional_same (history_spec ops).1 hN hs h0, WalkOf.start⟩

/-! ## Examples -/

/-- With fuel, for examples. -/
def dijkstraLoopN (g : Graph V W) : ℕ → Dict V (WithTop W) → Dict V (Option V) → List (W × V) → Finset V →
    Option (Except PyErr (Dict V (WithTop W) × Dict V (Option V)))
  | 0, _, _, _, _ => none
  | fuel + 1, D, P, H, vis =>
    match popMin key2 H with
    | none => some (.ok (D, P))
    | some ((w, u), H) =>
      if u ∈ vis then dijkstraLoopN g fuel D P H vis
      else
        match Dict.get? g u with
        | none => some (.error .keyError)
        | some N =>
          match relax w u N D P H with
          | .error e => some (.error e)
          | .ok (D, P, H) => dijkstraLoopN g fuel D P H (insert u vis)

omit [IsOrderedCancelAddMonoid W] in
theorem dijkstraLoop_of_fuel (g : Graph V W) (fuel : ℕ) (D : Dict V (WithTop W)) (P : Dict V (Option V)) (H : List (W × V))
    (vis : Finset V) (r) (h : dijkstraLoopN g fuel D P H vis = some r) : dijkstraLoop g D P H vis = some r := by
  induction fuel generalizing D P H vis r with
  | zero => simp [dijkstraLoopN] at h
  | succ fuel ih =>
    rw [dijkstraLoop.eq_def]
    rw [dijkstraLoopN] at h
    split at h <;> rename_i e <;> rw [e] <;> dsimp only
    · exact h
    · split_ifs at h ⊢
      · exact ih _ _ _ _ _ h
      · split at h <;> rename_i e2 <;> rw [e2] <;> dsimp only
        · exact h
        · split at h <;> rename_i e3 <;> rw [e3] <;> dsimp only
          · exact h
          · exact ih _ _ _ _ _ h

/-- With fuel, for examples. -/
def iteratorLoopN (g : Graph V W) : ℕ → Dict V (WithTop W) → List (W × V × List V) → Finset V →
    Option (Except PyErr (List (V × W × List V)))
  | 0, _, _, _ => none
  | fuel + 1, D, H, vis =>
    match popMin key3 H with
    | none => some (.ok [])
    | some ((w, u, path), H) =>
      if u ∈ vis then iteratorLoopN g fuel D H vis
      else
        match Dict.get? g u with
        | none => some (.error .keyError)
        | some N =>
          match relaxPath w path N D H with
          | .error e => some (.error e)
          | .ok (D, H) => do
            let r ← iteratorLoopN g fuel D H (insert u vis)
            match r with
            | .error e => some (.error e)
            | .ok l => some (.ok ((u, w, path) :: l))

omit [IsOrderedCancelAddMonoid W] in
theorem iteratorLoop_of_fuel (g : Graph V W) (fuel : ℕ) (D : Dict V (WithTop W)) (H : List (W × V × List V))
    (vis : Finset V) (r) (h : iteratorLoopN g fuel D H vis = some r) : iteratorLoop g D H vis = some r := by
  induction fuel generalizing D H vis r with
  | zero => simp [iteratorLoopN] at h
  | succ fuel ih =>
    rw [iteratorLoop.eq_def]
    rw [iteratorLoopN] at h
    split at h <;> rename_i e <;> rw [e] <;> dsimp only
    · exact h
    · split_ifs at h ⊢
      · exact ih _ _ _ _ h
      · split at h <;> rename_i e2 <;> rw [e2] <;> dsimp only
        · exact h
        · split at h <;> rename_i e3 <;> rw [e3] <;> dsimp only
          · exact h
          · rw [Option.bind_eq_bind, Option.bind_eq_some_iff] at h ⊢
            obtain ⟨a, ha, hb⟩ := h
            exact ⟨a, ih _ _ _ _ ha, hb⟩

/-- With fuel, for examples. -/
def bfLoopN (g : Graph V W) (n : ℕ) : ℕ → Dict V ℕ → Dict V (WithTop W) → Dict V (Option V) → List V →
    Finset V → Option (Except PyErr (Dict V (WithTop W) × Dict V (Option V)))
  | 0, _, _, _, _, _ => none
  | fuel + 1, count, C, P, q, S =>
    match q with
    | [] => some (.ok (C, P))
    | u :: q =>
      match Dict.get? count u, Dict.get? g u with
      | some k, some N =>
        if n + 1 ≤ k + 1 then some (.error .valueError)
        else
          match bfRelax u N C P q (S.erase u) with
          | .error e => some (.error e)
          | .ok (C, P, q, S) => bfLoopN g n fuel (Dict.set count u (k + 1)) C P q S
      | _, _ => some (.error .keyError)

omit [IsOrderedCancelAddMonoid W] in
theorem bfLoop_of_fuel (g : Graph V W) (n fuel : ℕ) (count : Dict V ℕ) (C : Dict V (WithTop W)) (P : Dict V (Option V)) (q : List V)
    (S : Finset V) (r) (h : bfLoopN g n fuel count C P q S = some r) : bfLoop g n count C P q S = some r := by
  induction fuel generalizing count C P q S r with
  | zero => simp [bfLoopN] at h
  | succ fuel ih =>
    rw [bfLoop.eq_def]
    cases q with
    | nil => exact h
    | cons u q =>
      rw [bfLoopN] at h
      dsimp only at h ⊢
      split at h
      · rename_i k N e1 e2
        rw [e1, e2]
        dsimp only
        split_ifs at h ⊢
        · exact h
        · split at h <;> rename_i e3 <;> rw [e3] <;> dsimp only
          · exact h
          · exact ih _ _ _ _ _ _ h
      · rename_i hno
        cases e1 : Dict.get? count u with
        | none => exact h
        | some k =>
          cases e2 : Dict.get? g u with
          | none => exact h
          | some N => exact absurd e2 (hno k N e1)

/-- Example graph: the detour 0-1-2 is shorter than the edge 0-2; 5-6 is another component. -/
def pathOps : List (Op ℕ ℤ) := [Op.addEdges [(0, 1, 2), (1, 2, 2), (0, 2, 5), (2, 3, 1), (0, 3, 9), (5, 6, 1)]]

example : Nonneg pathOps := by
  intro u v x h
  obtain ⟨N, hN, hx⟩ : ∃ N, Dict.get? (history pathOps) u = some N ∧ Dict.get? N v = some x := by
    change adj (history pathOps) u v = some x at h
    rw [adj] at h
    cases e : Dict.get? (history pathOps) u with
    | none => rw [e] at h; simp at h
    | some N => rw [e] at h; exact ⟨N, rfl, h⟩
  have h1 := Dict.mem_of_get? hN
  have h2 := Dict.mem_of_get? hx
  have : ∀ e ∈ history pathOps, ∀ f ∈ e.2, 0 ≤ f.2 := by decide +kernel
  exact this _ h1 _ h2

example : dijkstra (history pathOps) 0 = some (.ok
    ([(0, ((0 : ℤ) : WithTop ℤ)), (1, ((2 : ℤ) : WithTop ℤ)), (2, ((4 : ℤ) : WithTop ℤ)), (3, ((5 : ℤ) : WithTop ℤ)), (5, ⊤), (6, ⊤)],
     [(0, none), (1, some 0), (2, some 1), (3, some 2), (5, none), (6, none)])) := by
  rw [dijkstra, if_neg (by decide +kernel)]
  exact dijkstraLoop_of_fuel _ 20 _ _ _ _ _ (by decide +kernel)

example : dijkstraIterator (history pathOps) 0 = some (.ok
    [(0, 0, [0]), (1, 2, [0, 1]), (2, 4, [0, 1, 2]), (3, 5, [0, 1, 2, 3])]) := by
  rw [dijkstraIterator, if_neg (by decide +kernel)]
  exact iteratorLoop_of_fuel _ 20 _ _ _ _ (by decide +kernel)

example : bellmanFord (history pathOps) 0 = some (.ok
    ([(0, ((0 : ℤ) : WithTop ℤ)), (1, ((2 : ℤ) : WithTop ℤ)), (2, ((4 : ℤ) : WithTop ℤ)), (3, ((5 : ℤ) : WithTop ℤ)), (5, ⊤), (6, ⊤)],
     [(0, none), (1, some 0), (2, some 1), (3, some 2), (5, none), (6, none)])) := by
  rw [bellmanFord, if_neg (by decide +kernel)]
  exact bfLoop_of_fuel _ _ 40 _ _ _ _ _ _ (by decide +kernel)

/-- A negative edge that can be reached. -/
example : bellmanFord (history [Op.addEdges [(0, 1, (2 : ℤ)), (1, 2, -1)]]) 0 = some (.error .valueError) := by
  rw [bellmanFord, if_neg (by decide +kernel)]
  exact bfLoop_of_fuel _ _ 40 _ _ _ _ _ _ (by decide +kernel)

/-- A negative edge that cannot be reached. -/
example : ∃ r, bellmanFord (history [Op.addEdges [(0, 1, (2 : ℤ)), (3, 2, -1)]]) 0 = some (.ok r) := by
  refine ⟨([(0, ((0 : ℤ) : WithTop ℤ)), (1, ((2 : ℤ) : WithTop ℤ)), (3, ⊤), (2, ⊤)],
     [(0, none), (1, some 0), (3, none), (2, none)]), ?_⟩
  rw [bellmanFord, if_neg (by decide +kernel)]
  exact bfLoop_of_fuel _ _ 40 _ _ _ _ _ _ (by decide +kernel)

example : (floydWarshall (history pathOps)).toOption.bind (fun D => Dict.get? D (3, 0)) = some (((5 : ℤ) : WithTop ℤ), some 1) := by
  decide +kernel

example : floydWarshall (history [Op.addEdges [(0, 1, (2 : ℤ)), (3, 2, -1)]]) = .error .valueError := by decide +kernel

example : dijkstraBidirectional (history pathOps) 0 3 = some (.ok (.pair ((5 : ℤ) : WithTop ℤ) [0, 1, 2, 3])) := by
  have h1 : dijkstraIterator (history pathOps) 0 = some (.ok
      [(0, 0, [0]), (1, 2, [0, 1]), (2, 4, [0, 1, 2]), (3, 5, [0, 1, 2, 3])]) := by
    rw [dijkstraIterator, if_neg (by decide +kernel)]
    exact iteratorLoop_of_fuel _ 20 _ _ _ _ (by decide +kernel)
  have h2 : dijkstraIterator (history pathOps) 3 = some (.ok
      [(3, 0, [3]), (2, 1, [3, 2]), (1, 3, [3, 2, 1]), (0, 5, [3, 2, 1, 0])]) := by
    rw [dijkstraIterator, if_neg (by decide +kernel)]
    exact iteratorLoop_of_fuel _ 20 _ _ _ _ (by decide +kernel)
  rw [dijkstraBidirectional, if_neg (by decide +kernel), if_neg (by decide +kernel), h1, h2]
  decide +kernel

end Rosemary.Props
