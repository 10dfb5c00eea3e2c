import Verif.Lemmas.SteinerPrune
import Verif.Lemmas.Paths

/-!
# Distances and shortest paths for the Steiner tree heuristics
-/

namespace Rosemary.SteinerTrees

open Graph Paths SpanningTrees Spec

variable {V W : Type} [LinearOrder V] [AddCommMonoid W] [LinearOrder W] [IsOrderedCancelAddMonoid W]

/-! ### Walks -/

omit [LinearOrder V] [LinearOrder W] [IsOrderedCancelAddMonoid W] in
theorem walk_append {A : V → V → Option W} {a b c : V} {p q : List V} {x y : W} (h : WalkOf A a p b x) (h' : WalkOf A b q c y) :
    ∃ r, WalkOf A a r c (x + y) := by
  induction h' with
  | start => exact ⟨p, by rw [add_zero]; exact h⟩
  | step _ hw ih =>
    obtain ⟨r, hr⟩ := ih
    exact ⟨_, by rw [← add_assoc]; exact hr.step hw⟩

omit [LinearOrder V] [LinearOrder W] [IsOrderedCancelAddMonoid W] in
theorem walk_symm {A : V → V → Option W} (hA : ∀ u v, A u v = A v u) {a b : V} {p : List V} {x : W} (h : WalkOf A a p b x) :
    ∃ r, WalkOf A b r a x := by
  induction h with
  | start => exact ⟨_, WalkOf.start⟩
  | @step p v w c y _ hw ih =>
    obtain ⟨r, hr⟩ := ih
    have h1 : WalkOf A w ([w] ++ [v]) v (0 + y) := WalkOf.step WalkOf.start (by rw [hA]; exact hw)
    obtain ⟨q, hq⟩ := walk_append h1 hr
    exact ⟨q, by rw [zero_add, add_comm] at hq; exact hq⟩

omit [LinearOrder V] [LinearOrder W] [IsOrderedCancelAddMonoid W] in
theorem walk_of_reach {A : V → V → Option W} {a b : V} (h : Reach (fun u v => ∃ w, A u v = some w) a b) :
    ∃ p c, WalkOf A a p b c := by
  obtain ⟨n, hn⟩ := h
  induction hn with
  | zero => exact ⟨_, 0, WalkOf.start⟩
  | succ _ he ih =>
    obtain ⟨p, c, hp⟩ := ih
    obtain ⟨w, hw⟩ := he
    exact ⟨_, _, hp.step hw⟩

omit [LinearOrder V] [LinearOrder W] [IsOrderedCancelAddMonoid W] in
theorem reach_of_walk {A : V → V → Option W} {a b : V} {p : List V} {c : W} (h : WalkOf A a p b c) :
    Reach (fun u v => ∃ w, A u v = some w) a b := by
  induction h with
  | start => exact Reach.refl _ _
  | step _ hw ih => exact ih.step ⟨_, hw⟩

/-! ### The distance -/

open Classical in
/-- The distance of two vertices, 0 if there is no walk. -/
noncomputable def dist (A : V → V → Option W) (u v : V) : W := if h : ∃ c, IsShortest A u v c then h.choose else 0

omit [LinearOrder V] [IsOrderedCancelAddMonoid W] in
theorem dist_eq {A : V → V → Option W} {u v : V} {c : W} (h : IsShortest A u v c) : dist A u v = c := by
  have hex : ∃ c, IsShortest A u v c := ⟨c, h⟩
  rw [dist, dif_pos hex]
  have h' := hex.choose_spec
  obtain ⟨⟨p, hp⟩, h2⟩ := h
  obtain ⟨⟨q, hq⟩, h3⟩ := h'
  exact le_antisymm (h3 p c hp) (h2 q _ hq)

/-- `dijkstra` from a vertex. -/
theorem dijkstra_dist {g : Graph V W} (hg : Good g) (hA : ∀ u v x, adj g u v = some x → 0 ≤ x) {s : V} (hs : Mem g s) :
    ∃ D P, dijkstra g s = some (.ok (D, P)) ∧ (∀ v, Mem g v → Reach (fun a b => ∃ w, adj g a b = some w) s v →
      IsShortest (adj g) s v (dist (adj g) s v) ∧ Dict.get? D v = some ((dist (adj g) s v : W) : WithTop W) ∧
      ∃ p, LinkPath (Dict.get? P) s p v ∧ WalkOf (adj g) s p v (dist (adj g) s v)) ∧
      (∀ v, Mem g v → ¬ Reach (fun a b => ∃ w, adj g a b = some w) s v → Dict.get? D v = some ⊤ ∧ Dict.get? P v = some none) := by
  obtain ⟨D, P, vis, h1, h⟩ := dijkstra_spec hg hA hs
  refine ⟨D, P, h1, fun v hv hr => ?_, fun v hv hr => ?_⟩
  · have hd : ∃ d, Dict.get? D v = some d := by rw [Dict.get?_isSome, h.keysD]; exact hv
    obtain ⟨d, hd⟩ := hd
    have hdg : dg D v = d := by rw [dg, hd]; rfl
    have hfin := h.core.final (by simp) v
    rw [hdg] at hfin
    cases d with
    | top =>
      obtain ⟨p, c, hp⟩ := walk_of_reach hr
      exact absurd hp (hfin.2 rfl p c)
    | coe c =>
      have hs := hfin.1 c rfl
      have hc := dist_eq hs
      obtain ⟨p, k1, k2, -⟩ := h.link v c hdg
      rw [hc]
      exact ⟨hs, hd, p, k1, k2⟩
  · have hd : ∃ d, Dict.get? D v = some d := by rw [Dict.get?_isSome, h.keysD]; exact hv
    obtain ⟨d, hd⟩ := hd
    have hdg : dg D v = d := by rw [dg, hd]; rfl
    have hfin := h.core.final (by simp) v
    rw [hdg] at hfin
    cases d with
    | top => exact ⟨hd, h.nolink v hdg hv⟩
    | coe c =>
      obtain ⟨p, hp⟩ := (hfin.1 c rfl).1
      exact absurd (reach_of_walk hp) hr

theorem isShortest_dist {g : Graph V W} (hg : Good g) (hA : ∀ u v x, adj g u v = some x → 0 ≤ x) {s v : V} (hs : Mem g s)
    (hv : Mem g v) (hr : Reach (fun a b => ∃ w, adj g a b = some w) s v) : IsShortest (adj g) s v (dist (adj g) s v) := by
  obtain ⟨D, P, -, h, -⟩ := dijkstra_dist hg hA hs
  exact (h v hv hr).1

/-- The distances in a connected set of vertices. -/
theorem dist_metric {g : Graph V W} (hg : Good g) (hA : ∀ u v x, adj g u v = some x → 0 ≤ x) {C : Finset V} (hm : ∀ v ∈ C, Mem g v)
    (hr : ∀ u ∈ C, ∀ v ∈ C, Reach (fun a b => ∃ w, adj g a b = some w) u v) : Metric (adj g) C (dist (adj g)) := by
  have hs : ∀ u ∈ C, ∀ v ∈ C, IsShortest (adj g) u v (dist (adj g) u v) :=
    fun u hu v hv => isShortest_dist hg hA (hm u hu) (hm v hv) (hr u hu v hv)
  have hle : ∀ x ∈ C, ∀ y ∈ C, dist (adj g) x y ≤ dist (adj g) y x := by
    intro x hx y hy
    obtain ⟨p, hp⟩ := (hs y hy x hx).1
    obtain ⟨q, hq⟩ := walk_symm hg.symm hp
    exact (hs x hx y hy).2 q _ hq
  have hnn : ∀ x ∈ C, ∀ y ∈ C, 0 ≤ dist (adj g) x y := by
    intro x hx y hy
    obtain ⟨p, hp⟩ := (hs x hx y hy).1
    exact walk_nonneg hA hp
  refine ⟨fun x hx => le_antisymm ((hs x hx x hx).2 _ 0 WalkOf.start) (hnn x hx x hx), hnn,
    fun x hx y hy => le_antisymm (hle x hx y hy) (hle y hy x hx), fun x hx y hy z hz => ?_, fun x hx y hy w hw => ?_⟩
  · obtain ⟨p, hp⟩ := (hs x hx y hy).1
    obtain ⟨q, hq⟩ := (hs y hy z hz).1
    obtain ⟨r, hr⟩ := walk_append hp hq
    exact (hs x hx z hz).2 r _ hr
  · have h1 : WalkOf (adj g) x ([x] ++ [y]) y (0 + w) := WalkOf.step WalkOf.start hw
    rw [zero_add] at h1
    exact (hs x hx y hy).2 _ _ h1

/-! ### The tables -/

theorem shortest_spec {g : Graph V W} (us : List V) (D : Dict V (Dict V (WithTop W))) (P : Dict V (Dict V (Option V)))
    (h : ∀ u ∈ us, ∃ d p, dijkstra g u = some (.ok (d, p))) :
    ∃ D' P', shortest g us D P = some (.ok (D', P')) ∧
      (∀ u ∈ us, ∃ d p, dijkstra g u = some (.ok (d, p)) ∧ Dict.get? D' u = some d ∧ Dict.get? P' u = some p) ∧
      ∀ u, u ∉ us → Dict.get? D' u = Dict.get? D u ∧ Dict.get? P' u = Dict.get? P u := by
  induction us generalizing D P with
  | nil => exact ⟨D, P, rfl, by simp, fun u _ => ⟨rfl, rfl⟩⟩
  | cons x us ih =>
    obtain ⟨d, p, hdp⟩ := h x List.mem_cons_self
    obtain ⟨D', P', h1, h2, h3⟩ := ih (Dict.set D x d) (Dict.set P x p) (fun u hu => h u (List.mem_cons_of_mem _ hu))
    refine ⟨D', P', by rw [shortest, hdp]; exact h1, fun u hu => ?_, fun u hu => ?_⟩
    · by_cases hus : u ∈ us
      · exact h2 u hus
      · rcases List.mem_cons.1 hu with rfl | hu
        · refine ⟨d, p, hdp, ?_, ?_⟩
          · rw [(h3 u hus).1, Dict.get?_set, if_pos rfl]
          · rw [(h3 u hus).2, Dict.get?_set, if_pos rfl]
        · exact absurd hu hus
    · rw [List.mem_cons] at hu
      push Not at hu
      refine ⟨?_, ?_⟩
      · rw [(h3 u hu.2).1, Dict.get?_set, if_neg hu.1.symm]
      · rw [(h3 u hu.2).2, Dict.get?_set, if_neg hu.1.symm]

/-- What the tables say about the terminals `us`. -/
structure Tables (g : Graph V W) (us : List V) (D : Dict V (Dict V (WithTop W))) (P : Dict V (Dict V (Option V))) : Prop where
  dist : ∀ u ∈ us, ∀ v, Mem g v → Reach (fun a b => ∃ w, adj g a b = some w) u v →
    IsShortest (adj g) u v (dist (adj g) u v) ∧ look D u v = .ok ((SteinerTrees.dist (adj g) u v : W) : WithTop W)
  path : ∀ u ∈ us, ∃ pu, Dict.get? P u = some pu ∧ ∀ v, Mem g v → Reach (fun a b => ∃ w, adj g a b = some w) u v →
    ∃ p, LinkPath (Dict.get? pu) u p v ∧ WalkOf (adj g) u p v (SteinerTrees.dist (adj g) u v)
  far : ∀ u ∈ us, ∀ v, Mem g v → ¬ Reach (fun a b => ∃ w, adj g a b = some w) u v → look D u v = .ok ⊤ ∧ look P u v = .ok none

theorem tables {g : Graph V W} (hg : Good g) (hA : ∀ u v x, adj g u v = some x → 0 ≤ x) (us : List V) (hus : ∀ u ∈ us, Mem g u) :
    ∃ D P, shortest g us [] [] = some (.ok (D, P)) ∧ Tables g us D P := by
  obtain ⟨D, P, h1, h2, -⟩ := shortest_spec (g := g) us [] [] (fun u hu => by
    obtain ⟨d, p, h, -⟩ := dijkstra_dist hg hA (hus u hu)
    exact ⟨d, p, h⟩)
  have key : ∀ u ∈ us, ∃ d p, Dict.get? D u = some d ∧ Dict.get? P u = some p ∧
      (∀ v, Mem g v → Reach (fun a b => ∃ w, adj g a b = some w) u v →
      IsShortest (adj g) u v (dist (adj g) u v) ∧ Dict.get? d v = some ((dist (adj g) u v : W) : WithTop W) ∧
      ∃ q, LinkPath (Dict.get? p) u q v ∧ WalkOf (adj g) u q v (dist (adj g) u v)) ∧
      (∀ v, Mem g v → ¬ Reach (fun a b => ∃ w, adj g a b = some w) u v → Dict.get? d v = some ⊤ ∧ Dict.get? p v = some none) := by
    intro u hu
    obtain ⟨d, p, k1, k2, k3⟩ := dijkstra_dist hg hA (hus u hu)
    obtain ⟨d', p', j1, j2, j3⟩ := h2 u hu
    rw [k1] at j1
    simp only [Option.some.injEq, Except.ok.injEq, Prod.mk.injEq] at j1
    obtain ⟨rfl, rfl⟩ := j1
    exact ⟨d, p, j2, j3, k2, k3⟩
  refine ⟨D, P, h1, ⟨fun u hu v hv hr => ?_, fun u hu => ?_, fun u hu v hv hr => ?_⟩⟩
  · obtain ⟨d, p, k1, k2, k3, -⟩ := key u hu
    obtain ⟨j1, j2, -⟩ := k3 v hv hr
    refine ⟨j1, ?_⟩
    rw [look, k1, Option.bind_some, j2]
  · obtain ⟨d, p, k1, k2, k3, -⟩ := key u hu
    exact ⟨p, k2, fun v hv hr => (k3 v hv hr).2.2⟩
  · obtain ⟨d, p, k1, k2, -, k3⟩ := key u hu
    obtain ⟨j1, j2⟩ := k3 v hv hr
    refine ⟨?_, ?_⟩
    · rw [look, k1, Option.bind_some, j1]
    · rw [look, k2, Option.bind_some, j2]

/-! ### Paths -/

/-- The pair of the ends of an edge. -/
def norm (e : V × V) : V × V := pair e.1 e.2

omit [LinearOrder V] [LinearOrder W] [IsOrderedCancelAddMonoid W] in
theorem walk_last {A : V → V → Option W} {s v : V} {p : List V} {c : W} (h : WalkOf A s p v c) : p.getLast? = some v := by
  cases h with
  | start => rfl
  | step _ _ => rw [List.getLast?_append]; rfl

omit [LinearOrder V] [AddCommMonoid W] [LinearOrder W] [IsOrderedCancelAddMonoid W] in
theorem link_last {P : V → Option (Option V)} {s v : V} {p : List V} (h : LinkPath P s p v) : p.getLast? = some v := by
  cases h with
  | root _ => rfl
  | step _ _ => rw [List.getLast?_append]; rfl

/-- A list of edges from `v` back to `u`. -/
structure PathTo (g : Graph V W) (u v : V) (c : W) (L : List (V × V)) : Prop where
  edge : ∀ e ∈ L, ∃ w, adj g e.1 e.2 = some w
  sum : (L.map (fun e => (adj g e.1 e.2).getD 0)).sum = c
  joined : ∀ x, x = u ∨ x ∈ L.map Prod.fst ∨ x ∈ L.map Prod.snd → Joined (L.map norm).toFinset x v
  snd : ∀ x ∈ L.map Prod.snd, x = v ∨ x ∈ L.map Prod.fst
  last : u = v ∨ u ∈ L.map Prod.fst
  first : u = v ∨ v ∈ L.map Prod.snd
  near : ∀ x ∈ L.map Prod.fst, ∃ p q y z, WalkOf (adj g) u p x y ∧ WalkOf (adj g) x q v z ∧ c = y + z

omit [LinearOrder W] [IsOrderedCancelAddMonoid W] in
theorem joined_norm {T : Finset (V × V)} {a b : V} (h : pair a b ∈ T) : Joined T a b := by
  rcases le_total a b with h1 | h1
  · rw [pair, min_eq_left h1, max_eq_right h1] at h
    exact Joined.of_mem h
  · rw [pair, min_eq_right h1, max_eq_left h1] at h
    exact (Joined.of_mem h).symm

theorem path_spec {g : Graph V W} {P : Dict V (Dict V (Option V))} {u : V} {pu : Dict V (Option V)} (hpu : Dict.get? P u = some pu)
    {p : List V} {v : V} (hl : LinkPath (Dict.get? pu) u p v) :
    ∀ c, WalkOf (adj g) u p v c → ∃ a L, look P u v = .ok a ∧ PathTo g u v c L ∧
      (∀ h, addPath g P u a v h = some (.ok (L.foldl (fun h e => addEdge h e.1 e.2 ((adj g e.1 e.2).getD 0)) h))) ∧
      ∀ es S, tracePath P u a v es S = some (.ok (es ++ L.map norm, S ∪ (L.map Prod.fst).toFinset)) := by
  induction hl with
  | root hr =>
    intro c hc
    refine ⟨none, [], by rw [look, hpu, Option.bind_some, hr], ⟨by simp, ?_, ?_, by simp, Or.inl rfl, Or.inl rfl, by simp⟩, fun h => ?_, fun es S => ?_⟩
    · have : c = 0 := by
        generalize hq : [u] = q at hc
        cases hc with
        | start => rfl
        | @step p v w c x h1 _ =>
          have h2 := walk_last h1
          have h3 := congrArg List.length hq
          rw [List.length_append, List.length_singleton] at h3
          cases p with
          | nil => simp at h2
          | cons _ _ => simp at h3
      rw [this]; rfl
    · intro x hx
      simp at hx
      rw [hx]; exact Joined.refl _ _
    · rw [addPath]; rfl
    · rw [tracePath]; simp
  | @step p a b hp hb ih =>
    intro c hc
    obtain ⟨c0, x, hw0, hx, rfl⟩ : ∃ c0 x, WalkOf (adj g) u p a c0 ∧ adj g a b = some x ∧ c = c0 + x := by
      have hlast := link_last hp
      generalize hq : p ++ [b] = q at hc
      generalize hb' : b = b' at hc
      cases hc with
      | start =>
        cases p with
        | nil => simp at hlast
        | cons _ _ => have := congrArg List.length hq; simp at this
      | @step p' v' w' c' x' h1 h2 =>
        obtain ⟨e1, e2⟩ := List.append_inj' hq rfl
        subst e1
        have := walk_last h1
        rw [hlast] at this
        injection this with this
        subst this
        subst hb'
        exact ⟨c', x', h1, h2, rfl⟩
    obtain ⟨a', L, k1, k2, k3, k4⟩ := ih c0 hw0
    have hj : Joined (((a, b) :: L).map norm).toFinset a b := by
      apply joined_norm
      rw [List.map_cons, List.toFinset_cons]
      exact Finset.mem_insert_self _ _
    have hmono : (L.map norm).toFinset ⊆ (((a, b) :: L).map norm).toFinset := by
      rw [List.map_cons, List.toFinset_cons]; exact Finset.subset_insert _ _
    refine ⟨some a, (a, b) :: L, by rw [look, hpu, Option.bind_some, hb], ⟨?_, ?_, ?_, ?_, ?_, Or.inr (by rw [List.map_cons]; exact List.mem_cons_self), ?_⟩, fun h => ?_, fun es S => ?_⟩
    · intro e he
      rcases List.mem_cons.1 he with rfl | he
      · exact ⟨x, hx⟩
      · exact k2.edge e he
    · rw [List.map_cons, List.sum_cons, k2.sum, hx, add_comm]; rfl
    · have hL : ∀ y, y = u ∨ y ∈ L.map Prod.fst ∨ y ∈ L.map Prod.snd → Joined (((a, b) :: L).map norm).toFinset y b :=
        fun y hy => ((k2.joined y hy).mono hmono).trans hj
      intro y hy
      rw [List.map_cons, List.map_cons, List.mem_cons, List.mem_cons] at hy
      rcases hy with h1 | (h1 | h1) | (h1 | h1)
      · exact hL y (Or.inl h1)
      · rw [h1]; exact hj
      · exact hL y (Or.inr (Or.inl h1))
      · rw [h1]; exact Joined.refl _ _
      · exact hL y (Or.inr (Or.inr h1))
    · intro y hy
      rw [List.map_cons, List.mem_cons] at hy
      rw [List.map_cons, List.mem_cons]
      rcases hy with h1 | h1
      · exact Or.inl h1
      · rcases k2.snd y h1 with h1 | h1
        · exact Or.inr (Or.inl h1)
        · exact Or.inr (Or.inr h1)
    · rw [List.map_cons, List.mem_cons]
      rcases k2.last with h1 | h1
      · exact Or.inr (Or.inl h1)
      · exact Or.inr (Or.inr h1)
    · have hone : WalkOf (adj g) a ([a] ++ [b]) b (0 + x) := WalkOf.step WalkOf.start hx
      rw [zero_add] at hone
      intro y hy
      rw [List.map_cons, List.mem_cons] at hy
      rcases hy with rfl | h1
      · exact ⟨p, _, c0, x, hw0, hone, rfl⟩
      · obtain ⟨p1, q1, y1, z1, w1, w2, w3⟩ := k2.near y h1
        obtain ⟨r, hr⟩ := walk_append w2 hone
        exact ⟨p1, r, y1, z1 + x, w1, hr, by rw [w3, add_assoc]⟩
    · rw [addPath]
      have hx' : (Dict.get? g a).bind (fun N => Dict.get? N b) = some x := hx
      rw [hx']
      dsimp only
      rw [k1]
      dsimp only
      rw [k3, List.foldl_cons]
      dsimp only
      rw [hx]; rfl
    · rw [tracePath]
      rw [k1]
      dsimp only
      have hn : (if a < b then (a, b) else (b, a)) = norm (a, b) := by
        rw [norm, pair]
        by_cases h : a < b
        · rw [if_pos h, min_eq_left h.le, max_eq_right h.le]
        · rw [if_neg h, min_eq_right (not_lt.1 h), max_eq_left (not_lt.1 h)]
      rw [hn, k4, List.map_cons, List.map_cons, List.toFinset_cons, List.append_assoc, List.singleton_append, Finset.insert_union,
        Finset.union_insert]

/-! ### A spanning tree among given edges -/

omit [LinearOrder W] [IsOrderedCancelAddMonoid W] in
theorem addWeights_spec {g : Graph V W} (hg : Good g) (L : List (V × V)) (hL : ∀ e ∈ L, ∃ w, adj g e.1 e.2 = some w) (h : Graph V W)
    (hh : Good h) : Good (L.foldl (fun h e => addEdge h e.1 e.2 ((adj g e.1 e.2).getD 0)) h) ∧
      (∀ v, Mem (L.foldl (fun h e => addEdge h e.1 e.2 ((adj g e.1 e.2).getD 0)) h) v ↔ v ∈ ends L ∨ Mem h v) ∧
      ∀ u v, adj (L.foldl (fun h e => addEdge h e.1 e.2 ((adj g e.1 e.2).getD 0)) h) u v =
        if (u, v) ∈ L ∨ (v, u) ∈ L then adj g u v else adj h u v := by
  induction L generalizing h with
  | nil => exact ⟨hh, fun v => by simp [ends], fun u v => by simp⟩
  | cons e es ih =>
    obtain ⟨a, b⟩ := e
    obtain ⟨w, hw⟩ := hL (a, b) List.mem_cons_self
    obtain ⟨h1, h2, h3⟩ := ih (fun e he => hL e (List.mem_cons_of_mem _ he)) (addEdge h a b ((adj g a b).getD 0)) (hh.addEdge a b _)
    refine ⟨h1, fun v => ?_, fun u v => ?_⟩
    · rw [List.foldl_cons, h2, mem_addEdge, mem_ends, mem_ends]
      simp only [List.exists_mem_cons_iff]
      generalize (∃ e ∈ es, v = e.1 ∨ v = e.2) = p
      tauto
    · rw [List.foldl_cons, h3, adj_addEdge]
      simp only [List.mem_cons, Prod.mk.injEq]
      by_cases k : (u, v) ∈ es ∨ (v, u) ∈ es
      · rw [if_pos k, if_pos (by tauto)]
      · rw [if_neg k]
        dsimp only at hw
        by_cases k' : a = u ∧ b = v ∨ b = u ∧ a = v
        · rw [if_pos k', if_pos]
          · rcases k' with ⟨rfl, rfl⟩ | ⟨rfl, rfl⟩
            · rw [hw]; rfl
            · rw [hg.symm b a, hw]; rfl
          · rcases k' with ⟨rfl, rfl⟩ | ⟨rfl, rfl⟩
            · exact Or.inl (Or.inl ⟨rfl, rfl⟩)
            · exact Or.inr (Or.inl ⟨rfl, rfl⟩)
        · rw [if_neg k', if_neg]
          rintro ((⟨rfl, rfl⟩ | k1) | (⟨rfl, rfl⟩ | k1))
          · exact k' (Or.inl ⟨rfl, rfl⟩)
          · exact k (Or.inl k1)
          · exact k' (Or.inr ⟨rfl, rfl⟩)
          · exact k (Or.inr k1)

omit [LinearOrder W] [IsOrderedCancelAddMonoid W] in
theorem norm_cases (e : V × V) : norm e = e ∨ norm e = (e.2, e.1) := by
  rw [norm, pair]
  rcases le_total e.1 e.2 with h | h
  · rw [min_eq_left h, max_eq_right h]; exact Or.inl rfl
  · rw [min_eq_right h, max_eq_left h]; exact Or.inr rfl

theorem sum_toFinset_le (f : V × V → W) (hf : ∀ e, 0 ≤ f e) (L : List (V × V)) {T : Finset (V × V)} (h : T ⊆ L.toFinset) :
    ∑ e ∈ T, f e ≤ (L.map f).sum := by
  refine le_trans (Finset.sum_le_sum_of_subset_of_nonneg h (fun e _ _ => hf e)) ?_
  induction L generalizing T with
  | nil => simp
  | cons a L ih =>
    rw [List.toFinset_cons, List.map_cons, List.sum_cons]
    by_cases ha : a ∈ L.toFinset
    · rw [Finset.insert_eq_of_mem ha]
      exact le_trans (ih (Finset.Subset.refl _)) (le_add_of_nonneg_left (hf a))
    · rw [Finset.sum_insert ha]
      exact add_le_add le_rfl (ih (Finset.Subset.refl _))

/-- The subnetwork made of the edges `L` of `g`: `prim` finds a tree that is not heavier than all edges together. -/
theorem subnetwork_spec {g : Graph V W} (hg : Good g) (hA : ∀ u v x, adj g u v = some x → 0 ≤ x) {L : List (V × V)} (hne : L ≠ [])
    (hL : ∀ e ∈ L, ∃ w, adj g e.1 e.2 = some w) (hj : ∀ u ∈ ends L, ∀ v ∈ ends L, Joined (L.map norm).toFinset u v) :
    ∃ total es, prim (L.foldl (fun h e => addEdge h e.1 e.2 ((adj g e.1 e.2).getD 0)) ([] : Graph V W)) none = some (.ok (total, es)) ∧
      SpanningTree (adj g) (ends L) es.toFinset ∧
      totalWeight (adj g) es.toFinset ≤ (L.map (fun e => (adj g e.1 e.2).getD 0)).sum := by
  obtain ⟨h1, h2, h3⟩ := addWeights_spec hg L hL [] good_empty
  have hnone : ∀ v, ¬ Mem ([] : Graph V W) v := fun v => by simp [Mem, Dict.keys]
  obtain ⟨total, es, p1, p2, p3⟩ := prim_none h1 (C := ends L) (by
      cases L with
      | nil => exact absurd rfl hne
      | cons e L => exact ⟨e.1, mem_ends.2 ⟨e, List.mem_cons_self, Or.inl rfl⟩⟩)
    (fun v => by rw [h2]; exact ⟨fun h => h.resolve_right (hnone v), Or.inl⟩)
    (fun u hu v hv => reach_of_joined h1 (fun e he => by
      rw [List.mem_toFinset, List.mem_map] at he
      obtain ⟨e', he', rfl⟩ := he
      obtain ⟨w, hw⟩ := hL e' he'
      rcases norm_cases e' with h | h <;> rw [h]
      · exact ⟨w, by rw [h3, if_pos (Or.inl he')]; exact hw⟩
      · exact ⟨w, by rw [h3, if_pos (Or.inr he'), hg.symm]; exact hw⟩) (hj u hu v hv))
  have hedge : ∀ u v, (u, v) ∈ es.toFinset → ((u, v) ∈ L ∨ (v, u) ∈ L) ∧ ∃ w, adj g u v = some w := by
    intro u v huv
    obtain ⟨-, -, -, w, k4⟩ := p3.tree.edge u v huv
    rw [h3] at k4
    by_cases k : (u, v) ∈ L ∨ (v, u) ∈ L
    · rw [if_pos k] at k4; exact ⟨k, w, k4⟩
    · rw [if_neg k, adj_empty] at k4; exact absurd k4 (by simp)
  refine ⟨total, es, p1, ⟨fun u v huv => ?_, p3.tree.joined, p3.tree.card⟩, ?_⟩
  · obtain ⟨k1, k2, k3, -⟩ := p3.tree.edge u v huv
    exact ⟨k1, k2, k3, (hedge u v huv).2⟩
  · have hsum : (L.map (fun e => (adj g e.1 e.2).getD 0)).sum = ((L.map norm).map (fun e => (adj g e.1 e.2).getD 0)).sum := by
      rw [List.map_map]
      congr 1
      apply List.map_congr_left
      intro e _
      show _ = (adj g (norm e).1 (norm e).2).getD 0
      rw [norm, weight_pair hg]
    rw [hsum]
    apply sum_toFinset_le _ (fun e => getD_nonneg hA _ _)
    rintro ⟨u, v⟩ huv
    have hlt := (p3.tree.edge u v huv).1
    rw [List.mem_toFinset, List.mem_map]
    rcases (hedge u v huv).1 with k | k
    · exact ⟨(u, v), k, by rw [norm, pair, min_eq_left hlt.le, max_eq_right hlt.le]⟩
    · exact ⟨(v, u), k, by rw [norm, pair, min_eq_right hlt.le, max_eq_left hlt.le]⟩

end Rosemary.SteinerTrees
