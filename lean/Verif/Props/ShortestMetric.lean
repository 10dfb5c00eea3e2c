import Verif.Props.FloatSpanningTrees
import Verif.Props.FloatPaths
import Verif.Props.DijkstraVariants
import Verif.Lemmas.SteinerPaths

/-!
# One metric for all shortest path functions (C175)
-/

namespace Rosemary.Props

open Rosemary.Graph Rosemary.Spec Rosemary.Paths Rosemary.SteinerTrees

variable {V W : Type} [LinearOrder V] [AddCommMonoid W] [LinearOrder W] [IsOrderedCancelAddMonoid W]

/-- The number that `dijkstra(graph, s)[0]` holds for `v`, if the call returns and there is one. -/
noncomputable def reported (ops : List (Op V W)) (s v : V) : Option (WithTop W) :=
  match dijkstra (history ops) s with
  | some (.ok (D, _)) => Dict.get? D v
  | _ => none

/-- The distance, mathematically. -/
theorem exists_distance (ops : List (Op V W)) (hN : Nonneg ops) {s v : V} (hs : s ∈ (toAbs (history ops)).verts)
    (hv : v ∈ (toAbs (history ops)).verts) :
    ∃ d, reported ops s v = some d ∧ IsDistance (toAbs (history ops)).weight s v d := by
  obtain ⟨D, P, h1, h2, h3, -⟩ := C67_dijkstra ops hN s hs
  obtain ⟨d, hd⟩ := (h2 v).1 hv
  exact ⟨d, by rw [reported, h1]; exact hd, h3 v d hd⟩

omit [LinearOrder V] [IsOrderedCancelAddMonoid W] in
theorem distance_le {A : V → V → Option W} {s v : V} {d : WithTop W} (h : IsDistance A s v d) {p : List V} {c : W}
    (hp : WalkOf A s p v c) : d ≤ c := by
  cases d with
  | top => exact absurd hp (h.2 rfl p c)
  | coe x => exact WithTop.coe_le_coe.2 ((h.1 x rfl).2 p c hp)

omit [LinearOrder V] [IsOrderedCancelAddMonoid W] in
theorem distance_walk {A : V → V → Option W} {s v : V} {c : W} (h : IsDistance A s v (c : WithTop W)) : ∃ p, WalkOf A s p v c :=
  (h.1 c rfl).1

omit [LinearOrder V] [IsOrderedCancelAddMonoid W] in
/-- A number below every walk and reached by a walk, unless infinite, is the distance. -/
theorem distance_of {A : V → V → Option W} {s v : V} {d : WithTop W} (h1 : ∀ p c, WalkOf A s p v c → d ≤ c)
    (h2 : ∀ c : W, d = c → ∃ p, WalkOf A s p v c) : IsDistance A s v d :=
  ⟨fun c hc => ⟨h2 c hc, fun p c' hp => WithTop.coe_le_coe.1 (hc ▸ h1 p c' hp)⟩,
    fun hd p c hp => by have := h1 p c hp; rw [hd] at this; exact absurd this (by simp)⟩

omit [LinearOrder V] [LinearOrder W] [IsOrderedCancelAddMonoid W] in
theorem walk_positive [LinearOrder W] [IsOrderedCancelAddMonoid W] {A : V → V → Option W} (hA : ∀ u v x, A u v = some x → u ≠ v → 0 < x)
    (hL : ∀ u x, A u u = some x → 0 ≤ x)
    {s v : V} {p : List V} {c : W} (h : WalkOf A s p v c) : 0 ≤ c ∧ (c = 0 → s = v) := by
  induction h with
  | start => exact ⟨le_refl _, fun _ => rfl⟩
  | @step p v w c x _ hx ih =>
    by_cases hvw : v = w
    · subst hvw
      have := hL v x hx
      refine ⟨add_nonneg ih.1 this, fun h => ih.2 ?_⟩
      exact le_antisymm (by rw [← h]; exact le_add_of_nonneg_right this) ih.1
    · have := hA v w x hx hvw
      have : 0 < c + x := add_pos_of_nonneg_of_pos ih.1 this
      exact ⟨this.le, fun h => absurd h this.ne'⟩

/-- C175: for nonnegative weights there is one distance `d` that `dijkstra`, `dijkstra_pairing_heap`, `bellman_ford`,
`floyd_warshall`, `dijkstra_iterator` and (for two different vertices) `dijkstra_bidirectional` report. -/
theorem C175_one_distance (ops : List (Op V W)) (hN : Nonneg ops) :
    ∃ d : V → V → WithTop W,
      (∀ s ∈ (toAbs (history ops)).verts, ∃ D₁ P₁ D₂ P₂ D₃ P₃ l,
        dijkstra (history ops) s = some (.ok (D₁, P₁)) ∧ dijkstraPairingHeap (history ops) s = some (.ok (D₂, P₂)) ∧
        bellmanFord (history ops) s = some (.ok (D₃, P₃)) ∧ dijkstraIterator (history ops) s = some (.ok l) ∧
        ∀ v ∈ (toAbs (history ops)).verts, Dict.get? D₁ v = some (d s v) ∧ Dict.get? D₂ v = some (d s v) ∧
          Dict.get? D₃ v = some (d s v) ∧ ∀ c : W, d s v = c ↔ ∃ p, (v, c, p) ∈ l) ∧
      (∃ D, floydWarshall (history ops) = .ok D ∧ ∀ u ∈ (toAbs (history ops)).verts, ∀ v ∈ (toAbs (history ops)).verts,
        ∃ p, Dict.get? D (u, v) = some (d u v, p)) ∧
      ∀ s ∈ (toAbs (history ops)).verts, ∀ t ∈ (toAbs (history ops)).verts, s ≠ t →
        (∀ c : W, d s t = c ↔ ∃ p, dijkstraBidirectional (history ops) s t = some (.ok (.pair (c : WithTop W) p))) ∧
        (d s t = ⊤ ↔ dijkstraBidirectional (history ops) s t = some (.ok .bareInf)) := by
  classical
  have key : ∀ s v, ∃ d : WithTop W, s ∈ (toAbs (history ops)).verts → v ∈ (toAbs (history ops)).verts →
      IsDistance (toAbs (history ops)).weight s v d := by
    intro s v
    by_cases hs : s ∈ (toAbs (history ops)).verts
    · by_cases hv : v ∈ (toAbs (history ops)).verts
      · obtain ⟨d, -, hd⟩ := exists_distance ops hN hs hv
        exact ⟨d, fun _ _ => hd⟩
      · exact ⟨0, fun _ h => absurd h hv⟩
    · exact ⟨0, fun h => absurd h hs⟩
  choose d hd using key
  refine ⟨d, fun s hs => ?_, ?_, fun s hs t ht hst => ?_⟩
  · obtain ⟨D₁, P₁, a1, a2, a3, -⟩ := C67_dijkstra ops hN s hs
    obtain ⟨D₂, P₂, b1, b2, b3, -⟩ := C96_pairing_heap ops hN s hs
    obtain ⟨D₃, P₃, c1, c2, c3, -⟩ := C173_bellman_ford_least ops hN s hs
    obtain ⟨l, l1, -, l2, -, l4⟩ := C67_iterator ops hN s hs
    refine ⟨D₁, P₁, D₂, P₂, D₃, P₃, l, a1, b1, c1, l1, fun v hv => ⟨?_, ?_, ?_, fun c => ⟨fun h => ?_, ?_⟩⟩⟩
    · obtain ⟨x, hx⟩ := (a2 v).1 hv
      rw [hx, distance_unique (a3 v x hx) (hd s v hs hv)]
    · obtain ⟨x, hx⟩ := (b2 v).1 hv
      rw [hx, distance_unique (b3 v x hx) (hd s v hs hv)]
    · obtain ⟨x, hx⟩ := (c2 v).1 hv
      rw [hx, distance_unique (c3 v x hx) (hd s v hs hv)]
    · obtain ⟨p, hp⟩ := ((hd s v hs hv).1 c h).1
      obtain ⟨⟨v', c', q⟩, he, rfl⟩ := List.mem_map.1 ((l2 v).2 ⟨p, c, hp⟩)
      obtain ⟨m1, -⟩ := l4 _ _ _ he
      obtain ⟨⟨r, hr⟩, hmin⟩ := m1
      have : c' = c := le_antisymm (hmin p c hp) (((hd s _ hs hv).1 c h).2 r c' hr)
      exact ⟨q, this ▸ he⟩
    · rintro ⟨p, hp⟩
      obtain ⟨m1, -⟩ := l4 _ _ _ hp
      refine distance_unique (hd s v hs hv) ⟨fun x hx => WithTop.coe_injective hx ▸ m1, fun h => by simp at h⟩
  · obtain ⟨D, h1, h2⟩ := C68_floyd_warshall_partial ops hN
    refine ⟨D, h1, fun u hu v hv => ?_⟩
    obtain ⟨x, p, hx, hp⟩ := h2 u v hu hv
    exact ⟨p, by rw [hx, distance_unique hp (hd u v hu hv)]⟩
  · obtain ⟨h1, h2⟩ := C69_bidirectional_partial ops hN s t hs ht hst
    have hdd := hd s t hs ht
    by_cases hr : ∃ p c, WalkOf (toAbs (history ops)).weight s p t c
    · obtain ⟨c, p, e, -, hsh⟩ := h1 hr
      have hc : d s t = c := distance_unique hdd ⟨fun x hx => WithTop.coe_injective hx ▸ hsh, fun h => by simp at h⟩
      rw [e, hc]
      refine ⟨fun x => ⟨fun h => ⟨p, by rw [h]⟩, ?_⟩, by simp⟩
      rintro ⟨q, hq⟩
      simp only [Option.some.injEq, Except.ok.injEq, Bi.pair.injEq] at hq
      exact hq.1
    · have e := h2 hr
      have hc : d s t = ⊤ := by
        cases hx : d s t with
        | top => rfl
        | coe c => rw [hx] at hdd; obtain ⟨p, hp⟩ := distance_walk hdd; exact absurd ⟨p, c, hp⟩ hr
      rw [e, hc]
      simp

/-- C175: the reported distances are symmetric, zero from a vertex to itself, never negative, satisfy the triangle
inequality and are at most the weight of an edge. -/
theorem C175_metric (ops : List (Op V W)) (hN : Nonneg ops) :
    (∀ u ∈ (toAbs (history ops)).verts, reported ops u u = some 0) ∧
    (∀ u ∈ (toAbs (history ops)).verts, ∀ v ∈ (toAbs (history ops)).verts, reported ops u v = reported ops v u ∧
      ∃ d, reported ops u v = some d ∧ 0 ≤ d) ∧
    (∀ u ∈ (toAbs (history ops)).verts, ∀ v ∈ (toAbs (history ops)).verts, ∀ w ∈ (toAbs (history ops)).verts, ∀ a b c,
      reported ops u v = some a → reported ops v w = some b → reported ops u w = some c → c ≤ a + b) ∧
    ∀ u v x d, (toAbs (history ops)).weight u v = some x → reported ops u v = some d → d ≤ (x : WithTop W) := by
  have hsymm : ∀ u v, (toAbs (history ops)).weight u v = (toAbs (history ops)).weight v u := (history_spec ops).1.symm
  refine ⟨fun u hu => ?_, fun u hu v hv => ⟨?_, ?_⟩, fun u hu v hv w hw a b c ha hb hc => ?_, fun u v x d hx hd => ?_⟩
  · obtain ⟨d, h1, h2⟩ := exists_distance ops hN hu hu
    rw [h1]
    have h3 := distance_le h2 (WalkOf.start (A := (toAbs (history ops)).weight))
    cases d with
    | top => simp at h3
    | coe x =>
      obtain ⟨p, hp⟩ := distance_walk h2
      rw [le_antisymm h3 (WithTop.coe_le_coe.2 (walk_nonneg hN hp))]
      rfl
  · obtain ⟨d, h1, h2⟩ := exists_distance ops hN hu hv
    obtain ⟨d', h1', h2'⟩ := exists_distance ops hN hv hu
    rw [h1, h1', distance_unique h2 (distance_of (d := d') (fun p c hp => ?_) fun c hc => ?_)]
    · obtain ⟨q, hq⟩ := walk_symm hsymm hp
      exact distance_le h2' hq
    · subst hc
      obtain ⟨q, hq⟩ := distance_walk h2'
      exact walk_symm hsymm hq
  · obtain ⟨d, h1, h2⟩ := exists_distance ops hN hu hv
    refine ⟨d, h1, ?_⟩
    cases d with
    | top => exact le_top
    | coe x => obtain ⟨p, hp⟩ := distance_walk h2; exact WithTop.coe_le_coe.2 (walk_nonneg hN hp)
  · obtain ⟨a', h1, h2⟩ := exists_distance ops hN hu hv
    obtain ⟨b', k1, k2⟩ := exists_distance ops hN hv hw
    obtain ⟨c', m1, m2⟩ := exists_distance ops hN hu hw
    obtain rfl := Option.some.inj (h1.symm.trans ha)
    obtain rfl := Option.some.inj (k1.symm.trans hb)
    obtain rfl := Option.some.inj (m1.symm.trans hc)
    cases a' with
    | top => simp
    | coe x =>
      cases b' with
      | top => simp
      | coe y =>
        obtain ⟨p, hp⟩ := distance_walk h2
        obtain ⟨q, hq⟩ := distance_walk k2
        obtain ⟨r, hr⟩ := walk_append hp hq
        exact distance_le m2 hr
  · have hg := (history_spec ops).1
    have hu : u ∈ (toAbs (history ops)).verts := by
      by_contra h
      rw [reported, (C67_not_a_vertex ops u u h).1] at hd
      simp at hd
    by_cases hv : v ∈ (toAbs (history ops)).verts
    · obtain ⟨d', h1, h2⟩ := exists_distance ops hN hu hv
      obtain rfl := Option.some.inj (h1.symm.trans hd)
      have := distance_le h2 (WalkOf.start.step hx)
      rwa [zero_add] at this
    · exfalso
      obtain ⟨D, P, h1, h2, -⟩ := C67_dijkstra ops hN u hu
      rw [reported, h1] at hd
      exact hv ((h2 v).2 ⟨d, hd⟩)

/-- C175: if all edges between different vertices have positive weight, only equal vertices have distance 0. -/
theorem C175_positive (ops : List (Op V W)) (hN : Nonneg ops)
    (hpos : ∀ u v x, (toAbs (history ops)).weight u v = some x → u ≠ v → 0 < x) (u v : V)
    (h : reported ops u v = some 0) : u = v := by
  have hu : u ∈ (toAbs (history ops)).verts := by
    by_contra hu
    rw [reported, (C67_not_a_vertex ops u u hu).1] at h
    simp at h
  have hv : v ∈ (toAbs (history ops)).verts := by
    obtain ⟨D, P, h1, h2, -⟩ := C67_dijkstra ops hN u hu
    rw [reported, h1] at h
    exact (h2 v).2 ⟨_, h⟩
  obtain ⟨d, h1, h2⟩ := exists_distance ops hN hu hv
  obtain rfl := Option.some.inj (h1.symm.trans h)
  obtain ⟨p, hp⟩ := distance_walk (c := 0) h2
  exact (walk_positive hpos (fun u x => hN u u x) hp).2 rfl

/-- C175: a new (or cheaper) edge between two vertices changes the distances exactly to the best way with or without
this edge. -/
theorem C175_add_edge (ops : List (Op V W)) (hN : Nonneg ops) (a b : V) (w : W) (hw : 0 ≤ w)
    (hab : ∀ x, (toAbs (history ops)).weight a b = some x → w ≤ x)
    (ha : a ∈ (toAbs (history ops)).verts) (hb : b ∈ (toAbs (history ops)).verts) (s v : V)
    (hs : s ∈ (toAbs (history ops)).verts) (hv : v ∈ (toAbs (history ops)).verts) :
    ∃ sv sa sb av bv : WithTop W, reported ops s v = some sv ∧ reported ops s a = some sa ∧ reported ops s b = some sb ∧
      reported ops a v = some av ∧ reported ops b v = some bv ∧
      reported (ops ++ [Op.addEdge a b w]) s v = some (min sv (min (sa + w + bv) (sb + w + av))) := by
  have hm : toAbs (history (ops ++ [Op.addEdge a b w])) = (toAbs (history ops)).link a b w := by
    rw [(history_spec (ops ++ [Op.addEdge a b w])).2, List.foldl_append, ← (history_spec ops).2]
    rfl
  have hsymm : ∀ u v, (toAbs (history ops)).weight u v = (toAbs (history ops)).weight v u := (history_spec ops).1.symm
  set A := (toAbs (history ops)).weight with hA
  have hA' : ∀ x y, (toAbs (history (ops ++ [Op.addEdge a b w]))).weight x y = if s(a, b) = s(x, y) then some w else A x y := by
    intro x y; rw [hm]; rfl
  have hN' : Nonneg (ops ++ [Op.addEdge a b w]) := by
    intro x y z hz
    rw [hA'] at hz
    split_ifs at hz
    · exact Option.some.inj hz ▸ hw
    · exact hN x y z hz
  have hmem : ∀ x, x ∈ (toAbs (history ops)).verts → x ∈ (toAbs (history (ops ++ [Op.addEdge a b w]))).verts := by
    intro x hx; rw [hm]; exact Or.inl hx
  set A' := (toAbs (history (ops ++ [Op.addEdge a b w]))).weight with hAA
  obtain ⟨sv, e1, d1⟩ := exists_distance ops hN hs hv
  obtain ⟨sa, e2, d2⟩ := exists_distance ops hN hs ha
  obtain ⟨sb, e3, d3⟩ := exists_distance ops hN hs hb
  obtain ⟨av, e4, d4⟩ := exists_distance ops hN ha hv
  obtain ⟨bv, e5, d5⟩ := exists_distance ops hN hb hv
  obtain ⟨d, e6, d6⟩ := exists_distance _ hN' (hmem s hs) (hmem v hv)
  refine ⟨sv, sa, sb, av, bv, e1, e2, e3, e4, e5, ?_⟩
  rw [e6]
  -- old walks in the new graph
  have old : ∀ {x p y c}, WalkOf A x p y c → ∃ q c', WalkOf A' x q y c' ∧ c' ≤ c := by
    intro x p y c h
    induction h with
    | start => exact ⟨_, _, WalkOf.start, le_refl _⟩
    | @step p y z c t _ hx ih =>
      obtain ⟨q, c', h1, h2⟩ := ih
      by_cases hh : s(a, b) = s(y, z)
      · refine ⟨_, _, h1.step (x := w) (by rw [hA', if_pos hh]), add_le_add h2 ?_⟩
        rcases Sym2.eq_iff.1 hh with ⟨rfl, rfl⟩ | ⟨rfl, rfl⟩
        · exact hab _ hx
        · exact hab _ (by rw [hsymm]; exact hx)
      · exact ⟨_, _, h1.step (x := t) (by rw [hA', if_neg hh]; exact hx), by gcongr⟩
  have hle : ∀ {x y} {e : W}, IsDistance A x y (e : WithTop W) → ∃ q c', WalkOf A' x q y c' ∧ c' ≤ e := by
    intro x y e h
    obtain ⟨p, hp⟩ := distance_walk h
    exact old hp
  have via : ∀ {x y : V} {d1 d2 : WithTop W}, IsDistance A s x d1 → IsDistance A y v d2 → A' x y = some w → d ≤ d1 + w + d2 := by
    intro x y d1 d2 h1 h2 hxy
    cases d1 with
    | top => simp
    | coe e1 =>
      cases d2 with
      | top => simp
      | coe e2 =>
        obtain ⟨p, c, hp, hc⟩ := hle h1
        obtain ⟨q, c', hq, hc'⟩ := hle h2
        obtain ⟨r, hr⟩ := walk_append (hp.step hxy) hq
        refine (distance_le d6 hr).trans ?_
        rw [← WithTop.coe_add, ← WithTop.coe_add, WithTop.coe_le_coe]
        gcongr
  congr 1
  apply le_antisymm
  · refine le_min ?_ (le_min (via d2 d5 (by rw [hA', if_pos rfl])) (via d3 d4 (by rw [hA', if_pos Sym2.eq_swap])))
    cases sv with
    | top => exact le_top
    | coe e =>
      obtain ⟨q, c', h1, h2⟩ := hle d1
      exact (distance_le d6 h1).trans (WithTop.coe_le_coe.2 h2)
  · -- every new walk is at least as long as one of the three ways
    have key : ∀ {p y c}, WalkOf A' s p y c → y ∈ (toAbs (history ops)).verts ∧
        ((∃ q c', WalkOf A s q y c' ∧ c' ≤ c) ∨
        (∃ p q c1 c2, WalkOf A s p a c1 ∧ WalkOf A b q y c2 ∧ c1 + w + c2 ≤ c) ∨
        ∃ p q c1 c2, WalkOf A s p b c1 ∧ WalkOf A a q y c2 ∧ c1 + w + c2 ≤ c) := by
      intro p y c h
      induction h with
      | start => exact ⟨hs, Or.inl ⟨_, _, WalkOf.start, le_refl _⟩⟩
      | @step p y z c t _ hx ih =>
        rw [hA'] at hx
        by_cases hh : s(a, b) = s(y, z)
        · rw [if_pos hh] at hx
          obtain rfl := Option.some.inj hx
          rcases Sym2.eq_iff.1 hh with ⟨rfl, rfl⟩ | ⟨rfl, rfl⟩
          · refine ⟨hb, ?_⟩
            rcases ih.2 with ⟨q, c', h1, h2⟩ | ⟨p, q, c1, c2, h1, h2, h3⟩ | ⟨p, q, c1, c2, h1, h2, h3⟩
            · exact Or.inr (Or.inl ⟨_, _, _, _, h1, WalkOf.start, by rw [add_zero]; gcongr⟩)
            · have := walk_nonneg hN h2
              refine Or.inr (Or.inl ⟨_, _, _, _, h1, WalkOf.start, ?_⟩)
              rw [add_zero]
              exact (le_add_of_nonneg_right this).trans (h3.trans (le_add_of_nonneg_right hw))
            · have := walk_nonneg hN h2
              refine Or.inl ⟨_, _, h1, ?_⟩
              exact (le_add_of_nonneg_right hw).trans ((le_add_of_nonneg_right this).trans (h3.trans (le_add_of_nonneg_right hw)))
          · refine ⟨ha, ?_⟩
            rcases ih.2 with ⟨q, c', h1, h2⟩ | ⟨p, q, c1, c2, h1, h2, h3⟩ | ⟨p, q, c1, c2, h1, h2, h3⟩
            · exact Or.inr (Or.inr ⟨_, _, _, _, h1, WalkOf.start, by rw [add_zero]; gcongr⟩)
            · have := walk_nonneg hN h2
              refine Or.inl ⟨_, _, h1, ?_⟩
              exact (le_add_of_nonneg_right hw).trans ((le_add_of_nonneg_right this).trans (h3.trans (le_add_of_nonneg_right hw)))
            · have := walk_nonneg hN h2
              refine Or.inr (Or.inr ⟨_, _, _, _, h1, WalkOf.start, ?_⟩)
              rw [add_zero]
              exact (le_add_of_nonneg_right this).trans (h3.trans (le_add_of_nonneg_right hw))
        · rw [if_neg hh] at hx
          refine ⟨?_, ?_⟩
          · exact (history_spec ops).1.mem_right hx
          rcases ih.2 with ⟨q, c', h1, h2⟩ | ⟨p, q, c1, c2, h1, h2, h3⟩ | ⟨p, q, c1, c2, h1, h2, h3⟩
          · exact Or.inl ⟨_, _, h1.step hx, by gcongr⟩
          · exact Or.inr (Or.inl ⟨_, _, _, _, h1, h2.step hx, by rw [← add_assoc]; gcongr⟩)
          · exact Or.inr (Or.inr ⟨_, _, _, _, h1, h2.step hx, by rw [← add_assoc]; gcongr⟩)
    cases d with
    | top => exact le_top
    | coe e =>
      obtain ⟨p, hp⟩ := distance_walk d6
      rcases (key hp).2 with ⟨q, c', h1, h2⟩ | ⟨p, q, c1, c2, h1, h2, h3⟩ | ⟨p, q, c1, c2, h1, h2, h3⟩
      · exact (min_le_left _ _).trans ((distance_le d1 h1).trans (WithTop.coe_le_coe.2 h2))
      · refine (min_le_right _ _).trans ((min_le_left _ _).trans (le_trans ?_ (WithTop.coe_le_coe.2 h3)))
        rw [WithTop.coe_add, WithTop.coe_add]
        exact add_le_add (add_le_add (distance_le d2 h1) le_rfl) (distance_le d5 h2)
      · refine (min_le_right _ _).trans ((min_le_right _ _).trans (le_trans ?_ (WithTop.coe_le_coe.2 h3)))
        rw [WithTop.coe_add, WithTop.coe_add]
        exact add_le_add (add_le_add (distance_le d3 h1) le_rfl) (distance_le d4 h2)

/-- C175: changing the unit (any additive, strictly increasing change of the weights) changes the distances alike. -/
theorem C175_unit {W' : Type} [AddCommMonoid W'] [LinearOrder W'] [IsOrderedCancelAddMonoid W'] (f : W →+ W') (hf : StrictMono f)
    (ops : List (Op V W)) (hN : Nonneg ops) (s v : V) :
    reported (ops.map (Op.reweight f)) s v = (reported ops s v).map (WithTop.map f) := by
  have hw := reweight_weight (⇑f) ops
  have hverts : (toAbs (history (ops.map (Op.reweight f)))).verts = (toAbs (history ops)).verts :=
    rg_verts (rg_reweight (⇑f) ops)
  have hN' : Nonneg (ops.map (Op.reweight f)) := by
    intro a b x hx
    rw [hw] at hx
    obtain ⟨y, hy, rfl⟩ := Option.map_eq_some_iff.1 hx
    rw [← map_zero f]
    exact hf.monotone (hN a b y hy)
  have fwd : ∀ {p y c}, WalkOf (toAbs (history ops)).weight s p y c →
      WalkOf (toAbs (history (ops.map (Op.reweight f)))).weight s p y (f c) := by
    intro p y c h
    induction h with
    | start => rw [map_zero]; exact .start
    | step _ hx ih => rw [map_add]; exact ih.step (by rw [hw, hx]; rfl)
  have bwd : ∀ {p y c}, WalkOf (toAbs (history (ops.map (Op.reweight f)))).weight s p y c →
      ∃ c', c = f c' ∧ WalkOf (toAbs (history ops)).weight s p y c' := by
    intro p y c h
    induction h with
    | start => exact ⟨0, (map_zero f).symm, .start⟩
    | step _ hx ih =>
      obtain ⟨c', rfl, h1⟩ := ih
      rw [hw] at hx
      obtain ⟨y, hy, rfl⟩ := Option.map_eq_some_iff.1 hx
      exact ⟨c' + y, (map_add f _ _).symm, h1.step hy⟩
  by_cases hs : s ∈ (toAbs (history ops)).verts
  · by_cases hv : v ∈ (toAbs (history ops)).verts
    · obtain ⟨d, e1, d1⟩ := exists_distance ops hN hs hv
      obtain ⟨d', e2, d2⟩ := exists_distance _ hN' (hverts ▸ hs) (hverts ▸ hv)
      rw [e1, e2, Option.map_some]
      congr 1
      refine distance_unique d2 (distance_of (fun p c hp => ?_) fun c hc => ?_)
      · obtain ⟨c', rfl, h1⟩ := bwd hp
        have := distance_le d1 h1
        cases d with
        | top => simp at this
        | coe x => exact WithTop.coe_le_coe.2 (hf.monotone (WithTop.coe_le_coe.1 this))
      · cases d with
        | top => simp at hc
        | coe x =>
          obtain ⟨p, hp⟩ := distance_walk d1
          exact ⟨p, WithTop.coe_injective hc ▸ fwd hp⟩
    · obtain ⟨D, P, h1, h2, -⟩ := C67_dijkstra ops hN s hs
      obtain ⟨D', P', h1', h2', -⟩ := C67_dijkstra _ hN' s (hverts ▸ hs)
      rw [reported, reported, h1, h1']
      dsimp only
      rw [Option.eq_none_iff_forall_ne_some.2 fun d hd => hv ((h2 v).2 ⟨d, hd⟩),
        Option.eq_none_iff_forall_ne_some.2 fun d hd => hv (hverts ▸ (h2' v).2 ⟨d, hd⟩)]
      rfl
  · rw [reported, reported, (C67_not_a_vertex ops s s hs).1, (C67_not_a_vertex _ s s (fun h => hs (hverts ▸ h))).1]
    rfl

/-! ## Examples -/

/-- A path with the weights 5 and 7, and a vertex without edges. -/
def metricOps : List (Op ℕ ℤ) := [Op.addEdges [(0, 1, 5), (1, 2, 7)], Op.addVertex 3]

theorem metricOps_nonneg : Nonneg metricOps := by
  intro u v x h
  have hadj : ∀ e ∈ history metricOps, ∀ f ∈ e.2, 0 ≤ f.2 := by decide +kernel
  change adj (history metricOps) u v = some x at h
  rw [adj] at h
  cases e : Dict.get? (history metricOps) u with
  | none => rw [e] at h; simp at h
  | some N => rw [e] at h; exact hadj _ (Dict.mem_of_get? e) _ (Dict.mem_of_get? h)

theorem mem_metricOps (v : ℕ) (h : v < 4) : v ∈ (toAbs (history metricOps)).verts := by
  change v ∈ Dict.keys (history metricOps)
  revert h v
  decide +kernel

theorem reported_metricOps (s v : ℕ) (d : WithTop ℤ)
    (h : (match dijkstraLoopN (history metricOps) 10 (Dict.set ((history metricOps).map fun e => (e.1, (⊤ : WithTop ℤ))) s ((0 : ℤ) : WithTop ℤ))
      ((history metricOps).map fun e => (e.1, (none : Option ℕ))) [(0, s)] ∅ with
      | some (.ok (D, _)) => Dict.get? D v
      | _ => none) = some d) (hs : s < 4) : reported metricOps s v = some d := by
  rw [reported, dijkstra, if_neg (not_not.2 (show s ∈ Dict.keys (history metricOps) from mem_metricOps s hs))]
  revert h
  generalize hr : dijkstraLoopN (history metricOps) _ _ _ _ _ = r
  cases r with
  | none => simp
  | some r =>
    rw [dijkstraLoop_of_fuel _ _ _ _ _ _ _ hr]
    cases r <;> exact id

example : reported metricOps 0 2 = some ((12 : ℤ) : WithTop ℤ) := reported_metricOps 0 2 _ (by decide +kernel) (by decide)

/-- Back the same, and the vertex 3 is not reached. -/
example : reported metricOps 2 0 = some ((12 : ℤ) : WithTop ℤ) ∧ reported metricOps 3 0 = some ⊤ := by
  refine ⟨?_, reported_metricOps 3 0 _ (by decide +kernel) (by decide)⟩
  rw [((C175_metric metricOps metricOps_nonneg).2.1 2 (mem_metricOps 2 (by decide)) 0 (mem_metricOps 0 (by decide))).1]
  exact reported_metricOps 0 2 _ (by decide +kernel) (by decide)

/-- With a new edge of weight 3 from 0 to 2 the distance is 3, ... -/
example : reported (metricOps ++ [Op.addEdge 0 2 3]) 0 2 = some ((3 : ℤ) : WithTop ℤ) := by
  have hnone : (toAbs (history metricOps)).weight 0 2 = none := by
    change adj (history metricOps) 0 2 = none
    decide +kernel
  obtain ⟨sv, sa, sb, av, bv, h1, h2, h3, h4, h5, h6⟩ := C175_add_edge metricOps metricOps_nonneg 0 2 3 (by decide)
    (by rw [hnone]; simp) (mem_metricOps 0 (by decide)) (mem_metricOps 2 (by decide)) 0 2
    (mem_metricOps 0 (by decide)) (mem_metricOps 2 (by decide))
  rw [reported_metricOps 0 2 ((12 : ℤ) : WithTop ℤ) (by decide +kernel) (by decide)] at h1 h3 h4
  rw [reported_metricOps 0 0 ((0 : ℤ) : WithTop ℤ) (by decide +kernel) (by decide)] at h2
  rw [reported_metricOps 2 2 ((0 : ℤ) : WithTop ℤ) (by decide +kernel) (by decide)] at h5
  rw [h6, ← Option.some.inj h1, ← Option.some.inj h2, ← Option.some.inj h3, ← Option.some.inj h4, ← Option.some.inj h5]
  decide +kernel

/-- ... and in a unit of a tenth the distance without it is 120. -/
example : reported (metricOps.map (Op.reweight (fun x => 10 * x))) 0 2 = some ((120 : ℤ) : WithTop ℤ) := by
  have h := C175_unit (AddMonoidHom.mulLeft (10 : ℤ)) (fun a b h => by simp only [AddMonoidHom.coe_mulLeft]; omega) metricOps metricOps_nonneg 0 2
  rw [reported_metricOps 0 2 ((12 : ℤ) : WithTop ℤ) (by decide +kernel) (by decide)] at h
  exact h

example : reported metricOps 0 3 ≠ some 0 := fun h => absurd (C175_positive metricOps metricOps_nonneg (fun u v x hx _ => by
  have hadj : ∀ e ∈ history metricOps, ∀ f ∈ e.2, 0 < f.2 := by decide +kernel
  change adj (history metricOps) u v = some x at hx
  rw [adj] at hx
  cases e : Dict.get? (history metricOps) u with
  | none => rw [e] at hx; simp at hx
  | some N => rw [e] at hx; exact hadj _ (Dict.mem_of_get? e) _ (Dict.mem_of_get? hx)) 0 3 h) (by decide)

end Rosemary.Props
