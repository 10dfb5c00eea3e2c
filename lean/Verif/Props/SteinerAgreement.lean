import Verif.Props.SteinerTrees

/-!
# The two Steiner tree heuristics compared with each other and with the other graph algorithms (C197)
-/

namespace Rosemary.Props

open Rosemary.Graph Rosemary.SpanningTrees Rosemary.Spec Rosemary.Paths Rosemary.SteinerTrees

variable {V W : Type} [LinearOrder V] [AddCommMonoid W] [LinearOrder W] [IsOrderedCancelAddMonoid W]

/-! ## C197 -/

/-- C197: neither of the two heuristics is worse than `2 (1 - 1 / t)` times the other. -/
theorem C197_ratio {ord ord' : Finset V → List V} (hord : ∀ S, (ord S).Nodup ∧ ∀ x, x ∈ ord S ↔ x ∈ S)
    (hord' : ∀ S, (ord' S).Nodup ∧ ∀ x, x ∈ ord' S ↔ x ∈ S) (one : W)
    (ops : List (Op V W)) (hN : ∀ u v x, (toAbs (history ops)).weight u v = some x → 0 < x) (terminals terminals' : List V)
    (hset : ∀ u, u ∈ terminals' ↔ u ∈ terminals) (hm : ∀ u ∈ terminals, u ∈ (toAbs (history ops)).verts)
    (hr : ∀ u ∈ terminals, ∀ v ∈ terminals, Reach (EdgeOf ops) u v) (hR : 2 ≤ terminals.toFinset.card) :
    ∃ w₁ es₁ w₂ es₂, distanceNetworkHeuristic ord one (history ops) terminals = some (.ok (w₁, es₁)) ∧
      minimumCostPathsHeuristic ord' one (history ops) terminals' = some (.ok (w₂, es₂)) ∧
      terminals.toFinset.card • w₁ ≤ (2 * (terminals.toFinset.card - 1)) • w₂ ∧
      terminals.toFinset.card • w₂ ≤ (2 * (terminals.toFinset.card - 1)) • w₁ := by
  have he : terminals'.toFinset = terminals.toFinset := by
    ext u; rw [List.mem_toFinset, List.mem_toFinset, hset]
  obtain ⟨w₁, es₁, h1, r1⟩ := C105_distance_network hord one ops (fun u v x h => (hN u v x h).le) terminals hm hr hR
  obtain ⟨w₂, es₂, h2, r2⟩ := C106_minimum_cost_paths hord' one ops hN terminals' (fun u hu => hm u ((hset u).1 hu))
    (fun u hu v hv => hr u ((hset u).1 hu) v ((hset v).1 hv)) (by rw [he]; exact hR)
  rw [he] at r2
  obtain ⟨S₁, s1, t1, -⟩ := r1.tree
  obtain ⟨S₂, s2, t2, -⟩ := r2.tree
  refine ⟨w₁, es₁, w₂, es₂, h1, h2, ?_, ?_⟩
  · have := r1.bound S₂ _ t2 s2
    rwa [← r2.total] at this
  · have := r2.bound S₁ _ t1 s1
    rwa [← r1.total] at this

/-- What the two heuristics return for two terminals has the weight of a shortest path. -/
private theorem two_terminals {g : Graph V W} (hg : Good g) (hA : ∀ u v x, adj g u v = some x → 0 ≤ x) {s t : V} (hne : s ≠ t)
    (hs : Mem g s) (ht : Mem g t) (hr : Reach (fun a b => ∃ w, adj g a b = some w) s t)
    {R : Finset V} (hR : R = {s, t}) {weight : W} {es : List (V × V)} (h : SteinerResult (adj g) R weight es) :
    weight = dist (adj g) s t := by
  subst hR
  have hsym : ∀ u v, Reach (fun a b => ∃ w, adj g a b = some w) u v → Reach (fun a b => ∃ w, adj g a b = some w) v u := by
    rintro u v ⟨n, hn⟩
    exact ⟨n, hn.symm (fun u v ⟨w, hw⟩ => ⟨w, by rw [hg.symm]; exact hw⟩)⟩
  have hmem : ∀ x ∈ ({s, t} : Finset V), Mem g x := by
    intro x hx
    rw [Finset.mem_insert, Finset.mem_singleton] at hx
    rcases hx with rfl | rfl
    · exact hs
    · exact ht
  have hreach : ∀ x ∈ ({s, t} : Finset V), ∀ y ∈ ({s, t} : Finset V), Reach (fun a b => ∃ w, adj g a b = some w) x y := by
    intro x hx y hy
    rw [Finset.mem_insert, Finset.mem_singleton] at hx hy
    rcases hx with rfl | rfl <;> rcases hy with rfl | rfl
    · exact Reach.refl _ _
    · exact hr
    · exact hsym _ _ hr
    · exact Reach.refl _ _
  have hmet := dist_metric hg hA (C := {s, t}) hmem hreach
  have hsy : dist (adj g) t s = dist (adj g) s t := hmet.symm t (by simp) s (by simp)
  have hcard : ({s, t} : Finset V).card = 2 := Finset.card_pair hne
  have hB : ∀ T : Finset (V × V), SpanningTree (fun x y => some (dist (adj g) x y)) {s, t} T →
      totalWeight (fun x y => some (dist (adj g) x y)) T = dist (adj g) s t := by
    intro T hT
    have hc := hT.card
    rw [hcard] at hc
    obtain ⟨⟨a, b⟩, he⟩ := Finset.card_eq_one.1 (by omega : T.card = 1)
    obtain ⟨k1, k2, k3, -⟩ := hT.edge a b (by rw [he]; exact Finset.mem_singleton_self _)
    rw [he, totalWeight, Finset.sum_singleton, Option.getD_some]
    rw [Finset.mem_insert, Finset.mem_singleton] at k2 k3
    rcases k2 with rfl | rfl <;> rcases k3 with rfl | rfl
    · exact absurd k1 (lt_irrefl _)
    · rfl
    · exact hsy
    · exact absurd k1 (lt_irrefl _)
  have hpair : ∃ T : Finset (V × V), SpanningTree (fun x y => some (dist (adj g) x y)) {s, t} T := by
    refine ⟨{(min s t, max s t)}, fun u v he => ?_, fun u hu v hv => ?_, by rw [Finset.card_singleton, hcard]⟩
    · rw [Finset.mem_singleton] at he
      injection he with e1 e2
      subst e1 e2
      refine ⟨min_lt_max.2 hne, ?_, ?_, _, rfl⟩
      · rcases min_choice s t with e | e <;> rw [e] <;> simp
      · rcases max_choice s t with e | e <;> rw [e] <;> simp
    · have hst : Joined ({(min s t, max s t)} : Finset (V × V)) s t := by
        rcases le_total s t with e | e
        · rw [min_eq_left e, max_eq_right e]; exact Relation.EqvGen.rel _ _ (Finset.mem_singleton_self _)
        · rw [min_eq_right e, max_eq_left e]
          exact Relation.EqvGen.symm _ _ (Relation.EqvGen.rel _ _ (Finset.mem_singleton_self _))
      rw [Finset.mem_insert, Finset.mem_singleton] at hu hv
      rcases hu with rfl | rfl <;> rcases hv with rfl | rfl
      · exact Relation.EqvGen.refl _
      · exact hst
      · exact Relation.EqvGen.symm _ _ hst
      · exact Relation.EqvGen.refl _
  apply le_antisymm
  · obtain ⟨T, hT⟩ := hpair
    rw [← hB T hT]
    exact h.network _ (fun x hx y hy _ => ⟨_, isShortest_dist hg hA (hmem x hx) (hmem y hy) (hreach x hx y hy), rfl⟩) T hT
  · obtain ⟨S, k1, k2, -⟩ := h.tree
    have hS := Finset.card_le_card k1
    rw [hcard] at hS
    have := approximation k2 (metric_of_tree hg hA k2 hS) k1 ⟨s, by simp⟩
      (B := fun x y => some (dist (adj g) x y)) (fun _ _ _ _ _ => rfl) (M := dist (adj g) s t) (fun T hT => (hB T hT).ge)
    rw [hcard, ← h.total] at this
    by_contra hlt
    rw [not_le] at hlt
    have h2 : 2 • weight < 2 • dist (adj g) s t := by
      rw [two_nsmul, two_nsmul]; exact add_lt_add hlt hlt
    exact absurd this (not_le.2 h2)

/-- C197: for two terminals both heuristics return a tree of the weight that `dijkstra` gives as their distance. -/
theorem C197_two_terminals {ord : Finset V → List V} (hord : ∀ S, (ord S).Nodup ∧ ∀ x, x ∈ ord S ↔ x ∈ S) (one : W)
    (ops : List (Op V W)) (s t : V) (hne : s ≠ t) (hs : s ∈ (toAbs (history ops)).verts)
    (hr : Reach (EdgeOf ops) s t) (terminals : List V) (hterm : ∀ u, u ∈ terminals ↔ u = s ∨ u = t) :
    (Nonneg ops → ∃ D P, ∃ w : W, ∃ es, dijkstra (history ops) s = some (.ok (D, P)) ∧ Dict.get? D t = some (w : WithTop W) ∧
      distanceNetworkHeuristic ord one (history ops) terminals = some (.ok (w, es))) ∧
    ((∀ u v x, (toAbs (history ops)).weight u v = some x → 0 < x) → ∃ D P, ∃ w : W, ∃ es, dijkstra (history ops) s = some (.ok (D, P)) ∧
      Dict.get? D t = some (w : WithTop W) ∧ minimumCostPathsHeuristic ord one (history ops) terminals = some (.ok (w, es))) := by
  have hg := (history_spec ops).1
  have ht : Mem (history ops) t := mem_of_reach hg hs hr
  have hsym : Reach (EdgeOf ops) t s := by
    obtain ⟨n, hn⟩ := hr
    exact ⟨n, hn.symm (fun u v ⟨w, hw⟩ => ⟨w, by
      have : adj (history ops) v u = some w := by rw [hg.symm]; exact hw
      exact this⟩)⟩
  have hR : terminals.toFinset = {s, t} := by
    ext u; rw [List.mem_toFinset, hterm, Finset.mem_insert, Finset.mem_singleton]
  have hm : ∀ u ∈ terminals, u ∈ (toAbs (history ops)).verts := by
    intro u hu
    rcases (hterm u).1 hu with rfl | rfl
    · exact hs
    · exact ht
  have hrr : ∀ u ∈ terminals, ∀ v ∈ terminals, Reach (EdgeOf ops) u v := by
    intro u hu v hv
    rcases (hterm u).1 hu with rfl | rfl <;> rcases (hterm v).1 hv with rfl | rfl
    · exact Reach.refl _ _
    · exact hr
    · exact hsym
    · exact Reach.refl _ _
  have hc : 2 ≤ terminals.toFinset.card := by rw [hR, Finset.card_pair hne]
  refine ⟨fun hN => ?_, fun hN => ?_⟩
  · obtain ⟨D, P, d1, d2, -⟩ := dijkstra_dist hg hN hs
    obtain ⟨w, es, h1, h2⟩ := C105_distance_network hord one ops hN terminals hm hrr hc
    have hw := two_terminals hg hN hne hs ht hr hR h2
    exact ⟨D, P, w, es, d1, by rw [hw]; exact (d2 t ht hr).2.1, h1⟩
  · have hN' : Nonneg ops := fun u v x h => (hN u v x h).le
    obtain ⟨D, P, d1, d2, -⟩ := dijkstra_dist hg hN' hs
    obtain ⟨w, es, h1, h2⟩ := C106_minimum_cost_paths hord one ops hN terminals hm hrr hc
    have hw := two_terminals hg hN' hne hs ht hr hR h2
    exact ⟨D, P, w, es, d1, by rw [hw]; exact (d2 t ht hr).2.1, h1⟩

/-- A result for all the vertices of a component has the weight of the tree from `prim`. -/
private theorem all_terminals {ops : List (Op V W)} {s : V} {R : Finset V} (hR : ∀ v, v ∈ R ↔ Reach (EdgeOf ops) s v)
    {weight : W} {es : List (V × V)} (h : SteinerResult (toAbs (history ops)).weight R weight es) {es' : List (V × V)}
    (h' : MinSpanningTree (toAbs (history ops)).weight R es'.toFinset) :
    weight = totalWeight (toAbs (history ops)).weight es'.toFinset ∧
      SpanningTree (toAbs (history ops)).weight R es.toFinset := by
  have hg := (history_spec ops).1
  have hcl : ∀ u ∈ R, ∀ v w, (toAbs (history ops)).weight u v = some w → v ∈ R :=
    fun u hu v w hw => (hR v).2 (((hR u).1 hu).step ⟨w, hw⟩)
  obtain ⟨S, k1, k2, -⟩ := h.tree
  have hjc : ∀ a b, Joined es.toFinset a b → (a ∈ R ↔ b ∈ R) := by
    intro a b hab
    induction hab with
    | rel x y he =>
      obtain ⟨-, -, -, w, hw⟩ := k2.edge x y he
      refine ⟨fun hx => hcl x hx y w hw, fun hy => hcl y hy x w ?_⟩
      have : adj (history ops) y x = some w := by rw [hg.symm]; exact hw
      exact this
    | refl x => exact Iff.rfl
    | symm x y _ ih => exact ih.symm
    | trans x y z _ _ i1 i2 => exact i1.trans i2
  have hsR : s ∈ R := (hR s).2 (Reach.refl _ _)
  have hSR : S = R := Finset.Subset.antisymm (fun v hv => (hjc s v (k2.joined s (k1 hsR) v hv)).1 hsR) k1
  rw [hSR] at k2
  refine ⟨le_antisymm (h.closed hcl _ h'.tree) ?_, k2⟩
  rw [h.total]
  exact h'.min _ k2

/-- C197: if the terminals are all the vertices of a component, both heuristics return a spanning tree of the component whose
weight is the one that `prim` returns. -/
theorem C197_all_terminals {ord : Finset V → List V} (hord : ∀ S, (ord S).Nodup ∧ ∀ x, x ∈ ord S ↔ x ∈ S) (one : W)
    (ops : List (Op V W)) (s : V) (hs : s ∈ (toAbs (history ops)).verts) (terminals : List V)
    (hterm : ∀ v, v ∈ terminals ↔ Reach (EdgeOf ops) s v) (hc : 2 ≤ terminals.toFinset.card) :
    (Nonneg ops → ∃ w es es', prim (history ops) (some s) = some (.ok (w, es)) ∧
      distanceNetworkHeuristic ord one (history ops) terminals = some (.ok (w, es')) ∧
      SpanningTree (toAbs (history ops)).weight terminals.toFinset es'.toFinset) ∧
    ((∀ u v x, (toAbs (history ops)).weight u v = some x → 0 < x) → ∃ w es es', prim (history ops) (some s) = some (.ok (w, es)) ∧
      minimumCostPathsHeuristic ord one (history ops) terminals = some (.ok (w, es')) ∧
      SpanningTree (toAbs (history ops)).weight terminals.toFinset es'.toFinset) := by
  have hg := (history_spec ops).1
  have hsym : ∀ u v, Reach (EdgeOf ops) u v → Reach (EdgeOf ops) v u := by
    rintro u v ⟨n, hn⟩
    exact ⟨n, hn.symm (fun u v ⟨w, hw⟩ => ⟨w, by
      have : adj (history ops) v u = some w := by rw [hg.symm]; exact hw
      exact this⟩)⟩
  have hm : ∀ u ∈ terminals, u ∈ (toAbs (history ops)).verts := fun u hu => mem_of_reach hg hs ((hterm u).1 hu)
  have hrr : ∀ u ∈ terminals, ∀ v ∈ terminals, Reach (EdgeOf ops) u v :=
    fun u hu v hv => (hsym _ _ ((hterm u).1 hu)).trans ((hterm v).1 hv)
  have hR : ∀ v, v ∈ terminals.toFinset ↔ Reach (EdgeOf ops) s v := fun v => by rw [List.mem_toFinset, hterm]
  obtain ⟨w, es, p1, -, p3, C, hC, p4⟩ := C70_prim ops s hs
  have hCR : C = terminals.toFinset := by ext v; rw [hC, hR]
  rw [hCR] at p4
  refine ⟨fun hN => ?_, fun hN => ?_⟩
  · obtain ⟨w', es', h1, h2⟩ := C105_distance_network hord one ops hN terminals hm hrr hc
    obtain ⟨k1, k2⟩ := all_terminals hR h2 p4
    rw [← p3] at k1
    exact ⟨w, es, es', p1, by rw [h1, k1], k2⟩
  · obtain ⟨w', es', h1, h2⟩ := C106_minimum_cost_paths hord one ops hN terminals hm hrr hc
    obtain ⟨k1, k2⟩ := all_terminals hR h2 p4
    rw [← p3] at k1
    exact ⟨w, es, es', p1, by rw [h1, k1], k2⟩

/-- C197: neither heuristic returns more than the weight of a spanning tree of the complete graph on the terminals whose
weights are the distances that `dijkstra` returns. -/
theorem C197_distance_trees {ord : Finset V → List V} (hord : ∀ S, (ord S).Nodup ∧ ∀ x, x ∈ ord S ↔ x ∈ S) (one : W)
    (ops : List (Op V W)) (terminals : List V) (hm : ∀ u ∈ terminals, u ∈ (toAbs (history ops)).verts)
    (hr : ∀ u ∈ terminals, ∀ v ∈ terminals, Reach (EdgeOf ops) u v) (hR : 2 ≤ terminals.toFinset.card)
    (B : V → V → Option W) (hB : ∀ x ∈ terminals, ∀ y ∈ terminals, x ≠ y → ∃ D P, ∃ c : W, B x y = some c ∧
      dijkstra (history ops) x = some (.ok (D, P)) ∧ Dict.get? D y = some (c : WithTop W))
    (T : Finset (V × V)) (hT : SpanningTree B terminals.toFinset T) :
    (Nonneg ops → ∃ w es, distanceNetworkHeuristic ord one (history ops) terminals = some (.ok (w, es)) ∧ w ≤ totalWeight B T) ∧
    ((∀ u v x, (toAbs (history ops)).weight u v = some x → 0 < x) →
      ∃ w es, minimumCostPathsHeuristic ord one (history ops) terminals = some (.ok (w, es)) ∧ w ≤ totalWeight B T) := by
  have hg := (history_spec ops).1
  have hB' : Nonneg ops → ∀ x ∈ terminals.toFinset, ∀ y ∈ terminals.toFinset, x ≠ y →
      ∃ c, IsShortest (toAbs (history ops)).weight x y c ∧ B x y = some c := by
    intro hN x hx y hy hne
    rw [List.mem_toFinset] at hx hy
    obtain ⟨D, P, c, b1, b2, b3⟩ := hB x hx y hy hne
    obtain ⟨D', P', d1, d2, -⟩ := dijkstra_dist hg hN (hm x hx)
    rw [b2] at d1
    injection d1 with d1
    injection d1 with d1
    injection d1 with e1 e2
    subst e1 e2
    obtain ⟨k1, k2, -⟩ := d2 y (hm y hy) (hr x hx y hy)
    rw [b3] at k2
    injection k2 with k2
    rw [WithTop.coe_eq_coe] at k2
    exact ⟨c, by rw [k2]; exact k1, b1⟩
  refine ⟨fun hN => ?_, fun hN => ?_⟩
  · obtain ⟨w, es, h1, h2⟩ := C105_distance_network hord one ops hN terminals hm hr hR
    exact ⟨w, es, h1, h2.network B (hB' hN) T hT⟩
  · obtain ⟨w, es, h1, h2⟩ := C106_minimum_cost_paths hord one ops hN terminals hm hr hR
    exact ⟨w, es, h1, h2.network B (hB' (fun u v x h => (hN u v x h).le)) T hT⟩

/-- The terminals 1 and 3 of the star, joined directly and through the centre. -/
example {ord : Finset ℕ → List ℕ} (hord : ∀ S, (ord S).Nodup ∧ ∀ x, x ∈ ord S ↔ x ∈ S) :
    ∃ D P, ∃ w : ℤ, ∃ es, dijkstra (history starOps) 1 = some (.ok (D, P)) ∧ Dict.get? D 3 = some (w : WithTop ℤ) ∧
      minimumCostPathsHeuristic ord 1 (history starOps) [3, 1] = some (.ok (w, es)) :=
  (C197_two_terminals hord 1 starOps 1 3 (by decide) (show 1 ∈ Dict.keys (history starOps) by decide +kernel)
    (starOps_reach 1 (by decide) 3 (by decide)) [3, 1] (fun u => by simp [or_comm])).2 starOps_pos

example {ord : Finset ℕ → List ℕ} (hord : ∀ S, (ord S).Nodup ∧ ∀ x, x ∈ ord S ↔ x ∈ S) :
    ∃ w₁ es₁ w₂ es₂, distanceNetworkHeuristic ord 1 (history starOps) [1, 2, 3] = some (.ok (w₁, es₁)) ∧
      minimumCostPathsHeuristic ord 1 (history starOps) [3, 1, 2, 1] = some (.ok (w₂, es₂)) ∧ 3 * w₁ ≤ 4 * w₂ ∧ 3 * w₂ ≤ 4 * w₁ := by
  obtain ⟨w₁, es₁, w₂, es₂, h1, h2, h3, h4⟩ := C197_ratio hord hord 1 starOps starOps_pos [1, 2, 3] [3, 1, 2, 1]
    (fun u => by simp; omega) (show ∀ u ∈ [1, 2, 3], u ∈ Dict.keys (history starOps) by decide +kernel) starOps_reach
    (by decide +kernel)
  have h5 : ([1, 2, 3] : List ℕ).toFinset.card = 3 := by decide +kernel
  rw [h5] at h3 h4
  refine ⟨w₁, es₁, w₂, es₂, h1, h2, ?_, ?_⟩
  · simpa using h3
  · simpa using h4

/-- The distances of 1, 2 and 3 are 3, so that the trees have weight at most 6. -/
example {ord : Finset ℕ → List ℕ} (hord : ∀ S, (ord S).Nodup ∧ ∀ x, x ∈ ord S ↔ x ∈ S) :
    ∃ w es, minimumCostPathsHeuristic ord 1 (history starOps) [1, 2, 3] = some (.ok (w, es)) ∧ w ≤ 6 := by
  have hm : ∀ u ∈ [1, 2, 3], u ∈ (toAbs (history starOps)).verts :=
    show ∀ u ∈ [1, 2, 3], u ∈ Dict.keys (history starOps) by decide +kernel
  have hdist : ∀ x ∈ [1, 2, 3], ∀ y ∈ [1, 2, 3], x ≠ y → IsShortest (adj (history starOps)) x y 3 := by
    intro x hx y hy hne
    have hxy : ∀ x ∈ [1, 2, 3], ∀ y ∈ [1, 2, 3], x ≠ y → adj (history starOps) x y = some 3 := by decide +kernel
    refine ⟨⟨_, by simpa using WalkOf.step WalkOf.start (hxy x hx y hy hne)⟩, fun p c hp => ?_⟩
    have hpot : ∀ x ∈ [1, 2, 3], ∀ e ∈ history starOps, ∀ f ∈ e.2,
        (if f.1 = x then (0 : ℤ) else if f.1 = 0 then 2 else 3) ≤ (if e.1 = x then 0 else if e.1 = 0 then 2 else 3) + f.2 := by
      decide +kernel
    have : ∀ p v c, WalkOf (adj (history starOps)) x p v c → (if v = x then (0 : ℤ) else if v = 0 then 2 else 3) ≤ c := by
      intro p v c h
      induction h with
      | start => rw [if_pos rfl]
      | @step p v w c z _ hz ih =>
        rw [adj] at hz
        cases e : Dict.get? (history starOps) v with
        | none => rw [e] at hz; simp at hz
        | some N =>
          rw [e] at hz
          have := hpot x hx _ (Dict.mem_of_get? e) _ (Dict.mem_of_get? hz)
          dsimp only at this
          exact this.trans (add_le_add ih le_rfl)
    have h3 := this p y c hp
    have hy0 : y ≠ 0 := by rintro rfl; simp at hy
    rwa [if_neg (Ne.symm hne), if_neg hy0] at h3
  obtain ⟨w, es, h1, h2⟩ := (C197_distance_trees hord 1 starOps [1, 2, 3] hm starOps_reach (by decide +kernel)
    (fun _ _ => some 3) (fun x hx y hy hne => by
      obtain ⟨D, P, d1, d2, -⟩ := dijkstra_dist (history_spec starOps).1 (fun u v x h => (starOps_pos u v x h).le) (hm x hx)
      refine ⟨D, P, 3, rfl, d1, ?_⟩
      rw [(d2 y (hm y hy) (starOps_reach x hx y hy)).2.1, dist_eq (hdist x hx y hy hne)])
    {(1, 2), (2, 3)} (by
      have hset : ([1, 2, 3] : List ℕ).toFinset = {1, 2, 3} := by decide +kernel
      rw [hset]
      have h12 : Joined ({(1, 2), (2, 3)} : Finset (ℕ × ℕ)) 1 2 := Relation.EqvGen.rel _ _ (by decide)
      have h23 : Joined ({(1, 2), (2, 3)} : Finset (ℕ × ℕ)) 2 3 := Relation.EqvGen.rel _ _ (by decide)
      have hj : ∀ u ∈ ({1, 2, 3} : Finset ℕ), Joined ({(1, 2), (2, 3)} : Finset (ℕ × ℕ)) u 2 := by
        intro u hu
        simp only [Finset.mem_insert, Finset.mem_singleton] at hu
        rcases hu with rfl | rfl | rfl
        · exact h12
        · exact Relation.EqvGen.refl _
        · exact Relation.EqvGen.symm _ _ h23
      refine ⟨fun u v he => ?_, fun u hu v hv => (hj u hu).trans (hj v hv).symm, by decide⟩
      simp only [Finset.mem_insert, Finset.mem_singleton, Prod.mk.injEq] at he
      rcases he with ⟨rfl, rfl⟩ | ⟨rfl, rfl⟩ <;> exact ⟨by decide, by decide, by decide, _, rfl⟩)).2 starOps_pos
  refine ⟨w, es, h1, h2.trans_eq ?_⟩
  decide +kernel

/-- All five vertices of the star. -/
example {ord : Finset ℕ → List ℕ} (hord : ∀ S, (ord S).Nodup ∧ ∀ x, x ∈ ord S ↔ x ∈ S) :
    ∃ w es es', prim (history starOps) (some 0) = some (.ok (w, es)) ∧
      minimumCostPathsHeuristic ord 1 (history starOps) [4, 3, 2, 1, 0] = some (.ok (w, es')) ∧
      SpanningTree (toAbs (history starOps)).weight {0, 1, 2, 3, 4} es'.toFinset := by
  have hterm : ∀ v, v ∈ [4, 3, 2, 1, 0] ↔ Reach (EdgeOf starOps) 0 v := by
    intro v
    refine ⟨fun hv => ?_, fun hv => ?_⟩
    · have h3 : ∀ u ∈ [1, 2, 3], Reach (EdgeOf starOps) 0 u := by
        intro u hu
        have : ∀ u ∈ [1, 2, 3], adj (history starOps) 0 u = some 2 := by decide +kernel
        exact (Reach.refl _ 0).step ⟨2, this u hu⟩
      have h4 : adj (history starOps) 3 4 = some 7 := by decide +kernel
      simp only [List.mem_cons, List.not_mem_nil, or_false] at hv
      rcases hv with rfl | rfl | rfl | rfl | rfl
      · exact (h3 3 (by decide)).step ⟨7, h4⟩
      · exact h3 3 (by decide)
      · exact h3 2 (by decide)
      · exact h3 1 (by decide)
      · exact Reach.refl _ _
    · have h1 := mem_of_reach (history_spec starOps).1 (show 0 ∈ Dict.keys (history starOps) by decide +kernel) hv
      have h2 : ∀ v ∈ Dict.keys (history starOps), v ∈ [4, 3, 2, 1, 0] := by decide +kernel
      exact h2 v h1
  have h := (C197_all_terminals hord 1 starOps 0 (show 0 ∈ Dict.keys (history starOps) by decide +kernel) [4, 3, 2, 1, 0] hterm
    (by decide +kernel)).2 starOps_pos
  have h5 : ([4, 3, 2, 1, 0] : List ℕ).toFinset = {0, 1, 2, 3, 4} := by decide +kernel
  rwa [h5] at h

end Rosemary.Props
