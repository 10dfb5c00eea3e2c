import Verif.Lemmas.SteinerPaths
import Verif.Model.SteinerCosts

/-!
# The two Steiner tree heuristics
-/

namespace Rosemary.SteinerTrees

open Graph Paths SpanningTrees Spec

variable {V W : Type} [LinearOrder V] [AddCommMonoid W] [LinearOrder W] [IsOrderedCancelAddMonoid W]

omit [LinearOrder V] [AddCommMonoid W] [LinearOrder W] [IsOrderedCancelAddMonoid W] in
theorem mem_of_reach [DecidableEq V] {g : Graph V W} (hg : Good g) {u v : V} (hu : Mem g u) (h : Reach (fun a b => ∃ w, adj g a b = some w) u v) :
    Mem g v := by
  obtain ⟨n, hn⟩ := h
  cases hn with
  | zero => exact hu
  | succ _ he => obtain ⟨w, hw⟩ := he; exact hg.mem_right hw

/-! ### The distance network -/

omit [LinearOrder V] in
theorem pairs_sub {l : List V} {u v : V} (h : (u, v) ∈ pairs l) : u ∈ l ∧ v ∈ l := by
  induction l with
  | nil => simp [pairs] at h
  | cons a l ih =>
    rw [pairs, List.mem_append, List.mem_map] at h
    rcases h with ⟨x, hx, e⟩ | h
    · injection e with e1 e2
      subst e1 e2
      exact ⟨List.mem_cons_self, List.mem_cons_of_mem _ hx⟩
    · exact ⟨List.mem_cons_of_mem _ (ih h).1, List.mem_cons_of_mem _ (ih h).2⟩

omit [LinearOrder V] in
theorem pairs_mem {l : List V} {u v : V} (hu : u ∈ l) (hv : v ∈ l) (hne : u ≠ v) : (u, v) ∈ pairs l ∨ (v, u) ∈ pairs l := by
  induction l with
  | nil => simp at hu
  | cons a l ih =>
    rw [pairs, List.mem_append, List.mem_append, List.mem_map, List.mem_map]
    rcases List.mem_cons.1 hu with rfl | hu
    · rcases List.mem_cons.1 hv with rfl | hv
      · exact absurd rfl hne
      · exact Or.inl (Or.inl ⟨v, hv, rfl⟩)
    · rcases List.mem_cons.1 hv with rfl | hv
      · exact Or.inr (Or.inl ⟨u, ‹u ∈ l›, rfl⟩)
      · exact (ih hu hv).imp Or.inr Or.inr

omit [LinearOrder W] [IsOrderedCancelAddMonoid W] in
open Classical in
theorem network_spec {D : Dict V (Dict V (WithTop W))} {us : List V} {f : V → V → W} {r : V → V → Prop}
    (hD : ∀ u ∈ us, ∀ v ∈ us, (r u v → look D u v = .ok ((f u v : W) : WithTop W)) ∧ (¬ r u v → look D u v = .ok ⊤))
    (hr : ∀ u v, r u v → r v u) (hf : ∀ u ∈ us, ∀ v ∈ us, r u v → f u v = f v u)
    (ps : List (V × V)) (hps : ∀ e ∈ ps, e.1 ∈ us ∧ e.2 ∈ us) (h : Graph V W) (hh : Good h) :
    ∃ h', network D ps h = .ok h' ∧ Good h' ∧ (∀ v, Mem h' v ↔ v ∈ ends ps ∨ Mem h v) ∧
      ∀ u v, adj h' u v = if ((u, v) ∈ ps ∨ (v, u) ∈ ps) ∧ r u v then some (f u v) else adj h u v := by
  induction ps generalizing h with
  | nil => exact ⟨h, rfl, hh, fun v => by simp [ends], fun u v => by simp⟩
  | cons e es ih =>
    obtain ⟨a, b⟩ := e
    obtain ⟨ha, hb⟩ := hps (a, b) List.mem_cons_self
    dsimp only at ha hb
    by_cases hab : r a b
    · obtain ⟨h', h0, h1, h2, h3⟩ := ih (fun e he => hps e (List.mem_cons_of_mem _ he)) (addEdge h a b (f a b)) (hh.addEdge a b _)
      refine ⟨h', ?_, h1, fun v => ?_, fun u v => ?_⟩
      · rw [network, (hD a ha b hb).1 hab]; exact h0
      · rw [h2, mem_addEdge, mem_ends, mem_ends]
        simp only [List.exists_mem_cons_iff]
        generalize (∃ e ∈ es, v = e.1 ∨ v = e.2) = p
        tauto
      · rw [h3, adj_addEdge]
        simp only [List.mem_cons, Prod.mk.injEq]
        by_cases k : ((u, v) ∈ es ∨ (v, u) ∈ es) ∧ r u v
        · rw [if_pos k, if_pos (by tauto)]
        · rw [if_neg k]
          by_cases k' : a = u ∧ b = v ∨ b = u ∧ a = v
          · rw [if_pos k', if_pos]
            · rcases k' with ⟨rfl, rfl⟩ | ⟨rfl, rfl⟩
              · rfl
              · rw [hf a ha b hb hab]
            · rcases k' with ⟨rfl, rfl⟩ | ⟨rfl, rfl⟩
              · exact ⟨Or.inl (Or.inl ⟨rfl, rfl⟩), hab⟩
              · exact ⟨Or.inr (Or.inl ⟨rfl, rfl⟩), hr _ _ hab⟩
          · rw [if_neg k', if_neg]
            rintro ⟨(⟨rfl, rfl⟩ | k1) | (⟨rfl, rfl⟩ | k1), k2⟩
            · exact k' (Or.inl ⟨rfl, rfl⟩)
            · exact k ⟨Or.inl k1, k2⟩
            · exact k' (Or.inr ⟨rfl, rfl⟩)
            · exact k ⟨Or.inr k1, k2⟩
    · obtain ⟨h', h0, h1, h2, h3⟩ := ih (fun e he => hps e (List.mem_cons_of_mem _ he)) (addVertex (addVertex h a) b)
        ((hh.addVertex a).addVertex b)
      refine ⟨h', ?_, h1, fun v => ?_, fun u v => ?_⟩
      · rw [network, (hD a ha b hb).2 hab]; exact h0
      · rw [h2, mem_addVertex, mem_addVertex, mem_ends, mem_ends]
        simp only [List.exists_mem_cons_iff]
        generalize (∃ e ∈ es, v = e.1 ∨ v = e.2) = p
        tauto
      · rw [h3, adj_addVertex, adj_addVertex]
        simp only [List.mem_cons, Prod.mk.injEq]
        by_cases k : ((u, v) ∈ es ∨ (v, u) ∈ es) ∧ r u v
        · rw [if_pos k, if_pos (by tauto)]
        · rw [if_neg k, if_neg]
          rintro ⟨(⟨rfl, rfl⟩ | k1) | (⟨rfl, rfl⟩ | k1), k2⟩
          · exact hab k2
          · exact k ⟨Or.inl k1, k2⟩
          · exact hab (hr _ _ k2)
          · exact k ⟨Or.inr k1, k2⟩

omit [AddCommMonoid W] [LinearOrder W] [IsOrderedCancelAddMonoid W] in
theorem keys_addHalf (g : Graph V W) (a b : V) (w : W) : ∃ ks, Dict.keys (addHalf g a b w) = Dict.keys g ++ ks := by
  rw [addHalf]
  cases Dict.get? g a <;> dsimp only <;> rw [Dict.keys_set] <;> split_ifs
  · exact ⟨[], by rw [List.append_nil]⟩
  · exact ⟨[a], rfl⟩
  · exact ⟨[], by rw [List.append_nil]⟩
  · exact ⟨[a], rfl⟩

omit [AddCommMonoid W] [LinearOrder W] [IsOrderedCancelAddMonoid W] in
theorem keys_addEdge (g : Graph V W) (a b : V) (w : W) : ∃ ks, Dict.keys (addEdge g a b w) = Dict.keys g ++ ks := by
  obtain ⟨k1, h1⟩ := keys_addHalf g a b w
  obtain ⟨k2, h2⟩ := keys_addHalf (addHalf g a b w) b a w
  exact ⟨k1 ++ k2, by rw [addEdge, h2, h1, List.append_assoc]⟩

omit [AddCommMonoid W] [LinearOrder W] [IsOrderedCancelAddMonoid W] in
theorem keys_addVertex (g : Graph V W) (a : V) : ∃ ks, Dict.keys (addVertex g a) = Dict.keys g ++ ks := by
  rw [addVertex]
  cases Dict.get? g a <;> dsimp only
  · rw [Dict.keys_set]
    split_ifs
    · exact ⟨[], by rw [List.append_nil]⟩
    · exact ⟨[a], rfl⟩
  · exact ⟨[], by rw [List.append_nil]⟩

omit [AddCommMonoid W] [LinearOrder W] [IsOrderedCancelAddMonoid W] in
theorem keys_network (D : Dict V (Dict V (WithTop W))) (ps : List (V × V)) (h h' : Graph V W) (hn : network D ps h = .ok h') :
    ∃ ks, Dict.keys h' = Dict.keys h ++ ks := by
  induction ps generalizing h with
  | nil =>
    rw [network] at hn
    injection hn with hn
    exact ⟨[], by rw [hn, List.append_nil]⟩
  | cons e es ih =>
    obtain ⟨a, b⟩ := e
    rw [network] at hn
    cases hl : look D a b with
    | error e => rw [hl] at hn; exact absurd hn (by simp)
    | ok x =>
      rw [hl] at hn
      cases x with
      | top =>
        obtain ⟨k1, h1⟩ := ih _ hn
        obtain ⟨k2, h2⟩ := keys_addVertex (addVertex h a) b
        obtain ⟨k3, h3⟩ := keys_addVertex h a
        exact ⟨k3 ++ (k2 ++ k1), by rw [h1, h2, h3, List.append_assoc, List.append_assoc]⟩
      | coe w =>
        obtain ⟨k1, h1⟩ := ih _ hn
        obtain ⟨k2, h2⟩ := keys_addEdge h a b w
        exact ⟨k2 ++ k1, by rw [h1, h2, List.append_assoc]⟩

omit [AddCommMonoid W] [LinearOrder W] [IsOrderedCancelAddMonoid W] in
/-- The first vertex of the distance network. -/
theorem keys_network_head (D : Dict V (Dict V (WithTop W))) (s t : V) (us : List V) (h' : Graph V W)
    (hn : network D (pairs (s :: t :: us)) [] = .ok h') : ∃ ks, Dict.keys h' = s :: ks := by
  rw [pairs, List.map_cons, List.cons_append, network] at hn
  cases hl : look D s t with
  | error e => rw [hl] at hn; exact absurd hn (by simp)
  | ok x =>
    rw [hl] at hn
    cases x with
    | top =>
      obtain ⟨k1, h1⟩ := keys_network _ _ _ _ hn
      obtain ⟨k2, h2⟩ := keys_addVertex (addVertex ([] : Graph V W) s) t
      exact ⟨k2 ++ k1, by rw [h1, h2]; rfl⟩
    | coe w =>
      obtain ⟨k1, h1⟩ := keys_network _ _ _ _ hn
      obtain ⟨k2, h2⟩ := keys_addHalf (addHalf ([] : Graph V W) s t w) t s w
      exact ⟨k2 ++ k1, by rw [h1, addEdge, h2]; rfl⟩

/-! ### The paths of the distance network -/

/-- What is known about the edges that `addPaths` adds. -/
structure Paths (g : Graph V W) (es L : List (V × V)) : Prop where
  edge : ∀ e ∈ L, ∃ w, adj g e.1 e.2 = some w
  sum : (L.map (fun e => (adj g e.1 e.2).getD 0)).sum = (es.map (fun e => dist (adj g) e.1 e.2)).sum
  joined : ∀ e ∈ es, Joined (L.map norm).toFinset e.1 e.2
  near : ∀ x ∈ ends L, ∃ e ∈ es, Joined (L.map norm).toFinset x e.2
  ends : ∀ e ∈ es, e.1 ≠ e.2 → e.1 ∈ SteinerTrees.ends L ∧ e.2 ∈ SteinerTrees.ends L
  walk : ∀ e ∈ es, ∃ L0, PathTo g e.1 e.2 (dist (adj g) e.1 e.2) L0 ∧ ∀ f ∈ L0, f ∈ L

theorem addPaths_spec {g : Graph V W} {us : List V} {D : Dict V (Dict V (WithTop W))} {P : Dict V (Dict V (Option V))}
    (hT : Tables g us D P) (es : List (V × V))
    (hes : ∀ e ∈ es, e.1 ∈ us ∧ Mem g e.2 ∧ Reach (fun a b => ∃ w, adj g a b = some w) e.1 e.2) :
    ∃ L, Paths g es L ∧ ∀ h, addPaths g P es h =
      some (.ok (L.foldl (fun h e => addEdge h e.1 e.2 ((adj g e.1 e.2).getD 0)) h)) := by
  induction es with
  | nil => exact ⟨[], ⟨by simp, by simp, by simp, by simp [SteinerTrees.ends], by simp, by simp⟩, fun h => rfl⟩
  | cons e es ih =>
    obtain ⟨u, v⟩ := e
    obtain ⟨L', h1, h2⟩ := ih (fun e he => hes e (List.mem_cons_of_mem _ he))
    obtain ⟨hu, hv, hr⟩ := hes (u, v) List.mem_cons_self
    dsimp only at hu hv hr
    obtain ⟨pu, k1, k2⟩ := hT.path u hu
    obtain ⟨p, k3, k4⟩ := k2 v hv hr
    obtain ⟨a, L, j1, j2, j3, -⟩ := path_spec (g := g) k1 k3 _ k4
    have hl : (L.map norm).toFinset ⊆ ((L ++ L').map norm).toFinset := by
      rw [List.map_append, List.toFinset_append]; exact Finset.subset_union_left
    have hr' : (L'.map norm).toFinset ⊆ ((L ++ L').map norm).toFinset := by
      rw [List.map_append, List.toFinset_append]; exact Finset.subset_union_right
    refine ⟨L ++ L', ⟨?_, ?_, ?_, ?_, ?_, ?_⟩, fun h => ?_⟩
    · intro e he
      rcases List.mem_append.1 he with he | he
      · exact j2.edge e he
      · exact h1.edge e he
    · rw [List.map_append, List.sum_append, j2.sum, h1.sum, List.map_cons, List.sum_cons]
    · intro e he
      rcases List.mem_cons.1 he with rfl | he
      · exact (j2.joined u (Or.inl rfl)).mono hl
      · exact (h1.joined e he).mono hr'
    · intro x hx
      obtain ⟨e, he, hxe⟩ := mem_ends.1 hx
      rcases List.mem_append.1 he with he | he
      · refine ⟨(u, v), List.mem_cons_self, (j2.joined x (Or.inr ?_)).mono hl⟩
        rcases hxe with rfl | rfl
        · exact Or.inl (List.mem_map_of_mem he)
        · exact Or.inr (List.mem_map_of_mem he)
      · obtain ⟨e', he', hj⟩ := h1.near x (mem_ends.2 ⟨e, he, hxe⟩)
        exact ⟨e', List.mem_cons_of_mem _ he', hj.mono hr'⟩
    · intro e he hne
      rcases List.mem_cons.1 he with rfl | he
      · dsimp only at hne ⊢
        refine ⟨?_, ?_⟩
        · obtain ⟨f, hf, e⟩ := List.mem_map.1 (j2.last.resolve_left hne)
          exact mem_ends.2 ⟨f, List.mem_append_left _ hf, Or.inl e.symm⟩
        · obtain ⟨f, hf, e⟩ := List.mem_map.1 (j2.first.resolve_left hne)
          exact mem_ends.2 ⟨f, List.mem_append_left _ hf, Or.inr e.symm⟩
      · obtain ⟨e1, e2⟩ := h1.ends e he hne
        refine ⟨?_, ?_⟩
        · obtain ⟨f, hf, h⟩ := mem_ends.1 e1
          exact mem_ends.2 ⟨f, List.mem_append_right _ hf, h⟩
        · obtain ⟨f, hf, h⟩ := mem_ends.1 e2
          exact mem_ends.2 ⟨f, List.mem_append_right _ hf, h⟩
    · intro e he
      rcases List.mem_cons.1 he with rfl | he
      · exact ⟨L, j2, fun f hf => List.mem_append_left _ hf⟩
      · obtain ⟨L0, e1, e2⟩ := h1.walk e he
        exact ⟨L0, e1, fun f hf => List.mem_append_right _ (e2 f hf)⟩
    · rw [addPaths, j1]
      dsimp only
      rw [j3]
      dsimp only
      rw [h2, List.foldl_append]

/-! ### The result -/

/-- A Steiner tree for the vertices `R` of at most `2 (1 - 1 / t)` times the least weight. -/
structure Steiner (A : V → V → Option W) (R : Finset V) (r : W × List (V × V)) : Prop where
  sorted : r.2.Pairwise (fun a b => toLex a < toLex b)
  weight : r.1 = totalWeight A r.2.toFinset
  tree : ∃ S, R ⊆ S ∧ SpanningTree A S r.2.toFinset ∧ ∀ x ∈ S, x ∉ R → ¬ ∃ e, LeafEdge r.2.toFinset x e
  bound : ∀ S T, SpanningTree A S T → R ⊆ S → R.card • r.1 ≤ (2 * (R.card - 1)) • totalWeight A T
  closed : (∀ u ∈ R, ∀ v w, A u v = some w → v ∈ R) → ∀ T, SpanningTree A R T → r.1 ≤ totalWeight A T
  network : ∀ B : V → V → Option W, (∀ x ∈ R, ∀ y ∈ R, x ≠ y → B x y = some (dist A x y)) →
    ∀ T, SpanningTree B R T → r.1 ≤ totalWeight B T

theorem metric_of_tree {g : Graph V W} (hg : Good g) (hA : ∀ u v x, adj g u v = some x → 0 ≤ x) {S : Finset V} {T : Finset (V × V)}
    (hT : SpanningTree (adj g) S T) (hS : 2 ≤ S.card) : Metric (adj g) S (dist (adj g)) := by
  refine dist_metric hg hA (fun v hv => ?_) (fun u hu v hv => reach_of_joined hg (fun e he => (hT.edge e.1 e.2 he).2.2.2) (hT.joined u hu v hv))
  obtain ⟨y, hy, hne⟩ := Finset.exists_mem_ne (by omega : 1 < S.card) v
  obtain ⟨⟨a, b⟩, he, h1⟩ := hT.exists_edge hv hy hne
  obtain ⟨-, -, -, w, hw⟩ := hT.edge a b he
  rcases h1 with rfl | rfl
  · exact mem_of_adj hw
  · exact hg.mem_right hw

/-- The improvement of a connected set of edges that is not heavier than a spanning tree of the distance network. -/
theorem improve_steiner {ord : Finset V → List V} (hord : ∀ S, (ord S).Nodup ∧ ∀ x, x ∈ ord S ↔ x ∈ S) {g : Graph V W} (hg : Good g)
    (hA : ∀ u v x, adj g u v = some x → 0 ≤ x) (one : W) (terminals : List V) {R : Finset V} (hR : 2 ≤ R.card)
    (es : List (V × V)) (hes : ∀ e ∈ es, ∃ w, adj g e.1 e.2 = some w)
    (hj : ∀ u ∈ ends es, ∀ v ∈ ends es, Joined es.toFinset u v) (hsub : R ⊆ ends es)
    (hRt : ∀ x ∈ ends es, x ∈ terminals ↔ x ∈ R)
    {T0 : Finset (V × V)} (hT0 : SpanningTree (adj g) (ends es) T0) {B : V → V → Option W}
    (hB : ∀ x ∈ R, ∀ y ∈ R, x ≠ y → B x y = some (dist (adj g) x y))
    (hle : ∀ T, SpanningTree B R T → totalWeight (adj g) T0 ≤ totalWeight B T) :
    ∃ r, improve ord one g es terminals = some (.ok r) ∧ Steiner (adj g) R r := by
  obtain ⟨weight, es', h1, h2, h3, h4, h5⟩ := improve_spec hord hg hA one terminals hR es hes hj hsub hRt
  refine ⟨(weight, es'), h1, h2, h3, h4, fun S T hT hS => ?_, fun hc T hT => ?_, fun B' hB' T hT => ?_⟩
  · have h6 := Finset.card_le_card hS
    exact approximation hT (metric_of_tree hg hA hT (by omega)) hS (Finset.card_pos.1 (by omega)) hB
      (fun T' hT' => le_trans (h5 T0 hT0) (hle T' hT'))
  · have hjc : ∀ a b, Joined es.toFinset a b → (a ∈ R ↔ b ∈ R) := by
      intro a b hab
      induction hab with
      | rel x y h =>
        obtain ⟨w, hw⟩ := hes _ (List.mem_toFinset.1 h)
        exact ⟨fun hx => hc x hx y w hw, fun hy => hc y hy x w (by rw [hg.symm]; exact hw)⟩
      | refl x => exact Iff.rfl
      | symm x y _ ih => exact ih.symm
      | trans x y z _ _ i1 i2 => exact i1.trans i2
    obtain ⟨x, hx⟩ := Finset.card_pos.1 (by omega : 0 < R.card)
    have he : ends es = R := Finset.Subset.antisymm (fun v hv => (hjc x v (hj x (hsub hx) v hv)).1 hx) hsub
    exact h5 T (by rw [he]; exact hT)
  · have hBB : ∀ e ∈ T, B e.1 e.2 = B' e.1 e.2 := by
      intro e he
      obtain ⟨k1, k2, k3, -⟩ := hT.edge e.1 e.2 he
      rw [hB _ k2 _ k3 (ne_of_lt k1), hB' _ k2 _ k3 (ne_of_lt k1)]
    have hT' : SpanningTree B R T := ⟨fun u v he => by
      obtain ⟨k1, k2, k3, k4⟩ := hT.edge u v he
      exact ⟨k1, k2, k3, by rw [hBB _ he]; exact k4⟩, hT.joined, hT.card⟩
    refine (le_trans (h5 T0 hT0) (hle T hT')).trans_eq (Finset.sum_congr rfl (fun e he => ?_))
    rw [hBB e he]

omit [IsOrderedCancelAddMonoid W] in
theorem prim_empty : prim ([] : Graph V W) none = some (.error .stopIteration) := rfl

/-- What is known about the edges `es` that are given to `_improve`; `mst` are the edges of the distance network. -/
structure Stages (g : Graph V W) (R : Finset V) (terminals : List V) (B : V → V → Option W) (mst L es : List (V × V)) : Prop where
  dist : ∀ x ∈ R, ∀ y ∈ R, x ≠ y → B x y = some (SteinerTrees.dist (adj g) x y)
  min : MinSpanningTree B R mst.toFinset
  paths : Paths g mst L
  ends : ends es = SteinerTrees.ends L
  tree : SpanningTree (adj g) (SteinerTrees.ends L) es.toFinset
  le : totalWeight (adj g) es.toFinset ≤ totalWeight B mst.toFinset
  sub : R ⊆ SteinerTrees.ends L
  term : ∀ x ∈ SteinerTrees.ends L, x ∈ terminals ↔ x ∈ R

/-- The terminals that can be reached from the first one are joined. -/
theorem distanceNetwork_stages {g : Graph V W}
    (hg : Good g) (hA : ∀ u v x, adj g u v = some x → 0 ≤ x) (s : V) (us : List V)
    (hm : ∀ u ∈ s :: us, Mem g u) {R : Finset V}
    (hR : ∀ v, v ∈ R ↔ v ∈ s :: us ∧ Reach (fun a b => ∃ w, adj g a b = some w) s v) :
    (2 ≤ R.card → ∃ B mst L es, Stages g R (s :: us) B mst L es ∧
      (∀ ord one, distanceNetworkHeuristic ord one g (s :: us) = improve ord one g es (s :: us)) ∧
      ∀ ord one, distanceNetworkC ord one g (s :: us) = improveC ord one g es (s :: us)) ∧
      (R.card < 2 → ∀ ord one, distanceNetworkHeuristic ord one g (s :: us) = some (.error .stopIteration)) := by
  classical
  obtain ⟨D, P, t1, t2⟩ := tables hg hA (s :: us) hm
  have hsR : s ∈ R := (hR s).2 ⟨List.mem_cons_self, Reach.refl _ _⟩
  have hsym : ∀ u v, Reach (fun a b => ∃ w, adj g a b = some w) u v → Reach (fun a b => ∃ w, adj g a b = some w) v u := by
    rintro u v ⟨n, hn⟩
    exact ⟨n, hn.symm (fun u v ⟨w, hw⟩ => ⟨w, by rw [hg.symm]; exact hw⟩)⟩
  have hRr : ∀ u ∈ R, ∀ v ∈ R, Reach (fun a b => ∃ w, adj g a b = some w) u v :=
    fun u hu v hv => (hsym _ _ ((hR u).1 hu).2).trans ((hR v).1 hv).2
  have hRm : ∀ v ∈ R, Mem g v := fun v hv => hm v ((hR v).1 hv).1
  cases us with
  | nil =>
    have hR1 : R = {s} := by
      ext v
      rw [hR, List.mem_singleton, Finset.mem_singleton]
      exact ⟨And.left, fun e => ⟨e, e ▸ Reach.refl _ _⟩⟩
    refine ⟨fun h => ?_, fun _ => ?_⟩
    · rw [hR1, Finset.card_singleton] at h; omega
    · intro ord one
      rw [distanceNetworkHeuristic, t1]
      dsimp only
      rw [pairs, pairs, List.map_nil, List.nil_append, network]
      dsimp only
      rw [prim_empty]
  | cons t us =>
  have hdsym : ∀ u ∈ s :: t :: us, ∀ v ∈ s :: t :: us, Reach (fun a b => ∃ w, adj g a b = some w) u v →
      dist (adj g) u v = dist (adj g) v u := by
    intro u hu v hv huv
    refine (dist_metric hg hA (C := {u, v}) (fun x hx => ?_) (fun x hx y hy => ?_)).symm u (by simp) v (by simp)
    · rcases Finset.mem_insert.1 hx with rfl | hx
      · exact hm _ hu
      · rw [Finset.mem_singleton.1 hx]; exact hm _ hv
    · rw [Finset.mem_insert, Finset.mem_singleton] at hx hy
      rcases hx with rfl | rfl <;> rcases hy with rfl | rfl
      · exact Reach.refl _ _
      · exact huv
      · exact hsym _ _ huv
      · exact Reach.refl _ _
  obtain ⟨h, n1, n2, n3, n4⟩ := network_spec (D := D) (us := s :: t :: us) (f := dist (adj g))
    (r := fun u v => Reach (fun a b => ∃ w, adj g a b = some w) u v)
    (fun u hu v hv => ⟨fun hr => (t2.dist u hu v (hm v hv) hr).2, fun hr => (t2.far u hu v (hm v hv) hr).1⟩) hsym hdsym
    (pairs (s :: t :: us)) (fun e he => pairs_sub he) [] good_empty
  obtain ⟨ks, hks⟩ := keys_network_head D s t us h n1
  have hB : ∀ x ∈ R, ∀ y ∈ R, x ≠ y → adj h x y = some (dist (adj g) x y) := by
    intro x hx y hy hne
    rw [n4, if_pos ⟨pairs_mem ((hR x).1 hx).1 ((hR y).1 hy).1 hne, hRr x hx y hy⟩]
  have hcomp : IsComponent h s R := by
    intro v
    constructor
    · intro hv
      by_cases hsv : s = v
      · rw [hsv]; exact Reach.refl _ _
      · exact (Reach.refl _ s).step ⟨_, hB s hsR v hv hsv⟩
    · rintro ⟨n, hn⟩
      have : ∀ n a b, Steps (fun a b => ∃ w, adj h a b = some w) n a b → a ∈ R → b ∈ R := by
        intro n a b hn
        induction hn with
        | zero => exact id
        | @succ n u v w _ he ih =>
          intro ha
          obtain ⟨x, hx⟩ := he
          rw [n4] at hx
          by_cases k : ((v, w) ∈ pairs (s :: t :: us) ∨ (w, v) ∈ pairs (s :: t :: us)) ∧
              Reach (fun a b => ∃ w, adj g a b = some w) v w
          · refine (hR w).2 ⟨?_, ((hR v).1 (ih ha)).2.trans k.2⟩
            rcases k.1 with k1 | k1
            · exact (pairs_sub k1).2
            · exact (pairs_sub k1).1
          · rw [if_neg k, adj_empty] at hx; exact absurd hx (by simp)
      exact this n s v hn hsR
  have hsm : Mem h s := by rw [Mem, hks]; exact List.mem_cons_self
  obtain ⟨Q, o1, o2, p3, -⟩ := prim_spec n2 hsm hcomp
  obtain ⟨p2, o3⟩ := sortPairs_spec o2
  rw [← o3] at p3
  have p1 : prim h none = some (.ok (totalWeight (adj h) (linkEdges Q).toFinset, sortPairs (linkEdges Q))) := by
    have hcore : primCore h none = primCore h (some s) := by
      rw [primCore, primCore, primRoot, primRoot, hks]
    rw [prim, hcore, o1]; rfl
  generalize sortPairs (linkEdges Q) = mst at p1 p2 p3
  have hmst : ∀ e ∈ mst, e.1 ∈ R ∧ e.2 ∈ R ∧ e.1 ≠ e.2 := by
    intro e he
    obtain ⟨k1, k2, k3, -⟩ := p3.tree.edge e.1 e.2 (List.mem_toFinset.2 he)
    exact ⟨k2, k3, ne_of_lt k1⟩
  obtain ⟨L, q1, q2⟩ := addPaths_spec t2 mst (fun e he => by
    obtain ⟨k1, k2, k3⟩ := hmst e he
    exact ⟨((hR _).1 k1).1, hRm _ k2, hRr _ k1 _ k2⟩)
  refine ⟨fun hR2 => ?_, fun hR2 ord one => ?_⟩
  swap
  · have hmst0 : mst = [] := by
      have := p3.tree.card
      have h0 : mst.toFinset.card = 0 := by omega
      exact (List.toFinset_eq_empty_iff mst).1 (Finset.card_eq_zero.1 h0)
    subst hmst0
    rw [distanceNetworkHeuristic, t1]
    dsimp only
    rw [n1]
    dsimp only
    rw [p1]
    dsimp only
    rw [addPaths]
    dsimp only
    rw [prim_empty]
  have hterm : ∀ u ∈ R, ∀ v ∈ R, Joined (L.map norm).toFinset u v :=
    fun u hu v hv => (p3.tree.joined u hu v hv).lift (fun a b hab => q1.joined (a, b) (List.mem_toFinset.1 hab))
  have hjoin : ∀ u ∈ ends L, ∀ v ∈ ends L, Joined (L.map norm).toFinset u v := by
    intro u hu v hv
    obtain ⟨e, he, h1⟩ := q1.near u hu
    obtain ⟨f, hf, h2⟩ := q1.near v hv
    exact h1.trans ((hterm _ (hmst e he).2.1 _ (hmst f hf).2.1).trans h2.symm)
  have hsub : R ⊆ ends L := by
    intro x hx
    obtain ⟨y, hy, hne⟩ := Finset.exists_mem_ne (by omega : 1 < R.card) x
    obtain ⟨e, he, h1⟩ := p3.tree.exists_edge hx hy hne
    have he' := List.mem_toFinset.1 he
    obtain ⟨e1, e2⟩ := q1.ends e he' (hmst e he').2.2
    rcases h1 with rfl | rfl
    · exact e1
    · exact e2
  have hLne : L ≠ [] := by
    rintro rfl
    have := hsub hsR
    simp [ends] at this
  obtain ⟨w2, es, s1, s2, s3⟩ := subnetwork_spec hg hA hLne q1.edge hjoin
  have hC2 : 2 ≤ (ends L).card := le_trans hR2 (Finset.card_le_card hsub)
  have hends : ends es = ends L := by
    ext v
    rw [mem_ends]
    constructor
    · rintro ⟨e, he, h1⟩
      obtain ⟨-, k2, k3, -⟩ := s2.edge e.1 e.2 (List.mem_toFinset.2 he)
      rcases h1 with rfl | rfl
      · exact k2
      · exact k3
    · intro hv
      obtain ⟨y, hy, hne⟩ := Finset.exists_mem_ne (by omega : 1 < (ends L).card) v
      obtain ⟨e, he, h1⟩ := s2.exists_edge hv hy hne
      exact ⟨e, List.mem_toFinset.1 he, h1.imp Eq.symm Eq.symm⟩
  have hsum : (mst.map (fun e => dist (adj g) e.1 e.2)).sum = totalWeight (adj h) mst.toFinset := by
    have hnd : mst.Nodup := p2.imp (fun h => by rintro rfl; exact lt_irrefl _ h)
    rw [totalWeight, List.sum_toFinset _ hnd]
    congr 1
    apply List.map_congr_left
    intro e he
    obtain ⟨k1, k2, k3⟩ := hmst e he
    rw [hB _ k1 _ k2 k3]; rfl
  have hreach : ∀ x ∈ ends L, Reach (fun a b => ∃ w, adj g a b = some w) s x :=
    fun x hx => reach_of_joined hg (fun e he => by
      rw [List.mem_toFinset, List.mem_map] at he
      obtain ⟨f, hf, rfl⟩ := he
      obtain ⟨w, hw⟩ := q1.edge f hf
      exact ⟨w, by rw [norm, weight_pair hg]; exact hw⟩) (hjoin s (hsub hsR) x hx)
  refine ⟨adj h, mst, L, es, ⟨hB, p3, q1, hends, s2, ?_, hsub, fun x hx => ?_⟩, fun ord one => ?_, fun ord one => ?_⟩
  · refine le_trans s3 ?_
    rw [q1.sum, hsum]
  · rw [hR]; exact ⟨fun h => ⟨h, hreach x hx⟩, And.left⟩
  · rw [distanceNetworkHeuristic, t1]
    dsimp only
    rw [n1]
    dsimp only
    rw [p1]
    dsimp only
    rw [q2]
    dsimp only
    rw [s1]
  · rw [distanceNetworkC, t1]
    dsimp only
    rw [n1]
    dsimp only
    rw [p1]
    dsimp only
    rw [q2]
    dsimp only
    rw [s1]

/-- The tree for the terminals that can be reached from the first one. -/
theorem distanceNetwork_spec {ord : Finset V → List V} (hord : ∀ S, (ord S).Nodup ∧ ∀ x, x ∈ ord S ↔ x ∈ S) {g : Graph V W}
    (hg : Good g) (hA : ∀ u v x, adj g u v = some x → 0 ≤ x) (one : W) (s : V) (us : List V)
    (hm : ∀ u ∈ s :: us, Mem g u) {R : Finset V}
    (hR : ∀ v, v ∈ R ↔ v ∈ s :: us ∧ Reach (fun a b => ∃ w, adj g a b = some w) s v) :
    (2 ≤ R.card → ∃ r, distanceNetworkHeuristic ord one g (s :: us) = some (.ok r) ∧ Steiner (adj g) R r) ∧
      (R.card < 2 → distanceNetworkHeuristic ord one g (s :: us) = some (.error .stopIteration)) := by
  obtain ⟨h1, h2⟩ := distanceNetwork_stages hg hA s us hm hR
  refine ⟨fun hR2 => ?_, fun hR2 => h2 hR2 ord one⟩
  obtain ⟨B, mst, L, es, hs, e1, -⟩ := h1 hR2
  rw [e1]
  refine improve_steiner hord hg hA one (s :: us) hR2 es
    (fun e he => (hs.tree.edge e.1 e.2 (List.mem_toFinset.2 he)).2.2.2)
    (by rw [hs.ends]; exact hs.tree.joined) (by rw [hs.ends]; exact hs.sub)
    (fun x hx => by rw [hs.ends] at hx; exact hs.term x hx)
    (T0 := es.toFinset) (by rw [hs.ends]; exact hs.tree) hs.dist (fun T hT => le_trans hs.le (hs.min.min T hT))

/-! ### Minimum cost paths -/

omit [IsOrderedCancelAddMonoid W] in
theorem closestInner_spec {D : Dict V (Dict V (WithTop W))} {u : V} {f : V → WithTop W} (vs : List V)
    (hD : ∀ v ∈ vs, look D u v = .ok (f v)) (d : WithTop W) (m : Option (V × V)) :
    ∃ d' m', closestInner D u vs d m = .ok (d', m') ∧ d' ≤ d ∧ (∀ v ∈ vs, d' ≤ f v) ∧
      ((d' = d ∧ m' = m) ∨ ∃ v ∈ vs, m' = some (u, v) ∧ d' = f v ∧ d' < d) := by
  induction vs generalizing d m with
  | nil => exact ⟨d, m, rfl, le_rfl, by simp, Or.inl ⟨rfl, rfl⟩⟩
  | cons v vs ih =>
    rw [closestInner, hD v List.mem_cons_self]
    dsimp only
    by_cases h : f v < d
    · rw [if_pos h]
      obtain ⟨d', m', h1, h2, h3, h4⟩ := ih (fun v hv => hD v (List.mem_cons_of_mem _ hv)) (f v) (some (u, v))
      refine ⟨d', m', h1, le_trans h2 h.le, fun x hx => ?_, Or.inr ?_⟩
      · rcases List.mem_cons.1 hx with rfl | hx
        · exact h2
        · exact h3 x hx
      · rcases h4 with ⟨e1, e2⟩ | ⟨x, hx, e⟩
        · exact ⟨v, List.mem_cons_self, e2, e1, e1 ▸ h⟩
        · exact ⟨x, List.mem_cons_of_mem _ hx, e.1, e.2.1, lt_of_le_of_lt h2 h⟩
    · rw [if_neg h]
      obtain ⟨d', m', h1, h2, h3, h4⟩ := ih (fun v hv => hD v (List.mem_cons_of_mem _ hv)) d m
      refine ⟨d', m', h1, h2, fun x hx => ?_, ?_⟩
      · rcases List.mem_cons.1 hx with rfl | hx
        · exact le_trans h2 (not_lt.1 h)
        · exact h3 x hx
      · rcases h4 with h4 | ⟨x, hx, e⟩
        · exact Or.inl h4
        · exact Or.inr ⟨x, List.mem_cons_of_mem _ hx, e⟩

omit [IsOrderedCancelAddMonoid W] in
theorem closest_spec {D : Dict V (Dict V (WithTop W))} {f : V → V → WithTop W} (vs us : List V)
    (hD : ∀ u ∈ us, ∀ v ∈ vs, look D u v = .ok (f u v)) (d : WithTop W) (m : Option (V × V)) :
    ∃ d' m', closest D vs us d m = .ok (d', m') ∧ d' ≤ d ∧ (∀ u ∈ us, ∀ v ∈ vs, d' ≤ f u v) ∧
      ((d' = d ∧ m' = m) ∨ ∃ u ∈ us, ∃ v ∈ vs, m' = some (u, v) ∧ d' = f u v ∧ d' < d) := by
  induction us generalizing d m with
  | nil => exact ⟨d, m, rfl, le_rfl, by simp, Or.inl ⟨rfl, rfl⟩⟩
  | cons u us ih =>
    obtain ⟨d1, m1, h1, h2, h3, h4⟩ := closestInner_spec vs (hD u List.mem_cons_self) d m
    obtain ⟨d', m', k1, k2, k3, k4⟩ := ih (fun u hu => hD u (List.mem_cons_of_mem _ hu)) d1 m1
    refine ⟨d', m', by rw [closest, h1]; exact k1, le_trans k2 h2, fun x hx v hv => ?_, ?_⟩
    · rcases List.mem_cons.1 hx with rfl | hx
      · exact le_trans k2 (h3 v hv)
      · exact k3 x hx v hv
    · rcases k4 with ⟨e1, e2⟩ | ⟨x, hx, v, hv, e⟩
      · rcases h4 with ⟨e3, e4⟩ | ⟨v, hv, e3, e4⟩
        · exact Or.inl ⟨e1.trans e3, e2.trans e4⟩
        · exact Or.inr ⟨u, List.mem_cons_self, v, hv, e2.trans e3, e1.trans e4.1, e1 ▸ e4.2⟩
      · exact Or.inr ⟨x, List.mem_cons_of_mem _ hx, v, hv, e.1, e.2.1, lt_of_lt_of_le e.2.2 h2⟩

omit [LinearOrder V] in
theorem walk_pos {A : V → V → Option W} (hA : ∀ u v x, A u v = some x → 0 < x) {s v : V} {p : List V} {c : W}
    (h : WalkOf A s p v c) (hne : s ≠ v) : 0 < c := by
  cases h with
  | start => exact absurd rfl hne
  | step h1 h2 => exact add_pos_of_nonneg_of_pos (walk_nonneg (fun u v x hx => (hA u v x hx).le) h1) (hA _ _ _ h2)

/-- The state of the loop that grows a tree from `root`. -/
structure Grown (g : Graph V W) (B : V → V → Option W) (R : Finset V) (root : V) (es : List (V × V)) (S : Finset V) : Prop where
  start : root ∈ S
  edge : ∀ e ∈ es, ∃ w, adj g e.1 e.2 = some w
  norm : ∀ e ∈ es, norm e = e
  ends : ends es ⊆ S
  joined : ∀ x ∈ S, Joined es.toFinset x root
  paid : Paid B R (S ∩ R) (es.map (fun e => (adj g e.1 e.2).getD 0)).sum

/-- One round of the loop: a terminal `u` outside the tree is joined to the tree, and no other terminal gets into it. -/
theorem grow_step {ord : Finset V → List V} (hord : ∀ S, (ord S).Nodup ∧ ∀ x, x ∈ ord S ↔ x ∈ S) {g : Graph V W}
    (hg : Good g) (hA : ∀ u v x, adj g u v = some x → 0 < x) {terminals : List V}
    (hm : ∀ u ∈ terminals, Mem g u) (hr : ∀ u ∈ terminals, ∀ v ∈ terminals, Reach (fun a b => ∃ w, adj g a b = some w) u v)
    {D : Dict V (Dict V (WithTop W))} {P : Dict V (Dict V (Option V))} (hT : Tables g terminals D P) {root : V} (hroot : root ∈ terminals)
    {B : V → V → Option W} (hB : ∀ x y, B x y = if x ≠ y then some (dist (adj g) x y) else none)
    (es : List (V × V)) (S : Finset V) (m : Option (V × V)) (hne : terminals.toFinset \ S ≠ ∅)
    (hG : Grown g B terminals.toFinset root es S) :
    ∃ d u v a es' S', closest D (ord S) (ord ((terminals.toFinset \ S) \ S)) ⊤ m = .ok (d, some (u, v)) ∧
      look P u v = .ok a ∧ tracePath P u a v es (insert u S) = some (.ok (es', S')) ∧
      u ∈ terminals.toFinset \ S ∧ (terminals.toFinset \ S).erase u = terminals.toFinset \ S' ∧
      S' ∩ terminals.toFinset = insert u (S ∩ terminals.toFinset) ∧ (∀ x ∈ S, Mem g x) ∧
      Grown g B terminals.toFinset root es' S' := by
  have hA' : ∀ u v x, adj g u v = some x → 0 ≤ x := fun u v x h => (hA u v x h).le
  have hSr : ∀ u ∈ terminals, ∀ x ∈ S, Reach (fun a b => ∃ w, adj g a b = some w) u x := by
    intro u hu x hx
    exact (hr u hu root hroot).trans (reach_of_joined hg (fun e he => hG.edge e (List.mem_toFinset.1 he)) (hG.joined x hx).symm)
  have hSm : ∀ x ∈ S, Mem g x := fun x hx => mem_of_reach hg (hm root hroot) (hSr root hroot x hx)
  have hRS : (terminals.toFinset \ S) \ S = terminals.toFinset \ S := by
    rw [sdiff_sdiff_left, sup_idem]
  obtain ⟨d, m', c1, c2, c3, c4⟩ := closest_spec (D := D) (f := fun u v => ((dist (adj g) u v : W) : WithTop W)) (ord S)
    (ord ((terminals.toFinset \ S) \ S)) (fun u hu v hv => by
      rw [(hord _).2, hRS, Finset.mem_sdiff, List.mem_toFinset] at hu
      rw [(hord _).2] at hv
      exact (hT.dist u hu.1 v (hSm v hv) (hSr u hu.1 v hv)).2) ⊤ m
  obtain ⟨x0, hx0⟩ := Finset.nonempty_iff_ne_empty.2 hne
  obtain ⟨u, hu, v, hv, rfl, hd, -⟩ := c4.resolve_left (fun h => by
    have := c3 x0 (by rw [(hord _).2, hRS]; exact hx0) root (by rw [(hord _).2]; exact hG.start)
    rw [h.1] at this
    exact absurd (top_le_iff.1 this) WithTop.coe_ne_top)
  rw [(hord _).2, hRS] at hu
  rw [(hord _).2] at hv
  obtain ⟨huR, huS⟩ := Finset.mem_sdiff.1 hu
  have huT := List.mem_toFinset.1 huR
  have hmin : ∀ a ∈ terminals, a ∉ S → ∀ b ∈ S, dist (adj g) u v ≤ dist (adj g) a b := by
    intro a ha haS b hb
    have := c3 a (by rw [(hord _).2, hRS, Finset.mem_sdiff, List.mem_toFinset]; exact ⟨ha, haS⟩) b (by rw [(hord _).2]; exact hb)
    rw [hd] at this
    exact WithTop.coe_le_coe.1 this
  obtain ⟨pu, k1, k2⟩ := hT.path u huT
  obtain ⟨p, k3, k4⟩ := k2 v (hSm v hv) (hSr u huT v hv)
  obtain ⟨a, L, j1, j2, -, j4⟩ := path_spec (g := g) k1 k3 _ k4
  have hends : ∀ x ∈ SteinerTrees.ends (L.map norm), x ∈ L.map Prod.fst ∨ x ∈ L.map Prod.snd := by
    intro x hx
    obtain ⟨e, he, h1⟩ := mem_ends.1 hx
    obtain ⟨f, hf, rfl⟩ := List.mem_map.1 he
    rcases norm_cases f with h2 | h2 <;> rw [h2] at h1 <;> rcases h1 with rfl | rfl
    · exact Or.inl (List.mem_map_of_mem hf)
    · exact Or.inr (List.mem_map_of_mem hf)
    · exact Or.inr (List.mem_map_of_mem hf)
    · exact Or.inl (List.mem_map_of_mem hf)
  have hl1 : es.toFinset ⊆ (es ++ L.map norm).toFinset := by rw [List.toFinset_append]; exact Finset.subset_union_left
  have hl2 : (L.map norm).toFinset ⊆ (es ++ L.map norm).toFinset := by rw [List.toFinset_append]; exact Finset.subset_union_right
  have hv' := (hG.joined v hv).mono hl1
  -- no other terminal is on the path
  have hnew : (insert u S ∪ (L.map Prod.fst).toFinset) ∩ terminals.toFinset = insert u (S ∩ terminals.toFinset) := by
    ext x
    simp only [Finset.mem_inter, Finset.mem_union, Finset.mem_insert, List.mem_toFinset]
    constructor
    · rintro ⟨(h1 | h1) | h1, h2⟩
      · exact Or.inl h1
      · exact Or.inr ⟨h1, h2⟩
      · by_cases hxu : x = u
        · exact Or.inl hxu
        · refine Or.inr ⟨?_, h2⟩
          by_contra hxS
          obtain ⟨p1, q1, y, z, w1, w2, w3⟩ := j2.near x h1
          have h3 := walk_pos hA w1 (fun h => hxu h.symm)
          have h4 := hmin x h2 hxS v hv
          have h5 := (isShortest_dist hg hA' (hm x h2) (hSm v hv) (hSr x h2 v hv)).2 _ _ w2
          rw [w3] at h4
          exact absurd (le_trans h4 h5) (not_le.2 (lt_add_of_pos_left z h3))
    · rintro (rfl | ⟨h1, h2⟩)
      · exact ⟨Or.inl (Or.inl rfl), huT⟩
      · exact ⟨Or.inl (Or.inr h1), h2⟩
  have hG' : Grown g B terminals.toFinset root (es ++ L.map norm) (insert u S ∪ (L.map Prod.fst).toFinset) := by
    refine ⟨Finset.mem_union_left _ (Finset.mem_insert_of_mem hG.start), fun e he => ?_, fun e he => ?_, fun x hx => ?_, fun x hx => ?_, ?_⟩
    · rcases List.mem_append.1 he with he | he
      · exact hG.edge e he
      · obtain ⟨f, hf, rfl⟩ := List.mem_map.1 he
        obtain ⟨w, hw⟩ := j2.edge f hf
        exact ⟨w, by rw [SteinerTrees.norm, weight_pair hg]; exact hw⟩
    · rcases List.mem_append.1 he with he | he
      · exact hG.norm e he
      · obtain ⟨f, hf, rfl⟩ := List.mem_map.1 he
        rw [SteinerTrees.norm, SteinerTrees.norm, pair, pair]
        dsimp only
        rw [min_eq_left (min_le_max), max_eq_right min_le_max]
    · obtain ⟨e, he, h1⟩ := mem_ends.1 hx
      rcases List.mem_append.1 he with he | he
      · exact Finset.mem_union_left _ (Finset.mem_insert_of_mem (hG.ends (mem_ends.2 ⟨e, he, h1⟩)))
      · rcases hends x (mem_ends.2 ⟨e, he, h1⟩) with h2 | h2
        · exact Finset.mem_union_right _ (List.mem_toFinset.2 h2)
        · rcases j2.snd x h2 with rfl | h3
          · exact Finset.mem_union_left _ (Finset.mem_insert_of_mem hv)
          · exact Finset.mem_union_right _ (List.mem_toFinset.2 h3)
    · rcases Finset.mem_union.1 hx with h1 | h1
      · rcases Finset.mem_insert.1 h1 with rfl | h1
        · exact ((j2.joined x (Or.inl rfl)).mono hl2).trans hv'
        · exact (hG.joined x h1).mono hl1
      · exact ((j2.joined x (Or.inr (Or.inl (List.mem_toFinset.1 h1)))).mono hl2).trans hv'
    · rw [hnew, List.map_append, List.sum_append]
      have hsum : ((L.map norm).map (fun e => (adj g e.1 e.2).getD 0)).sum = dist (adj g) u v := by
        rw [← j2.sum, List.map_map]
        congr 1
        apply List.map_congr_left
        intro e _
        show (adj g (SteinerTrees.norm e).1 (SteinerTrees.norm e).2).getD 0 = _
        rw [SteinerTrees.norm, weight_pair hg]
      rw [hsum]
      refine hG.paid.step huR (fun h => huS (Finset.mem_inter.1 h).1) (fun a b w ha hb hab hw => ?_)
      rw [hB] at hw
      by_cases hne : a ≠ b
      · rw [if_pos hne] at hw
        injection hw with hw
        rw [← hw]
        have haT := List.mem_toFinset.1 ha
        have hbT := List.mem_toFinset.1 hb
        have hsym : dist (adj g) a b = dist (adj g) b a :=
          (dist_metric hg hA' (C := terminals.toFinset) (fun v hv => hm v (List.mem_toFinset.1 hv))
            (fun u hu v hv => hr u (List.mem_toFinset.1 hu) v (List.mem_toFinset.1 hv))).symm a ha b hb
        rcases hab with ⟨h1, h2⟩ | ⟨h1, h2⟩
        · rw [hsym]
          exact hmin b hbT (fun h => h2 (Finset.mem_inter.2 ⟨h, hb⟩)) a (Finset.mem_inter.1 h1).1
        · exact hmin a haT (fun h => h1 (Finset.mem_inter.2 ⟨h, ha⟩)) b (Finset.mem_inter.1 h2).1
      · rw [if_neg hne] at hw; exact absurd hw (by simp)
  have herase : (terminals.toFinset \ S).erase u = terminals.toFinset \ (insert u S ∪ (L.map Prod.fst).toFinset) := by
    ext x
    rw [Finset.mem_erase, Finset.mem_sdiff, Finset.mem_sdiff]
    constructor
    · rintro ⟨h1, h2, h3⟩
      refine ⟨h2, fun h4 => ?_⟩
      have : x ∈ insert u (S ∩ terminals.toFinset) := by rw [← hnew]; exact Finset.mem_inter.2 ⟨h4, h2⟩
      rcases Finset.mem_insert.1 this with h | h
      · exact h1 h
      · exact h3 (Finset.mem_inter.1 h).1
    · rintro ⟨h1, h2⟩
      exact ⟨fun h => h2 (Finset.mem_union_left _ (h ▸ Finset.mem_insert_self _ _)), h1,
        fun h => h2 (Finset.mem_union_left _ (Finset.mem_insert_of_mem h))⟩
  exact ⟨d, u, v, a, _, _, c1, j1, j4 _ _, hu, herase, hnew, hSm, hG'⟩

theorem grow_spec {ord : Finset V → List V} (hord : ∀ S, (ord S).Nodup ∧ ∀ x, x ∈ ord S ↔ x ∈ S) {g : Graph V W}
    (hg : Good g) (hA : ∀ u v x, adj g u v = some x → 0 < x) {terminals : List V}
    (hm : ∀ u ∈ terminals, Mem g u) (hr : ∀ u ∈ terminals, ∀ v ∈ terminals, Reach (fun a b => ∃ w, adj g a b = some w) u v)
    {D : Dict V (Dict V (WithTop W))} {P : Dict V (Dict V (Option V))} (hT : Tables g terminals D P) {root : V} (hroot : root ∈ terminals)
    {B : V → V → Option W} (hB : ∀ x y, B x y = if x ≠ y then some (dist (adj g) x y) else none) :
    ∀ (n : ℕ) (es : List (V × V)) (S : Finset V) (m : Option (V × V)), (terminals.toFinset \ S).card = n →
      Grown g B terminals.toFinset root es S →
      ∃ es' S' m', growLoop ord D P es S (terminals.toFinset \ S) m = some (.ok (es', m')) ∧
        Grown g B terminals.toFinset root es' S' ∧ terminals.toFinset ⊆ S' := by
  intro n
  induction n with
  | zero =>
    intro es S m hn hG
    have h0 := Finset.card_eq_zero.1 hn
    rw [growLoop, if_pos h0]
    exact ⟨es, S, m, rfl, hG, Finset.sdiff_eq_empty_iff_subset.1 h0⟩
  | succ n ih =>
    intro es S m hn hG
    have hne : terminals.toFinset \ S ≠ ∅ := fun h => by rw [h, Finset.card_empty] at hn; omega
    obtain ⟨d, u, v, a, es1, S1, c1, j1, j4, hu, herase, -, -, hG'⟩ := grow_step hord hg hA hm hr hT hroot hB es S m hne hG
    obtain ⟨es', S', m', i1, i2, i3⟩ := ih es1 S1 (some (u, v))
      (by rw [← herase, Finset.card_erase_of_mem hu]; omega) hG'
    refine ⟨es', S', m', ?_, i2, i3⟩
    rw [growLoop, if_neg hne, c1]
    dsimp only
    rw [j1]
    dsimp only
    rw [j4]
    dsimp only
    rw [herase]
    exact i1

/-- The tree grown from one root, improved. -/
theorem root_spec {ord : Finset V → List V} (hord : ∀ S, (ord S).Nodup ∧ ∀ x, x ∈ ord S ↔ x ∈ S) {g : Graph V W}
    (hg : Good g) (hA : ∀ u v x, adj g u v = some x → 0 < x) (one : W) {terminals : List V} (hR : 2 ≤ terminals.toFinset.card)
    (hm : ∀ u ∈ terminals, Mem g u) (hr : ∀ u ∈ terminals, ∀ v ∈ terminals, Reach (fun a b => ∃ w, adj g a b = some w) u v)
    {D : Dict V (Dict V (WithTop W))} {P : Dict V (Dict V (Option V))} (hT : Tables g terminals D P) {root : V} (hroot : root ∈ terminals)
    (m : Option (V × V)) : ∃ es m' r, growLoop ord D P [] {root} (terminals.toFinset.erase root) m = some (.ok (es, m')) ∧
      improve ord one g es terminals = some (.ok r) ∧ Steiner (adj g) terminals.toFinset r := by
  have hA' : ∀ u v x, adj g u v = some x → 0 ≤ x := fun u v x h => (hA u v x h).le
  have hrootR := List.mem_toFinset.2 hroot
  obtain ⟨es, S, m', h1, h2, h3⟩ := grow_spec hord hg hA hm hr hT hroot
    (B := fun x y => if x ≠ y then some (dist (adj g) x y) else none) (fun x y => rfl) _ [] {root} m rfl
    ⟨Finset.mem_singleton_self _, by simp, by simp, by simp [ends], fun x hx => by
      rw [Finset.mem_singleton.1 hx]; exact Joined.refl _ _, by
      rw [Finset.inter_eq_left.2 (Finset.singleton_subset_iff.2 hrootR)]
      exact paid_start _ hrootR⟩
  rw [Finset.sdiff_singleton_eq_erase] at h1
  have hends : S ⊆ ends es := by
    intro x hx
    rw [mem_ends]
    by_contra hc
    push Not at hc
    have hiso : ∀ e ∈ es.toFinset, e.1 ≠ x ∧ e.2 ≠ x := by
      intro e he
      obtain ⟨k1, k2⟩ := hc e (List.mem_toFinset.1 he)
      exact ⟨k1.symm, k2.symm⟩
    obtain ⟨y, hy, hne⟩ := Finset.exists_mem_ne (by omega : 1 < terminals.toFinset.card) x
    exact hne (joined_isolated hiso ((h2.joined y (h3 hy)).trans (h2.joined x hx).symm))
  have hj : ∀ u ∈ ends es, ∀ v ∈ ends es, Joined es.toFinset u v :=
    fun u hu v hv => (h2.joined u (h2.ends hu)).trans (h2.joined v (h2.ends hv)).symm
  have hmapnorm : es.map norm = es := by
    conv_rhs => rw [← List.map_id es]
    exact List.map_congr_left (fun e he => h2.norm e he)
  have hne : es ≠ [] := by
    rintro rfl
    have := hends h2.start
    simp [ends] at this
  obtain ⟨w, T, -, s2, s3⟩ := subnetwork_spec hg hA' hne h2.edge (by rw [hmapnorm]; exact hj)
  obtain ⟨r, r1, r2⟩ := improve_steiner hord hg hA' one terminals hR es h2.edge hj (h3.trans hends) (fun x _ => List.mem_toFinset.symm) s2
    (B := fun x y => if x ≠ y then some (dist (adj g) x y) else none) (fun x _ y _ hxy => if_pos hxy) (fun T' hT' => by
      refine le_trans s3 (h2.paid.final_of (fun a ha b hb w hw => ?_) hT')
      by_cases hab : a ≠ b
      · rw [if_pos hab] at hw
        injection hw with hw
        rw [← hw]
        exact (dist_metric hg hA' (C := terminals.toFinset) (fun v hv => hm v (List.mem_toFinset.1 hv))
              (fun u hu v hv => hr u (List.mem_toFinset.1 hu) v (List.mem_toFinset.1 hv))).nonneg a ha b hb
      · rw [if_neg hab] at hw; exact absurd hw (by simp))
  exact ⟨es, m', r, h1, r1, r2⟩

theorem rootsLoop_spec {ord : Finset V → List V} (hord : ∀ S, (ord S).Nodup ∧ ∀ x, x ∈ ord S ↔ x ∈ S) {g : Graph V W}
    (hg : Good g) (hA : ∀ u v x, adj g u v = some x → 0 < x) (one : W) {terminals : List V} (hR : 2 ≤ terminals.toFinset.card)
    (hm : ∀ u ∈ terminals, Mem g u) (hr : ∀ u ∈ terminals, ∀ v ∈ terminals, Reach (fun a b => ∃ w, adj g a b = some w) u v)
    {D : Dict V (Dict V (WithTop W))} {P : Dict V (Dict V (Option V))} (hT : Tables g terminals D P) :
    ∀ (roots : List V) (m : Option (V × V)) (best : Option (W × List (V × V))), (∀ x ∈ roots, x ∈ terminals) →
      (∀ b, best = some b → Steiner (adj g) terminals.toFinset b) → (best = none → roots ≠ []) →
      ∃ r, rootsLoop ord one g terminals D P roots m best = some (.ok r) ∧ Steiner (adj g) terminals.toFinset r := by
  intro roots
  induction roots with
  | nil =>
    intro m best _ hb hne
    cases best with
    | none => exact absurd rfl (hne rfl)
    | some b => exact ⟨b, rfl, hb b rfl⟩
  | cons root roots ih =>
    intro m best hsub hb _
    obtain ⟨es, m', r, h1, h2, h3⟩ := root_spec hord hg hA one hR hm hr hT (hsub root List.mem_cons_self) m
    rw [rootsLoop, h1]
    dsimp only
    rw [h2]
    dsimp only
    cases best with
    | none =>
      exact ih m' _ (fun x hx => hsub x (List.mem_cons_of_mem _ hx)) (fun b e => by injection e with e; rw [← e]; exact h3)
        (fun e => by simp at e)
    | some b0 =>
      dsimp only
      by_cases hlt : r.1 < b0.1
      · rw [if_pos hlt]
        exact ih m' _ (fun x hx => hsub x (List.mem_cons_of_mem _ hx)) (fun b e => by injection e with e; rw [← e]; exact h3)
          (fun e => by simp at e)
      · rw [if_neg hlt]
        exact ih m' _ (fun x hx => hsub x (List.mem_cons_of_mem _ hx)) hb (fun e => by simp at e)

theorem minimumCostPaths_spec {ord : Finset V → List V} (hord : ∀ S, (ord S).Nodup ∧ ∀ x, x ∈ ord S ↔ x ∈ S) {g : Graph V W}
    (hg : Good g) (hA : ∀ u v x, adj g u v = some x → 0 < x) (one : W) {terminals : List V} (hR : 2 ≤ terminals.toFinset.card)
    (hm : ∀ u ∈ terminals, Mem g u) (hr : ∀ u ∈ terminals, ∀ v ∈ terminals, Reach (fun a b => ∃ w, adj g a b = some w) u v) :
    ∃ r, minimumCostPathsHeuristic ord one g terminals = some (.ok r) ∧ Steiner (adj g) terminals.toFinset r := by
  obtain ⟨D, P, t1, t2⟩ := tables hg (fun u v x h => (hA u v x h).le) terminals hm
  obtain ⟨r, h1, h2⟩ := rootsLoop_spec hord hg hA one hR hm hr t2 terminals none none (fun x hx => hx) (fun b e => by simp at e)
    (fun _ e => by rw [e] at hR; simp at hR)
  exact ⟨r, by rw [minimumCostPathsHeuristic, t1]; exact h1, h2⟩

/-! ### Terminals in different components -/

theorem grow_disconnected {ord : Finset V → List V} (hord : ∀ S, (ord S).Nodup ∧ ∀ x, x ∈ ord S ↔ x ∈ S) {g : Graph V W}
    (hg : Good g) {terminals : List V}
    (hm : ∀ u ∈ terminals, Mem g u) {D : Dict V (Dict V (WithTop W))} {P : Dict V (Dict V (Option V))} (hT : Tables g terminals D P)
    {root t : V} (hroot : root ∈ terminals) (ht : ¬ Reach (fun a b => ∃ w, adj g a b = some w) root t)
    (es : List (V × V)) (S R : Finset V) (m : Option (V × V)) (r : Except PyErr (List (V × V) × Option (V × V)))
    (h : growLoop ord D P es S R m = some r) :
    t ∈ R → (∀ x ∈ R, x ∈ terminals) → (∀ x ∈ S, Reach (fun a b => ∃ w, adj g a b = some w) root x) →
      (∀ u v, m = some (u, v) → u ∈ terminals ∧ Reach (fun a b => ∃ w, adj g a b = some w) root u ∧
        Reach (fun a b => ∃ w, adj g a b = some w) root v) → r = .error .unboundLocalError := by
  have hsym : ∀ u v, Reach (fun a b => ∃ w, adj g a b = some w) u v → Reach (fun a b => ∃ w, adj g a b = some w) v u := by
    rintro u v ⟨n, hn⟩
    exact ⟨n, hn.symm (fun u v ⟨w, hw⟩ => ⟨w, by rw [hg.symm]; exact hw⟩)⟩
  have hmr : ∀ x, Reach (fun a b => ∃ w, adj g a b = some w) root x → Mem g x := fun x hx => mem_of_reach hg (hm root hroot) hx
  revert h
  revert es S R m r
  refine growLoop.partial_correctness ord D P (fun es S R m r => t ∈ R → (∀ x ∈ R, x ∈ terminals) →
      (∀ x ∈ S, Reach (fun a b => ∃ w, adj g a b = some w) root x) →
      (∀ u v, m = some (u, v) → u ∈ terminals ∧ Reach (fun a b => ∃ w, adj g a b = some w) root u ∧
        Reach (fun a b => ∃ w, adj g a b = some w) root v) → r = .error .unboundLocalError) ?_
  intro loop ih es S R m r h htR hRt hS hmm
  classical
  rw [if_neg (fun e => by rw [e] at htR; simp at htR)] at h
  obtain ⟨d, m', c1, c2, c3, c4⟩ := closest_spec (D := D) (f := fun u v =>
      if Reach (fun a b => ∃ w, adj g a b = some w) u v then ((dist (adj g) u v : W) : WithTop W) else ⊤) (ord S) (ord (R \ S))
    (fun u hu v hv => by
      rw [(hord _).2, Finset.mem_sdiff] at hu
      rw [(hord _).2] at hv
      have hvm := hmr v (hS v hv)
      by_cases hr : Reach (fun a b => ∃ w, adj g a b = some w) u v
      · rw [if_pos hr]; exact (hT.dist u (hRt u hu.1) v hvm hr).2
      · rw [if_neg hr]; exact (hT.far u (hRt u hu.1) v hvm hr).1) ⊤ m
  rw [c1] at h
  have hm' : ∀ u v, m' = some (u, v) → u ∈ terminals ∧ Reach (fun a b => ∃ w, adj g a b = some w) root u ∧
        Reach (fun a b => ∃ w, adj g a b = some w) root v := by
    intro u v e
    rcases c4 with ⟨-, e2⟩ | ⟨u', hu', v', hv', e1, e2, e5⟩
    · exact hmm u v (e2 ▸ e)
    · rw [e1] at e
      injection e with e
      injection e with e3 e4
      subst e3 e4
      rw [(hord _).2, Finset.mem_sdiff] at hu'
      rw [(hord _).2] at hv'
      by_cases hr : Reach (fun a b => ∃ w, adj g a b = some w) u' v'
      · exact ⟨hRt _ hu'.1, (hS v' hv').trans (hsym _ _ hr), hS v' hv'⟩
      · exfalso
        rw [if_neg hr] at e2
        rw [e2] at e5
        exact lt_irrefl _ e5
  cases m' with
  | none =>
    dsimp only at h
    injection h with h
    exact h.symm
  | some uv =>
    obtain ⟨u, v⟩ := uv
    obtain ⟨hu, hru, hrv⟩ := hm' u v rfl
    obtain ⟨pu, k1, k2⟩ := hT.path u hu
    obtain ⟨p, k3, k4⟩ := k2 v (hmr v hrv) ((hsym _ _ hru).trans hrv)
    obtain ⟨a, L, j1, j2, -, j4⟩ := path_spec (g := g) k1 k3 _ k4
    dsimp only at h
    rw [j1] at h
    dsimp only at h
    rw [j4] at h
    dsimp only at h
    refine ih _ _ _ _ _ h (Finset.mem_erase.2 ⟨fun e => ht (e ▸ hru), htR⟩) (fun x hx => hRt x (Finset.mem_of_mem_erase hx))
      (fun x hx => ?_) hm'
    rcases Finset.mem_union.1 hx with hx | hx
    · rcases Finset.mem_insert.1 hx with rfl | hx
      · exact hru
      · exact hS x hx
    · obtain ⟨p1, q1, y, z, w1, -⟩ := j2.near x (List.mem_toFinset.1 hx)
      exact hru.trans (reach_of_walk w1)

/-- If a terminal cannot be reached from the first one the only possible result is an UnboundLocalError. -/
theorem minimumCostPaths_disconnected {ord : Finset V → List V} (hord : ∀ S, (ord S).Nodup ∧ ∀ x, x ∈ ord S ↔ x ∈ S) {g : Graph V W}
    (hg : Good g) (hA : ∀ u v x, adj g u v = some x → 0 ≤ x) (one : W) (s : V) (us : List V)
    (hm : ∀ u ∈ s :: us, Mem g u) {t : V} (ht : t ∈ s :: us) (hst : ¬ Reach (fun a b => ∃ w, adj g a b = some w) s t)
    (r : Except PyErr (W × List (V × V))) (h : minimumCostPathsHeuristic ord one g (s :: us) = some r) :
    r = .error .unboundLocalError := by
  obtain ⟨D, P, t1, t2⟩ := tables hg hA (s :: us) hm
  rw [minimumCostPathsHeuristic, t1] at h
  dsimp only at h
  rw [rootsLoop] at h
  cases hg1 : growLoop ord D P [] {s} ((s :: us).toFinset.erase s) none with
  | none => rw [hg1] at h; exact absurd h (by simp)
  | some x =>
    have := grow_disconnected hord hg hm t2 List.mem_cons_self hst _ _ _ _ x hg1
      (Finset.mem_erase.2 ⟨fun e => hst (e ▸ Reach.refl _ _), List.mem_toFinset.2 ht⟩)
      (fun x hx => List.mem_toFinset.1 (Finset.mem_of_mem_erase hx))
      (fun x hx => by rw [Finset.mem_singleton.1 hx]; exact Reach.refl _ _) (fun u v e => by simp at e)
    rw [hg1, this] at h
    dsimp only at h
    injection h with h
    exact h.symm

/-- No other terminal can be reached from the first one. -/
theorem minimumCostPaths_isolated {ord : Finset V → List V} (hord : ∀ S, (ord S).Nodup ∧ ∀ x, x ∈ ord S ↔ x ∈ S) {g : Graph V W}
    (hg : Good g) (hA : ∀ u v x, adj g u v = some x → 0 ≤ x) (one : W) (s : V) (us : List V)
    (hm : ∀ u ∈ s :: us, Mem g u) {t : V} (ht : t ∈ s :: us) (hts : t ≠ s)
    (hst : ∀ t ∈ s :: us, t ≠ s → ¬ Reach (fun a b => ∃ w, adj g a b = some w) s t) :
    minimumCostPathsHeuristic ord one g (s :: us) = some (.error .unboundLocalError) := by
  obtain ⟨D, P, t1, t2⟩ := tables hg hA (s :: us) hm
  have hsym : ∀ u v, Reach (fun a b => ∃ w, adj g a b = some w) u v → Reach (fun a b => ∃ w, adj g a b = some w) v u := by
    rintro u v ⟨n, hn⟩
    exact ⟨n, hn.symm (fun u v ⟨w, hw⟩ => ⟨w, by rw [hg.symm]; exact hw⟩)⟩
  have hone : ord {s} = [s] := by
    have h1 : (ord {s}).Perm [s] := (List.perm_ext_iff_of_nodup (hord _).1 (List.nodup_singleton s)).2
        (fun z => by rw [(hord _).2, Finset.mem_singleton, List.mem_singleton])
    exact List.perm_singleton.1 h1
  have htE : t ∈ (s :: us).toFinset.erase s := Finset.mem_erase.2 ⟨hts, List.mem_toFinset.2 ht⟩
  obtain ⟨d, m', c1, c2, c3, c4⟩ := closest_spec (D := D) (f := fun _ _ => (⊤ : WithTop W)) (ord {s})
    (ord ((s :: us).toFinset.erase s \ {s}))
    (fun u hu v hv => by
      rw [(hord _).2, Finset.mem_sdiff, Finset.mem_erase, List.mem_toFinset] at hu
      rw [hone, List.mem_singleton] at hv
      rw [hv]
      exact (t2.far u hu.1.2 s (hm s List.mem_cons_self) (fun h => hst u hu.1.2 hu.1.1 (hsym _ _ h))).1) ⊤ none
  have hm' : m' = none := by
    rcases c4 with h | ⟨_, _, _, _, _, e1, e2⟩
    · exact h.2
    · rw [e1] at e2; exact absurd e2 (lt_irrefl _)
  subst hm'
  rw [minimumCostPathsHeuristic, t1]
  dsimp only
  rw [rootsLoop, growLoop, if_neg (fun e => by rw [e] at htE; simp at htE), c1]

/-! ### Stale vertices -/

/-- The loop does not end when the remaining terminals are already in the tree. -/
theorem grow_stale {ord : Finset V → List V} (hord : ∀ S, (ord S).Nodup ∧ ∀ x, x ∈ ord S ↔ x ∈ S)
    {D : Dict V (Dict V (WithTop W))} {P : Dict V (Dict V (Option V))} {S R : Finset V} {u v : V} {a : Option V} (hR : R ≠ ∅)
    (hRS : R ⊆ S) (hu : u ∈ S) (huR : u ∉ R) (ha : look P u v = .ok a)
    (ht : ∀ es, ∃ es', tracePath P u a v es S = some (.ok (es', S))) (es : List (V × V)) :
    growLoop ord D P es S R (some (u, v)) = none := by
  have key := growLoop.partial_correctness ord D P (fun _ S' R' m _ => ¬ (S' = S ∧ R' = R ∧ m = some (u, v))) (by
    intro loop ih es S' R' m r h hc
    obtain ⟨rfl, rfl, rfl⟩ := hc
    have h0 : ord (R' \ S') = [] := by
      rw [Finset.sdiff_eq_empty_iff_subset.2 hRS]
      exact List.eq_nil_iff_forall_not_mem.2 (fun x hx => by rw [(hord _).2] at hx; simp at hx)
    obtain ⟨es', he⟩ := ht es
    rw [if_neg hR, h0, closest] at h
    dsimp only at h
    rw [ha] at h
    dsimp only at h
    rw [Finset.insert_eq_of_mem hu, he] at h
    dsimp only at h
    exact ih _ _ _ _ _ h ⟨rfl, Finset.erase_eq_of_notMem huR, rfl⟩)
  cases h : growLoop ord D P es S R (some (u, v)) with
  | none => rfl
  | some r => exact absurd ⟨rfl, rfl, rfl⟩ (key _ _ _ _ r h)

end Rosemary.SteinerTrees
