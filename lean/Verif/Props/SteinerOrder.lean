import Verif.Props.SteinerAgreement

/-!
# The choice of the root in `minimum_cost_paths_heuristic` (C106)
-/

namespace Rosemary.Props

open Rosemary.Graph Rosemary.SpanningTrees Rosemary.Spec Rosemary.Paths Rosemary.SteinerTrees

variable {V W : Type} [LinearOrder V] [AddCommMonoid W] [LinearOrder W]

/-! ### The functions depend only on what is looked up -/

private theorem prune_congr {t t' : List V} (h : ∀ u, u ∈ t' ↔ u ∈ t) (ls : List V) (g : Graph V W) (b : Bool) :
    prune t' ls g b = prune t ls g b := by
  induction ls generalizing g b with
  | nil => rfl
  | cons x ls ih =>
    rw [prune, prune]
    by_cases hx : x ∈ t
    · rw [if_neg (not_not.2 hx), if_neg (not_not.2 ((h x).2 hx)), ih]
    · rw [if_pos hx, if_pos (fun k => hx ((h x).1 k)), ih]

private theorem pruneLoop_le {t t' : List V} (h : ∀ u, u ∈ t' ↔ u ∈ t) (ord : Finset V → List V) (g : Graph V W) (r : Graph V W)
    (hr : pruneLoop ord t g = some r) : pruneLoop ord t' g = some r := by
  revert hr
  revert g r
  refine pruneLoop.partial_correctness ord t (fun g r => pruneLoop ord t' g = some r) ?_
  intro loop ih g r hr
  rw [pruneLoop, prune_congr h]
  rcases hp : prune t (ord (leaves g)) g false with ⟨g', b⟩
  rw [hp] at hr
  cases b with
  | true => exact ih _ _ hr
  | false => exact hr

private theorem pruneLoop_congr {t t' : List V} (h : ∀ u, u ∈ t' ↔ u ∈ t) (ord : Finset V → List V) (g : Graph V W) :
    pruneLoop ord t' g = pruneLoop ord t g := by
  cases e : pruneLoop ord t g with
  | some r => exact pruneLoop_le h ord g r e
  | none =>
    cases e' : pruneLoop ord t' g with
    | none => rfl
    | some r => rw [pruneLoop_le (fun u => (h u).symm) ord g r e'] at e; exact absurd e (by simp)

private theorem improve_congr {t t' : List V} (h : ∀ u, u ∈ t' ↔ u ∈ t) (ord : Finset V → List V) (one : W) (g : Graph V W)
    (es : List (V × V)) : improve ord one g es t' = improve ord one g es t := by
  simp only [improve, deleteNonterminalLeaves, pruneLoop_congr h]

omit [AddCommMonoid W] in
private theorem closest_congr {D D' : Dict V (Dict V (WithTop W))} (h : ∀ u v, look D' u v = look D u v) (vs us : List V)
    (d : WithTop W) (m : Option (V × V)) : closest D' vs us d m = closest D vs us d m := by
  have hi : ∀ u vs d m, closestInner D' u vs d m = closestInner D u vs d m := by
    intro u vs
    induction vs with
    | nil => intro d m; rfl
    | cons v vs ih =>
      intro d m
      rw [closestInner, closestInner, h]
      simp only [ih]
  induction us generalizing d m with
  | nil => rfl
  | cons u us ih =>
    rw [closest, closest, hi]
    simp only [ih]

private theorem tracePath_le {P P' : Dict V (Dict V (Option V))} (h : ∀ u v, look P' u v = look P u v) (u : V) (a : Option V)
    (b : V) (es : List (V × V)) (S : Finset V) (r : Except PyErr (List (V × V) × Finset V))
    (hr : tracePath P u a b es S = some r) : tracePath P' u a b es S = some r := by
  revert hr
  revert a b es S r
  refine tracePath.partial_correctness P u (fun a b es S r => tracePath P' u a b es S = some r) ?_
  intro loop ih a b es S r hr
  rw [tracePath.eq_def]
  cases a with
  | none => exact hr
  | some a =>
    dsimp only at hr ⊢
    rw [h]
    cases e : look P u a with
    | error x => rw [e] at hr; exact hr
    | ok a' => rw [e] at hr; exact ih _ _ _ _ _ hr

private theorem tracePath_congr {P P' : Dict V (Dict V (Option V))} (h : ∀ u v, look P' u v = look P u v) (u : V) (a : Option V)
    (b : V) (es : List (V × V)) (S : Finset V) : tracePath P' u a b es S = tracePath P u a b es S := by
  cases e : tracePath P u a b es S with
  | some r => exact tracePath_le h u a b es S r e
  | none =>
    cases e' : tracePath P' u a b es S with
    | none => rfl
    | some r => rw [tracePath_le (fun u v => (h u v).symm) u a b es S r e'] at e; exact absurd e (by simp)

omit [AddCommMonoid W] in
private theorem growLoop_le {D D' : Dict V (Dict V (WithTop W))} {P P' : Dict V (Dict V (Option V))}
    (hD : ∀ u v, look D' u v = look D u v) (hP : ∀ u v, look P' u v = look P u v) (ord : Finset V → List V) (es : List (V × V))
    (S R : Finset V) (m : Option (V × V)) (r : Except PyErr (List (V × V) × Option (V × V)))
    (hr : growLoop ord D P es S R m = some r) : growLoop ord D' P' es S R m = some r := by
  revert hr
  revert es S R m r
  refine growLoop.partial_correctness ord D P (fun es S R m r => growLoop ord D' P' es S R m = some r) ?_
  intro loop ih es S R m r hr
  rw [growLoop]
  by_cases hR : R = ∅
  · rw [if_pos hR] at hr ⊢; exact hr
  · rw [if_neg hR] at hr ⊢
    rw [closest_congr hD]
    rcases hc : closest D (ord S) (ord (R \ S)) ⊤ m with e | ⟨d, _ | ⟨u, v⟩⟩
    · rw [hc] at hr; exact hr
    · rw [hc] at hr; exact hr
    · rw [hc] at hr
      dsimp only at hr ⊢
      rw [hP]
      cases hl : look P u v with
      | error e => rw [hl] at hr; exact hr
      | ok a =>
        rw [hl] at hr
        dsimp only at hr ⊢
        rw [tracePath_congr hP]
        rcases ht : tracePath P u a v es (insert u S) with _ | e | ⟨es', S'⟩
        · rw [ht] at hr; exact absurd hr (by simp)
        · rw [ht] at hr; exact hr
        · rw [ht] at hr; exact ih _ _ _ _ _ hr

/-- What `minimum_cost_paths_heuristic` computes for one root. -/
private def Cand (ord : Finset V → List V) (one : W) (g : Graph V W) (terminals : List V) (D : Dict V (Dict V (WithTop W)))
    (P : Dict V (Dict V (Option V))) (root : V) (r : W × List (V × V)) : Prop :=
  ∃ es m, growLoop ord D P [] {root} (terminals.toFinset.erase root) none = some (.ok (es, m)) ∧
    improve ord one g es terminals = some (.ok r)

private theorem rootsLoop_best {ord : Finset V → List V} {one : W} {g : Graph V W} {terminals : List V}
    {D : Dict V (Dict V (WithTop W))} {P : Dict V (Dict V (Option V))} :
    ∀ (roots : List V) (m : Option (V × V)) (best : Option (W × List (V × V))),
      (∀ root ∈ roots, ∀ m, growLoop ord D P [] {root} (terminals.toFinset.erase root) m =
        growLoop ord D P [] {root} (terminals.toFinset.erase root) none) →
      (∀ root ∈ roots, ∃ r, Cand ord one g terminals D P root r) → (best = none → roots ≠ []) →
      ∃ r, rootsLoop ord one g terminals D P roots m best = some (.ok r) ∧ (∀ b, best = some b → r.1 ≤ b.1) ∧
        (∀ root ∈ roots, ∃ x, Cand ord one g terminals D P root x ∧ r.1 ≤ x.1) ∧
        (best = some r ∨ ∃ root ∈ roots, Cand ord one g terminals D P root r) := by
  intro roots
  induction roots with
  | nil =>
    intro m best _ _ hne
    cases best with
    | none => exact absurd rfl (hne rfl)
    | some b => exact ⟨b, rfl, fun b' e => by injection e with e; rw [e], by simp, Or.inl rfl⟩
  | cons root roots ih =>
    intro m best hm hc _
    obtain ⟨x, es, m', h1, h2⟩ := hc root List.mem_cons_self
    have hx : Cand ord one g terminals D P root x := ⟨es, m', h1, h2⟩
    have hstep : ∀ y : W × List (V × V), (∀ b, best = some b → y.1 ≤ b.1) → y.1 ≤ x.1 → (best = some y ∨ y = x) →
        ∃ r, rootsLoop ord one g terminals D P roots m' (some y) = some (.ok r) ∧ (∀ b, best = some b → r.1 ≤ b.1) ∧
        (∀ root' ∈ root :: roots, ∃ x, Cand ord one g terminals D P root' x ∧ r.1 ≤ x.1) ∧
        (best = some r ∨ ∃ root' ∈ root :: roots, Cand ord one g terminals D P root' r) := by
      intro y y1 y2 y3
      obtain ⟨r, r1, r2, r3, r4⟩ := ih m' (some y) (fun z hz => hm z (List.mem_cons_of_mem _ hz))
        (fun z hz => hc z (List.mem_cons_of_mem _ hz)) (fun e => by simp at e)
      have ry := r2 y rfl
      refine ⟨r, r1, fun b e => ry.trans (y1 b e), fun z hz => ?_, ?_⟩
      · rcases List.mem_cons.1 hz with rfl | hz
        · exact ⟨x, hx, ry.trans y2⟩
        · exact r3 z hz
      · rcases r4 with r4 | ⟨z, hz, r4⟩
        · injection r4 with r4
          subst r4
          rcases y3 with y3 | rfl
          · exact Or.inl y3
          · exact Or.inr ⟨root, List.mem_cons_self, hx⟩
        · exact Or.inr ⟨z, List.mem_cons_of_mem _ hz, r4⟩
    rw [rootsLoop, hm root List.mem_cons_self, h1]
    dsimp only
    rw [h2]
    dsimp only
    cases best with
    | none => exact hstep x (fun b e => by simp at e) le_rfl (Or.inr rfl)
    | some b0 =>
      dsimp only
      by_cases hlt : x.1 < b0.1
      · rw [if_pos hlt]
        exact hstep x (fun b e => by injection e with e; rw [← e]; exact hlt.le) le_rfl (Or.inr rfl)
      · rw [if_neg hlt]
        exact hstep b0 (fun b e => by injection e with e; rw [e]) (not_lt.1 hlt) (Or.inl rfl)

variable [IsOrderedCancelAddMonoid W]

/-- The first pass finds a pair, so that the old value of `min_vertices` is not used. -/
private theorem growLoop_start {ord : Finset V → List V} (hord : ∀ S, (ord S).Nodup ∧ ∀ x, x ∈ ord S ↔ x ∈ S) {g : Graph V W}
    {terminals : List V} (hR : 2 ≤ terminals.toFinset.card) (hm : ∀ u ∈ terminals, Mem g u)
    (hr : ∀ u ∈ terminals, ∀ v ∈ terminals, Reach (fun a b => ∃ w, adj g a b = some w) u v)
    {D : Dict V (Dict V (WithTop W))} {P : Dict V (Dict V (Option V))} (hT : Tables g terminals D P) {root : V}
    (hroot : root ∈ terminals) (m : Option (V × V)) :
    growLoop ord D P [] {root} (terminals.toFinset.erase root) m = growLoop ord D P [] {root} (terminals.toFinset.erase root) none := by
  have hlook : ∀ u ∈ ord (terminals.toFinset.erase root \ {root}), ∀ v ∈ ord {root},
      look D u v = .ok ((dist (adj g) u v : W) : WithTop W) := by
    intro u hu v hv
    rw [(hord _).2, Finset.mem_sdiff, Finset.mem_erase, List.mem_toFinset] at hu
    rw [(hord _).2, Finset.mem_singleton] at hv
    subst hv
    exact (hT.dist u hu.1.2 v (hm v hroot) (hr u hu.1.2 v hroot)).2
  have key : ∀ vs us : List V, (∀ u ∈ us, ∀ v ∈ vs, look D u v = .ok ((dist (adj g) u v : W) : WithTop W)) → us ≠ [] → vs ≠ [] →
      ∀ m m', closest D vs us ⊤ m = closest D vs us ⊤ m' := by
    intro vs us h hus hvs m m'
    cases us with
    | nil => exact absurd rfl hus
    | cons u us =>
      cases vs with
      | nil => exact absurd rfl hvs
      | cons v vs =>
        rw [closest, closest, closestInner, closestInner, h u List.mem_cons_self v List.mem_cons_self]
        dsimp only
        rw [if_pos (WithTop.coe_lt_top _), if_pos (WithTop.coe_lt_top _)]
  obtain ⟨y, hy, hne⟩ := Finset.exists_mem_ne (by omega : 1 < terminals.toFinset.card) root
  have h1 : ord (terminals.toFinset.erase root \ {root}) ≠ [] := by
    intro e
    have : y ∈ ord (terminals.toFinset.erase root \ {root}) := by
      rw [(hord _).2, Finset.mem_sdiff, Finset.mem_erase, Finset.mem_singleton]
      exact ⟨⟨hne, hy⟩, hne⟩
    rw [e] at this; simp at this
  have h2 : ord {root} ≠ [] := by
    intro e
    have : root ∈ ord {root} := by rw [(hord _).2]; exact Finset.mem_singleton_self _
    rw [e] at this; simp at this
  have h3 : terminals.toFinset.erase root ≠ ∅ := by
    intro e
    have : y ∈ terminals.toFinset.erase root := Finset.mem_erase.2 ⟨hne, hy⟩
    rw [e] at this; simp at this
  rw [growLoop, growLoop, if_neg h3, if_neg h3, key _ _ hlook h1 h2 m none]

/-! ## C106 -/

/-- C106: of the trees grown from each of the terminals and improved, the one that is returned has least weight. -/
theorem C106_best_root {ord : Finset V → List V} (hord : ∀ S, (ord S).Nodup ∧ ∀ x, x ∈ ord S ↔ x ∈ S) (one : W)
    (ops : List (Op V W)) (hN : ∀ u v x, (toAbs (history ops)).weight u v = some x → 0 < x) (terminals : List V)
    (hm : ∀ u ∈ terminals, u ∈ (toAbs (history ops)).verts)
    (hr : ∀ u ∈ terminals, ∀ v ∈ terminals, Reach (EdgeOf ops) u v) (hR : 2 ≤ terminals.toFinset.card) :
    ∃ D P weight es, shortest (history ops) terminals [] [] = some (.ok (D, P)) ∧
      minimumCostPathsHeuristic ord one (history ops) terminals = some (.ok (weight, es)) ∧
      (∀ root ∈ terminals, ∃ grown m weight' es', growLoop ord D P [] {root} (terminals.toFinset.erase root) none = some (.ok (grown, m)) ∧
        improve ord one (history ops) grown terminals = some (.ok (weight', es')) ∧ weight ≤ weight') ∧
      ∃ root ∈ terminals, ∃ grown m, growLoop ord D P [] {root} (terminals.toFinset.erase root) none = some (.ok (grown, m)) ∧
        improve ord one (history ops) grown terminals = some (.ok (weight, es)) := by
  have hg := (history_spec ops).1
  obtain ⟨D, P, t1, t2⟩ := tables hg (fun u v x h => (hN u v x h).le) terminals hm
  have hstart := fun root (h : root ∈ terminals) => growLoop_start hord hR hm hr t2 h
  obtain ⟨r, r1, -, r3, r4⟩ := rootsLoop_best (one := one) (g := history ops) terminals none none hstart (fun root h => by
    obtain ⟨es, m', r, k1, k2, -⟩ := root_spec hord hg hN one hR hm hr t2 h none
    exact ⟨r, es, m', k1, k2⟩) (fun _ e => by rw [e] at hR; simp at hR)
  refine ⟨D, P, r.1, r.2, t1, by rw [minimumCostPathsHeuristic, t1]; exact r1, fun root h => ?_, ?_⟩
  · obtain ⟨x, ⟨es, m, k1, k2⟩, k3⟩ := r3 root h
    exact ⟨es, m, x.1, x.2, k1, k2, k3⟩
  · rcases r4 with r4 | ⟨root, h, es, m, k1, k2⟩
    · exact absurd r4 (by simp)
    · exact ⟨root, h, es, m, k1, k2⟩

/-- The tables have entries for the terminals only. -/
private theorem shortest_look {g : Graph V W} (hg : Good g) (hA : ∀ u v x, adj g u v = some x → 0 ≤ x) {t t' : List V}
    (h : ∀ u, u ∈ t' ↔ u ∈ t) (hm : ∀ u ∈ t, Mem g u) {D D' : Dict V (Dict V (WithTop W))} {P P' : Dict V (Dict V (Option V))}
    (h1 : shortest g t [] [] = some (.ok (D, P))) (h2 : shortest g t' [] [] = some (.ok (D', P'))) :
    (∀ u v, look D' u v = look D u v) ∧ ∀ u v, look P' u v = look P u v := by
  have key : ∀ (t : List V), (∀ u ∈ t, Mem g u) → ∀ D P, shortest g t [] [] = some (.ok (D, P)) →
      (∀ u ∈ t, ∃ d p, dijkstra g u = some (.ok (d, p)) ∧ Dict.get? D u = some d ∧ Dict.get? P u = some p) ∧
      ∀ u, u ∉ t → Dict.get? D u = none ∧ Dict.get? P u = none := by
    intro t hm D P hs
    obtain ⟨D1, P1, k1, k2, k3⟩ := shortest_spec (g := g) t [] [] (fun u hu => by
      obtain ⟨d, p, h, -⟩ := dijkstra_dist hg hA (hm u hu)
      exact ⟨d, p, h⟩)
    rw [hs] at k1
    simp only [Option.some.injEq, Except.ok.injEq, Prod.mk.injEq] at k1
    obtain ⟨rfl, rfl⟩ := k1
    exact ⟨k2, fun u hu => k3 u hu⟩
  obtain ⟨a1, a2⟩ := key t hm D P h1
  obtain ⟨b1, b2⟩ := key t' (fun u hu => hm u ((h u).1 hu)) D' P' h2
  have hget : ∀ u, Dict.get? D' u = Dict.get? D u ∧ Dict.get? P' u = Dict.get? P u := by
    intro u
    by_cases hu : u ∈ t
    · obtain ⟨d, p, k1, k2, k3⟩ := a1 u hu
      obtain ⟨d', p', j1, j2, j3⟩ := b1 u ((h u).2 hu)
      rw [k1] at j1
      simp only [Option.some.injEq, Except.ok.injEq, Prod.mk.injEq] at j1
      obtain ⟨rfl, rfl⟩ := j1
      rw [k2, k3, j2, j3]; exact ⟨rfl, rfl⟩
    · obtain ⟨k1, k2⟩ := a2 u hu
      obtain ⟨j1, j2⟩ := b2 u (fun k => hu ((h u).1 k))
      rw [k1, k2, j1, j2]; exact ⟨rfl, rfl⟩
  exact ⟨fun u v => by rw [look, look, (hget u).1], fun u v => by rw [look, look, (hget u).2]⟩

/-- C106: the weight does not depend on the order of the terminals, or on repetitions among them. -/
theorem C106_order {ord : Finset V → List V} (hord : ∀ S, (ord S).Nodup ∧ ∀ x, x ∈ ord S ↔ x ∈ S) (one : W)
    (ops : List (Op V W)) (hN : ∀ u v x, (toAbs (history ops)).weight u v = some x → 0 < x) (terminals terminals' : List V)
    (hset : ∀ u, u ∈ terminals' ↔ u ∈ terminals) (hm : ∀ u ∈ terminals, u ∈ (toAbs (history ops)).verts)
    (hr : ∀ u ∈ terminals, ∀ v ∈ terminals, Reach (EdgeOf ops) u v) (hR : 2 ≤ terminals.toFinset.card) :
    ∃ weight es es', minimumCostPathsHeuristic ord one (history ops) terminals = some (.ok (weight, es)) ∧
      minimumCostPathsHeuristic ord one (history ops) terminals' = some (.ok (weight, es')) := by
  have he : terminals'.toFinset = terminals.toFinset := by
    ext u; rw [List.mem_toFinset, List.mem_toFinset, hset]
  obtain ⟨D, P, w, es, h1, h2, h3, root, h4, gr, m, h5, h6⟩ := C106_best_root hord one ops hN terminals hm hr hR
  obtain ⟨D', P', w', es', k1, k2, k3, root', k4, gr', m', k5, k6⟩ := C106_best_root hord one ops hN terminals'
    (fun u hu => hm u ((hset u).1 hu)) (fun u hu v hv => hr u ((hset u).1 hu) v ((hset v).1 hv)) (by rw [he]; exact hR)
  obtain ⟨hD, hP⟩ := shortest_look (history_spec ops).1 (fun u v x h => (hN u v x h).le) hset hm h1 k1
  have hw : w' ≤ w := by
    obtain ⟨gr2, m2, w2, es2, j1, j2, j3⟩ := k3 root ((hset root).2 h4)
    have := growLoop_le hD hP ord _ _ _ _ _ h5
    rw [he, this] at j1
    simp only [Option.some.injEq, Except.ok.injEq, Prod.mk.injEq] at j1
    obtain ⟨rfl, rfl⟩ := j1
    rw [improve_congr hset, h6] at j2
    simp only [Option.some.injEq, Except.ok.injEq, Prod.mk.injEq] at j2
    rw [j2.1]; exact j3
  have hw' : w ≤ w' := by
    obtain ⟨gr2, m2, w2, es2, j1, j2, j3⟩ := h3 root' ((hset root').1 k4)
    rw [he] at k5
    have := growLoop_le (fun u v => (hD u v).symm) (fun u v => (hP u v).symm) ord _ _ _ _ _ k5
    rw [this] at j1
    simp only [Option.some.injEq, Except.ok.injEq, Prod.mk.injEq] at j1
    obtain ⟨rfl, rfl⟩ := j1
    rw [improve_congr hset, j2] at k6
    simp only [Option.some.injEq, Except.ok.injEq, Prod.mk.injEq] at k6
    rw [← k6.1]; exact j3
  obtain rfl := le_antisymm hw' hw
  exact ⟨w, es, es', h2, k2⟩

example {ord : Finset ℕ → List ℕ} (hord : ∀ S, (ord S).Nodup ∧ ∀ x, x ∈ ord S ↔ x ∈ S) :
    ∃ weight es es', minimumCostPathsHeuristic ord 1 (history starOps) [1, 2, 3] = some (.ok (weight, es)) ∧
      minimumCostPathsHeuristic ord 1 (history starOps) [3, 1, 2, 1] = some (.ok (weight, es')) :=
  C106_order hord 1 starOps starOps_pos [1, 2, 3] [3, 1, 2, 1] (fun u => by simp; omega)
    (show ∀ u ∈ [1, 2, 3], u ∈ Dict.keys (history starOps) by decide +kernel) starOps_reach (by decide +kernel)

end Rosemary.Props
