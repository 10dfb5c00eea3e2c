import Verif.Props.Paths
import Verif.Lemmas.DijkstraVariants

/-!
# Properties of `dijkstra_pairing_heap` (C96) and `dijkstra_buckets` (C97)

Graphs are those that any sequence of `Graph` operations builds (`history ops`); walks and their weights are those of
the mathematical graph.
-/

namespace Rosemary.Props

open Rosemary.Graph Rosemary.Paths Rosemary.Spec

section heap

variable {V W : Type} [LinearOrder V] [AddCommMonoid W] [LinearOrder W] [IsOrderedCancelAddMonoid W]

/-! ## C96 -/

/-- C96: for nonnegative weights `dijkstra_pairing_heap` returns for every vertex its distance from `s` (infinite for
vertices that cannot be reached), and links that lead along a shortest path; the start has no predecessor and the vertices
that cannot be reached do not occur among the links. -/
theorem C96_pairing_heap (ops : List (Op V W)) (hN : Nonneg ops) (s : V) (hs : s ∈ (toAbs (history ops)).verts) :
    ∃ D P, dijkstraPairingHeap (history ops) s = some (.ok (D, P)) ∧
      (∀ v, v ∈ (toAbs (history ops)).verts ↔ ∃ d, Dict.get? D v = some d) ∧
      (∀ v d, Dict.get? D v = some d → IsDistance (toAbs (history ops)).weight s v d) ∧
      (∀ v (c : W), Dict.get? D v = some (c : WithTop W) →
        ∃ p, LinkPath (Dict.get? P) s p v ∧ WalkOf (toAbs (history ops)).weight s p v c) ∧
      (∀ v, Dict.get? D v = some ⊤ → Dict.get? P v = none) ∧ Dict.get? P s = some none := by
  obtain ⟨D, P, vis, h1, hk, h⟩ := dijkstraPairingHeap_spec (history_spec ops).1 hN hs
  have hd : ∀ v d, Dict.get? D v = some d → dg D v = d := fun v d e => by rw [dg, e]; rfl
  refine ⟨D, P, h1, fun v => ?_, fun v d e => ?_, fun v c e => ?_, fun v e => ?_, h.root⟩
  · rw [Dict.get?_isSome, hk]; exact Iff.rfl
  · rw [← hd v d e]; exact h.core.final (by simp) v
  · obtain ⟨p, k1, k2, -⟩ := h.link v c (hd v _ e)
    exact ⟨p, k1, k2⟩
  · exact h.nolink v (hd v _ e)

/-- C96: a start that is not a vertex: ValueError. -/
theorem C96_not_a_vertex (ops : List (Op V W)) (s : V) (hs : s ∉ (toAbs (history ops)).verts) :
    dijkstraPairingHeap (history ops) s = some (.error .valueError) := by
  rw [dijkstraPairingHeap, if_pos (show s ∉ Dict.keys (history ops) from hs)]

/-- C96: the distances are those that `dijkstra` returns. -/
theorem C96_agrees_with_dijkstra (ops : List (Op V W)) (hN : Nonneg ops) (s : V) (hs : s ∈ (toAbs (history ops)).verts) :
    ∃ D P D' P', dijkstraPairingHeap (history ops) s = some (.ok (D, P)) ∧ dijkstra (history ops) s = some (.ok (D', P')) ∧
      ∀ v, Dict.get? D v = Dict.get? D' v := by
  obtain ⟨D, P, h1, h2, h3, -⟩ := C96_pairing_heap ops hN s hs
  obtain ⟨D', P', k1, k2, k3, -⟩ := C67_dijkstra ops hN s hs
  refine ⟨D, P, D', P', h1, k1, fun v => ?_⟩
  rcases hv : Dict.get? D v with - | d
  · rcases hv' : Dict.get? D' v with - | d'
    · rfl
    · obtain ⟨d, hd⟩ := (h2 v).1 ((k2 v).2 ⟨d', hv'⟩)
      rw [hv] at hd; cases hd
  · obtain ⟨d', hv'⟩ := (k2 v).1 ((h2 v).2 ⟨d, hv⟩)
    rw [hv']
    have e1 := h3 v d hv
    have e2 := k3 v d' hv'
    cases d with
    | top =>
      cases d' with
      | top => rfl
      | coe c' =>
        obtain ⟨p, hp⟩ := (e2.1 c' rfl).1
        exact absurd hp (e1.2 rfl p c')
    | coe c =>
      cases d' with
      | top =>
        obtain ⟨p, hp⟩ := (e1.1 c rfl).1
        exact absurd hp (e2.2 rfl p c)
      | coe c' =>
        obtain ⟨⟨p, hp⟩, m1⟩ := e1.1 c rfl
        obtain ⟨⟨p', hp'⟩, m2⟩ := e2.1 c' rfl
        rw [le_antisymm (m1 p' c' hp') (m2 p c hp)]

end heap

/-! ## C97 -/

section buckets

variable {V W : Type} [LinearOrder V]

/-- `u` can be reached from `s` along edges. -/
def CanReach (ops : List (Op V W)) (s u : V) : Prop :=
  Relation.ReflTransGen (fun a b => ∃ x, (toAbs (history ops)).weight a b = some x) s u

/-- The value of the weight of an edge as an `int`. -/
def intWeight (asInt : W → Option ℤ) (ops : List (Op V W)) (u v : V) : Option ℤ := ((toAbs (history ops)).weight u v).bind asInt

/-- Every edge at a vertex that can be reached has a weight that is an `int` and not negative. -/
def ReachedNat (asInt : W → Option ℤ) (ops : List (Op V W)) (s : V) : Prop :=
  ∀ u, CanReach ops s u → ∀ v x, (toAbs (history ops)).weight u v = some x → ∃ z, asInt x = some z ∧ 0 ≤ z

theorem reachable_of_walk {asInt : W → Option ℤ} {ops : List (Op V W)} {s u : V} {p : List V} {c : ℤ}
    (h : WalkOf (natAdj asInt (history ops)) s p u c) : CanReach ops s u := by
  induction h with
  | start => exact Relation.ReflTransGen.refl
  | step _ hx ih =>
    refine Relation.ReflTransGen.tail ih ?_
    obtain ⟨h1, -⟩ := natAdj_eq_some.1 hx
    obtain ⟨y, hy, -⟩ := Option.bind_eq_some_iff.1 h1
    exact ⟨y, hy⟩

theorem reachedNat_iff {asInt : W → Option ℤ} {ops : List (Op V W)} {s : V} :
    ReachedNat asInt ops s ↔ ¬ BadWeight asInt (history ops) s ∧ ¬ NegWeight asInt (history ops) s := by
  constructor
  · intro h
    constructor
    · rintro ⟨p, u, c, v, x, h1, h2, h3⟩
      obtain ⟨z, hz, -⟩ := h u (reachable_of_walk h1) v x h2
      rw [h3] at hz; cases hz
    · rintro ⟨p, u, c, v, z, h1, h2, h3⟩
      obtain ⟨x, hx, hz⟩ := Option.bind_eq_some_iff.1 h2
      obtain ⟨z', hz', h0⟩ := h u (reachable_of_walk h1) v x hx
      rw [hz] at hz'
      injection hz' with e
      omega
  · rintro ⟨h1, h2⟩ u hu
    have key : ∀ u, (∃ p c, WalkOf (natAdj asInt (history ops)) s p u c) → ∀ v x, (toAbs (history ops)).weight u v = some x →
        ∃ z, asInt x = some z ∧ 0 ≤ z := by
      rintro u ⟨p, c, hp⟩ v x hx
      rcases hz : asInt x with - | z
      · exact absurd ⟨p, u, c, v, x, hp, hx, hz⟩ h1
      · refine ⟨z, rfl, ?_⟩
        by_contra hc
        have hx' : adj (history ops) u v = some x := hx
        exact h2 ⟨p, u, c, v, z, hp, by rw [hx']; exact hz, by omega⟩
    refine key u ?_
    induction hu with
    | refl => exact ⟨_, _, WalkOf.start⟩
    | tail _ hx ih =>
      obtain ⟨p, c, hp⟩ := ih
      obtain ⟨x, hx⟩ := hx
      obtain ⟨z, hz, h0⟩ := key _ ⟨p, c, hp⟩ _ x hx
      have hx' : adj (history ops) _ _ = some x := hx
      exact ⟨_, _, WalkOf.step hp (natAdj_eq_some.2 ⟨by rw [hx']; exact hz, h0⟩)⟩

theorem walk_natAdj_iff {asInt : W → Option ℤ} {ops : List (Op V W)} {s : V} (h : ReachedNat asInt ops s) {p : List V} {u : V}
    {c : ℤ} : WalkOf (natAdj asInt (history ops)) s p u c ↔ WalkOf (intWeight asInt ops) s p u c := by
  constructor
  · intro hp
    induction hp with
    | start => exact WalkOf.start
    | step _ hx ih => exact WalkOf.step ih (natAdj_eq_some.1 hx).1
  · intro hp
    induction hp with
    | start => exact WalkOf.start
    | step _ hx ih =>
      refine WalkOf.step ih (natAdj_eq_some.2 ⟨hx, ?_⟩)
      obtain ⟨x, hx, hz⟩ := Option.bind_eq_some_iff.1 hx
      obtain ⟨z', hz', h0⟩ := h _ (reachable_of_walk ih) _ x hx
      rw [hz] at hz'
      injection hz' with e
      omega

theorem buckets_cases (asInt : W → Option ℤ) (ops : List (Op V W)) (s : V) (hs : s ∈ (toAbs (history ops)).verts) :
    (dijkstraBuckets asInt (history ops) s = some (.error .valueError) ∧ BadWeight asInt (history ops) s) ∨
    (NegWeight asInt (history ops) s ∧ ∀ r, dijkstraBuckets asInt (history ops) s ≠ some (.ok r)) ∨
    ∃ D P vis, dijkstraBuckets asInt (history ops) s = some (.ok (D, P)) ∧ Dict.keys D = Dict.keys (history ops) ∧
      DjInv2 (natAdj asInt (history ops)) s D P vis (fun _ _ => False) ∧
      ¬ BadWeight asInt (history ops) s ∧ ¬ NegWeight asInt (history ops) s :=
  dijkstraBuckets_spec (asInt := asInt) (g := history ops) (history_spec ops).1.inner
    (fun _ _ _ h => (history_spec ops).1.mem_right h) (history_spec ops).1.symm hs

/-- C97: `dijkstra_buckets` returns if and only if every edge at a vertex that can be reached has a weight that is an
`int` and not negative. -/
theorem C97_buckets_returns (asInt : W → Option ℤ) (ops : List (Op V W)) (s : V) (hs : s ∈ (toAbs (history ops)).verts) :
    (∃ r, dijkstraBuckets asInt (history ops) s = some (.ok r)) ↔ ReachedNat asInt ops s := by
  rw [reachedNat_iff]
  rcases buckets_cases asInt ops s hs with ⟨h1, h2⟩ | ⟨h1, h2⟩ | ⟨D, P, vis, h1, h2, h3, h4⟩
  · rw [h1]
    exact ⟨fun ⟨r, hr⟩ => (by cases hr), fun h => absurd h2 h.1⟩
  · exact ⟨fun ⟨r, hr⟩ => absurd hr (h2 r), fun h => absurd h1 h.2⟩
  · exact ⟨fun _ => h4, fun _ => ⟨_, h1⟩⟩

/-- C97: then it returns for every vertex its distance from `s` (infinite for vertices that cannot be reached), and links
that lead along a shortest path; the start has no predecessor and the vertices that cannot be reached do not occur among
the links. -/
theorem C97_buckets (asInt : W → Option ℤ) (ops : List (Op V W)) (s : V) (hs : s ∈ (toAbs (history ops)).verts)
    (hN : ReachedNat asInt ops s) :
    ∃ D P, dijkstraBuckets asInt (history ops) s = some (.ok (D, P)) ∧
      (∀ v, v ∈ (toAbs (history ops)).verts ↔ ∃ d, Dict.get? D v = some d) ∧
      (∀ v d, Dict.get? D v = some d → IsDistance (intWeight asInt ops) s v d) ∧
      (∀ v (c : ℤ), Dict.get? D v = some (c : WithTop ℤ) →
        ∃ p, LinkPath (Dict.get? P) s p v ∧ WalkOf (intWeight asInt ops) s p v c) ∧
      (∀ v, Dict.get? D v = some ⊤ → Dict.get? P v = none) ∧ Dict.get? P s = some none := by
  rcases buckets_cases asInt ops s hs with ⟨h1, h2⟩ | ⟨h1, h2⟩ | ⟨D, P, vis, h1, hk, h, h4⟩
  · exact absurd h2 (reachedNat_iff.1 hN).1
  · exact absurd h1 (reachedNat_iff.1 hN).2
  have hd : ∀ v d, Dict.get? D v = some d → dg D v = d := fun v d e => by rw [dg, e]; rfl
  refine ⟨D, P, h1, fun v => ?_, fun v d e => ?_, fun v c e => ?_, fun v e => ?_, h.root⟩
  · rw [Dict.get?_isSome, hk]; exact Iff.rfl
  · rw [← hd v d e]
    obtain ⟨k1, k2⟩ := h.core.final (by simp) v
    refine ⟨fun c hc => ?_, fun ht p c hp => k2 ht p c ((walk_natAdj_iff hN).2 hp)⟩
    obtain ⟨⟨p, hp⟩, m⟩ := k1 c hc
    exact ⟨⟨p, (walk_natAdj_iff hN).1 hp⟩, fun p' c' hp' => m p' c' ((walk_natAdj_iff hN).2 hp')⟩
  · obtain ⟨p, k1, k2, -⟩ := h.link v c (hd v _ e)
    exact ⟨p, k1, (walk_natAdj_iff hN).1 k2⟩
  · exact h.nolink v (hd v _ e)

/-- C97: if no `int` weight at a vertex that can be reached is negative, but some weight there is not an `int`: ValueError. -/
theorem C97_not_integral (asInt : W → Option ℤ) (ops : List (Op V W)) (s : V) (hs : s ∈ (toAbs (history ops)).verts)
    (hnn : ∀ u, CanReach ops s u → ∀ v z, intWeight asInt ops u v = some z → 0 ≤ z)
    (hbad : ∃ u v x, CanReach ops s u ∧ (toAbs (history ops)).weight u v = some x ∧ asInt x = none) :
    dijkstraBuckets asInt (history ops) s = some (.error .valueError) := by
  rcases buckets_cases asInt ops s hs with ⟨h1, h2⟩ | ⟨⟨p, u, c, v, z, hp, hz, h0⟩, -⟩ | ⟨D, P, vis, h1, h2, h3, h4⟩
  · exact h1
  · have := hnn u (reachable_of_walk hp) v z hz
    omega
  · obtain ⟨u, v, x, hu, hx, hn⟩ := hbad
    obtain ⟨z, hz, -⟩ := reachedNat_iff.2 h4 u hu v x hx
    rw [hn] at hz; cases hz

/-- C97: a start that is not a vertex: ValueError. -/
theorem C97_not_a_vertex (asInt : W → Option ℤ) (ops : List (Op V W)) (s : V) (hs : s ∉ (toAbs (history ops)).verts) :
    dijkstraBuckets asInt (history ops) s = some (.error .valueError) := by
  rw [dijkstraBuckets, if_pos (show s ∉ Dict.keys (history ops) from hs)]

/-- What the value of a rational number is as an `int`. -/
def ratInt (x : ℚ) : Option ℤ := if x.den = 1 then some x.num else none

/-- An edge between 0 and 1 of weight 3, and one between 2 and 3 of weight 1/2. -/
def halfOps : List (Op ℕ ℚ) := [Op.addEdges [(0, 1, (3 : ℚ)), (2, 3, 1 / 2)]]

theorem mem_half (u : ℕ) (h : u ∈ Dict.keys (history halfOps)) : u ∈ (toAbs (history halfOps)).verts := h

/-- The closed set of vertices `{0, 1}`. -/
theorem halfOps_reach : ReachedNat ratInt halfOps 0 := by
  have hadj : ∀ e ∈ history halfOps, e.1 ≤ 1 → ∀ f ∈ e.2, f.1 ≤ 1 ∧ ratInt f.2 = some 3 := by decide +kernel
  have hw : ∀ u v x, (toAbs (history halfOps)).weight u v = some x → u ≤ 1 → v ≤ 1 ∧ ratInt x = some 3 := by
    intro u v x h hu
    obtain ⟨N, hN, hx⟩ : ∃ N, Dict.get? (history halfOps) u = some N ∧ Dict.get? N v = some x := by
      change adj (history halfOps) u v = some x at h
      rw [adj] at h
      cases e : Dict.get? (history halfOps) u with
      | none => rw [e] at h; simp at h
      | some N => rw [e] at h; exact ⟨N, rfl, h⟩
    exact hadj _ (Dict.mem_of_get? hN) hu _ (Dict.mem_of_get? hx)
  intro u hu v x hx
  have hu1 : u ≤ 1 := by
    clear hx
    induction hu with
    | refl => omega
    | tail _ hx ih =>
      obtain ⟨y, hy⟩ := hx
      exact (hw _ _ y hy ih).1
  exact ⟨3, (hw u v x hx hu1).2, by omega⟩

/-- Violation: the documentation promises a ValueError if any edge of the graph has a weight that is not integral; edges
that cannot be reached are not looked at. -/
theorem C97_unreached_weight_violation :
    (∃ u v x, (toAbs (history halfOps)).weight u v = some x ∧ ratInt x = none) ∧
      ∃ r, dijkstraBuckets ratInt (history halfOps) 0 = some (.ok r) :=
  ⟨⟨2, 3, 1 / 2, by decide +kernel, by decide +kernel⟩, (C97_buckets_returns ratInt halfOps 0 (mem_half 0 (by decide +kernel))).2 halfOps_reach⟩

/-! ### Examples -/

/-- A negative weight: the call does not return. -/
example : ¬ ∃ r, dijkstraBuckets some (history [Op.addEdges [(0, 1, (2 : ℤ)), (1, 2, -1)]]) 0 = some (.ok r) := by
  rw [C97_buckets_returns _ _ _ (show 0 ∈ Dict.keys (history _) by decide +kernel)]
  intro h
  obtain ⟨z, hz, h0⟩ := h 1 (Relation.ReflTransGen.single ⟨2, by decide +kernel⟩) 2 (-1) (by decide +kernel)
  injection hz with hz
  omega

/-- A weight that is not an `int` and that is reached. -/
example : dijkstraBuckets ratInt (history halfOps) 2 = some (.error .valueError) := by
  refine C97_not_integral _ _ _ (mem_half 2 (by decide +kernel)) (fun u hu v z hz => ?_)
    ⟨2, 3, 1 / 2, Relation.ReflTransGen.refl, by decide +kernel, by decide +kernel⟩
  obtain ⟨x, hx, hz⟩ := Option.bind_eq_some_iff.1 hz
  have hadj : ∀ e ∈ history halfOps, ∀ f ∈ e.2, ∀ z ∈ ratInt f.2, 0 ≤ z := by decide +kernel
  obtain ⟨N, hN, hx⟩ : ∃ N, Dict.get? (history halfOps) u = some N ∧ Dict.get? N v = some x := by
    change adj (history halfOps) u v = some x at hx
    rw [adj] at hx
    cases e : Dict.get? (history halfOps) u with
    | none => rw [e] at hx; simp at hx
    | some N => rw [e] at hx; exact ⟨N, rfl, hx⟩
  exact hadj _ (Dict.mem_of_get? hN) _ (Dict.mem_of_get? hx) z hz

/-- The distance of the vertex 1 is 3, whatever the representation. -/
example : ∃ D P, dijkstraBuckets ratInt (history halfOps) 0 = some (.ok (D, P)) ∧ Dict.get? D 2 = some ⊤ ∧ Dict.get? P 2 = none := by
  obtain ⟨D, P, h1, h2, h3, h4, h5, h6⟩ := C97_buckets ratInt halfOps 0 (mem_half 0 (by decide +kernel)) halfOps_reach
  have hd : Dict.get? D 2 = some ⊤ := by
    obtain ⟨d, hd⟩ := (h2 2).1 (mem_half 2 (by decide +kernel))
    cases d with
    | top => exact hd
    | coe c =>
      exfalso
      obtain ⟨⟨p, hp⟩, -⟩ := (h3 2 c hd).1 c rfl
      have hu : CanReach halfOps 0 2 := reachable_of_walk ((walk_natAdj_iff halfOps_reach).2 hp)
      obtain ⟨z, hz, -⟩ := halfOps_reach 2 hu 3 (1 / 2) (by decide +kernel)
      revert hz
      rw [show ratInt (1 / 2) = none by decide +kernel]
      simp
  exact ⟨D, P, h1, hd, h5 2 hd⟩

example (hN : Nonneg pathOps) : ∃ D P D' P', dijkstraPairingHeap (history pathOps) 0 = some (.ok (D, P)) ∧
    dijkstra (history pathOps) 0 = some (.ok (D', P')) ∧ ∀ v, Dict.get? D v = Dict.get? D' v :=
  C96_agrees_with_dijkstra pathOps hN 0 (show 0 ∈ Dict.keys (history pathOps) by decide +kernel)

end buckets

end Rosemary.Props
