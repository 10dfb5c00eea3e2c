import Verif.Props.DijkstraVariants
import Verif.Lemmas.FloatWeights

/-!
# Shortest paths with floating point weights (C173)

The addition of floats is neither associative nor exact.  The length that `dijkstra` and `dijkstra_iterator` compute of
a walk is the sum of its weights from the start on, each partial sum rounded: this is `WalkOf` over the floats.  The
exact lengths are those of `WalkOf (Double.exactWeight ..)`, over the real numbers.
-/

namespace Rosemary.Props

open Rosemary.Graph Rosemary.Paths Rosemary.Spec Rosemary.Floats

section general

variable {V W : Type} [LinearOrder V] [Add W] [Zero W] [LinearOrder W] [PathAdd W]

/-- C173: for every addition of weights that is monotone and does not make a walk shorter, `dijkstra` returns the least
computed lengths, and links along walks of this computed length. -/
theorem C173_dijkstra_least (ops : List (Op V W)) (hN : Nonneg ops) (s : V) (hs : s ∈ (toAbs (history ops)).verts) :
    ∃ D P, dijkstra (history ops) s = some (.ok (D, P)) ∧
      (∀ v, v ∈ (toAbs (history ops)).verts ↔ ∃ d, Dict.get? D v = some d) ∧
      (∀ v d, Dict.get? D v = some d → IsDistance (toAbs (history ops)).weight s v d) ∧
      (∀ v (c : W), Dict.get? D v = some (c : WithTop W) →
        ∃ p, LinkPath (Dict.get? P) s p v ∧ WalkOf (toAbs (history ops)).weight s p v c) ∧
      (∀ v, Dict.get? D v = some ⊤ → Dict.get? P v = some none) ∧ Dict.get? P s = some none := by
  obtain ⟨D, P, vis, h1, h⟩ := dijkstra_spec (history_spec ops).1 hN hs
  have hd : ∀ v d, Dict.get? D v = some d → dg D v = d := fun v d e => by rw [dg, e]; rfl
  refine ⟨D, P, h1, fun v => ?_, fun v d e => ?_, fun v c e => ?_, fun v e => ?_, h.root⟩
  · rw [Dict.get?_isSome, h.keysD]; exact Iff.rfl
  · rw [← hd v d e]; exact h.core.final (by simp) v
  · obtain ⟨p, k1, k2, -⟩ := h.link v c (hd v _ e)
    exact ⟨p, k1, k2⟩
  · exact h.nolink v (hd v _ e) (by rw [Graph.Mem, ← h.keysD, ← Dict.get?_isSome]; exact ⟨_, e⟩)

/-- C173, `dijkstra_iterator`: exactly the vertices that can be reached are yielded, each once, by nondecreasing computed
length, each with a walk of the least computed length. -/
theorem C173_iterator_least (ops : List (Op V W)) (hN : Nonneg ops) (s : V) (hs : s ∈ (toAbs (history ops)).verts) :
    ∃ l, dijkstraIterator (history ops) s = some (.ok l) ∧ (l.map Prod.fst).Nodup ∧
      (∀ v, v ∈ l.map Prod.fst ↔ ∃ p c, WalkOf (toAbs (history ops)).weight s p v c) ∧
      l.Pairwise (fun e f => e.2.1 ≤ f.2.1) ∧
      ∀ v d p, (v, d, p) ∈ l → IsShortest (toAbs (history ops)).weight s v d ∧ WalkOf (toAbs (history ops)).weight s p v d := by
  obtain ⟨l, D, vis, h1, h⟩ := iterator_spec (history_spec ops).1 hN hs
  refine ⟨l, h1, h.nodup, fun v => ⟨fun hv => ?_, ?_⟩, h.sorted, fun v d p he => ⟨h.shortest he, h.path' he⟩⟩
  · obtain ⟨e, he, rfl⟩ := List.mem_map.1 hv
    exact ⟨_, _, h.path' he⟩
  · rintro ⟨p, c, hp⟩
    obtain ⟨e, he, rfl⟩ := h.reached hp
    exact List.mem_map_of_mem he

/-- C173: `dijkstra` and `dijkstra_iterator` give the same lengths, also with rounding. -/
theorem C173_same_lengths (ops : List (Op V W)) (hN : Nonneg ops) (s : V) (hs : s ∈ (toAbs (history ops)).verts)
    (D : Dict V (WithTop W)) (P : Dict V (Option V)) (l : List (V × W × List V))
    (h1 : dijkstra (history ops) s = some (.ok (D, P))) (h2 : dijkstraIterator (history ops) s = some (.ok l)) (v : V) (c : W) :
    Dict.get? D v = some (c : WithTop W) ↔ ∃ p, (v, c, p) ∈ l := by
  obtain ⟨D', P', k1, k2, k3, k4, -⟩ := C173_dijkstra_least ops hN s hs
  obtain ⟨l', m1, -, m2, -, m3⟩ := C173_iterator_least ops hN s hs
  rw [k1] at h1
  rw [m1] at h2
  simp only [Option.some.injEq, Except.ok.injEq, Prod.mk.injEq] at h1 h2
  obtain ⟨rfl, rfl⟩ := h1
  subst h2
  constructor
  · intro hv
    obtain ⟨⟨p, hp⟩, hmin⟩ := (k3 v c hv).1 c rfl
    obtain ⟨⟨v', c', q⟩, he, rfl⟩ := List.mem_map.1 ((m2 v).2 ⟨p, c, hp⟩)
    obtain ⟨⟨⟨r, hr⟩, hmin'⟩, -⟩ := m3 _ _ _ he
    have : c' = c := le_antisymm (hmin' p c hp) (hmin r c' hr)
    exact ⟨q, this ▸ he⟩
  · rintro ⟨q, he⟩
    obtain ⟨⟨⟨r, hr⟩, hmin'⟩, -⟩ := m3 _ _ _ he
    have hv : v ∈ (toAbs (history ops)).verts :=
      walk_verts (S := fun v => v ∈ (toAbs (history ops)).verts)
        (fun u v x hx => mem_of_adj (by rw [(history_spec ops).1.symm]; exact hx)) hs hr v (walk_mem hr)
    obtain ⟨d, hd⟩ := (k2 v).1 hv
    have hdist := k3 v d hd
    cases d with
    | top => exact absurd hr (hdist.2 rfl r c)
    | coe d =>
      obtain ⟨⟨p, hp⟩, hmin⟩ := hdist.1 d rfl
      have : d = c := le_antisymm (hmin r c hr) (hmin' p d hp)
      rw [hd, this]

/-- C173: `dijkstra_pairing_heap` returns the same lengths as `dijkstra`, also with rounding, and links along walks of
this computed length. -/
theorem C173_pairing_heap_least (ops : List (Op V W)) (hN : Nonneg ops) (s : V) (hs : s ∈ (toAbs (history ops)).verts) :
    ∃ D P, dijkstraPairingHeap (history ops) s = some (.ok (D, P)) ∧
      (∀ v, v ∈ (toAbs (history ops)).verts ↔ ∃ d, Dict.get? D v = some d) ∧
      (∀ v d, Dict.get? D v = some d → IsDistance (toAbs (history ops)).weight s v d) ∧
      (∀ v (c : W), Dict.get? D v = some (c : WithTop W) →
        ∃ p, LinkPath (Dict.get? P) s p v ∧ WalkOf (toAbs (history ops)).weight s p v c) := by
  obtain ⟨D, P, vis, h1, hk, h⟩ := dijkstraPairingHeap_spec (history_spec ops).1 hN hs
  have hd : ∀ v d, Dict.get? D v = some d → dg D v = d := fun v d e => by rw [dg, e]; rfl
  refine ⟨D, P, h1, fun v => ?_, fun v d e => ?_, fun v c e => ?_⟩
  · rw [Dict.get?_isSome, hk]; exact Iff.rfl
  · rw [← hd v d e]; exact h.core.final (by simp) v
  · obtain ⟨p, k1, k2, -⟩ := h.link v c (hd v _ e)
    exact ⟨p, k1, k2⟩

/-- C173: `bellman_ford` with nonnegative weights returns, and also gives the least computed lengths and links along
walks of this computed length. -/
theorem C173_bellman_ford_least (ops : List (Op V W)) (hN : Nonneg ops) (s : V) (hs : s ∈ (toAbs (history ops)).verts) :
    ∃ D P, bellmanFord (history ops) s = some (.ok (D, P)) ∧
      (∀ v, v ∈ (toAbs (history ops)).verts ↔ ∃ d, Dict.get? D v = some d) ∧
      (∀ v d, Dict.get? D v = some d → IsDistance (toAbs (history ops)).weight s v d) ∧
      (∀ v (c : W), Dict.get? D v = some (c : WithTop W) →
        ∃ p, LinkPath (Dict.get? P) s p v ∧ WalkOf (toAbs (history ops)).weight s p v c) := by
  have hNN : NoNeg (history ops) s := fun _ _ _ _ _ _ hx => hN _ _ _ hx
  rcases bellmanFord_spec (history_spec ops).1 hs with ⟨h1, -⟩ | ⟨D, P, h1, h2, h3, h4⟩
  · exact absurd hNN h1
  have hP := h4 hNN
  have he : ∀ v d, Dict.get? D v = some d → dg D v = d := fun v d e => by rw [dg, e]; rfl
  refine ⟨D, P, h1, fun v => ?_, fun v d e => ?_, fun v c e => ?_⟩
  · rw [Dict.get?_isSome, h2.keysC]; exact Iff.rfl
  · rw [← he v d e]; exact (bf_distances h2 h3).1 v
  · obtain ⟨p, hp⟩ := hP.link v (by rw [he v _ e]; exact WithTop.coe_ne_top)
    exact ⟨p, hp, bf_path h3 hP hp c (he v _ e)⟩

theorem distance_unique {A : V → V → Option W} {s v : V} {d d' : WithTop W} (h : IsDistance A s v d) (h' : IsDistance A s v d') :
    d = d' := by
  cases d with
  | top =>
    cases d' with
    | top => rfl
    | coe c' => obtain ⟨⟨p, hp⟩, -⟩ := h'.1 c' rfl; exact absurd hp (h.2 rfl p c')
  | coe c =>
    obtain ⟨⟨p, hp⟩, hmin⟩ := h.1 c rfl
    cases d' with
    | top => exact absurd hp (h'.2 rfl p c)
    | coe c' =>
      obtain ⟨⟨p', hp'⟩, hmin'⟩ := h'.1 c' rfl
      rw [le_antisymm (hmin p' c' hp') (hmin' p c hp)]

/-- C173: the distances of `dijkstra`, `dijkstra_pairing_heap` and `bellman_ford` are the same, also with rounding. -/
theorem C173_same_distances (ops : List (Op V W)) (hN : Nonneg ops) (s : V) (hs : s ∈ (toAbs (history ops)).verts) :
    ∃ D P D' P' D'' P'', dijkstra (history ops) s = some (.ok (D, P)) ∧
      dijkstraPairingHeap (history ops) s = some (.ok (D', P')) ∧ bellmanFord (history ops) s = some (.ok (D'', P'')) ∧
      ∀ v, Dict.get? D' v = Dict.get? D v ∧ Dict.get? D'' v = Dict.get? D v := by
  obtain ⟨D, P, h1, h2, h3, -⟩ := C173_dijkstra_least ops hN s hs
  obtain ⟨D', P', k1, k2, k3, -⟩ := C173_pairing_heap_least ops hN s hs
  obtain ⟨D'', P'', m1, m2, m3, -⟩ := C173_bellman_ford_least ops hN s hs
  have key : ∀ E : Dict V (WithTop W), (∀ v, v ∈ (toAbs (history ops)).verts ↔ ∃ d, Dict.get? E v = some d) →
      (∀ v d, Dict.get? E v = some d → IsDistance (toAbs (history ops)).weight s v d) → ∀ v, Dict.get? E v = Dict.get? D v := by
    intro E e1 e2 v
    by_cases hv : v ∈ (toAbs (history ops)).verts
    · obtain ⟨d, hd⟩ := (e1 v).1 hv
      obtain ⟨d', hd'⟩ := (h2 v).1 hv
      rw [hd, hd', distance_unique (e2 v d hd) (h3 v d' hd')]
    · cases hE : Dict.get? E v with
      | some d => exact absurd ((e1 v).2 ⟨d, hE⟩) hv
      | none =>
        cases hD : Dict.get? D v with
        | some d => exact absurd ((h2 v).2 ⟨d, hD⟩) hv
        | none => rfl
  exact ⟨D, P, D', P', D'', P'', h1, k1, m1, fun v => ⟨key D' k2 k3 v, key D'' m2 m3 v⟩⟩

end general

section floats

variable {V : Type} [LinearOrder V] {M : Mode}

theorem length_le_verts {W : Type} {ops : List (Op V W)} {p : List V} (hp : p.Nodup) (h : ∀ v ∈ p, v ∈ (toAbs (history ops)).verts) :
    p.length ≤ numVertices (history ops) := by
  have h1 : p.toFinset ⊆ (Dict.keys (history ops)).toFinset := fun v hv => by
    rw [List.mem_toFinset] at hv ⊢; exact h v hv
  have h2 := Finset.card_le_card h1
  rw [List.toFinset_card_of_nodup hp] at h2
  refine h2.trans ((List.toFinset_card_le _).trans ?_)
  rw [Dict.keys, List.length_map]; rfl

theorem walk_in_verts {W : Type} [Add W] [Zero W] {ops : List (Op V W)} {s v : V} (hs : s ∈ (toAbs (history ops)).verts) {p : List V} {c : W}
    (h : WalkOf (toAbs (history ops)).weight s p v c) : ∀ w ∈ p, w ∈ (toAbs (history ops)).verts :=
  walk_verts (S := fun v => v ∈ (toAbs (history ops)).verts)
    (fun u v x hx => mem_of_adj (by rw [(history_spec ops).1.symm]; exact hx)) hs h

/-- C173: with nonnegative float weights in a graph with `n` vertices, what `dijkstra` returns for a vertex `v` is `inf`
if and only if `v` cannot be reached; else it lies between `(1 - 2^-52)^(n-1)` and `(1 + 2^-52)^(n-1)` times the exact
distance `L`, and the links lead along a path without repetitions whose exact length `L'` is at most
`((1 + 2^-52)/(1 - 2^-52))^(n-1)` times `L`. -/
theorem C173_dijkstra_error (ops : List (Op V (Double M))) (hN : Nonneg ops) (s : V) (hs : s ∈ (toAbs (history ops)).verts) :
    ∃ D P, dijkstra (history ops) s = some (.ok (D, P)) ∧ ∀ v ∈ (toAbs (history ops)).verts,
      (Dict.get? D v = some ⊤ ∧ (∀ p c, ¬ WalkOf (toAbs (history ops)).weight s p v c)) ∨
      ∃ (c : Double M) (L L' : ℝ) (p : List V), Dict.get? D v = some (c : WithTop (Double M)) ∧
        IsShortest (Double.exactWeight (toAbs (history ops)).weight) s v L ∧
        (1 - (2 : ℝ)⁻¹ ^ 52) ^ (numVertices (history ops) - 1) * L ≤ c.val ∧
        c.val ≤ (1 + (2 : ℝ)⁻¹ ^ 52) ^ (numVertices (history ops) - 1) * L ∧
        LinkPath (Dict.get? P) s p v ∧ p.Nodup ∧ WalkOf (Double.exactWeight (toAbs (history ops)).weight) s p v L' ∧
        (1 - (2 : ℝ)⁻¹ ^ 52) ^ (numVertices (history ops) - 1) * L' ≤
          (1 + (2 : ℝ)⁻¹ ^ 52) ^ (numVertices (history ops) - 1) * L := by
  obtain ⟨D, P, h1, h2, h3, h4, -⟩ := C173_dijkstra_least ops hN s hs
  refine ⟨D, P, h1, fun v hv => ?_⟩
  obtain ⟨d, hd⟩ := (h2 v).1 hv
  cases d with
  | top => exact Or.inl ⟨hd, (h3 v _ hd).2 rfl⟩
  | coe c =>
    right
    obtain ⟨-, hmin⟩ := (h3 v _ hd).1 c rfl
    obtain ⟨p, hp, hw⟩ := h4 v c hd
    obtain ⟨L', k1, k2⟩ := walk_exact hN hw
    have hnd := link_nodup hp
    have hlen : ∀ {q : List V}, q.Nodup → (∀ v ∈ q, v ∈ (toAbs (history ops)).verts) →
        q.length - 1 ≤ numVertices (history ops) - 1 := fun hq h => Nat.sub_le_sub_right (length_le_verts hq h) 1
    have k3 := close_mono (hlen hnd (walk_in_verts hs hw)) k2
    -- the walks without repetitions have a shortest one among them
    have hA' : ∀ u v x, Double.exactWeight (toAbs (history ops)).weight u v = some x → (0 : ℝ) ≤ x := by
      intro u v x hx
      rw [Double.exactWeight, Option.map_eq_some_iff] at hx
      obtain ⟨y, hy, rfl⟩ := hx
      exact hN _ _ _ hy
    obtain ⟨L, hL⟩ : ∃ L, IsShortest (Double.exactWeight (toAbs (history ops)).weight) s v L := by
      refine exists_shortest hA' (Dict.keys (history ops)) (fun q w d hq => ?_) k1
      obtain ⟨c, hc, -⟩ := walk_rounded hN hq
      exact walk_in_verts hs hc
    obtain ⟨⟨q, hq⟩, hLmin⟩ := hL
    obtain ⟨q', d, j1, j2, j3⟩ := walk_shorten hA' hq
    have hdL : d = L := le_antisymm j3 (hLmin _ _ j1)
    subst hdL
    obtain ⟨c', i1, i2⟩ := walk_rounded hN j1
    have i3 := close_mono (hlen j2 (walk_in_verts hs i1)) i2
    have hup : c.val ≤ (1 + (2 : ℝ)⁻¹ ^ 52) ^ (numVertices (history ops) - 1) * d :=
      (Double.le_iff.1 (hmin _ _ i1)).trans i3.2.2
    refine ⟨c, d, L', p, hd, ⟨⟨q, hq⟩, hLmin⟩, ?_, hup, hp, hnd, k1, k3.2.1.trans hup⟩
    refine le_trans (mul_le_mul_of_nonneg_left (hLmin _ _ k1) ?_) k3.2.1
    exact pow_nonneg (by have := ulp_lt; rw [ulp] at this; linarith) _

/-- C173: if the weights are floats with integral values, distances below `2^53` are exact. -/
theorem C173_integral_weights (ops : List (Op V (Double M))) (hN : Nonneg ops) (s : V) (hs : s ∈ (toAbs (history ops)).verts)
    (hI : ∀ u v x, (toAbs (history ops)).weight u v = some x → ∃ n : ℤ, x.val = n) :
    ∃ D P, dijkstra (history ops) s = some (.ok (D, P)) ∧ ∀ v (L : ℝ),
      IsShortest (Double.exactWeight (toAbs (history ops)).weight) s v L → L < 2 ^ 53 →
      ∃ (c : Double M) (p : List V), Dict.get? D v = some (c : WithTop (Double M)) ∧ c.val = L ∧
        LinkPath (Dict.get? P) s p v ∧ WalkOf (Double.exactWeight (toAbs (history ops)).weight) s p v L := by
  obtain ⟨D, P, h1, h2, h3, h4, -⟩ := C173_dijkstra_least ops hN s hs
  refine ⟨D, P, h1, fun v L hL hb => ?_⟩
  obtain ⟨⟨q, hq⟩, hLmin⟩ := hL
  obtain ⟨c', i1, i2⟩ := walk_rounded_int hN hI hq
  obtain ⟨d, hd⟩ := (h2 v).1 (walk_in_verts hs i1 v (walk_mem i1))
  cases d with
  | top => exact absurd i1 ((h3 v _ hd).2 rfl q c')
  | coe c =>
    obtain ⟨-, hmin⟩ := (h3 v _ hd).1 c rfl
    obtain ⟨p, hp, hw⟩ := h4 v c hd
    obtain ⟨L', k1, k2⟩ := walk_exact_int hN hI hw
    have e1 : c.val ≤ L := by rw [← i2.2.2.1 hb.le]; exact Double.le_iff.1 (hmin _ _ i1)
    have e2 := hLmin _ _ k1
    have e3 : L' ≤ 2 ^ 53 := by
      by_contra hc
      have hc := not_le.1 hc
      have h5 := k2.2.2.2 hc.le
      linarith
    have e4 := k2.2.2.1 e3
    have e5 : L' = L := le_antisymm (e4 ▸ e1) e2
    exact ⟨c, p, hd, by rw [e4, e5], hp, e5 ▸ k1⟩

end floats

end Rosemary.Props
