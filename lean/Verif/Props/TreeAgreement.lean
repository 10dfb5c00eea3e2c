import Verif.Props.CheritonTarjan
import Verif.Props.Gabow
import Verif.Lemmas.TreeOptimality

/-!
# What all minimum spanning tree functions have in common (C176)
-/

namespace Rosemary.Props

open Rosemary.Graph Rosemary.SpanningTrees Rosemary.Spec Rosemary.Gabow Rosemary.Heapq

variable {V W : Type} [LinearOrder V] [AddCommGroup W] [LinearOrder W] [IsOrderedAddMonoid W]

/-- One of the functions returns this total and these edges: `prim` from any root or without one, `kruskal`,
`cheriton_tarjan` with any choices, or `gabow` as the first tree. -/
inductive Returned (ops : List (Op V W)) (total : W) (edges : List (V × V)) : Prop
  | prim (root : Option V) (h : prim (history ops) root = some (.ok (total, edges)))
  | kruskal (h : kruskal (history ops) = some (.ok (total, edges)))
  | cheritonTarjan (ch : ℕ → List V → V) (hch : ∀ i l, l ≠ [] → ch i l ∈ l)
      (h : cheritonTarjan ch (history ops) = some (.ok (total, edges)))
  | gabow (lt : Entry V W → Entry V W → Except PyErr Bool) (hlt : Respects lt Entry.weight)
      (ord : Finset (V × V) → List (V × V)) (hord : ∀ S, (ord S).Nodup ∧ ∀ x, x ∈ ord S ↔ x ∈ S) (k : Option ℤ)
      (ys : List (W × List (V × V))) (err : Option PyErr) (h : gabow lt ord (history ops) k = some ((total, edges) :: ys, err))

/-- The graph has a vertex and is connected. -/
structure Connected (ops : List (Op V W)) : Prop where
  nonempty : (toAbs (history ops)).verts ≠ ∅
  connected : ∀ u ∈ (toAbs (history ops)).verts, ∀ v ∈ (toAbs (history ops)).verts, Reach (EdgeOf ops) u v

omit [AddCommGroup W] [LinearOrder W] [IsOrderedAddMonoid W] in
theorem reach_verts (ops : List (Op V W)) {s v : V} (hs : s ∈ (toAbs (history ops)).verts) (h : Reach (EdgeOf ops) s v) :
    v ∈ (toAbs (history ops)).verts := by
  obtain ⟨n, hn⟩ := h
  cases hn with
  | zero => exact hs
  | succ _ he => obtain ⟨w, hw⟩ := he; exact (history_spec ops).1.mem_right hw

/-- What is returned is a minimum spanning tree. -/
theorem returned_tree (ops : List (Op V W)) (hc : Connected ops) {total : W} {edges : List (V × V)} (h : Returned ops total edges) :
    edges.Pairwise (fun a b => toLex a < toLex b) ∧ total = totalWeight (toAbs (history ops)).weight edges.toFinset ∧
      MinSpanningTree (toAbs (history ops)).weight (vertexSet (history ops)) edges.toFinset := by
  have hset : ∀ C : Finset V, (∀ v, v ∈ C ↔ v ∈ (toAbs (history ops)).verts) → C = vertexSet (history ops) := by
    intro C hC
    ext v
    rw [hC]; exact Graph.mem_vertexSet.symm
  have key : ∀ s, prim (history ops) (some s) = some (.ok (total, edges)) →
      edges.Pairwise (fun a b => toLex a < toLex b) ∧ total = totalWeight (toAbs (history ops)).weight edges.toFinset ∧
      MinSpanningTree (toAbs (history ops)).weight (vertexSet (history ops)) edges.toFinset := by
    intro s h
    by_cases hs : s ∈ (toAbs (history ops)).verts
    · obtain ⟨t, e, h1, h2, h3, C, hC, h4⟩ := C70_prim ops s hs
      rw [h1] at h
      simp only [Option.some.injEq, Except.ok.injEq, Prod.mk.injEq] at h
      obtain ⟨rfl, rfl⟩ := h
      refine ⟨h2, h3, ?_⟩
      rw [← hset C fun v => by rw [hC]; exact ⟨reach_verts ops hs, hc.connected s hs v⟩]
      exact h4
    · rw [(C70_prim_root ops).2.2 s hs] at h
      simp at h
  cases h with
  | prim root h =>
    cases root with
    | some s => exact key s h
    | none =>
      obtain ⟨s, -, e⟩ := (C70_prim_root ops).2.1 hc.nonempty
      exact key s (e ▸ h)
  | kruskal h =>
    obtain ⟨t, e, h1, h2, h3, C, hC, h4⟩ := C70_kruskal ops hc.nonempty hc.connected
    rw [h1] at h
    simp only [Option.some.injEq, Except.ok.injEq, Prod.mk.injEq] at h
    obtain ⟨rfl, rfl⟩ := h
    exact ⟨h2, h3, hset C hC ▸ h4⟩
  | cheritonTarjan ch hch h =>
    by_cases hdeg : ∀ u ∈ (toAbs (history ops)).verts, ∃ a b, a ≠ b ∧ EdgeOf ops u a ∧ EdgeOf ops u b
    · obtain ⟨t, e, h1, h2, h3, C, hC, h4⟩ := C107_cheriton_tarjan_partial hch ops hc.nonempty hdeg hc.connected
      rw [h1] at h
      simp only [Option.some.injEq, Except.ok.injEq, Prod.mk.injEq] at h
      obtain ⟨rfl, rfl⟩ := h
      exact ⟨h2, h3, hset C hC ▸ h4⟩
    · push Not at hdeg
      obtain ⟨u, hu, hno⟩ := hdeg
      rw [C107_small_degree_violation ch ops u hu (by rintro ⟨a, b, h1, h2, h3⟩; exact hno a b h1 h2 h3)] at h
      simp at h
  | gabow lt hlt ord hord k ys err h =>
    obtain ⟨v, hv⟩ := Set.nonempty_iff_ne_empty.2 hc.nonempty
    obtain ⟨y, ys', err', root, edges', h1, h2, h3, h4, h5, -⟩ := gabow_spec ops (C := vertexSet (history ops)) (fun v => Graph.mem_vertexSet)
      ⟨v, Graph.mem_vertexSet.2 hv⟩ (fun u hu v hv => hc.connected u (Graph.mem_vertexSet.1 hu) v (Graph.mem_vertexSet.1 hv)) hlt hord k
    rw [h1] at h
    simp only [Option.some.injEq, Prod.mk.injEq, List.cons.injEq] at h
    obtain ⟨⟨rfl, -⟩, -⟩ := h
    exact ⟨h5, h4, h2, fun S hS => h4 ▸ h3 S hS⟩

omit [LinearOrder W] [AddCommGroup W] [IsOrderedAddMonoid W] in
theorem weight_symm (ops : List (Op V W)) (u v : V) : (toAbs (history ops)).weight u v = (toAbs (history ops)).weight v u :=
  (history_spec ops).1.symm u v

omit [LinearOrder W] [AddCommGroup W] [IsOrderedAddMonoid W] in
theorem weight_mem (ops : List (Op V W)) (u v : V) (w : W) (h : (toAbs (history ops)).weight u v = some w) :
    u ∈ vertexSet (history ops) := by
  rw [weight_symm] at h
  exact Graph.mem_vertexSet.2 ((history_spec ops).1.mem_right h)

/-- C176: all functions, roots and choices give the same total. -/
theorem C176_same_total (ops : List (Op V W)) (hc : Connected ops) {t t' : W} {e e' : List (V × V)} (h : Returned ops t e)
    (h' : Returned ops t' e') : t = t' := by
  obtain ⟨-, h1, h2⟩ := returned_tree ops hc h
  obtain ⟨-, k1, k2⟩ := returned_tree ops hc h'
  rw [h1, k1]
  exact le_antisymm (h2.min _ k2.tree) (k2.min _ h2.tree)

/-- C176: if different edges have different weights, all functions, roots and choices give the same list of edges. -/
theorem C176_same_tree (ops : List (Op V W)) (hc : Connected ops)
    (hd : ∀ a b x y w, a < b → x < y → (toAbs (history ops)).weight a b = some w → (toAbs (history ops)).weight x y = some w → a = x ∧ b = y)
    {t t' : W} {e e' : List (V × V)} (h : Returned ops t e) (h' : Returned ops t' e') : e = e' := by
  obtain ⟨h1, -, h2⟩ := returned_tree ops hc h
  obtain ⟨k1, -, k2⟩ := returned_tree ops hc h'
  have he : e.toFinset = e'.toFinset := h2.unique k2 fun e f h1 h2 w h3 h4 => by
    obtain ⟨h5, h6⟩ := hd _ _ _ _ w h1 h2 h3 h4
    exact Prod.ext h5 h6
  have hnd : ∀ l : List (V × V), l.Pairwise (fun a b => toLex a < toLex b) → l.Nodup := fun l hl =>
    hl.imp fun hab => by rintro rfl; exact lt_irrefl _ hab
  have hperm : e.Perm e' := (List.perm_ext_iff_of_nodup (hnd e h1) (hnd e' k1)).2 fun x => by
    rw [← List.mem_toFinset, he, List.mem_toFinset]
  exact hperm.eq_of_pairwise (fun a b _ _ h3 h4 => absurd h4 (lt_asymm h3)) h1 k1

/-- C176 (bottlenecks): two vertices that are connected by edges of weight at most `c` are connected by such edges of the
returned tree; so the ways in the tree have the least possible maximal weight. -/
theorem C176_bottleneck (ops : List (Op V W)) (hc : Connected ops) {t : W} {e : List (V × V)} (h : Returned ops t e) (c : W) (u v : V)
    (hr : Reach (fun a b => ∃ x, (toAbs (history ops)).weight a b = some x ∧ x ≤ c) u v) :
    Reach (fun a b => ((a, b) ∈ e ∨ (b, a) ∈ e) ∧ ∃ x, (toAbs (history ops)).weight a b = some x ∧ x ≤ c) u v := by
  obtain ⟨-, -, h2⟩ := returned_tree ops hc h
  have := h2.bottleneck (weight_symm ops) (weight_mem ops) hr
  simpa only [List.mem_toFinset] using this

/-- C176 (cuts): an edge lighter than all others that leave a set of vertices is in every returned tree. -/
theorem C176_cut (ops : List (Op V W)) (hc : Connected ops) {t : W} {e : List (V × V)} (h : Returned ops t e) (X : Set V) (a b : V) (w : W)
    (hlt : a < b) (hab : (toAbs (history ops)).weight a b = some w) (hx : a ∈ X ↔ b ∉ X)
    (hmin : ∀ x y z, x < y → (toAbs (history ops)).weight x y = some z → (x ∈ X ↔ y ∉ X) → (x, y) ≠ (a, b) → w < z) : (a, b) ∈ e := by
  obtain ⟨-, -, h2⟩ := returned_tree ops hc h
  rw [← List.mem_toFinset]
  exact h2.light (e := (a, b)) hlt (weight_mem ops a b w hab) (weight_mem ops b a w (by rw [weight_symm]; exact hab)) hab X hx hmin

/-- C176 (cycles): an edge whose ends are connected by lighter edges is in no returned tree. -/
theorem C176_cycle (ops : List (Op V W)) (hc : Connected ops) {t : W} {e : List (V × V)} (h : Returned ops t e) (a b : V) (w : W)
    (hab : (toAbs (history ops)).weight a b = some w)
    (hr : Reach (fun x y => ∃ z, (toAbs (history ops)).weight x y = some z ∧ z < w) a b) : (a, b) ∉ e := by
  obtain ⟨-, -, h2⟩ := returned_tree ops hc h
  rw [← List.mem_toFinset]
  exact h2.heavy (e := (a, b)) (weight_symm ops) (weight_mem ops) hab hr

/-- C176: a new edge `(a, b, w)` makes the total smaller if `a` and `b` were not connected by edges of weight at most `w`,
and does not change it otherwise. -/
theorem C176_add_edge (ops : List (Op V W)) (hc : Connected ops) (a b : V) (w : W) (hne : a ≠ b)
    (ha : a ∈ (toAbs (history ops)).verts) (hb : b ∈ (toAbs (history ops)).verts) (hno : (toAbs (history ops)).weight a b = none)
    {t t' : W} {e e' : List (V × V)} (h : Returned ops t e) (h' : Returned (ops ++ [Op.addEdge a b w]) t' e') :
    (Reach (fun x y => ∃ z, (toAbs (history ops)).weight x y = some z ∧ z ≤ w) a b → t' = t) ∧
    (¬ Reach (fun x y => ∃ z, (toAbs (history ops)).weight x y = some z ∧ z ≤ w) a b → t' < t) := by
  have hm : toAbs (history (ops ++ [Op.addEdge a b w])) = (toAbs (history ops)).link a b w := by
    rw [(history_spec (ops ++ [Op.addEdge a b w])).2, List.foldl_append, ← (history_spec ops).2]
    rfl
  have hverts : ∀ x, x ∈ (toAbs (history (ops ++ [Op.addEdge a b w]))).verts ↔ x ∈ (toAbs (history ops)).verts := by
    intro x
    rw [hm]
    refine ⟨fun h => ?_, fun h => Or.inl h⟩
    rcases h with h | h | h
    · exact h
    · exact h ▸ ha
    · rw [Set.mem_singleton_iff] at h; exact h ▸ hb
  have hset : vertexSet (history (ops ++ [Op.addEdge a b w])) = vertexSet (history ops) := by
    ext x
    rw [Graph.mem_vertexSet, Graph.mem_vertexSet]; exact hverts x
  set A := (toAbs (history ops)).weight with hA
  set A' := (toAbs (history (ops ++ [Op.addEdge a b w]))).weight with hAA
  have hA' : ∀ x y, A' x y = if s(a, b) = s(x, y) then some w else A x y := by
    intro x y; rw [hAA, hm]; rfl
  have hold : ∀ x y z, A x y = some z → A' x y = some z := by
    intro x y z hz
    rw [hA', if_neg]
    · exact hz
    · intro hh
      rcases Sym2.eq_iff.1 hh with ⟨rfl, rfl⟩ | ⟨rfl, rfl⟩
      · rw [hno] at hz; cases hz
      · rw [hA, weight_symm, ← hA, hno] at hz; cases hz
  have hc' : Connected (ops ++ [Op.addEdge a b w]) := by
    refine ⟨fun h0 => hc.nonempty ?_, fun u hu v hv => ?_⟩
    · rw [Set.eq_empty_iff_forall_notMem] at h0 ⊢
      exact fun x hx => h0 x ((hverts x).2 hx)
    · obtain ⟨n, hn⟩ := hc.connected u ((hverts u).1 hu) v ((hverts v).1 hv)
      refine ⟨n, ?_⟩
      clear hu hv
      induction hn with
      | zero => exact Steps.zero _
      | succ _ he ih => obtain ⟨z, hz⟩ := he; exact Steps.succ ih ⟨z, hold _ _ _ hz⟩
  obtain ⟨-, e1, h2⟩ := returned_tree ops hc h
  obtain ⟨-, e2, k2⟩ := returned_tree _ hc' h'
  rw [hset] at k2
  rw [← hAA] at k2 e2
  rw [← hA] at h2 e1
  set T := e.toFinset
  set T' := e'.toFinset
  have hsymm : ∀ x y, A x y = A y x := weight_symm ops
  have hsymm' : ∀ x y, A' x y = A' y x := weight_symm _
  have hmem : ∀ x y z, A x y = some z → x ∈ vertexSet (history ops) := weight_mem ops
  -- trees of the old graph are trees of the new one, with the same weight
  have up : ∀ S, SpanningTree A (vertexSet (history ops)) S → SpanningTree A' (vertexSet (history ops)) S ∧ totalWeight A' S = totalWeight A S := by
    intro S hS
    refine ⟨⟨fun u v huv => ?_, hS.joined, hS.card⟩, Finset.sum_congr rfl fun p hp => ?_⟩
    · obtain ⟨k1, k2, k3, z, hz⟩ := hS.edge u v huv
      exact ⟨k1, k2, k3, z, hold _ _ _ hz⟩
    · obtain ⟨-, -, -, z, hz⟩ := hS.edge p.1 p.2 hp
      rw [hz, hold _ _ _ hz]
  obtain ⟨p, hp, hpn, hpw⟩ := ordered_edge (C := vertexSet (history ops)) hsymm' (a := a) (b := b) (w := w) (by rw [hA', if_pos rfl]) hne
    (Graph.mem_vertexSet.2 ha) (Graph.mem_vertexSet.2 hb)
  have hle : t' ≤ t := by
    rw [e1, e2, ← (up T h2.tree).2]
    exact k2.min _ (up T h2.tree).1
  constructor
  · intro hr
    refine le_antisymm hle ?_
    -- a tree without the new edge
    have key : ∃ S, SpanningTree A (vertexSet (history ops)) S ∧ totalWeight A S ≤ totalWeight A' T' := by
      have down : ∀ S, SpanningTree A' (vertexSet (history ops)) S → p ∉ S → SpanningTree A (vertexSet (history ops)) S ∧
          totalWeight A S = totalWeight A' S := by
        intro S hS hpS
        have hneq : ∀ q ∈ S, A' q.1 q.2 = A q.1 q.2 := by
          intro q hq
          rw [hA', if_neg]
          intro hh
          obtain ⟨k1, -⟩ := hS.edge q.1 q.2 hq
          have : q = p := by
            rcases Sym2.eq_iff.1 hh with ⟨h5, h6⟩ | ⟨h5, h6⟩ <;> rcases hp with h7 | h7 <;> subst h7
            · exact Prod.ext h5.symm h6.symm
            · have := hpn.1; dsimp only at this; rw [h5, h6] at this; exact absurd this (lt_asymm k1)
            · have := hpn.1; dsimp only at this; rw [h5, h6] at this; exact absurd this (lt_asymm k1)
            · exact Prod.ext h6.symm h5.symm
          exact hpS (this ▸ hq)
        refine ⟨⟨fun u v huv => ?_, hS.joined, hS.card⟩, Finset.sum_congr rfl fun q hq => ?_⟩
        · obtain ⟨k1, k2, k3, z, hz⟩ := hS.edge u v huv
          exact ⟨k1, k2, k3, z, by rw [← hneq (u, v) huv]; exact hz⟩
        · rw [hneq q hq]
      by_cases hpT : p ∈ T'
      · have hnj := k2.tree.not_joined_erase hpT
        have hr' : Reach (fun x y => ∃ z, A x y = some z ∧ z ≤ w) p.1 p.2 := by
          rcases hp with rfl | rfl
          · exact hr
          · obtain ⟨n, hn⟩ := hr
            exact ⟨n, hn.symm fun x y ⟨z, hz, hzw⟩ => ⟨z, by rw [hsymm]; exact hz, hzw⟩⟩
        obtain ⟨x, y, ⟨z, hz, hzw⟩, hxy⟩ := hr'.leaves (fun v => {u | Joined (T'.erase p) v u}) (fun h => hnj ((joined_classes _ _ _).1 h))
        have hxy' : x ≠ y := fun h => hxy (by rw [h])
        have hnj' : ¬ Joined (T'.erase p) x y := fun h => hxy ((joined_classes _ _ _).2 h)
        obtain ⟨f, hf, hf', hfw⟩ := ordered_edge hsymm' (hold _ _ _ hz) hxy' (hmem x y z hz) (hmem y x z (by rw [hsymm]; exact hz))
        obtain ⟨s1, s2⟩ := k2.tree.swap hpT hf' (by rcases hf with rfl | rfl; exacts [hnj', fun h => hnj' h.symm])
        have hfp : f ≠ p := by
          rintro rfl
          have : A f.1 f.2 = some z := by
            rcases hf with rfl | rfl
            · exact hz
            · rw [hsymm]; exact hz
          rcases hp with rfl | rfl
          · rw [hno] at this; cases this
          · rw [hsymm, hno] at this; cases this
        obtain ⟨d1, d2⟩ := down _ s1 (by
          rw [Finset.mem_insert]
          rintro (h5 | h5)
          · exact hfp h5.symm
          · exact absurd rfl (Finset.mem_erase.1 h5).1)
        refine ⟨_, d1, ?_⟩
        rw [d2, totalWeight_swap hpT s2, edgeWeight_eq hpw, edgeWeight_eq hfw]
        calc totalWeight A' T' - w + z ≤ totalWeight A' T' - w + w := by gcongr
          _ = totalWeight A' T' := by abel
      · obtain ⟨d1, d2⟩ := down T' k2.tree hpT
        exact ⟨T', d1, d2.le⟩
    obtain ⟨S, s1, s2⟩ := key
    rw [e1, e2]
    exact (h2.min S s1).trans s2
  · intro hr
    have hsymmR : ∀ {x y}, Reach (fun x y => ∃ z, A x y = some z ∧ z ≤ w) x y → Reach (fun x y => ∃ z, A x y = some z ∧ z ≤ w) y x :=
      fun ⟨n, hn⟩ => ⟨n, hn.symm fun x y ⟨z, hz, hzw⟩ => ⟨z, by rw [hsymm]; exact hz, hzw⟩⟩
    set κ : V → Set V := fun v => {u | Reach (fun x y => ∃ z, A x y = some z ∧ z ≤ w) v u} with hκ
    have hiff : ∀ x y, κ x = κ y ↔ Reach (fun x y => ∃ z, A x y = some z ∧ z ≤ w) x y := by
      intro x y
      constructor
      · intro h
        have : y ∈ κ x := by rw [h]; exact Reach.refl _ _
        exact this
      · intro h
        ext z
        exact ⟨fun h' => (hsymmR h).trans h', fun h' => h.trans h'⟩
    have hκp : κ p.1 ≠ κ p.2 := by
      rcases hp with rfl | rfl
      · exact fun h => hr ((hiff _ _).1 h)
      · exact fun h => hr ((hiff _ _).1 h.symm)
    obtain ⟨f, hf, hcf, hj⟩ := exchange κ (h2.tree.joined _ hpn.2.1 _ hpn.2.2.1) hκp
    obtain ⟨-, -, -, z, hz⟩ := h2.tree.edge f.1 f.2 hf
    have hwz : w < z := by
      by_contra hle
      exact hcf ((hiff _ _).2 ⟨1, Steps.succ (Steps.zero _) ⟨z, hz, not_lt.1 hle⟩⟩)
    have hnj : ¬ Joined (T.erase f) p.1 p.2 := by
      intro h
      apply h2.tree.not_joined_erase hf
      have h1 := hj f.1 f.2 (Joined.of_mem hf)
      exact h1.lift fun x y hxy => by
        rcases Finset.mem_insert.1 hxy with h5 | h5
        · rw [Prod.mk.injEq] at h5
          rw [h5.1, h5.2]; exact h
        · exact Joined.of_mem h5
    obtain ⟨u1, u2⟩ := up T h2.tree
    obtain ⟨s1, s2⟩ := u1.swap hf hpn hnj
    rw [e1, e2]
    refine (k2.min _ s1).trans_lt ?_
    rw [totalWeight_swap hf s2, edgeWeight_eq hpw, edgeWeight_eq (hold _ _ _ hz), u2]
    calc totalWeight A T - z + w < totalWeight A T - z + z := by gcongr
      _ = totalWeight A T := by abel

/-! ## Examples -/

/-- A triangle with the weights 1, 2 and 3. -/
def weightedTriangle : List (Op ℕ ℤ) := [Op.addEdges [(0, 1, 1), (1, 2, 2), (0, 2, 3)]]

theorem weightedTriangle_edges {a b : ℕ} {w : ℤ} (h : (toAbs (history weightedTriangle)).weight a b = some w) :
    (a, b, w) ∈ [(0, 1, 1), (1, 0, 1), (1, 2, 2), (2, 1, 2), (0, 2, (3 : ℤ)), (2, 0, 3)] := by
  change adj (history weightedTriangle) a b = some w at h
  rw [adj] at h
  cases e : Dict.get? (history weightedTriangle) a with
  | none => rw [e] at h; simp at h
  | some N =>
    rw [e] at h
    have hall : ∀ e ∈ history weightedTriangle, ∀ f ∈ e.2,
        (e.1, f.1, f.2) ∈ [(0, 1, 1), (1, 0, 1), (1, 2, 2), (2, 1, 2), (0, 2, (3 : ℤ)), (2, 0, 3)] := by decide +kernel
    exact hall _ (Dict.mem_of_get? e) _ (Dict.mem_of_get? h)

theorem weightedTriangle_weight {a b : ℕ} {w : ℤ} (h : adj (history weightedTriangle) a b = some w) :
    (toAbs (history weightedTriangle)).weight a b = some w := h

theorem weightedTriangle_mem (v : ℕ) : v ∈ (toAbs (history weightedTriangle)).verts ↔ v = 0 ∨ v = 1 ∨ v = 2 := by
  change v ∈ Dict.keys (history weightedTriangle) ↔ _
  rw [show Dict.keys (history weightedTriangle) = [0, 1, 2] by decide +kernel]
  simp

theorem weightedTriangle_connected : Connected weightedTriangle := by
  refine ⟨fun h => ?_, fun u hu v hv => ?_⟩
  · have : (0 : ℕ) ∈ (toAbs (history weightedTriangle)).verts := (weightedTriangle_mem 0).2 (Or.inl rfl)
    rw [h] at this
    exact this
  · by_cases huv : u = v
    · subst huv; exact Reach.refl _ _
    · refine ⟨1, Steps.succ (Steps.zero _) ?_⟩
      rw [weightedTriangle_mem] at hu hv
      rcases hu with rfl | rfl | rfl <;> rcases hv with rfl | rfl | rfl <;> first
        | exact absurd rfl huv
        | exact ⟨1, weightedTriangle_weight (by decide +kernel)⟩
        | exact ⟨2, weightedTriangle_weight (by decide +kernel)⟩
        | exact ⟨3, weightedTriangle_weight (by decide +kernel)⟩

/-- `kruskal` and `prim` from the vertex 2 return the same total and the same list, without the heavy edge. -/
example : ∃ t e, kruskal (history weightedTriangle) = some (.ok (t, e)) ∧ prim (history weightedTriangle) (some 2) = some (.ok (t, e)) ∧
    (0, 2) ∉ e ∧ (0, 1) ∈ e := by
  obtain ⟨t, e, h, -⟩ := C70_kruskal weightedTriangle weightedTriangle_connected.nonempty weightedTriangle_connected.connected
  obtain ⟨t', e', h', -⟩ := C70_prim weightedTriangle 2 ((weightedTriangle_mem 2).2 (by simp))
  have hR := Returned.kruskal h
  have hR' := Returned.prim (some 2) h'
  obtain rfl := C176_same_total _ weightedTriangle_connected hR hR'
  obtain rfl := C176_same_tree _ weightedTriangle_connected (fun a b x y w h1 h2 h3 h4 => by
    have k3 := weightedTriangle_edges h3
    have k4 := weightedTriangle_edges h4
    simp only [List.mem_cons, Prod.mk.injEq, List.not_mem_nil, or_false] at k3 k4
    omega) hR hR'
  refine ⟨t, e, h, h', ?_, ?_⟩
  · refine C176_cycle _ weightedTriangle_connected hR 0 2 3 (weightedTriangle_weight (by decide +kernel)) ⟨2, ?_⟩
    exact Steps.succ (v := 1) (Steps.succ (Steps.zero _) ⟨1, weightedTriangle_weight (by decide +kernel), by decide⟩)
      ⟨2, weightedTriangle_weight (by decide +kernel), by decide⟩
  · refine C176_cut _ weightedTriangle_connected hR {0} 0 1 1 (by decide) (weightedTriangle_weight (by decide +kernel)) (by simp)
      fun x y z h1 h2 h3 h4 => ?_
    have k := weightedTriangle_edges h2
    simp only [List.mem_cons, Prod.mk.injEq, List.not_mem_nil, or_false] at k
    have h4' : ¬ (x = 0 ∧ y = 1) := fun ⟨h5, h6⟩ => h4 (by rw [h5, h6])
    omega

/-- The way in the tree from 0 to 2 has edges of weight at most 2. -/
example (t : ℤ) (e : List (ℕ × ℕ)) (h : Returned weightedTriangle t e) :
    Reach (fun a b => ((a, b) ∈ e ∨ (b, a) ∈ e) ∧ ∃ x, (toAbs (history weightedTriangle)).weight a b = some x ∧ x ≤ 2) 0 2 := by
  refine C176_bottleneck _ weightedTriangle_connected h 2 0 2 ⟨2, ?_⟩
  exact Steps.succ (v := 1) (Steps.succ (Steps.zero _) ⟨1, weightedTriangle_weight (by decide +kernel), by decide⟩)
    ⟨2, weightedTriangle_weight (by decide +kernel), by decide⟩

/-- The edge from 0 to 2 does not change the total of the path. -/
example : ∃ t e t' e', kruskal (history [Op.addEdges [(0, 1, 1), (1, 2, (2 : ℤ))]]) = some (.ok (t, e)) ∧
    kruskal (history ([Op.addEdges [(0, 1, 1), (1, 2, (2 : ℤ))]] ++ [Op.addEdge 0 2 3])) = some (.ok (t', e')) ∧ t' = t := by
  have hw : ∀ {a b : ℕ} {w : ℤ}, adj (history [Op.addEdges [(0, 1, 1), (1, 2, (2 : ℤ))]]) a b = some w →
      (toAbs (history [Op.addEdges [(0, 1, 1), (1, 2, (2 : ℤ))]])).weight a b = some w := id
  have hm : ∀ v, v ∈ (toAbs (history [Op.addEdges [(0, 1, 1), (1, 2, (2 : ℤ))]])).verts ↔ v = 0 ∨ v = 1 ∨ v = 2 := by
    intro v
    change v ∈ Dict.keys (history [Op.addEdges [(0, 1, 1), (1, 2, (2 : ℤ))]]) ↔ _
    rw [show Dict.keys (history [Op.addEdges [(0, 1, 1), (1, 2, (2 : ℤ))]]) = [0, 1, 2] by decide +kernel]
    simp
  have r01 : EdgeOf [Op.addEdges [(0, 1, 1), (1, 2, (2 : ℤ))]] 0 1 := ⟨1, hw (by decide +kernel)⟩
  have r12 : EdgeOf [Op.addEdges [(0, 1, 1), (1, 2, (2 : ℤ))]] 1 2 := ⟨2, hw (by decide +kernel)⟩
  have r10 : EdgeOf [Op.addEdges [(0, 1, 1), (1, 2, (2 : ℤ))]] 1 0 := ⟨1, hw (by decide +kernel)⟩
  have r21 : EdgeOf [Op.addEdges [(0, 1, 1), (1, 2, (2 : ℤ))]] 2 1 := ⟨2, hw (by decide +kernel)⟩
  have hc : Connected [Op.addEdges [(0, 1, 1), (1, 2, (2 : ℤ))]] := by
    refine ⟨fun h => ?_, fun u hu v hv => ?_⟩
    · have := (hm 0).2 (Or.inl rfl)
      rw [h] at this
      exact this
    · rw [hm] at hu hv
      rcases hu with rfl | rfl | rfl <;> rcases hv with rfl | rfl | rfl <;> first
        | exact Reach.refl _ _
        | exact ⟨1, Steps.succ (Steps.zero _) (by assumption)⟩
        | exact ⟨2, Steps.succ (Steps.succ (Steps.zero _) r01) r12⟩
        | exact ⟨2, Steps.succ (Steps.succ (Steps.zero _) r21) r10⟩
  obtain ⟨t, e, h, -⟩ := C70_kruskal _ hc.nonempty hc.connected
  have hh : history ([Op.addEdges [(0, 1, 1), (1, 2, (2 : ℤ))]] ++ [Op.addEdge 0 2 3]) = history weightedTriangle := by decide +kernel
  obtain ⟨t', e', h', -⟩ := C70_kruskal weightedTriangle weightedTriangle_connected.nonempty weightedTriangle_connected.connected
  rw [← hh] at h'
  exact ⟨t, e, t', e', h, h', (C176_add_edge _ hc 0 2 3 (by decide) ((hm 0).2 (by simp)) ((hm 2).2 (by simp))
    (show adj (history [Op.addEdges [(0, 1, 1), (1, 2, (2 : ℤ))]]) 0 2 = none by decide +kernel) (.kruskal h) (.kruskal h')).1
    ⟨2, Steps.succ (v := 1) (Steps.succ (Steps.zero _) ⟨1, hw (by decide +kernel), by decide⟩) ⟨2, hw (by decide +kernel), by decide⟩⟩⟩

end Rosemary.Props
