import Verif.Lemmas.GabowLoop
import Verif.Props.SpanningTrees

/-!
# Properties of `gabow` (C130, C131)

Graphs are those that any sequence of `Graph` operations builds.  The weights are the elements of an ordered group.  The
comparison of the heap entries is a parameter that has to respect the weights, for nothing else matters: in Python 2 any
two entries can be compared, in Python 3 (`entryLt`) the comparison may raise.
-/

namespace Rosemary.Props

open Rosemary.Graph Rosemary.SpanningTrees Rosemary.Spec Rosemary.Gabow Rosemary.Heapq

variable {V W : Type} [LinearOrder V] [AddCommGroup W] [LinearOrder W]

theorem sortedEdges_spec {g : Graph V W} (hg : Good g) {ord : Finset (V × V) → List (V × V)}
    (hord : ∀ S, (ord S).Nodup ∧ ∀ x, x ∈ ord S ↔ x ∈ S) : EdgeList g (sortedEdges ord g) := by
  refine ⟨(pySort_perm _ _).nodup_iff.2 (hord _).1, ?_, ?_⟩
  · rintro ⟨u, v⟩
    rw [sortedEdges, mem_pySort, (hord _).2, mem_edgeSet hg]
  · refine (pairwise_pySort ?_ ?_ _).imp ?_
    · intro a b c h1 h2
      rw [decide_eq_true_eq] at h1 h2 ⊢
      exact h1.trans h2
    · intro a b
      rw [Bool.or_eq_true, decide_eq_true_eq, decide_eq_true_eq]
      exact le_total _ _
    · intro p q h w w' hw hw'
      rw [adj] at hw hw'
      rw [decide_eq_true_eq, hw, hw'] at h
      exact h

/-- What happens before the first tree is yielded. -/
theorem firstTree_spec [IsOrderedAddMonoid W] (ops : List (Op V W)) {C : Finset V} (hC : ∀ v, v ∈ C ↔ v ∈ (toAbs (history ops)).verts)
    (hne : C.Nonempty) (hconn : ∀ u ∈ C, ∀ v ∈ C, Reach (EdgeOf ops) u v) {edges : List (V × V)} (hE : EdgeList (history ops) edges) :
    ∃ root entry w tree, firstTree (history ops) edges = pure (root, [entry], ∅, w, tree) ∧
      GInv (history ops) C root edges [entry] [tree.toFinset] w ∧ SpanningTree (toAbs (history ops)).weight C tree.toFinset ∧
      (∀ S, SpanningTree (toAbs (history ops)).weight C S → w ≤ totalWeight (toAbs (history ops)).weight S) ∧
      w = totalWeight (toAbs (history ops)).weight tree.toFinset ∧ tree.Pairwise (fun a b => toLex a < toLex b) := by
  have hg := (history_spec ops).1
  have hmem : ∀ v, v ∈ C ↔ Mem (history ops) v := hC
  obtain ⟨root, rest, hv⟩ : ∃ root rest, vertices (history ops) = root :: rest := by
    obtain ⟨v, hv⟩ := hne
    have := ((vertices_spec hg).2 v).2 ((hmem v).1 hv)
    cases hl : vertices (history ops) with
    | nil => rw [hl] at this; simp at this
    | cons a l => exact ⟨a, l, rfl⟩
  have hroot : root ∈ C := (hmem root).2 (((vertices_spec hg).2 root).1 (by rw [hv]; exact List.mem_cons_self))
  have hcomp : IsComponent (history ops) root C := by
    intro v
    constructor
    · intro h; exact hconn root hroot v h
    · rintro ⟨n, hn⟩
      cases hn with
      | zero => exact hroot
      | succ _ h =>
        obtain ⟨w, hw⟩ := h
        exact (hmem _).2 (hg.mem_right hw)
  obtain ⟨P, h1, h2, h3, h4, h5, h6, h7⟩ := prim_spec hg ((hmem root).1 hroot) hcomp
  obtain ⟨total, P', q1, C', q2, q3, q4, -⟩ := C70_prim_links ops root ((hC root).1 hroot)
  have hpl : primLinks (history ops) (some root) = some (.ok (totalWeight (adj (history ops)) (linkEdges P).toFinset, P)) := by
    rw [primLinks, h1]; rfl
  rw [hpl] at q1
  simp only [Option.some.injEq, Except.ok.injEq, Prod.mk.injEq] at q1
  obtain ⟨-, rfl⟩ := q1
  have hCC : C' = C := by
    ext v; rw [q2]; exact (hcomp v).symm
  subst hCC
  set T := (linkEdges P).toFinset with hT
  have hPwf : Dict.WF P := by
    show (Dict.keys P).Nodup
    rw [h4]; exact hg.wf
  have hedge : ∀ e, e ∈ T ↔ ∃ u v, Dict.get? P u = some (some v) ∧ e = pair u v := by
    intro e
    rw [hT, List.mem_toFinset, linkEdges, List.mem_filterMap]
    constructor
    · rintro ⟨⟨u, o⟩, k2, k3⟩
      cases o with
      | none => simp at k3
      | some v =>
        simp only [Option.map_some, Option.some.injEq] at k3
        exact ⟨u, v, Dict.get?_of_mem hPwf k2, k3.symm⟩
    · rintro ⟨u, v, k1, rfl⟩
      exact ⟨(u, some v), Dict.mem_of_get? k1, rfl⟩
  set father := Dict.set P root (some root) with hf
  have hget : ∀ v, Dict.get? father v = if v = root then some (some root) else Dict.get? P v := by
    intro v
    rw [hf, Dict.get?_set]
    by_cases hv : v = root
    · rw [if_pos hv.symm, if_pos hv]
    · rw [if_neg (Ne.symm hv), if_neg hv]
  have hlink : ∀ v ∈ C', v ≠ root → ∃ u ∈ C', Dict.get? father v = some (some u) := by
    intro v hv hr
    obtain ⟨d, hd⟩ := (q3 v).1 ((hC v).1 hv)
    cases d with
    | none => exact absurd ((q4 v ((hC v).1 hv)).1 hd) (by rintro (h | h); exacts [hr h, h hv])
    | some u =>
      obtain ⟨w, hw⟩ := h7 v u hd
      exact ⟨u, (hmem u).2 (hg.mem_right hw), by rw [hget, if_neg hr, hd]⟩
  have htree : IsTree (history ops) C' root T father := by
    refine isTree_mk hg hmem h3.tree hroot (hPwf.set _ _) (fun v => ?_) (by rw [hget, if_pos rfl]) hlink (fun p => ?_)
    · rw [hf, Dict.mem_keys_set, h4, hmem v]
      constructor
      · rintro (rfl | h)
        · exact (hmem _).1 hroot
        · exact h
      · exact Or.inr
    · rw [hedge]
      constructor
      · rintro ⟨u, v, k1, rfl⟩
        have hur : u ≠ root := by rintro rfl; rw [h5] at k1; simp at k1
        obtain ⟨w, hw⟩ := h7 u v k1
        refine ⟨u, (hmem u).2 (mem_of_adj hw), hur, ?_⟩
        rw [phi, hget, if_neg hur, k1]; rfl
      · rintro ⟨v, hv, hr, rfl⟩
        obtain ⟨u, -, hu⟩ := hlink v hv hr
        rw [phi, hu]
        rw [hget, if_neg hr] at hu
        exact ⟨v, u, hu, rfl⟩
  obtain ⟨tree, t1, t2, t3⟩ := treeEdges_spec htree
  have hfam : ∀ S, SpanningTree (adj (history ops)) C' S → InFamily (adj (history ops)) C' (edgesOf []) (edgesOf []) S :=
    fun S hS => ⟨hS, by simp [edgesOf], by simp [edgesOf]⟩
  obtain ⟨best, b1, b2⟩ := entry_mk hg hmem hE htree (included := []) (excluded := []) (by simp) (by simp) (by simp) (hfam T h3.tree)
    (fun S hS => h3.min S hS.tree)
  refine ⟨root, ⟨((totalWeight (adj (history ops)) T : W) : WithTop W) + best.1, best.2.1, best.2.2, father, [], []⟩,
    totalWeight (adj (history ops)) T, tree, ?_, ⟨?_, ?_, ?_, ?_, ?_, ?_⟩, by rw [t3]; exact h3.tree, h3.min, by rw [t3]; rfl, t2⟩
  · rw [firstTree, hv]
    dsimp only
    rw [hpl]
    show (findExchange (history ops) edges father [] [] ∅ >>= _) = _
    rw [b1, pure_bind, t1]
    rfl
  · intro e he
    rw [List.mem_singleton] at he
    rw [he]; exact b2
  · intro i p hi hp hip
    simp only [List.length_singleton] at hi hp
    omega
  · exact List.pairwise_singleton _ _
  · intro S hS
    exact ⟨_, List.mem_singleton_self _, hfam S hS⟩
  · rw [List.map_singleton, t3, htree.eq]
  · intro e he
    rw [List.mem_singleton] at he
    rw [he]
    exact b2.bound (fun S hS _ => h3.min S hS.tree)

/-- The generator, and how it ends. -/
theorem gabow_spec [IsOrderedAddMonoid W] (ops : List (Op V W)) {C : Finset V} (hC : ∀ v, v ∈ C ↔ v ∈ (toAbs (history ops)).verts)
    (hne : C.Nonempty) (hconn : ∀ u ∈ C, ∀ v ∈ C, Reach (EdgeOf ops) u v) {lt : Entry V W → Entry V W → Except PyErr Bool}
    (hlt : Respects lt Entry.weight) {ord : Finset (V × V) → List (V × V)} (hord : ∀ S, (ord S).Nodup ∧ ∀ x, x ∈ ord S ↔ x ∈ S) (k : Option ℤ) :
    ∃ y ys err root edges, gabow lt ord (history ops) k = some (y :: ys, err) ∧ SpanningTree (toAbs (history ops)).weight C y.2.toFinset ∧
      (∀ S, SpanningTree (toAbs (history ops)).weight C S → y.1 ≤ totalWeight (toAbs (history ops)).weight S) ∧
      y.1 = totalWeight (toAbs (history ops)).weight y.2.toFinset ∧ y.2.Pairwise (fun a b => toLex a < toLex b) ∧
      Yields lt (history ops) C root edges (k.map (fun k => (k - 1).toNat)) [y.2.toFinset] y.1 ys err := by
  have hg := (history_spec ops).1
  have hE := sortedEdges_spec hg hord
  obtain ⟨root, entry, w, tree, f1, f2, f3, f4, f5, f6⟩ := firstTree_spec ops hC hne hconn hE
  obtain ⟨ys, err, l1, l2⟩ := gabowLoop_spec hg hC hE hlt ((edgeSet (history ops)).powerset.card + 1) (k.map (fun k => (k - 1).toNat)) [entry] [tree.toFinset] w f2
    (by simp) (by simp)
  refine ⟨(w, tree), ys, err, root, _, ?_, f3, f4, f5, f6, l2⟩
  rw [gabow, f1]
  show (gabowLoop lt (history ops) (sortedEdges ord (history ops)) root (k.map (fun k => (k - 1).toNat)) [entry] ∅ >>= fun r => some ((w, tree) :: r.1, r.2)) = _
  rw [l1]
  rfl

/-- C130: on a connected graph `gabow(graph, k)` yields spanning trees: the sorted list of the edges and the sum of their
weights.  No tree is yielded twice, the weights do not decrease, and a tree that is not yielded is not lighter than any
that is; there is at least one tree, and otherwise at most `k`.  If the generator ends normally, then `k` trees or all
trees have been yielded.  Every exception comes from a comparison of heap entries. -/
theorem C130_gabow [IsOrderedAddMonoid W] (ops : List (Op V W)) (C : Finset V) (hC : ∀ v, v ∈ C ↔ v ∈ (toAbs (history ops)).verts)
    (hne : C.Nonempty) (hconn : ∀ u ∈ C, ∀ v ∈ C, Reach (EdgeOf ops) u v) (lt : Entry V W → Entry V W → Except PyErr Bool)
    (hlt : Respects lt Entry.weight) (ord : Finset (V × V) → List (V × V)) (hord : ∀ S, (ord S).Nodup ∧ ∀ x, x ∈ ord S ↔ x ∈ S) (k : Option ℤ) :
    ∃ ys err, gabow lt ord (history ops) k = some (ys, err) ∧ ys ≠ [] ∧
      (∀ y ∈ ys, SpanningTree (toAbs (history ops)).weight C y.2.toFinset ∧ y.1 = totalWeight (toAbs (history ops)).weight y.2.toFinset ∧
        y.2.Pairwise (fun a b => toLex a < toLex b)) ∧
      (ys.map (fun y => y.2.toFinset)).Nodup ∧ (ys.map Prod.fst).Pairwise (· ≤ ·) ∧
      (∀ S, SpanningTree (toAbs (history ops)).weight C S → S ∉ ys.map (fun y => y.2.toFinset) →
        ∀ y ∈ ys, y.1 ≤ totalWeight (toAbs (history ops)).weight S) ∧
      (∀ m, k = some m → (ys.length : ℤ) ≤ max 1 m) ∧
      (err = none → (∃ m, k = some m ∧ (ys.length : ℤ) = max 1 m) ∨
        ∀ S, SpanningTree (toAbs (history ops)).weight C S → S ∈ ys.map (fun y => y.2.toFinset)) ∧
      ∀ er, err = some er → ∃ a b, lt a b = .error er := by
  obtain ⟨y, ys, err, root, edges, h1, h2, h3, h4, h5, h6⟩ := gabow_spec ops hC hne hconn hlt hord k
  refine ⟨y :: ys, err, h1, by simp, ?_, ?_, ?_, ?_, ?_, ?_, h6.error⟩
  · intro z hz
    rcases List.mem_cons.1 hz with rfl | hz
    · exact ⟨h2, h4, h5⟩
    · exact h6.tree z hz
  · exact h6.nodup
  · exact h6.sorted
  · intro S hS hn z hz
    rcases List.mem_cons.1 hz with rfl | hz
    · exact h3 S hS
    · exact h6.light S hS hn z hz
  · rintro m rfl
    have h7 : ys.length ≤ (m - 1).toNat := h6.length _ rfl
    rw [List.length_cons]
    omega
  · intro he
    rcases h6.ends he with h7 | ⟨heap, x, d, -, h7, h8⟩
    · left
      cases k with
      | none => simp at h7
      | some m =>
        simp only [Option.map_some, Option.some.injEq] at h7
        refine ⟨m, rfl, ?_⟩
        rw [List.length_cons]
        omega
    · right
      intro S hS
      exact h7.complete h8 hS

/-- C130: if all entries can be compared, then `gabow(graph)` yields all spanning trees and ends normally. -/
theorem C130_gabow_all [IsOrderedAddMonoid W] (ops : List (Op V W)) (C : Finset V) (hC : ∀ v, v ∈ C ↔ v ∈ (toAbs (history ops)).verts)
    (hne : C.Nonempty) (hconn : ∀ u ∈ C, ∀ v ∈ C, Reach (EdgeOf ops) u v) (lt : Entry V W → Entry V W → Except PyErr Bool)
    (hlt : Respects lt Entry.weight) (htot : ∀ a b, ∃ r, lt a b = .ok r)
    (ord : Finset (V × V) → List (V × V)) (hord : ∀ S, (ord S).Nodup ∧ ∀ x, x ∈ ord S ↔ x ∈ S) :
    ∃ ys, gabow lt ord (history ops) none = some (ys, none) ∧ (ys.map (fun y => y.2.toFinset)).Nodup ∧
      (∀ S, S ∈ ys.map (fun y => y.2.toFinset) ↔ SpanningTree (toAbs (history ops)).weight C S) ∧ (ys.map Prod.fst).Pairwise (· ≤ ·) ∧
      ∀ y ∈ ys, y.1 = totalWeight (toAbs (history ops)).weight y.2.toFinset ∧ y.2.Pairwise (fun a b => toLex a < toLex b) := by
  obtain ⟨ys, err, h1, -, h2, h3, h4, -, -, h5, h6⟩ := C130_gabow ops C hC hne hconn lt hlt ord hord none
  have he : err = none := by
    cases err with
    | none => rfl
    | some er =>
      obtain ⟨a, b, hab⟩ := h6 er rfl
      obtain ⟨r, hr⟩ := htot a b
      rw [hr] at hab
      simp at hab
  subst he
  refine ⟨ys, h1, h3, fun S => ⟨fun hS => ?_, fun hS => ?_⟩, h4, fun y hy => (h2 y hy).2⟩
  · obtain ⟨y, hy, rfl⟩ := List.mem_map.1 hS
    exact (h2 y hy).1
  · rcases h5 rfl with ⟨m, hm, -⟩ | h7
    · simp at hm
    · exact h7 S hS

omit [LinearOrder W] in
/-- C130: the empty graph. -/
theorem C130_gabow_empty [LinearOrder W] (ops : List (Op V W)) (h : (toAbs (history ops)).verts = ∅) (lt : Entry V W → Entry V W → Except PyErr Bool)
    (ord : Finset (V × V) → List (V × V)) (k : Option ℤ) : gabow lt ord (history ops) k = some ([], some .indexError) := by
  have hv : vertices (history ops) = [] := by
    rw [List.eq_nil_iff_forall_not_mem]
    intro v hv
    have : v ∈ (toAbs (history ops)).verts := ((vertices_spec (history_spec ops).1).2 v).1 hv
    rw [h] at this
    exact this
  rw [gabow, firstTree, hv]
  rfl

theorem treePairs_raises {d : Links V} {x : V} (h : (x, none) ∈ d) : treePairs d = .error .typeError := by
  induction d with
  | nil => simp at h
  | cons e d ih =>
    obtain ⟨y, o⟩ := e
    cases o with
    | none => rfl
    | some z =>
      rw [List.mem_cons] at h
      rw [treePairs, ih (h.resolve_left (by simp))]

/-- C130: on a graph that is not connected an exception is raised before anything is yielded: a KeyError if there is an
edge outside of the component of the first vertex, otherwise a TypeError. -/
theorem C130_gabow_disconnected [IsOrderedAddMonoid W] (ops : List (Op V W)) {a b : V} (ha : a ∈ (toAbs (history ops)).verts)
    (hb : b ∈ (toAbs (history ops)).verts) (hab : ¬ Reach (EdgeOf ops) a b) (lt : Entry V W → Entry V W → Except PyErr Bool)
    (ord : Finset (V × V) → List (V × V)) (hord : ∀ S, (ord S).Nodup ∧ ∀ x, x ∈ ord S ↔ x ∈ S) (k : Option ℤ) :
    gabow lt ord (history ops) k = some ([], some .keyError) ∨ gabow lt ord (history ops) k = some ([], some .typeError) := by
  have hg := (history_spec ops).1
  have hE := sortedEdges_spec hg hord
  obtain ⟨root, rest, hv⟩ : ∃ root rest, vertices (history ops) = root :: rest := by
    have := ((vertices_spec hg).2 a).2 ha
    cases hl : vertices (history ops) with
    | nil => rw [hl] at this; simp at this
    | cons a l => exact ⟨a, l, rfl⟩
  have hrootM : root ∈ (toAbs (history ops)).verts := ((vertices_spec hg).2 root).1 (by rw [hv]; exact List.mem_cons_self)
  obtain ⟨C, hcomp'⟩ := exists_component ops hrootM
  have hcomp : IsComponent (history ops) root C := hcomp'
  have hroot : root ∈ C := (hcomp root).2 (Reach.refl _ _)
  have hCM : ∀ v ∈ C, Mem (history ops) v := by
    intro v hv
    obtain ⟨n, hn⟩ := (hcomp v).1 hv
    cases hn with
    | zero => exact hrootM
    | succ _ h =>
      obtain ⟨w, hw⟩ := h
      exact hg.mem_right hw
  have hs : ∀ u v, (∃ w, adj (history ops) u v = some w) → ∃ w, adj (history ops) v u = some w := by
    rintro u v ⟨w, hw⟩
    exact ⟨w, (hg.symm v u).trans hw⟩
  obtain ⟨z, hzM, hzC⟩ : ∃ z, Mem (history ops) z ∧ z ∉ C := by
    by_contra hno
    push Not at hno
    exact hab ((((hcomp a).1 (hno a ha)).symm hs).trans ((hcomp b).1 (hno b hb)))
  obtain ⟨P, h1, h2, h3, h4, h5, h6, h7⟩ := prim_spec hg hrootM hcomp
  obtain ⟨total, P', q1, C', q2, q3, q4, -⟩ := C70_prim_links ops root hrootM
  have hpl : primLinks (history ops) (some root) = some (.ok (totalWeight (adj (history ops)) (linkEdges P).toFinset, P)) := by
    rw [primLinks, h1]; rfl
  rw [hpl] at q1
  simp only [Option.some.injEq, Except.ok.injEq, Prod.mk.injEq] at q1
  obtain ⟨-, rfl⟩ := q1
  have hCC : C' = C := by
    ext v; rw [q2]; exact (hcomp v).symm
  subst hCC
  set T := (linkEdges P).toFinset with hT
  have hPwf : Dict.WF P := by
    show (Dict.keys P).Nodup
    rw [h4]; exact hg.wf
  have hedge : ∀ e, e ∈ T ↔ ∃ u v, Dict.get? P u = some (some v) ∧ e = pair u v := by
    intro e
    rw [hT, List.mem_toFinset, linkEdges, List.mem_filterMap]
    constructor
    · rintro ⟨⟨u, o⟩, k2, k3⟩
      cases o with
      | none => simp at k3
      | some v =>
        simp only [Option.map_some, Option.some.injEq] at k3
        exact ⟨u, v, Dict.get?_of_mem hPwf k2, k3.symm⟩
    · rintro ⟨u, v, k1, rfl⟩
      exact ⟨(u, some v), Dict.mem_of_get? k1, rfl⟩
  set father := Dict.set P root (some root) with hf
  have hget : ∀ v, Dict.get? father v = if v = root then some (some root) else Dict.get? P v := by
    intro v
    rw [hf, Dict.get?_set]
    by_cases hv : v = root
    · rw [if_pos hv.symm, if_pos hv]
    · rw [if_neg (Ne.symm hv), if_neg hv]
  have hlink : ∀ v ∈ C', v ≠ root → ∃ u ∈ C', Dict.get? father v = some (some u) := by
    intro v hv hr
    obtain ⟨d, hd⟩ := (q3 v).1 (hCM v hv)
    cases d with
    | none => exact absurd ((q4 v (hCM v hv)).1 hd) (by rintro (h | h); exacts [hr h, h hv])
    | some u =>
      obtain ⟨w, hw⟩ := h7 v u hd
      exact ⟨u, hcomp.step hv hw, by rw [hget, if_neg hr, hd]⟩
  have hd : ∀ v ∈ C', Dict.get? father v = some (some (phi father v)) ∧ phi father v ∈ C' := by
    intro v hv
    by_cases h : v = root
    · rw [phi, hget, if_pos h]
      exact ⟨rfl, hroot⟩
    · obtain ⟨u, hu, he⟩ := hlink v hv h
      rw [phi, he]
      exact ⟨rfl, hu⟩
  have hnone : ∀ v, Mem (history ops) v → v ∉ C' → Dict.get? father v = some none := by
    intro v hv hvC
    rw [hget, if_neg (by rintro rfl; exact hvC hroot), h6 v hv hvC]
  have hG : Given (adj (history ops)) C' root (phi father) T (vertices (history ops)) father := by
    refine ⟨⟨hroot, ?_, fun v hv => (hd v hv).2, fun p => ?_, h3.tree⟩, fun v hv => ((vertices_spec hg).2 v).2 (hCM v hv), fun v hv => (hd v hv).1⟩
    · rw [phi, hget, if_pos rfl]; rfl
    · rw [hedge]
      constructor
      · rintro ⟨u, v, k1, rfl⟩
        have hur : u ≠ root := by rintro rfl; rw [h5] at k1; simp at k1
        obtain ⟨w, hw⟩ := h7 u v k1
        have huC : u ∈ C' := by
          by_contra hu
          rw [h6 u (mem_of_adj hw) hu] at k1
          simp at k1
        refine ⟨u, huC, hur, ?_⟩
        rw [phi, hget, if_neg hur, k1]; rfl
      · rintro ⟨v, hv, hr, rfl⟩
        obtain ⟨u, -, hu⟩ := hlink v hv hr
        rw [phi, hu]
        rw [hget, if_neg hr] at hu
        exact ⟨v, u, hu, rfl⟩
  have hwt : ∀ v ∈ C', v ≠ root → adj (history ops) v (phi father v) = some (edgeWeight (adj (history ops)) (v, phi father v)) := by
    intro v hv hr
    obtain ⟨u, -, hu⟩ := hlink v hv hr
    rw [phi, hu]
    rw [hget, if_neg hr] at hu
    obtain ⟨w, hw⟩ := h7 v u hu
    show adj (history ops) v u = some (edgeWeight (adj (history ops)) (v, u))
    rw [edgeWeight, hw]; rfl
  have hscan := scanEdges_raises hG hwt (sortedEdges ord (history ops)) (UnionFind.NUF.init (vertices (history ops))) id (⊤, none, none) (by
    intro p hp
    obtain ⟨k1, w, hw⟩ := (hE.mem p).1 hp
    by_cases hp1 : p.1 ∈ C'
    · exact Or.inl ⟨hp1, hcomp.step hp1 hw, w, hw⟩
    · right
      have hp2 : p.2 ∉ C' := fun h => hp1 (hcomp.step h ((hg.symm p.2 p.1).trans hw))
      exact ⟨hp1, ((vertices_spec hg).2 _).2 (mem_of_adj hw), hnone _ (mem_of_adj hw) hp1, hnone _ (hg.mem_right hw) hp2⟩)
    (UnionFind.NInv.init _) ⟨rfl, fun u _ hne => absurd rfl hne, fun _ _ => rfl⟩
  have hfe : findExchange (history ops) (sortedEdges ord (history ops)) father [] [] ∅ =
      scanEdges (history ops) father (sortedEdges ord (history ops)) ∅ (UnionFind.NUF.init (vertices (history ops))) (⊤, none, none) := by
    rw [findExchange, contract, pure_bind]
    rfl
  have hte : treeEdges father = .error .typeError := by
    rw [treeEdges, treePairs_raises (Dict.mem_of_get? (hnone z hzM hzC))]
  have hfirst : firstTree (history ops) (sortedEdges ord (history ops)) = (findExchange (history ops) (sortedEdges ord (history ops)) father [] [] ∅ >>= fun r =>
      Gabow.ofExcept (treeEdges father) >>= fun tree =>
        pure (root, [⟨((totalWeight (adj (history ops)) T : W) : WithTop W) + r.1.1, r.1.2.1, r.1.2.2, father, [], []⟩], r.2, totalWeight (adj (history ops)) T, tree)) := by
    rw [firstTree, hv]
    dsimp only
    rw [hpl]
    rfl
  rcases hscan with ⟨best, hs⟩ | hs
  · right
    rw [gabow, hfirst, hfe, hs, pure_bind, hte]
    rfl
  · left
    rw [gabow, hfirst, hfe, hs]
    rfl

/-! ## C131 -/

theorem entryLt_respects : Respects (entryLt (V := V) (W := W)) Entry.weight := by
  intro a b
  rw [entryLt]
  by_cases h : a.weight = b.weight
  · rw [if_neg (by simpa using h)]
    exact ⟨fun _ => h.le, fun _ => h.ge⟩
  · rw [if_pos h]
    constructor
    · intro h1
      simp only [Except.ok.injEq, decide_eq_true_eq] at h1
      exact h1.le
    · intro h1
      simp only [Except.ok.injEq, decide_eq_false_iff_not, not_lt] at h1
      exact h1

theorem optLt_error {a b : Option (V × V)} {er : PyErr} (h : optLt a b = .error er) : er = .typeError := by
  unfold optLt at h
  split at h
  · simp at h
  · injection h with h; exact h.symm

theorem entryLt_error {a b : Entry V W} {er : PyErr} (h : entryLt a b = .error er) : er = .typeError := by
  rw [entryLt] at h
  split at h
  · simp at h
  split at h
  · exact optLt_error h
  split at h
  · exact optLt_error h
  split at h
  · injection h with h; exact h.symm
  split at h <;> simp at h

theorem treeOf_of_dictEq {g : Graph V W} {C : Finset V} {root : V} {T : Finset (V × V)} {a b : Links V} (h : IsTree g C root T a) (he : dictEq a b = true) :
    treeOf C root a = treeOf C root b := by
  rw [dictEq, Bool.and_eq_true, List.all_eq_true] at he
  rw [treeOf, treeOf]
  refine Finset.image_congr (fun v hv => ?_)
  rw [Finset.mem_coe, Finset.mem_erase] at hv
  have h1 := h.given.dict v hv.2
  have h2 := he.2 _ (Dict.mem_of_get? h1)
  rw [decide_eq_true_eq] at h2
  dsimp only at h2 ⊢
  rw [show phi b v = phi a v by rw [phi, h2]; rfl]

/-- C131: in Python 3 `gabow(graph)` does not end normally if the graph has at least three spanning trees, and neither
does `gabow(graph, k)` for any `k` larger than their number: a TypeError is raised, at the latest when all trees have been
yielded and entries of the heap that only differ in the dictionary are compared. -/
theorem C131_type_error [IsOrderedAddMonoid W] (ops : List (Op V W)) (C : Finset V) (hC : ∀ v, v ∈ C ↔ v ∈ (toAbs (history ops)).verts)
    (hne : C.Nonempty) (hconn : ∀ u ∈ C, ∀ v ∈ C, Reach (EdgeOf ops) u v)
    (ord : Finset (V × V) → List (V × V)) (hord : ∀ S, (ord S).Nodup ∧ ∀ x, x ∈ ord S ↔ x ∈ S) (trees : Finset (Finset (V × V)))
    (htrees : ∀ S, S ∈ trees ↔ SpanningTree (toAbs (history ops)).weight C S) (h3 : 3 ≤ trees.card) (k : Option ℤ)
    (hk : ∀ m, k = some m → (trees.card : ℤ) < m) : ∃ ys, gabow entryLt ord (history ops) k = some (ys, some .typeError) := by
  obtain ⟨y, ys, err, root, edges, g1, g2, -, -, -, g6⟩ := gabow_spec ops hC hne hconn entryLt_respects hord k
  cases err with
  | some er =>
    obtain ⟨a, b, hab⟩ := g6.error er rfl
    rw [entryLt_error hab] at g1
    exact ⟨_, g1⟩
  | none =>
    exfalso
    have hsub : ([y.2.toFinset] ++ ys.map (fun y => y.2.toFinset)).toFinset ⊆ trees := by
      intro S hS
      rw [List.mem_toFinset, List.mem_append, List.mem_singleton] at hS
      rw [htrees]
      rcases hS with rfl | hS
      · exact g2
      · obtain ⟨z, hz, rfl⟩ := List.mem_map.1 hS
        exact (g6.tree z hz).1
    have hlen := Finset.card_le_card hsub
    rw [List.toFinset_card_of_nodup g6.nodup, List.length_append, List.length_map, List.length_singleton] at hlen
    rcases g6.ends rfl with h | ⟨heap, x, d, e1, e2, e3⟩
    · cases k with
      | none => simp at h
      | some m =>
        simp only [Option.map_some, Option.some.injEq] at h
        have := hk m rfl
        omega
    · have hall : trees ⊆ ([y.2.toFinset] ++ ys.map (fun y => y.2.toFinset)).toFinset := by
        intro S hS
        rw [List.mem_toFinset]
        exact e2.complete e3 ((htrees S).1 hS)
      have h4 := Finset.card_le_card hall
      rw [List.toFinset_card_of_nodup g6.nodup] at h4
      have h5 := e2.trees.length_eq
      rw [List.length_map] at h5
      have hnone : ∀ e ∈ heap, e.e = none ∧ e.f = none := by
        intro e he
        rcases (e2.ok e he).second with ⟨-, k1, k2, -⟩ | ⟨a, b, p, -, -, -, -, -, -, -, k1, -⟩
        · exact ⟨k1, k2⟩
        · rw [e3 e he] at k1
          exact absurd k1.symm (WithTop.coe_ne_top)
      have hraise : ∀ a ∈ heap, ∀ b ∈ heap, treeOf C root a.father ≠ treeOf C root b.father → ∃ er, entryLt a b = .error er := by
        intro a ha b hb hne
        refine ⟨.typeError, ?_⟩
        have h6 : dictEq a.father b.father = false := by
          rw [Bool.eq_false_iff]
          intro h7
          exact hne (treeOf_of_dictEq (e2.ok a ha).tree h7)
        rw [entryLt, if_neg (by rw [e3 a ha, e3 b hb]; simp), if_neg (by rw [(hnone a ha).1, (hnone b hb).1]; simp),
          if_neg (by rw [(hnone a ha).2, (hnone b hb).2]; simp), if_pos h6]
      have hnd := e2.nodup
      rw [← e2.trees.nodup_iff, List.Nodup, List.pairwise_map] at hnd
      obtain ⟨er, her⟩ := heappop_raises (lt := entryLt) (l := heap) (by omega)
        (hnd.imp_of_mem (fun {a b} ha hb h => ⟨hraise a ha b hb h, hraise b hb a ha (Ne.symm h)⟩))
      rw [her] at e1
      simp at e1

/-! ## A triangle -/

/-- A triangle with the weights 1, 2 and 3. -/
def triOps : List (Op ℕ ℤ) := [.addEdge 0 1 1, .addEdge 0 2 2, .addEdge 1 2 3]

theorem tri_edges : edgeSet (history triOps) = {(0, 1), (0, 2), (1, 2)} := by decide +kernel

theorem tri_verts (v : ℕ) : v ∈ ({0, 1, 2} : Finset ℕ) ↔ v ∈ (toAbs (history triOps)).verts := by
  show _ ↔ v ∈ Dict.keys (history triOps)
  rw [show Dict.keys (history triOps) = [0, 1, 2] by decide +kernel]
  simp

theorem tri_trees (S : Finset (ℕ × ℕ)) : S ∈ ({{(0, 1), (0, 2)}, {(0, 1), (1, 2)}, {(0, 2), (1, 2)}} : Finset (Finset (ℕ × ℕ))) ↔
    SpanningTree (toAbs (history triOps)).weight {0, 1, 2} S := by
  have hg := (history_spec triOps).1
  constructor
  · intro hS
    have hsub : S ⊆ edgeSet (history triOps) := by
      rw [tri_edges]
      revert hS S
      decide +kernel
    have hlt : ∀ p ∈ edgeSet (history triOps), p.1 < p.2 ∧ p.1 ∈ ({0, 1, 2} : Finset ℕ) ∧ p.2 ∈ ({0, 1, 2} : Finset ℕ) := by
      rw [tri_edges]; decide +kernel
    have hcard : S.card = 2 := by
      revert hS S
      decide +kernel
    have hj : Joined S 0 1 ∧ Joined S 0 2 := by
      simp only [Finset.mem_insert, Finset.mem_singleton] at hS
      rcases hS with rfl | rfl | rfl
      · exact ⟨Joined.of_mem (by simp), Joined.of_mem (by simp)⟩
      · exact ⟨Joined.of_mem (by simp), Joined.trans (b := 1) (Joined.of_mem (by simp)) (Joined.of_mem (by simp))⟩
      · exact ⟨Joined.trans (b := 2) (Joined.of_mem (by simp)) (Joined.of_mem (by simp) : Joined _ 1 2).symm, Joined.of_mem (by simp)⟩
    refine ⟨fun u v huv => ?_, fun u hu v hv => ?_, by rw [hcard]; rfl⟩
    · have h1 := hlt _ (hsub huv)
      exact ⟨h1.1, h1.2.1, h1.2.2, ((mem_edgeSet hg).1 (hsub huv)).2⟩
    · have h0 : ∀ u ∈ ({0, 1, 2} : Finset ℕ), Joined S 0 u := by
        intro u hu
        simp only [Finset.mem_insert, Finset.mem_singleton] at hu
        rcases hu with rfl | rfl | rfl
        · exact Joined.refl _ _
        · exact hj.1
        · exact hj.2
      exact (h0 u hu).symm.trans (h0 v hv)
  · intro hS
    have hsub : S ∈ (edgeSet (history triOps)).powerset.filter (fun S => S.card = 2) := by
      rw [Finset.mem_filter, Finset.mem_powerset]
      refine ⟨fun p hp => ?_, ?_⟩
      · obtain ⟨h1, -, -, h2⟩ := hS.edge p.1 p.2 hp
        exact (mem_edgeSet hg).2 ⟨h1.le, h2⟩
      · have := hS.card
        simp at this
        exact this
    rw [tri_edges] at hsub
    clear hS
    revert hsub S
    decide +kernel

theorem tri_connected : ∀ u ∈ ({0, 1, 2} : Finset ℕ), ∀ v ∈ ({0, 1, 2} : Finset ℕ), Reach (EdgeOf triOps) u v := by
  have hg := (history_spec triOps).1
  have h1 : EdgeOf triOps 0 1 := ((mem_edgeSet hg (u := 0) (v := 1)).1 (by rw [tri_edges]; simp)).2
  have h2 : EdgeOf triOps 0 2 := ((mem_edgeSet hg (u := 0) (v := 2)).1 (by rw [tri_edges]; simp)).2
  have hs : ∀ a b, EdgeOf triOps a b → EdgeOf triOps b a := by
    rintro a b ⟨w, hw⟩
    exact ⟨w, (hg.symm b a).trans hw⟩
  have h0 : ∀ u ∈ ({0, 1, 2} : Finset ℕ), Reach (EdgeOf triOps) 0 u := by
    intro u hu
    simp only [Finset.mem_insert, Finset.mem_singleton] at hu
    rcases hu with rfl | rfl | rfl
    · exact Reach.refl _ _
    · exact (Reach.refl _ _).step h1
    · exact (Reach.refl _ _).step h2
  intro u hu v hv
  exact ((h0 u hu).symm hs).trans (h0 v hv)

/-- Python 2: three trees, of weight 3, 4 and 5. -/
example (ord : Finset (ℕ × ℕ) → List (ℕ × ℕ)) (hord : ∀ S, (ord S).Nodup ∧ ∀ x, x ∈ ord S ↔ x ∈ S) :
    ∃ ys, gabow (fun a b => .ok (decide (a.weight < b.weight))) ord (history triOps) none = some (ys, none) ∧ ys.map Prod.fst = [3, 4, 5] := by
  obtain ⟨ys, h1, h2, h3, h4, h5⟩ := C130_gabow_all triOps {0, 1, 2} tri_verts (by simp) tri_connected (fun a b => .ok (decide (a.weight < b.weight)))
    (by
      intro a b
      constructor
      · intro h; simp only [Except.ok.injEq, decide_eq_true_eq] at h; exact h.le
      · intro h; simpa using h) (fun a b => ⟨_, rfl⟩) ord hord
  refine ⟨ys, h1, ?_⟩
  have hp : (ys.map (fun y => y.2.toFinset)).Perm [{(0, 1), (0, 2)}, {(0, 1), (1, 2)}, {(0, 2), (1, 2)}] := by
    rw [List.perm_ext_iff_of_nodup h2 (by decide +kernel)]
    intro S
    rw [h3, ← tri_trees]
    simp
  have hw : (ys.map Prod.fst).Perm [3, 4, 5] := by
    have h6 := hp.map (totalWeight (toAbs (history triOps)).weight)
    rw [List.map_map] at h6
    have h7 : ys.map Prod.fst = ys.map (totalWeight (toAbs (history triOps)).weight ∘ fun y => y.2.toFinset) :=
      List.map_congr_left (fun y hy => (h5 y hy).1)
    rw [h7]
    refine h6.trans (List.Perm.of_eq ?_)
    simp only [List.map_cons, List.map_nil]
    rw [show totalWeight (toAbs (history triOps)).weight {(0, 1), (0, 2)} = 3 by decide +kernel,
      show totalWeight (toAbs (history triOps)).weight {(0, 1), (1, 2)} = 4 by decide +kernel,
      show totalWeight (toAbs (history triOps)).weight {(0, 2), (1, 2)} = 5 by decide +kernel]
  exact hw.eq_of_pairwise (fun a b _ _ h h' => le_antisymm h h') h4 (by decide +kernel)

/-- Python 3: a TypeError. -/
example (ord : Finset (ℕ × ℕ) → List (ℕ × ℕ)) (hord : ∀ S, (ord S).Nodup ∧ ∀ x, x ∈ ord S ↔ x ∈ S) :
    ∃ ys, gabow entryLt ord (history triOps) none = some (ys, some .typeError) :=
  C131_type_error triOps {0, 1, 2} tri_verts (by simp) tri_connected ord hord _ tri_trees (by decide +kernel) none (by simp)

/-- Two vertices without an edge. -/
example (ord : Finset (ℕ × ℕ) → List (ℕ × ℕ)) (hord : ∀ S, (ord S).Nodup ∧ ∀ x, x ∈ ord S ↔ x ∈ S) (k : Option ℤ) :
    ∃ er, gabow entryLt ord (history [Op.addVertex 0, Op.addVertex 1] : Graph ℕ ℤ) k = some ([], some er) := by
  have h := C130_gabow_disconnected (W := ℤ) [Op.addVertex 0, Op.addVertex 1] (a := 0) (b := 1) (by show 0 ∈ Dict.keys _; decide +kernel)
    (by show 1 ∈ Dict.keys _; decide +kernel) (by
      rintro ⟨n, hn⟩
      cases hn with
      | succ h0 h =>
        obtain ⟨w, hw⟩ := h
        have hm : ∀ u, (toAbs (history [Op.addVertex 0, Op.addVertex 1] : Graph ℕ ℤ)).weight 1 u = none := fun u => rfl
        have h1 := ((history_spec [Op.addVertex 0, Op.addVertex 1] (W := ℤ)).1.symm 1 _).trans hw
        have h2 := hm ‹ℕ›
        rw [show (toAbs (history [Op.addVertex 0, Op.addVertex 1] : Graph ℕ ℤ)).weight 1 _ = some w from h1] at h2
        simp at h2) entryLt ord hord k
  rcases h with h | h
  · exact ⟨_, h⟩
  · exact ⟨_, h⟩

example (ord : Finset (ℕ × ℕ) → List (ℕ × ℕ)) (k : Option ℤ) :
    gabow entryLt ord (history ([] : List (Op ℕ ℤ))) k = some ([], some .indexError) :=
  C130_gabow_empty [] (by ext v; simp [toAbs, history, Dict.keys]) _ ord k

end Rosemary.Props
