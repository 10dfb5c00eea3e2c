import Verif.Lemmas.GabowExchange
import Verif.Lemmas.Prim
import Verif.Lemmas.Traversal
import Verif.Props.Graph

/-!
# The predecessor dictionaries of `gabow`
-/

namespace Rosemary.Gabow

open Graph UnionFind SpanningTrees Traversal Spec

variable {V W : Type} [LinearOrder V]

/-- The predecessor in a dictionary. -/
def phi (father : Links V) (v : V) : V := ((Dict.get? father v).getD none).getD v

/-- The edges of a predecessor dictionary. -/
def treeOf (C : Finset V) (root : V) (father : Links V) : Finset (V × V) := (C.erase root).image (fun v => pair v (phi father v))

/-- The dictionary gives the tree `T`, rooted at `root`. -/
structure IsTree (g : Graph V W) (C : Finset V) (root : V) (T : Finset (V × V)) (father : Links V) : Prop where
  given : Given (adj g) C root (phi father) T (vertices g) father
  wf : Dict.WF father
  keys : ∀ v, v ∈ Dict.keys father ↔ v ∈ C

section

variable {g : Graph V W} {C : Finset V} {root : V} {T : Finset (V × V)} {father : Links V}

theorem IsTree.eq (h : IsTree g C root T father) : treeOf C root father = T := by
  ext p
  rw [treeOf, Finset.mem_image, h.given.rooted.edges]
  constructor
  · rintro ⟨v, hv, rfl⟩
    rw [Finset.mem_erase] at hv
    exact ⟨v, hv.2, hv.1, rfl⟩
  · rintro ⟨v, hv, hr, rfl⟩
    exact ⟨v, Finset.mem_erase.2 ⟨hr, hv⟩, rfl⟩

/-- How such a dictionary is recognized. -/
theorem isTree_mk (hg : Good g) (hC : ∀ v, v ∈ C ↔ Mem g v) (hT : SpanningTree (adj g) C T) (hr : root ∈ C) (hwf : Dict.WF father)
    (hkeys : ∀ v, v ∈ Dict.keys father ↔ v ∈ C) (hroot : Dict.get? father root = some (some root))
    (hlink : ∀ v ∈ C, v ≠ root → ∃ u ∈ C, Dict.get? father v = some (some u))
    (hedges : ∀ p, p ∈ T ↔ ∃ v ∈ C, v ≠ root ∧ p = pair v (phi father v)) : IsTree g C root T father := by
  have hd : ∀ v ∈ C, Dict.get? father v = some (some (phi father v)) ∧ phi father v ∈ C := by
    intro v hv
    by_cases h : v = root
    · subst h
      rw [phi, hroot]
      exact ⟨rfl, hv⟩
    · obtain ⟨u, hu, he⟩ := hlink v hv h
      rw [phi, he]
      exact ⟨rfl, hu⟩
  refine ⟨⟨⟨hr, ?_, fun v hv => (hd v hv).2, hedges, hT⟩, fun v hv => ((vertices_spec hg).2 v).2 ((hC v).1 hv), fun v hv => (hd v hv).1⟩, hwf, hkeys⟩
  rw [phi, hroot]; rfl

/-- The sorted list of the edges. -/
theorem treeEdges_spec (h : IsTree g C root T father) :
    ∃ l, treeEdges father = .ok l ∧ l.Pairwise (fun a b => toLex a < toLex b) ∧ l.toFinset = T := by
  have hR := h.given.rooted
  have h1 : ∀ d : Links V, (∀ e ∈ d, e.2 = some (phi father e.1)) →
      treePairs d = .ok (((d.map Prod.fst).filter (fun v => decide (v ≠ phi father v))).map (fun v => pair v (phi father v))) := by
    intro d
    induction d with
    | nil => intro _; rfl
    | cons e d ih =>
      obtain ⟨x, o⟩ := e
      intro hd
      have h2 := hd (x, o) List.mem_cons_self
      dsimp only at h2
      subst h2
      rw [treePairs, ih (fun e he => hd e (List.mem_cons_of_mem _ he))]
      dsimp only
      rw [List.map_cons, List.filter_cons]
      by_cases hx : x ≠ phi father x
      · rw [if_pos hx, if_pos (decide_eq_true hx), List.map_cons]
      · rw [if_neg hx, if_neg (by rw [decide_eq_true_eq]; exact hx)]
  have h2 : ∀ e ∈ father, e.2 = some (phi father e.1) := by
    rintro ⟨x, o⟩ he
    have h3 := Dict.get?_of_mem h.wf he
    have h4 := h.given.dict x ((h.keys x).1 (List.mem_map.2 ⟨_, he, rfl⟩))
    rw [h3] at h4
    exact Option.some.inj h4
  have hmem : ∀ v, v ∈ (father.map Prod.fst).filter (fun v => decide (v ≠ phi father v)) ↔ v ∈ C ∧ v ≠ root := by
    intro v
    rw [List.mem_filter, decide_eq_true_eq]
    refine (and_congr_left' (h.keys v)).trans (and_congr_right (fun hv => ?_))
    constructor
    · rintro h3 rfl; exact h3 hR.fix.symm
    · intro h3; exact (hR.ne_pred hv h3).symm
  have hnd : (((father.map Prod.fst).filter (fun v => decide (v ≠ phi father v))).map (fun v => pair v (phi father v))).Nodup := by
    refine List.Nodup.map_on ?_ (List.Nodup.filter _ h.wf)
    intro a ha b hb he
    obtain ⟨a1, a2⟩ := (hmem a).1 ha
    obtain ⟨b1, b2⟩ := (hmem b).1 hb
    exact hR.pair_inj a1 a2 b1 b2 he
  obtain ⟨k1, k2⟩ := sortPairs_spec hnd
  refine ⟨_, by rw [treeEdges, h1 father h2], k1, ?_⟩
  rw [k2]
  ext p
  rw [List.mem_toFinset, List.mem_map, hR.edges]
  constructor
  · rintro ⟨v, hv, rfl⟩
    obtain ⟨a1, a2⟩ := (hmem v).1 hv
    exact ⟨v, a1, a2, rfl⟩
  · rintro ⟨v, a1, a2, rfl⟩
    exact ⟨v, (hmem v).2 ⟨a1, a2⟩, rfl⟩

theorem mem_linkTriples {d : Links V} {x y : V} {w : ℤ} : (x, y, w) ∈ linkTriples d ↔ (x, some y) ∈ d ∧ w = 1 := by
  induction d with
  | nil => simp [linkTriples]
  | cons e d ih =>
    obtain ⟨a, o⟩ := e
    cases o with
    | none =>
      rw [linkTriples, ih]
      simp
    | some b =>
      rw [linkTriples, List.mem_cons, ih, List.mem_cons]
      simp only [Prod.mk.injEq, Option.some.injEq]
      tauto

/-- The edges of `new_graph`. -/
theorem newGraph_spec (h : IsTree g C root T father) {a b : V} {p : V × V} (he : pair a b ∈ T) (hp : p.1 < p.2) (hpC : p.1 ∈ C ∧ p.2 ∈ C) :
    Good (newGraph father (a, b) p) ∧ (∀ v, Mem (newGraph father (a, b) p) v ↔ v ∈ C) ∧
      ∀ u v, (∃ w, adj (newGraph father (a, b) p) u v = some w) ↔
        (u = root ∧ v = root) ∨ pair u v ∈ insert p (T.erase (pair a b)) := by
  have hR := h.given.rooted
  have hmem : ∀ x y w, (x, y, w) ∈ linkTriples father ↔ x ∈ C ∧ y = phi father x ∧ w = 1 := by
    intro x y w
    rw [mem_linkTriples]
    constructor
    · rintro ⟨h1, h2⟩
      have h3 := (h.keys x).1 (List.mem_map.2 ⟨_, h1, rfl⟩)
      have h4 := Dict.get?_of_mem h.wf h1
      rw [h.given.dict x h3] at h4
      simp only [Option.some.injEq] at h4
      exact ⟨h3, h4.symm, h2⟩
    · rintro ⟨h1, rfl, h2⟩
      exact ⟨Dict.mem_of_get? (h.given.dict x h1), h2⟩
  have hg1 : Good (addEdges ([] : Graph V ℤ) (linkTriples father)) := good_empty.addEdges _
  have hab : a ≠ b := by
    rintro rfl
    have := (hR.tree.edge _ _ he).1
    simp [pair] at this
  refine ⟨(hg1.deleteEdge a b).addEdge _ _ _, fun v => ?_, fun u v => ?_⟩
  · rw [newGraph, mem_addEdge, mem_deleteEdge, mem_addEdges]
    constructor
    · rintro (rfl | rfl | ⟨⟨x, y, w⟩, h1, h2⟩ | h1)
      · exact hpC.1
      · exact hpC.2
      · obtain ⟨h3, h4, -⟩ := (hmem x y w).1 h1
        dsimp only at h2
        rcases h2 with h2 | h2
        · rw [h2]; exact h3
        · rw [h2, h4]; exact hR.closed x h3
      · simp [Mem, Dict.keys] at h1
    · intro hv
      exact Or.inr (Or.inr (Or.inl ⟨(v, phi father v, 1), (hmem _ _ _).2 ⟨hv, rfl, rfl⟩, Or.inl rfl⟩))
  · have hT : ∀ u v, ((u, v, (1 : ℤ)) ∈ linkTriples father ∨ (v, u, (1 : ℤ)) ∈ linkTriples father) ↔
        (u = root ∧ v = root) ∨ pair u v ∈ T := by
      intro u v
      rw [hmem, hmem, hR.edges]
      constructor
      · rintro (⟨h1, h2, -⟩ | ⟨h1, h2, -⟩)
        · by_cases hr : u = root
          · left; rw [h2, hr]; exact ⟨rfl, hR.fix⟩
          · right; exact ⟨u, h1, hr, by rw [h2]⟩
        · by_cases hr : v = root
          · left; rw [h2, hr]; exact ⟨hR.fix, rfl⟩
          · right; exact ⟨v, h1, hr, by rw [h2, pair_eq_iff]; exact Or.inr ⟨rfl, rfl⟩⟩
      · rintro (⟨rfl, rfl⟩ | ⟨x, hx, hr, h1⟩)
        · exact Or.inl ⟨hR.mem, hR.fix.symm, rfl⟩
        · rcases pair_eq_iff.1 h1 with ⟨rfl, rfl⟩ | ⟨rfl, rfl⟩
          · exact Or.inl ⟨hx, rfl, rfl⟩
          · exact Or.inr ⟨hx, rfl, rfl⟩
    have hpp : pair p.1 p.2 = p := norm_of_le hp.le
    rw [newGraph, adj_addEdge]
    by_cases h1 : (p.1 = u ∧ p.2 = v) ∨ (p.2 = u ∧ p.1 = v)
    · rw [if_pos h1]
      refine ⟨fun _ => Or.inr (Finset.mem_insert.2 (Or.inl ?_)), fun _ => ⟨1, rfl⟩⟩
      rw [← hpp, pair_eq_iff]
      exact h1.imp (fun h => ⟨h.1.symm, h.2.symm⟩) (fun h => ⟨h.1.symm, h.2.symm⟩)
    · rw [if_neg h1, adj_deleteEdge hg1]
      have hne : pair u v ≠ p := by
        intro h2
        rw [← hpp, pair_eq_iff] at h2
        exact h1 (h2.imp (fun h => ⟨h.1.symm, h.2.symm⟩) (fun h => ⟨h.1.symm, h.2.symm⟩))
      by_cases h2 : (a = u ∧ b = v) ∨ (b = u ∧ a = v)
      · rw [if_pos h2]
        constructor
        · rintro ⟨w, hw⟩; simp at hw
        · rintro (⟨rfl, rfl⟩ | h3)
          · exfalso
            rcases h2 with ⟨rfl, rfl⟩ | ⟨rfl, rfl⟩ <;> exact hab rfl
          · exfalso
            rw [Finset.mem_insert, Finset.mem_erase] at h3
            rcases h3 with h3 | h3
            · exact hne h3
            · apply h3.1
              rw [pair_eq_iff]
              exact h2.imp (fun h => ⟨h.1.symm, h.2.symm⟩) (fun h => ⟨h.1.symm, h.2.symm⟩)
      · have hne2 : pair u v ≠ pair a b := by
          intro h3
          rw [pair_eq_iff] at h3
          exact h2 (h3.imp (fun h => ⟨h.1.symm, h.2.symm⟩) (fun h => ⟨h.1.symm, h.2.symm⟩))
        rw [if_neg h2, adj_addEdges_const _ _ (1 : ℤ) (by
          rintro ⟨x, y, w⟩ hx
          exact ((hmem _ _ _).1 hx).2.2), Finset.mem_insert, Finset.mem_erase]
        by_cases h3 : (u, v, (1 : ℤ)) ∈ linkTriples father ∨ (v, u, (1 : ℤ)) ∈ linkTriples father
        · rw [if_pos h3]
          refine ⟨fun _ => ?_, fun _ => ⟨1, rfl⟩⟩
          rcases (hT u v).1 h3 with h4 | h4
          · exact Or.inl h4
          · exact Or.inr (Or.inr ⟨hne2, h4⟩)
        · rw [if_neg h3]
          constructor
          · rintro ⟨w, hw⟩; rw [adj_empty] at hw; simp at hw
          · rintro (h4 | h4 | h4)
            · exact absurd ((hT u v).2 (Or.inl h4)) h3
            · exact absurd h4 hne
            · exact absurd ((hT u v).2 (Or.inr h4.2)) h3

/-- `new_father` is the tree with the edge exchanged. -/
theorem newFather_spec (hg : Good g) (hC : ∀ v, v ∈ C ↔ Mem g v) (h : IsTree g C root T father) {a b : V} {p : V × V}
    (he : pair a b ∈ T) (hp : p.1 < p.2) (hpC : p.1 ∈ C ∧ p.2 ∈ C) (hT' : SpanningTree (adj g) C (insert p (T.erase (pair a b)))) :
    ∃ father', newFather father (a, b) p root = pure father' ∧ IsTree g C root (insert p (T.erase (pair a b))) father' := by
  obtain ⟨hG, hM, hA⟩ := newGraph_spec h he hp hpC
  set N := newGraph father (a, b) p with hN
  set T' := insert p (T.erase (pair a b)) with hTdef
  have hr := h.given.rooted.mem
  obtain ⟨r, prev, -, h2, hB⟩ := bfs_spec hG ((hM root).2 hr) none
  have h2 := h2 rfl
  have hE : ∀ u v, E N u v ↔ (u = root ∧ v = root) ∨ pair u v ∈ T' := fun u v => by rw [E, mem_nbrs, hA]
  have hEs : ∀ u v, E N u v → E N v u := by
    intro u v huv
    rw [hE] at huv ⊢
    rw [show pair v u = pair u v from pair_eq_iff.2 (Or.inr ⟨rfl, rfl⟩)]
    tauto
  have hreach : ∀ v ∈ C, v ∈ root :: r := by
    intro v hv
    have hj := hT'.joined root hr v hv
    have : Reach (E N) root v := by
      have key : ∀ x y, Joined T' x y → Reach (E N) x y := by
        intro x y hj
        induction hj with
        | rel x y hxy =>
          refine (Reach.refl _ _).step ((hE x y).2 (Or.inr ?_))
          rw [show pair x y = (x, y) from norm_of_le (p := (x, y)) (hT'.edge x y hxy).1.le]
          exact hxy
        | refl x => exact Reach.refl _ _
        | symm x y _ ih => exact ih.symm hEs
        | trans x y z _ _ ih1 ih2 => exact ih1.trans ih2
      exact key root v hj
    obtain ⟨n, hn⟩ := this.isDist
    exact hB.complete' n v hn (Or.inr rfl)
  have hkeys : ∀ v, v ∈ Dict.keys prev ↔ v ∈ C := by
    intro v
    rw [hB.keys]
    exact ⟨fun hv => (hM v).1 (hB.mem v hv), hreach v⟩
  have hwf : Dict.WF prev := by rw [Dict.WF, hB.keys]; exact hB.nodup
  set father' := Dict.set prev root (some root) with hf'
  have hget : ∀ v, Dict.get? father' v = if v = root then some (some root) else Dict.get? prev v := by
    intro v
    rw [hf', Dict.get?_set]
    by_cases hv : v = root
    · rw [if_pos hv.symm, if_pos hv]
    · rw [if_neg (Ne.symm hv), if_neg hv]
  have hlink : ∀ v ∈ C, v ≠ root → ∃ u, Dict.get? father' v = some (some u) ∧ phi father' v = u ∧ u ∈ C ∧ pair v u ∈ T' ∧
      ∃ n, IsDist (E N) root u n ∧ IsDist (E N) root v (n + 1) := by
    intro v hv hvr
    obtain ⟨o, ho⟩ := Dict.get?_isSome.2 ((hkeys v).2 hv)
    obtain ⟨u, rfl, hu, hvu, n, hn1, hn2⟩ := hB.link v o ho hvr
    have hgv : Dict.get? father' v = some (some u) := by rw [hget, if_neg hvr, ho]
    refine ⟨u, hgv, by rw [phi, hgv]; rfl, (hM u).1 (hB.mem u hu), ?_, n, hn1, hn2⟩
    rcases (hE u v).1 hvu with h3 | h3
    · exact absurd h3.2 hvr
    · rw [show pair v u = pair u v from pair_eq_iff.2 (Or.inr ⟨rfl, rfl⟩)]; exact h3
  have hinj : Set.InjOn (fun v => pair v (phi father' v)) (C.erase root : Finset V) := by
    intro v hv w hw hvw
    rw [Finset.mem_coe, Finset.mem_erase] at hv hw
    dsimp only at hvw
    rcases pair_eq_iff.1 hvw with h3 | ⟨h3, h4⟩
    · exact h3.1
    · exfalso
      obtain ⟨u1, -, e1, -, -, n1, d1, d1'⟩ := hlink v hv.2 hv.1
      obtain ⟨u2, -, e2, -, -, n2, d2, d2'⟩ := hlink w hw.2 hw.1
      rw [← e1, h4] at d1
      rw [← e2, ← h3] at d2
      have := d1.unique d2'
      have := d2.unique d1'
      omega
  have himg : treeOf C root father' = T' := by
    refine Finset.eq_of_subset_of_card_le ?_ ?_
    · intro q hq
      rw [treeOf, Finset.mem_image] at hq
      obtain ⟨v, hv, rfl⟩ := hq
      rw [Finset.mem_erase] at hv
      obtain ⟨u, -, e1, -, e2, -⟩ := hlink v hv.2 hv.1
      rw [e1]; exact e2
    · rw [treeOf, Finset.card_image_of_injOn hinj]
      have h3 := hT'.card
      have h4 := Finset.card_erase_add_one hr
      omega
  refine ⟨father', ?_, isTree_mk hg hC hT' hr ?_ ?_ ?_ ?_ ?_⟩
  · rw [newFather]
    show ExceptT.mk (breadthFirstSearchTree N root) >>= _ = _
    rw [h2]
    rfl
  · exact hwf.set _ _
  · intro v
    rw [hf', Dict.mem_keys_set, hkeys]
    constructor
    · rintro (rfl | h3)
      · exact hr
      · exact h3
    · exact Or.inr
  · rw [hget, if_pos rfl]
  · intro v hv hvr
    obtain ⟨u, e1, -, e2, -⟩ := hlink v hv hvr
    exact ⟨u, e2, e1⟩
  · intro q
    rw [← himg, treeOf, Finset.mem_image]
    constructor
    · rintro ⟨v, hv, rfl⟩
      rw [Finset.mem_erase] at hv
      exact ⟨v, hv.2, hv.1, rfl⟩
    · rintro ⟨v, hv, hvr, rfl⟩
      exact ⟨v, Finset.mem_erase.2 ⟨hvr, hv⟩, rfl⟩

end

section

variable [AddCommGroup W] [LinearOrder W] {g : Graph V W} {C : Finset V} {root : V} {T : Finset (V × V)} {father : Links V}

/-- `edges`: the edges of the graph by nondecreasing weight. -/
structure EdgeList (g : Graph V W) (edges : List (V × V)) : Prop where
  nodup : edges.Nodup
  mem : ∀ p, p ∈ edges ↔ p.1 ≤ p.2 ∧ ∃ w, adj g p.1 p.2 = some w
  sorted : edges.Pairwise (fun p q => ∀ w w', adj g p.1 p.2 = some w → adj g q.1 q.2 = some w' → w ≤ w')

/-- The edges of a list of pairs. -/
def edgesOf (l : List (V × V)) : Finset (V × V) := (l.map norm).toFinset

omit [AddCommGroup W] [LinearOrder W] in
theorem tree_weight (hg : Good g) (h : IsTree g C root T father) {v : V} (hv : v ∈ C) (hr : v ≠ root) :
    ∃ w, adj g v (phi father v) = some w ∧ adj g (pair v (phi father v)).1 (pair v (phi father v)).2 = some w := by
  have h1 := h.given.rooted.tree.edge _ _ ((h.given.rooted.edges _).2 ⟨v, hv, hr, rfl⟩)
  obtain ⟨w, hw⟩ := h1.2.2.2
  refine ⟨w, ?_, hw⟩
  rcases le_total v (phi father v) with hle | hle
  · rw [min_eq_left hle, max_eq_right hle] at hw; exact hw
  · rw [min_eq_right hle, max_eq_left hle] at hw
    rw [hg.symm]; exact hw

theorem findExchange_spec [IsOrderedAddMonoid W] (hg : Good g) (hC : ∀ v, v ∈ C ↔ Mem g v) (h : IsTree g C root T father) {edges : List (V × V)}
    (hE : EdgeList g edges) {included excluded : List (V × V)} (hi : ∀ p ∈ included, norm p ∈ T) (hnd : (included.map norm).Nodup)
    (hx : ∀ p ∈ excluded, norm p ∈ edges) :
    ∃ best, findExchange g edges father included excluded ∅ = pure (best, ∅) ∧
      IsBest g C root (phi father) T (edgesOf included) (edgesOf excluded) (fun v => edgeWeight (adj g) (v, phi father v)) edges best := by
  have hR := h.given.rooted
  have hwt : ∀ v ∈ C, v ≠ root → adj g v (phi father v) = some (edgeWeight (adj g) (v, phi father v)) := by
    intro v hv hr
    obtain ⟨w, hw, -⟩ := tree_weight hg h hv hr
    rw [edgeWeight, hw]; rfl
  obtain ⟨X, F, c1, c2, c3, c4⟩ := contract_spec h.given included (NUF.init (vertices g)) id (NInv.init _) ⟨rfl, fun u _ hne => absurd rfl hne, fun _ _ => rfl⟩
    hi hnd (fun _ _ _ _ => rfl)
  obtain ⟨best, s1, s2⟩ := scanEdges_spec h.given (I := edgesOf included) (X := edgesOf excluded) hwt edges [] X F (⊤, none, none)
    (∅ ∪ excluded.toFinset) (by
      intro p hp
      obtain ⟨h1, w, hw⟩ := (hE.mem p).1 hp
      exact ⟨h1, (hC _).2 (mem_of_adj hw), (hC _).2 (hg.mem_right hw), w, hw⟩) hE.nodup hE.sorted (by simp) (by
      intro p
      rw [Finset.empty_union, edgesOf, List.mem_toFinset, List.mem_map]
      constructor
      · rintro ⟨q, hq, rfl⟩
        rw [List.mem_toFinset] at hq
        exact ⟨⟨q, hq, rfl⟩, hx q hq⟩
      · rintro ⟨⟨q, hq, rfl⟩, -⟩
        exact ⟨q, List.mem_toFinset.2 hq, rfl⟩) c2 c3 (by
      intro u hu
      rw [c4 u hu, edgesOf, List.mem_toFinset]
      simp) ⟨fun u p w ha => by have := ha.edge; simp at this, Or.inl rfl⟩
  refine ⟨best, ?_, by simpa using s2⟩
  rw [findExchange, c1, pure_bind, s1]

/-- The second best tree of a family. -/
def Second (A : V → V → Option W) (C : Finset V) (I X T : Finset (V × V)) (weight : WithTop W) (e f : Option (V × V)) : Prop :=
  (weight = ⊤ ∧ e = none ∧ f = none ∧ ∀ S, InFamily A C I X S → S = T) ∨
  ∃ a b p, e = some (a, b) ∧ f = some p ∧ pair a b ∈ T ∧ pair a b ∉ I ∧ p ∉ T ∧ p ∉ X ∧
    InFamily A C I X (insert p (T.erase (pair a b))) ∧ weight = ((totalWeight A (insert p (T.erase (pair a b))) : W) : WithTop W) ∧
    ∀ S, InFamily A C I X S → S ≠ T → totalWeight A (insert p (T.erase (pair a b))) ≤ totalWeight A S

theorem second_spec [IsOrderedAddMonoid W] (hg : Good g) (hC : ∀ v, v ∈ C ↔ Mem g v) (h : IsTree g C root T father) {edges : List (V × V)}
    (hE : EdgeList g edges) {I X : Finset (V × V)} (hfam : InFamily (adj g) C I X T)
    (hmin : ∀ S, InFamily (adj g) C I X S → totalWeight (adj g) T ≤ totalWeight (adj g) S) {best : Best V W}
    (hb : IsBest g C root (phi father) T I X (fun v => edgeWeight (adj g) (v, phi father v)) edges best) :
    Second (adj g) C I X T ((totalWeight (adj g) T : W) + best.1) best.2.1 best.2.2 := by
  have hR := h.given.rooted
  have hew : ∀ v ∈ C, v ≠ root → edgeWeight (adj g) (pair v (phi father v)) = edgeWeight (adj g) (v, phi father v) := by
    intro v hv hr
    obtain ⟨w, h1, h2⟩ := tree_weight hg h hv hr
    rw [edgeWeight, edgeWeight, h1, h2]
  -- every other tree of the family gives an exchange
  have hother : ∀ S, InFamily (adj g) C I X S → S ≠ T → ∃ u p w, Allowed g C root (phi father) T I X edges u p ∧ adj g p.1 p.2 = some w ∧
      totalWeight (adj g) T + (w - edgeWeight (adj g) (u, phi father u)) ≤ totalWeight (adj g) S := by
    intro S hS hne
    obtain ⟨e, he, heI, f, hfT, hfX, ⟨hf1, hf2, hf3, w, hw⟩, hnj, hle⟩ := second_best hfam hmin hS hne
    obtain ⟨u, hu, hur, rfl⟩ := (hR.edges e).1 he
    refine ⟨u, f, w, ⟨hu, hur, heI, (hE.mem f).2 ⟨hf1.le, w, hw⟩, hfT, hfX, ?_⟩, hw, ?_⟩
    · rw [hR.joined_iff hu hur hf2 hf3] at hnj
      exact hnj
    · rw [hew u hu hur, edgeWeight, edgeWeight, hw, Option.getD_some] at hle
      rw [edgeWeight]
      refine le_trans (le_of_eq ?_) hle
      abel
  rcases hb.2 with hbt | ⟨u, p, w, ha, hw, hbe⟩
  · left
    rw [hbt]
    refine ⟨WithTop.add_top _, rfl, rfl, fun S hS => ?_⟩
    by_contra hne
    obtain ⟨u, p, w, ha, hw, -⟩ := hother S hS hne
    have := hb.1 u p w ha hw
    rw [hbt] at this
    exact absurd this (by simp)
  · right
    obtain ⟨hp1, _⟩ := (hE.mem p).1 ha.edge
    have hpC : p.1 ∈ C ∧ p.2 ∈ C := ⟨(hC _).2 (mem_of_adj hw), (hC _).2 (hg.mem_right hw)⟩
    have hplt : p.1 < p.2 := by
      refine lt_of_le_of_ne hp1 (fun he => ha.cross ?_)
      rw [he]
    have heT : pair u (phi father u) ∈ T := (hR.edges _).2 ⟨u, ha.mem, ha.ne, rfl⟩
    have hnj : ¬ Joined (T.erase (pair u (phi father u))) p.1 p.2 := by
      rw [hR.joined_iff ha.mem ha.ne hpC.1 hpC.2]
      exact ha.cross
    obtain ⟨hsw, hpn⟩ := hR.tree.swap heT ⟨hplt, hpC.1, hpC.2, w, hw⟩ hnj
    have htw := totalWeight_swap (A := adj g) heT hpn
    rw [hew u ha.mem ha.ne] at htw
    have hepw : edgeWeight (adj g) p = w := by rw [edgeWeight, hw]; rfl
    rw [hepw] at htw
    refine ⟨u, phi father u, p, by rw [hbe], by rw [hbe], heT, ha.inc, ha.tree, ha.exc, ⟨hsw, ?_, ?_⟩, ?_, ?_⟩
    · intro q hq
      exact Finset.mem_insert_of_mem (Finset.mem_erase.2 ⟨fun he => ha.inc (he ▸ hq), hfam.inc hq⟩)
    · intro q hq hq'
      rcases Finset.mem_insert.1 hq' with rfl | hq'
      · exact ha.exc hq
      · exact hfam.exc q hq (Finset.mem_of_mem_erase hq')
    · rw [hbe, htw]
      dsimp only
      rw [← WithTop.coe_add]
      congr 1
      abel
    · intro S hS hne
      obtain ⟨u', p', w', ha', hw', hle⟩ := hother S hS hne
      have := hb.1 u' p' w' ha' hw'
      rw [hbe] at this
      dsimp only at this
      rw [WithTop.coe_le_coe] at this
      rw [htw]
      refine le_trans ?_ hle
      rw [show totalWeight (adj g) T - edgeWeight (adj g) (u, phi father u) + w =
        totalWeight (adj g) T + (w - edgeWeight (adj g) (u, phi father u)) by abel]
      exact add_le_add_right this _

end

end Rosemary.Gabow
