import Verif.Lemmas.Graph
import Mathlib.Algebra.BigOperators.Group.Finset.Basic
import Mathlib.Algebra.BigOperators.Group.Finset.Sigma
import Mathlib.Data.Set.Card
import Mathlib.Data.Sym.Sym2
import Mathlib.Data.Nat.GCD.Basic
import Mathlib.Tactic.Ring

/-!
# Properties of `Graph`
-/

namespace Rosemary.Graph

variable {V W : Type}

/-- The mutating methods of `Graph`. -/
inductive Op (V W : Type) where
  | addVertex (u : V)
  | addVertices (us : List V)
  | deleteVertex (u : V)
  | deleteVertices (us : List V)
  | addEdge (u v : V) (w : W)
  | addEdges (es : List (V × V × W))
  | deleteEdge (u v : V)

/-- A mathematical weighted graph: a set of vertices and a partial weight function. -/
structure Abs (V W : Type) where
  verts : Set V
  weight : V → V → Option W

section

variable [DecidableEq V]

/-- One call. -/
def Op.run (g : Graph V W) : Op V W → Graph V W
  | .addVertex u => Graph.addVertex g u
  | .addVertices us => Graph.addVertices g us
  | .deleteVertex u => Graph.deleteVertex g u
  | .deleteVertices us => Graph.deleteVertices g us
  | .addEdge u v w => Graph.addEdge g u v w
  | .addEdges es => Graph.addEdges g es
  | .deleteEdge u v => Graph.deleteEdge g u v

/-- The object built by a sequence of calls on a new graph. -/
def history (ops : List (Op V W)) : Graph V W := ops.foldl Op.run []

/-- Adding an edge of weight `w` between `a` and `b`, mathematically. -/
def Abs.link (A : Abs V W) (a b : V) (w : W) : Abs V W :=
  ⟨A.verts ∪ {a, b}, fun u v => if s(a, b) = s(u, v) then some w else A.weight u v⟩

/-- What one call should do. -/
def Op.meaning (A : Abs V W) : Op V W → Abs V W
  | .addVertex u => ⟨A.verts ∪ {u}, A.weight⟩
  | .addVertices us => ⟨A.verts ∪ {u | u ∈ us}, A.weight⟩
  | .deleteVertex a => ⟨A.verts \ {a}, fun u v => if u = a ∨ v = a then none else A.weight u v⟩
  | .deleteVertices us => ⟨A.verts \ {u | u ∈ us}, fun u v => if u ∈ us ∨ v ∈ us then none else A.weight u v⟩
  | .addEdge a b w => A.link a b w
  | .addEdges es => es.foldl (fun A e => A.link e.1 e.2.1 e.2.2) A
  | .deleteEdge a b => ⟨A.verts, fun u v => if s(a, b) = s(u, v) then none else A.weight u v⟩

/-- The mathematical graph of a `Graph` object: `u in G.graph_dict` and `G.graph_dict[u].get(v)`. -/
def toAbs (g : Graph V W) : Abs V W := ⟨{u | u ∈ Dict.keys g}, fun u v => (Dict.get? g u).bind (fun N => Dict.get? N v)⟩

theorem toAbs_addEdge (g : Graph V W) (a b : V) (w : W) : toAbs (Graph.addEdge g a b w) = (toAbs g).link a b w := by
  rw [toAbs, toAbs, Abs.link, Abs.mk.injEq]
  constructor
  · ext u
    have := mem_addEdge g a b w u
    simp only [Mem] at this
    simp only [Set.mem_setOf_eq, Set.mem_union, Set.mem_insert_iff, Set.mem_singleton_iff]
    tauto
  · funext u v
    have := adj_addEdge g a b w u v
    rw [adj] at this
    rw [this]
    by_cases h : (a = u ∧ b = v) ∨ (b = u ∧ a = v)
    · rw [if_pos h, if_pos]
      rw [Sym2.eq_iff]; tauto
    · rw [if_neg h, if_neg]
      · rfl
      · rw [Sym2.eq_iff]; tauto

theorem run_good {g : Graph V W} (hg : Good g) (op : Op V W) : Good (op.run g) := by
  cases op with
  | addVertex u => exact hg.addVertex u
  | addVertices us => exact hg.addVertices us
  | deleteVertex u => exact hg.deleteVertex u
  | deleteVertices us => exact hg.deleteVertices us
  | addEdge u v w => exact hg.addEdge u v w
  | addEdges es => exact hg.addEdges es
  | deleteEdge u v => exact hg.deleteEdge u v

theorem toAbs_run {g : Graph V W} (hg : Good g) (op : Op V W) : toAbs (op.run g) = op.meaning (toAbs g) := by
  cases op with
  | addVertex a =>
    rw [Op.run, Op.meaning, toAbs, toAbs, Abs.mk.injEq]
    constructor
    · ext u
      have := mem_addVertex g a u
      simp only [Mem] at this
      simp only [Set.mem_setOf_eq, Set.mem_union, Set.mem_singleton_iff]
      tauto
    · funext u v; exact adj_addVertex g a u v
  | addVertices us =>
    rw [Op.run, Op.meaning, toAbs, toAbs, Abs.mk.injEq]
    constructor
    · ext u
      have := mem_addVertices g us u
      simp only [Mem] at this
      simp only [Set.mem_setOf_eq, Set.mem_union]
      tauto
    · funext u v; exact adj_addVertices g us u v
  | deleteVertex a =>
    rw [Op.run, Op.meaning, toAbs, toAbs, Abs.mk.injEq]
    constructor
    · ext u
      have := mem_deleteVertex hg a u
      simp only [Mem] at this
      simp only [Set.mem_setOf_eq, Set.mem_diff, Set.mem_singleton_iff]
      tauto
    · funext u v; exact adj_deleteVertex hg a u v
  | deleteVertices us =>
    rw [Op.run, Op.meaning, toAbs, toAbs, Abs.mk.injEq]
    constructor
    · ext u
      have := mem_deleteVertices hg us u
      simp only [Mem] at this
      simp only [Set.mem_setOf_eq, Set.mem_diff]
      tauto
    · funext u v; exact adj_deleteVertices hg us u v
  | addEdge a b w => exact toAbs_addEdge g a b w
  | addEdges es =>
    rw [Op.run, Op.meaning]
    clear hg
    induction es generalizing g with
    | nil => rfl
    | cons e es ih =>
      obtain ⟨a, b, w⟩ := e
      rw [Graph.addEdges, ih, toAbs_addEdge, List.foldl_cons]
  | deleteEdge a b =>
    rw [Op.run, Op.meaning, toAbs, toAbs, Abs.mk.injEq]
    constructor
    · ext u
      have := mem_deleteEdge g a b u
      simp only [Mem] at this
      simp only [Set.mem_setOf_eq]
      tauto
    · funext u v
      have := adj_deleteEdge hg a b u v
      rw [adj] at this
      rw [this]
      by_cases h : (a = u ∧ b = v) ∨ (b = u ∧ a = v)
      · rw [if_pos h, if_pos]
        rw [Sym2.eq_iff]; tauto
      · rw [if_neg h, if_neg]
        · rfl
        · rw [Sym2.eq_iff]; tauto

theorem history_spec (ops : List (Op V W)) :
    Good (history ops) ∧ toAbs (history ops) = ops.foldl Op.meaning ⟨∅, fun _ _ => none⟩ := by
  have key : ∀ (ops : List (Op V W)) (g : Graph V W), Good g →
      Good (ops.foldl Op.run g) ∧ toAbs (ops.foldl Op.run g) = ops.foldl Op.meaning (toAbs g) := by
    intro ops
    induction ops with
    | nil => intro g hg; exact ⟨hg, rfl⟩
    | cons op ops ih =>
      intro g hg
      rw [List.foldl_cons, List.foldl_cons, ← toAbs_run hg]
      exact ih _ (run_good hg op)
  have h := key ops [] good_empty
  refine ⟨h.1, h.2.trans ?_⟩
  congr 1
  rw [toAbs, Abs.mk.injEq]
  exact ⟨by ext u; simp [Dict.keys], rfl⟩

end

/-! ### Sets of vertices and edges -/

section Ordered

variable [LinearOrder V]

theorem mem_edgeSet {g : Graph V W} (hg : Good g) {u v : V} : (u, v) ∈ edgeSet g ↔ u ≤ v ∧ ∃ w, adj g u v = some w := by
  rw [edgeSet, List.mem_toFinset, List.mem_flatMap]
  constructor
  · rintro ⟨⟨a, N⟩, he, h⟩
    obtain ⟨⟨b, w⟩, hf, h⟩ := List.mem_map.1 h
    rw [List.mem_filter, decide_eq_true_eq, not_lt] at hf
    simp only [Prod.mk.injEq] at h
    obtain ⟨rfl, rfl⟩ := h
    have h1 := Dict.get?_of_mem hg.wf he
    refine ⟨hf.2, w, ?_⟩
    rw [adj, h1]
    exact Dict.get?_of_mem (hg.inner _ _ h1) hf.1
  · rintro ⟨h, w, hw⟩
    rw [adj, Option.bind_eq_some_iff] at hw
    obtain ⟨N, h1, h2⟩ := hw
    refine ⟨(u, N), Dict.mem_of_get? h1, List.mem_map.2 ⟨(v, w), ?_, rfl⟩⟩
    rw [List.mem_filter, decide_eq_true_eq, not_lt]
    exact ⟨Dict.mem_of_get? h2, h⟩

theorem mem_edgeSetWeights [DecidableEq W] {g : Graph V W} (hg : Good g) {u v : V} {w : W} :
    (u, v, w) ∈ edgeSetWeights g ↔ u ≤ v ∧ adj g u v = some w := by
  rw [edgeSetWeights, List.mem_toFinset, List.mem_flatMap]
  constructor
  · rintro ⟨⟨a, N⟩, he, h⟩
    obtain ⟨⟨b, w'⟩, hf, h⟩ := List.mem_map.1 h
    rw [List.mem_filter, decide_eq_true_eq, not_lt] at hf
    simp only [Prod.mk.injEq] at h
    obtain ⟨rfl, rfl, rfl⟩ := h
    have h1 := Dict.get?_of_mem hg.wf he
    refine ⟨hf.2, ?_⟩
    rw [adj, h1]
    exact Dict.get?_of_mem (hg.inner _ _ h1) hf.1
  · rintro ⟨h, hw⟩
    rw [adj, Option.bind_eq_some_iff] at hw
    obtain ⟨N, h1, h2⟩ := hw
    refine ⟨(u, N), Dict.mem_of_get? h1, List.mem_map.2 ⟨(v, w), ?_, rfl⟩⟩
    rw [List.mem_filter, decide_eq_true_eq, not_lt]
    exact ⟨Dict.mem_of_get? h2, h⟩

theorem handshake {g : Graph V W} (hg : Good g) (us : List V) (hnd : us.Nodup) (hus : ∀ u, u ∈ us ↔ Mem g u) :
    (us.map (fun u => (nbrs g u).length)).sum + (us.filter (fun u => u ∈ nbrs g u)).length = 2 * numEdges g := by
  classical
  set vs := us.toFinset with hvs
  have hmv : ∀ u, u ∈ vs ↔ Mem g u := fun u => by rw [hvs, List.mem_toFinset, hus]
  set A := (vs ×ˢ vs).filter (fun p => p.2 ∈ nbrs g p.1) with hA
  have hmA : ∀ u v, (u, v) ∈ A ↔ v ∈ nbrs g u := by
    intro u v
    rw [hA, Finset.mem_filter, Finset.mem_product, and_iff_right_iff_imp]
    intro h
    obtain ⟨w, hw⟩ := mem_nbrs.1 h
    exact ⟨(hmv u).2 (mem_of_adj hw), (hmv v).2 (hg.mem_right hw)⟩
  have hsum : (us.map (fun u => (nbrs g u).length)).sum = A.card := by
    rw [← List.sum_toFinset _ hnd, ← hvs, hA, Finset.card_filter, Finset.sum_product]
    refine Finset.sum_congr rfl fun u _ => ?_
    rw [← Finset.card_filter, ← List.toFinset_card_of_nodup (nodup_nbrs hg u)]
    congr 1
    ext v
    rw [Finset.mem_filter, List.mem_toFinset, iff_and_self]
    exact fun h => (hmv v).2 (mem_of_mem_nbrs hg h)
  have hloop : (us.filter (fun u => u ∈ nbrs g u)).length = (A.filter (fun p => p.1 = p.2)).card := by
    rw [← List.toFinset_card_of_nodup (List.Nodup.filter _ hnd)]
    refine Finset.card_bij (fun u _ => (u, u)) ?_ ?_ ?_
    · intro u hu
      rw [List.mem_toFinset, List.mem_filter, decide_eq_true_eq] at hu
      rw [Finset.mem_filter, hmA]
      exact ⟨hu.2, rfl⟩
    · intro a _ b _ h; exact (Prod.mk.inj h).1
    · rintro ⟨a, b⟩ h
      rw [Finset.mem_filter, hmA] at h
      obtain ⟨h, e⟩ := h
      dsimp only at e
      subst e
      refine ⟨a, ?_, rfl⟩
      rw [List.mem_toFinset, List.mem_filter, decide_eq_true_eq, hus]
      exact ⟨mem_of_mem_nbrs hg h, h⟩
  have hedge : edgeSet g = A.filter (fun p => p.1 ≤ p.2) := by
    ext ⟨u, v⟩
    rw [mem_edgeSet hg, Finset.mem_filter, hmA, mem_nbrs, and_comm]
  have h1 : (A.filter (fun p => p.1 ≤ p.2)).card + (A.filter (fun p => ¬ p.1 ≤ p.2)).card = A.card :=
    Finset.card_filter_add_card_filter_not _
  have h2 : ((A.filter (fun p => p.1 ≤ p.2)).filter (fun p => p.1 = p.2)).card +
      ((A.filter (fun p => p.1 ≤ p.2)).filter (fun p => ¬ p.1 = p.2)).card = (A.filter (fun p => p.1 ≤ p.2)).card :=
    Finset.card_filter_add_card_filter_not _
  have h3 : (A.filter (fun p => p.1 ≤ p.2)).filter (fun p => p.1 = p.2) = A.filter (fun p => p.1 = p.2) := by
    rw [Finset.filter_filter]
    refine Finset.filter_congr fun p _ => ?_
    exact ⟨fun h => h.2, fun h => ⟨le_of_eq h, h⟩⟩
  have h4 : ((A.filter (fun p => p.1 ≤ p.2)).filter (fun p => ¬ p.1 = p.2)).card =
      (A.filter (fun p => ¬ p.1 ≤ p.2)).card := by
    refine Finset.card_bij (fun p _ => (p.2, p.1)) ?_ ?_ ?_
    · rintro ⟨u, v⟩ h
      simp only [Finset.mem_filter, hmA] at h ⊢
      rw [mem_nbrs_symm hg]
      exact ⟨h.1.1, not_le.2 (lt_of_le_of_ne h.1.2 h.2)⟩
    · rintro ⟨a, b⟩ _ ⟨c, d⟩ _ h
      rw [Prod.mk.injEq] at h ⊢
      exact ⟨h.2, h.1⟩
    · rintro ⟨u, v⟩ h
      simp only [Finset.mem_filter, hmA] at h
      refine ⟨(v, u), ?_, rfl⟩
      simp only [Finset.mem_filter, hmA]
      rw [mem_nbrs_symm hg]
      exact ⟨⟨h.1, (not_le.1 h.2).le⟩, (not_le.1 h.2).ne⟩
  rw [hsum, hloop, numEdges, hedge]
  rw [h3] at h2
  omega

theorem complementInner_spec {g : Graph V W} (w : W) (u : V) (vs : List V) (hvs : ∀ v ∈ vs, Mem g v) :
    ∀ h : Graph V W, complementInner g w u h vs =
      .ok (addEdges h ((vs.filter (fun v => u ∉ nbrs g v)).map (fun v => (u, v, w)))) := by
  induction vs with
  | nil => intro h; rfl
  | cons v vs ih =>
    intro h
    obtain ⟨N, hN⟩ := mem_iff.1 (hvs v List.mem_cons_self)
    rw [complementInner, hN]
    dsimp only
    have e : nbrs g v = Dict.keys N := by rw [nbrs, hN]; rfl
    cases hu : Dict.get? N u with
    | none =>
      rw [List.filter_cons_of_pos (by rw [e]; simpa using Dict.get?_eq_none.1 hu)]
      exact ih (fun v hv => hvs v (List.mem_cons_of_mem _ hv)) _
    | some x =>
      rw [List.filter_cons_of_neg (by rw [e]; simpa using Dict.get?_isSome.1 ⟨x, hu⟩)]
      exact ih (fun v hv => hvs v (List.mem_cons_of_mem _ hv)) _

theorem addEdges_append (g : Graph V W) (l m : List (V × V × W)) : addEdges g (l ++ m) = addEdges (addEdges g l) m := by
  induction l generalizing g with
  | nil => rfl
  | cons e l ih => obtain ⟨a, b, w⟩ := e; exact ih _

theorem complementOuter_spec {g : Graph V W} (w : W) (us : List V) : ∀ (before : List V) (h : Graph V W),
    (before ++ us).Nodup → (∀ v ∈ before ++ us, Mem g v) →
    ∃ es, complementOuter g w h before us = .ok (addEdges h es) ∧ (∀ e ∈ es, e.2.2 = w) ∧
      ∀ u v x, (u, v, x) ∈ es ↔ x = w ∧ ∃ l m, us = l ++ u :: m ∧ v ∈ before ++ l ∧ u ∉ nbrs g v := by
  induction us with
  | nil => intro before h _ _; exact ⟨[], rfl, by simp, by simp⟩
  | cons a us ih =>
    intro before h hnd hm
    rw [complementOuter, complementInner_spec w a before (fun v hv => hm v (List.mem_append_left _ hv))]
    dsimp only
    obtain ⟨es, h1, h2, h3⟩ := ih (before ++ [a]) (addEdges h ((before.filter (fun v => a ∉ nbrs g v)).map (fun v => (a, v, w))))
      (by simpa using hnd) (by simpa using hm)
    refine ⟨(before.filter (fun v => a ∉ nbrs g v)).map (fun v => (a, v, w)) ++ es, by rw [h1, addEdges_append], ?_, ?_⟩
    · intro e he
      rcases List.mem_append.1 he with he | he
      · obtain ⟨v, -, rfl⟩ := List.mem_map.1 he; rfl
      · exact h2 e he
    · intro u v x
      rw [List.mem_append, List.mem_map, h3]
      simp only [List.mem_filter, decide_eq_true_eq, Prod.mk.injEq]
      constructor
      · rintro (⟨v', ⟨hv, hn⟩, rfl, rfl, rfl⟩ | ⟨rfl, l, m, rfl, hv, hn⟩)
        · exact ⟨rfl, [], us, rfl, by simpa using hv, hn⟩
        · exact ⟨rfl, a :: l, m, rfl, by simpa using hv, hn⟩
      · rintro ⟨rfl, l, m, e, hv, hn⟩
        cases l with
        | nil =>
          rw [List.nil_append, List.cons.injEq] at e
          obtain ⟨rfl, rfl⟩ := e
          left
          exact ⟨v, ⟨by simpa using hv, hn⟩, rfl, rfl, rfl⟩
        | cons b l =>
          rw [List.cons_append, List.cons.injEq] at e
          obtain ⟨rfl, rfl⟩ := e
          right
          exact ⟨rfl, l, m, rfl, by simpa using hv, hn⟩

theorem vertices_spec {g : Graph V W} (hg : Good g) : (vertices g).Nodup ∧ ∀ u, u ∈ vertices g ↔ Mem g u :=
  ⟨(pySort_perm _ _).nodup_iff.2 hg.wf, fun _ => mem_pySort⟩

theorem complement_spec {g : Graph V W} (hg : Good g) [DecidableEq W] (w : W) :
    ∃ h, complement g w = .ok h ∧ Good h ∧ (∀ u, Mem h u ↔ Mem g u) ∧
      ∀ u v x, adj h u v = some x ↔ x = w ∧ Mem g u ∧ Mem g v ∧ u ≠ v ∧ adj g u v = none := by
  obtain ⟨hnd, hmem⟩ := vertices_spec hg
  obtain ⟨es, h1, h2, h3⟩ := complementOuter_spec (g := g) w (vertices g) [] (addVertices [] (vertices g))
    (by simpa using hnd) (by simpa using fun v hv => (hmem v).1 hv)
  have hes : ∀ u v, (u, v, w) ∈ es ∨ (v, u, w) ∈ es ↔ Mem g u ∧ Mem g v ∧ u ≠ v ∧ adj g u v = none := by
    have hno : ∀ u v, u ∉ nbrs g v ↔ adj g u v = none := by
      intro u v
      rw [mem_nbrs, hg.symm, ← Option.isSome_iff_exists]
      simp
    intro u v
    rw [h3, h3]
    simp only [true_and, List.nil_append, hno]
    constructor
    · rintro (⟨l, m, e, hv, hn⟩ | ⟨l, m, e, hv, hn⟩)
      · rw [e] at hnd hmem
        refine ⟨(hmem u).1 (by simp), (hmem v).1 (by simp [hv]), ?_, hn⟩
        rintro rfl
        exact (List.nodup_append.1 hnd).2.2 u hv u (by simp) rfl
      · rw [e] at hnd hmem
        refine ⟨(hmem u).1 (by simp [hv]), (hmem v).1 (by simp), ?_, by rw [hg.symm]; exact hn⟩
        rintro rfl
        exact (List.nodup_append.1 hnd).2.2 u hv u (by simp) rfl
    · rintro ⟨hu, hv, hne, hn⟩
      obtain ⟨l, m, e⟩ := List.append_of_mem ((hmem u).2 hu)
      have hv' := (hmem v).2 hv
      rw [e, List.mem_append, List.mem_cons] at hv'
      rcases hv' with hv' | rfl | hv'
      · exact Or.inl ⟨l, m, e, hv', hn⟩
      · exact absurd rfl hne
      · obtain ⟨l', m', e'⟩ := List.append_of_mem hv'
        exact Or.inr ⟨l ++ u :: l', m', by rw [e, e']; simp, by simp, by rw [hg.symm]; exact hn⟩
  refine ⟨_, h1, (good_empty.addVertices _).addEdges _, ?_, ?_⟩
  · intro u
    rw [mem_addEdges, mem_addVertices, hmem]
    constructor
    · rintro (⟨⟨a, b, x⟩, he, hu⟩ | hu | hu)
      · have hx : x = w := h2 _ he
        subst hx
        have := (hes a b).1 (Or.inl he)
        rcases hu with rfl | rfl
        · exact this.1
        · exact this.2.1
      · exact hu
      · simp [Mem, Dict.keys] at hu
    · exact fun h => Or.inr (Or.inl h)
  · intro u v x
    rw [adj_addEdges_const _ _ w h2, adj_addVertices, adj_empty, ← hes u v]
    by_cases h : (u, v, w) ∈ es ∨ (v, u, w) ∈ es
    · rw [if_pos h]; simp [h, eq_comm]
    · rw [if_neg h]; simp [h]

end Ordered

/-! ### Induced subgraphs and extreme degrees -/

section Basic

variable [DecidableEq V]

theorem inducedInner_spec {g : Graph V W} (hg : Good g) (S : Finset V) (u : V) (hu : u ∈ S) (vs : List V)
    (hvs : ∀ v ∈ vs, v ∈ S ∧ ∃ w, adj g u v = some w) : ∀ h : Graph V W, Good h → (∀ a, Mem h a ↔ a ∈ S) →
    (∀ a b x, adj h a b = some x → a ∈ S ∧ b ∈ S ∧ adj g a b = some x) →
    ∃ h', inducedInner g u h vs = .ok h' ∧ Good h' ∧ (∀ a, Mem h' a ↔ a ∈ S) ∧
      (∀ a b x, adj h' a b = some x → a ∈ S ∧ b ∈ S ∧ adj g a b = some x) ∧
      (∀ a b x, adj h a b = some x → adj h' a b = some x) ∧ ∀ v ∈ vs, adj h' u v = adj g u v := by
  induction vs with
  | nil => intro h h1 h2 h3; exact ⟨h, rfl, h1, h2, h3, fun _ _ _ h => h, by simp⟩
  | cons v vs ih =>
    intro h h1 h2 h3
    obtain ⟨hv, w, hw⟩ := hvs v List.mem_cons_self
    have hw' : (Dict.get? g u).bind (fun N => Dict.get? N v) = some w := hw
    rw [inducedInner, hw']
    dsimp only
    have hval : ∀ a b, (u = a ∧ v = b) ∨ (v = a ∧ u = b) → adj g a b = some w := by
      rintro a b (⟨rfl, rfl⟩ | ⟨rfl, rfl⟩)
      · exact hw
      · rw [hg.symm]; exact hw
    obtain ⟨h', g1, g2, g3, g4, g5, g6⟩ := ih (fun v hv => hvs v (List.mem_cons_of_mem _ hv)) (addEdge h u v w)
      (h1.addEdge u v w) (by
        intro a
        rw [mem_addEdge, h2]
        constructor
        · rintro (rfl | rfl | h) <;> assumption
        · exact fun h => Or.inr (Or.inr h)) (by
        intro a b x hx
        rw [adj_addEdge] at hx
        split_ifs at hx with hab
        · injection hx with hx
          subst hx
          refine ⟨?_, ?_, hval a b hab⟩ <;> rcases hab with ⟨rfl, rfl⟩ | ⟨rfl, rfl⟩ <;> assumption
        · exact h3 a b x hx)
    refine ⟨h', g1, g2, g3, g4, ?_, ?_⟩
    · intro a b x hx
      apply g5
      rw [adj_addEdge]
      by_cases hab : (u = a ∧ v = b) ∨ (v = a ∧ u = b)
      · rw [if_pos hab, ← hval a b hab, (h3 a b x hx).2.2]
      · rw [if_neg hab]; exact hx
    · intro v' hv'
      rcases List.mem_cons.1 hv' with rfl | hv'
      · rw [hw]
        apply g5
        rw [adj_addEdge, if_pos (Or.inl ⟨rfl, rfl⟩)]
      · exact g6 v' hv'

theorem inducedOuter_spec {ord : Finset V → List V} (hord : ∀ S, (ord S).Nodup ∧ ∀ x, x ∈ ord S ↔ x ∈ S)
    {g : Graph V W} (hg : Good g) (S : Finset V) (us : List V) (hus : ∀ u ∈ us, u ∈ S ∧ Mem g u) :
    ∀ h : Graph V W, Good h → (∀ a, Mem h a ↔ a ∈ S) →
    (∀ a b x, adj h a b = some x → a ∈ S ∧ b ∈ S ∧ adj g a b = some x) →
    ∃ h', inducedOuter ord g S h us = .ok h' ∧ Good h' ∧ (∀ a, Mem h' a ↔ a ∈ S) ∧
      (∀ a b x, adj h' a b = some x → a ∈ S ∧ b ∈ S ∧ adj g a b = some x) ∧
      (∀ a b x, adj h a b = some x → adj h' a b = some x) ∧ ∀ u ∈ us, ∀ v ∈ S, adj h' u v = adj g u v := by
  induction us with
  | nil => intro h h1 h2 h3; exact ⟨h, rfl, h1, h2, h3, fun _ _ _ h => h, by simp⟩
  | cons u us ih =>
    intro h h1 h2 h3
    obtain ⟨hu, hum⟩ := hus u List.mem_cons_self
    rw [inducedOuter, neighbors_eq hum]
    dsimp only
    obtain ⟨h', g1, g2, g3, g4, g5, g6⟩ := inducedInner_spec hg S u hu (ord (S ∩ (nbrs g u).toFinset)) (by
      intro v hv
      rw [(hord _).2, Finset.mem_inter, List.mem_toFinset, mem_nbrs] at hv
      exact hv) h h1 h2 h3
    rw [g1]
    dsimp only
    obtain ⟨h'', k1, k2, k3, k4, k5, k6⟩ := ih (fun u hu => hus u (List.mem_cons_of_mem _ hu)) h' g2 g3 g4
    refine ⟨h'', k1, k2, k3, k4, fun a b x hx => k5 a b x (g5 a b x hx), ?_⟩
    intro u' hu' v hv
    rcases List.mem_cons.1 hu' with rfl | hu'
    · cases hx : adj g u' v with
      | none =>
        cases hy : adj h'' u' v with
        | none => rfl
        | some y => have := (k4 u' v y hy).2.2; rw [hx] at this; simp at this
      | some x =>
        apply k5
        rw [g6 v, hx]
        rw [(hord _).2, Finset.mem_inter, List.mem_toFinset, mem_nbrs]
        exact ⟨hv, x, hx⟩
    · exact k6 u' hu' v hv

theorem foldl_set_spec (l : List V) : ∀ h : Graph V W, Good h → (∀ u v, adj h u v = none) →
    Good (l.foldl (fun h v => Dict.set h v []) h) ∧ (∀ u v, adj (l.foldl (fun h v => Dict.set h v []) h) u v = none) ∧
      ∀ u, Mem (l.foldl (fun h v => Dict.set h v []) h) u ↔ u ∈ l ∨ Mem h u := by
  induction l with
  | nil => intro h h1 h2; exact ⟨h1, h2, by simp⟩
  | cons a l ih =>
    intro h h1 h2
    have e : ∀ u v, adj (Dict.set h a []) u v = none := by
      intro u v
      rw [adj, Dict.get?_set]
      split_ifs
      · rfl
      · exact h2 u v
    have hin : ∀ u N, Dict.get? (Dict.set h a []) u = some N → Dict.WF N := by
      intro u N hN
      rw [Dict.get?_set] at hN
      split_ifs at hN
      · injection hN with hN; subst hN; exact List.nodup_nil
      · exact h1.inner u N hN
    obtain ⟨g1, g2, g3⟩ := ih (Dict.set h a []) ⟨h1.wf.set _ _, hin, fun u v => by rw [e, e]⟩ e
    rw [List.foldl_cons]
    refine ⟨g1, g2, fun u => ?_⟩
    rw [g3, Mem, Dict.mem_keys_set, List.mem_cons, Mem]
    tauto

theorem induced_spec {ord : Finset V → List V} (hord : ∀ S, (ord S).Nodup ∧ ∀ x, x ∈ ord S ↔ x ∈ S)
    {g : Graph V W} (hg : Good g) (us : List V) (hus : ∀ u ∈ us, Mem g u) :
    ∃ h, inducedSubgraph ord g us = .ok h ∧ Good h ∧ (∀ a, Mem h a ↔ a ∈ us) ∧
      ∀ a b, adj h a b = if a ∈ us ∧ b ∈ us then adj g a b else none := by
  obtain ⟨k1, k2, k3⟩ := foldl_set_spec (W := W) (ord us.toFinset) [] good_empty adj_empty
  obtain ⟨h, g1, g2, g3, g4, g5, g6⟩ := inducedOuter_spec hord hg us.toFinset (ord us.toFinset) (by
    intro u hu
    rw [(hord _).2] at hu
    exact ⟨hu, hus u (List.mem_toFinset.1 hu)⟩) _ k1 (by
    intro a
    rw [k3, (hord _).2]
    simp [Mem, Dict.keys]) (by
    intro a b x hx
    rw [k2] at hx
    simp at hx)
  refine ⟨h, g1, g2, fun a => by rw [g3, List.mem_toFinset], fun a b => ?_⟩
  by_cases hab : a ∈ us ∧ b ∈ us
  · rw [if_pos hab, g6 a (by rw [(hord _).2, List.mem_toFinset]; exact hab.1) b (List.mem_toFinset.2 hab.2)]
  · rw [if_neg hab]
    cases hx : adj h a b with
    | none => rfl
    | some x =>
      obtain ⟨h1, h2, -⟩ := g4 a b x hx
      exact absurd ⟨List.mem_toFinset.1 h1, List.mem_toFinset.1 h2⟩ hab

theorem inducedOuter_error {ord : Finset V → List V} (hord : ∀ S, (ord S).Nodup ∧ ∀ x, x ∈ ord S ↔ x ∈ S)
    {g : Graph V W} (hg : Good g) (S : Finset V) (us : List V) (hus : ∀ u ∈ us, u ∈ S) (hbad : ∃ u ∈ us, ¬ Mem g u) :
    ∀ h : Graph V W, Good h → (∀ a, Mem h a ↔ a ∈ S) →
    (∀ a b x, adj h a b = some x → a ∈ S ∧ b ∈ S ∧ adj g a b = some x) →
    inducedOuter ord g S h us = .error .keyError := by
  induction us with
  | nil => simp at hbad
  | cons u us ih =>
    intro h h1 h2 h3
    rw [inducedOuter]
    by_cases hum : Mem g u
    · rw [neighbors_eq hum]
      dsimp only
      obtain ⟨h', g1, g2, g3, g4, g5, g6⟩ := inducedInner_spec hg S u (hus u List.mem_cons_self)
        (ord (S ∩ (nbrs g u).toFinset)) (by
          intro v hv
          rw [(hord _).2, Finset.mem_inter, List.mem_toFinset, mem_nbrs] at hv
          exact hv) h h1 h2 h3
      rw [g1]
      dsimp only
      refine ih (fun u hu => hus u (List.mem_cons_of_mem _ hu)) ?_ h' g2 g3 g4
      obtain ⟨x, hx, hxm⟩ := hbad
      rcases List.mem_cons.1 hx with rfl | hx
      · exact absurd hum hxm
      · exact ⟨x, hx, hxm⟩
    · rw [neighbors, Dict.get?_eq_none.2 hum]

theorem argMax_spec {g : Graph V W} (us : List V) (hus : ∀ u ∈ us, Mem g u) : ∀ (b : V), Mem g b →
    ∃ r, argMax g us b (nbrs g b).length = .ok r ∧ Mem g r ∧ (nbrs g b).length ≤ (nbrs g r).length ∧
      ∀ u ∈ us, (nbrs g u).length ≤ (nbrs g r).length := by
  induction us with
  | nil => intro b hb; exact ⟨b, rfl, hb, le_refl _, by simp⟩
  | cons u us ih =>
    intro b hb
    have hu := hus u List.mem_cons_self
    have hus' := fun v hv => hus v (List.mem_cons_of_mem u hv)
    rw [argMax, degree_eq hu]
    dsimp only
    by_cases h : (nbrs g b).length < (nbrs g u).length
    · rw [if_pos h]
      obtain ⟨r, h1, h2, h3, h4⟩ := ih hus' u hu
      refine ⟨r, h1, h2, by omega, fun v hv => ?_⟩
      rcases List.mem_cons.1 hv with rfl | hv
      · exact h3
      · exact h4 v hv
    · rw [if_neg h]
      obtain ⟨r, h1, h2, h3, h4⟩ := ih hus' b hb
      refine ⟨r, h1, h2, by omega, fun v hv => ?_⟩
      rcases List.mem_cons.1 hv with rfl | hv
      · omega
      · exact h4 v hv

theorem argMin_spec {g : Graph V W} (us : List V) (hus : ∀ u ∈ us, Mem g u) : ∀ (b : V), Mem g b →
    ∃ r, argMin g us b (nbrs g b).length = .ok r ∧ Mem g r ∧ (nbrs g r).length ≤ (nbrs g b).length ∧
      ∀ u ∈ us, (nbrs g r).length ≤ (nbrs g u).length := by
  induction us with
  | nil => intro b hb; exact ⟨b, rfl, hb, le_refl _, by simp⟩
  | cons u us ih =>
    intro b hb
    have hu := hus u List.mem_cons_self
    have hus' := fun v hv => hus v (List.mem_cons_of_mem u hv)
    rw [argMin, degree_eq hu]
    dsimp only
    by_cases h : (nbrs g u).length < (nbrs g b).length
    · rw [if_pos h]
      obtain ⟨r, h1, h2, h3, h4⟩ := ih hus' u hu
      refine ⟨r, h1, h2, by omega, fun v hv => ?_⟩
      rcases List.mem_cons.1 hv with rfl | hv
      · exact h3
      · exact h4 v hv
    · rw [if_neg h]
      obtain ⟨r, h1, h2, h3, h4⟩ := ih hus' b hb
      refine ⟨r, h1, h2, by omega, fun v hv => ?_⟩
      rcases List.mem_cons.1 hv with rfl | hv
      · omega
      · exact h4 v hv

theorem mem_vertexSet {g : Graph V W} {u : V} : u ∈ vertexSet g ↔ Mem g u := List.mem_toFinset

theorem length_nbrs {g : Graph V W} (hg : Good g) (u : V) : (nbrs g u).length = {v | ∃ w, adj g u v = some w}.ncard := by
  have : {v | ∃ w, adj g u v = some w} = ((nbrs g u).toFinset : Set V) := by
    ext v; rw [Set.mem_setOf_eq, Finset.mem_coe, List.mem_toFinset, mem_nbrs]
  rw [this, Set.ncard_coe_finset, List.toFinset_card_of_nodup (nodup_nbrs hg u)]

theorem minimumDegreeVertex_spec {ord : Finset V → List V} (hord : ∀ S, (ord S).Nodup ∧ ∀ x, x ∈ ord S ↔ x ∈ S)
    {g : Graph V W} (hne : ∃ u, Mem g u) :
    ∃ r, minimumDegreeVertex ord g = .ok r ∧ Mem g r ∧ ∀ u, Mem g u → (nbrs g r).length ≤ (nbrs g u).length := by
  obtain ⟨x, hx⟩ := hne
  have hx' := mem_vertexSet.2 hx
  rw [minimumDegreeVertex, if_neg (Finset.card_ne_zero_of_mem hx')]
  have hm : ∀ u, u ∈ ord (vertexSet g) ↔ Mem g u := fun u => by rw [(hord _).2, mem_vertexSet]
  cases ho : ord (vertexSet g) with
  | nil => rw [← hm, ho] at hx; simp at hx
  | cons u us =>
    rw [ho] at hm
    dsimp only
    rw [degree_eq ((hm u).1 List.mem_cons_self)]
    dsimp only
    obtain ⟨r, h1, h2, h3, h4⟩ := argMin_spec us (fun v hv => (hm v).1 (List.mem_cons_of_mem _ hv)) u
      ((hm u).1 List.mem_cons_self)
    refine ⟨r, h1, h2, fun v hv => ?_⟩
    rcases List.mem_cons.1 ((hm v).2 hv) with rfl | hv
    · exact h3
    · exact h4 v hv

theorem maximumDegreeVertex_spec {ord : Finset V → List V} (hord : ∀ S, (ord S).Nodup ∧ ∀ x, x ∈ ord S ↔ x ∈ S)
    {g : Graph V W} (hne : ∃ u, Mem g u) :
    ∃ r, maximumDegreeVertex ord g = .ok r ∧ Mem g r ∧ ∀ u, Mem g u → (nbrs g u).length ≤ (nbrs g r).length := by
  obtain ⟨x, hx⟩ := hne
  have hx' := mem_vertexSet.2 hx
  rw [maximumDegreeVertex, if_neg (Finset.card_ne_zero_of_mem hx')]
  have hm : ∀ u, u ∈ ord (vertexSet g) ↔ Mem g u := fun u => by rw [(hord _).2, mem_vertexSet]
  cases ho : ord (vertexSet g) with
  | nil => rw [← hm, ho] at hx; simp at hx
  | cons u us =>
    rw [ho] at hm
    dsimp only
    rw [degree_eq ((hm u).1 List.mem_cons_self)]
    dsimp only
    obtain ⟨r, h1, h2, h3, h4⟩ := argMax_spec us (fun v hv => (hm v).1 (List.mem_cons_of_mem _ hv)) u
      ((hm u).1 List.mem_cons_self)
    refine ⟨r, h1, h2, fun v hv => ?_⟩
    rcases List.mem_cons.1 ((hm v).2 hv) with rfl | hv
    · exact h3
    · exact h4 v hv

theorem foldl_max_spec (l : List ℕ) (a : ℕ) : (l.foldl max a = a ∨ l.foldl max a ∈ l) ∧ a ≤ l.foldl max a ∧
    ∀ x ∈ l, x ≤ l.foldl max a := by
  induction l generalizing a with
  | nil => simp
  | cons b l ih =>
    obtain ⟨h1, h2, h3⟩ := ih (max a b)
    rw [List.foldl_cons]
    refine ⟨?_, le_trans (le_max_left _ _) h2, ?_⟩
    · rcases h1 with h1 | h1
      · rw [h1]
        rcases max_choice a b with h | h
        · exact Or.inl h
        · rw [h]; simp
      · exact Or.inr (List.mem_cons_of_mem _ h1)
    · intro x hx
      rcases List.mem_cons.1 hx with rfl | hx
      · exact le_trans (le_max_right _ _) h2
      · exact h3 x hx

theorem foldl_min_spec (l : List ℕ) (a : ℕ) : (l.foldl min a = a ∨ l.foldl min a ∈ l) ∧ l.foldl min a ≤ a ∧
    ∀ x ∈ l, l.foldl min a ≤ x := by
  induction l generalizing a with
  | nil => simp
  | cons b l ih =>
    obtain ⟨h1, h2, h3⟩ := ih (min a b)
    rw [List.foldl_cons]
    refine ⟨?_, le_trans h2 (min_le_left _ _), ?_⟩
    · rcases h1 with h1 | h1
      · rw [h1]
        rcases min_choice a b with h | h
        · exact Or.inl h
        · rw [h]; simp
      · exact Or.inr (List.mem_cons_of_mem _ h1)
    · intro x hx
      rcases List.mem_cons.1 hx with rfl | hx
      · exact le_trans h2 (min_le_right _ _)
      · exact h3 x hx

theorem inducedOrder_spec {ord : Finset V → List V} (hord : ∀ S, (ord S).Nodup ∧ ∀ x, x ∈ ord S ↔ x ∈ S) (k : ℕ) :
    ∀ g : Graph V W, Good g → g.length = k → ∃ l, inducedOrder ord k g = .ok l ∧ l.Nodup ∧ (∀ u, u ∈ l ↔ Mem g u) ∧
      ∀ a u b, l = a ++ u :: b → ∀ v ∈ b, (nbrs (deleteVertices g a) u).length ≤ (nbrs (deleteVertices g a) v).length := by
  induction k with
  | zero =>
    intro g hg hk
    have : g = [] := List.length_eq_zero_iff.1 hk
    subst this
    exact ⟨[], rfl, List.nodup_nil, by simp [Mem, Dict.keys], by simp⟩
  | succ k ih =>
    intro g hg hk
    have hne : ∃ u, Mem g u := by
      cases g with
      | nil => simp at hk
      | cons e g => exact ⟨e.1, List.mem_cons_self⟩
    obtain ⟨r, h1, h2, h3⟩ := minimumDegreeVertex_spec hord hne
    have hlen : (deleteVertex g r).length = k := by
      obtain ⟨N, hN⟩ := mem_iff.1 h2
      have e : Dict.keys (deleteVertex g r) = (Dict.keys g).erase r := by
        rw [deleteVertex, hN]
        dsimp only
        rw [keys_mapVal, Dict.keys_erase]
      have e2 := congrArg List.length e
      rw [List.length_erase_of_mem h2, Dict.keys, Dict.keys, List.length_map, List.length_map, hk] at e2
      exact e2
    obtain ⟨l, g1, g2, g3, g4⟩ := ih (deleteVertex g r) (hg.deleteVertex r) hlen
    refine ⟨r :: l, by rw [inducedOrder, h1]; dsimp only; rw [g1], ?_, ?_, ?_⟩
    · rw [List.nodup_cons]
      refine ⟨fun h => ?_, g2⟩
      rw [g3, mem_deleteVertex hg] at h
      exact h.1 rfl
    · intro u
      rw [List.mem_cons, g3, mem_deleteVertex hg]
      constructor
      · rintro (rfl | h)
        · exact h2
        · exact h.2
      · intro h
        by_cases e : u = r
        · exact Or.inl e
        · exact Or.inr ⟨e, h⟩
    · intro a u b e v hv
      cases a with
      | nil =>
        rw [List.nil_append, List.cons.injEq] at e
        obtain ⟨rfl, rfl⟩ := e
        refine h3 v ?_
        rw [g3, mem_deleteVertex hg] at hv
        exact hv.2
      | cons c a =>
        rw [List.cons_append, List.cons.injEq] at e
        obtain ⟨rfl, rfl⟩ := e
        exact g4 a u b rfl v hv

end Basic

theorem gcdLoop_eq (x y : ℕ) : gcdLoop x y = Nat.gcd x y := by
  induction y using Nat.strong_induction_on generalizing x with
  | _ y ih =>
    cases y with
    | zero => rw [gcdLoop, Nat.gcd_zero_right]
    | succ y =>
      rw [gcdLoop, ih _ (Nat.mod_lt _ (Nat.succ_pos y)), Nat.gcd_comm x, Nat.gcd_rec (y + 1) x, Nat.gcd_comm]

end Rosemary.Graph

namespace Rosemary.Props

open Rosemary.Graph

variable {V W : Type}

/-! ## C63 -/

/-- C63: after any sequence of calls on a new `Graph`, its vertices and weights are those obtained by doing the same
operations on a mathematical graph. -/
theorem C63_history [DecidableEq V] (ops : List (Op V W)) :
    toAbs (history ops) = ops.foldl Op.meaning ⟨∅, fun _ _ => none⟩ := (history_spec ops).2

/-- C63: after any sequence of calls, no key is repeated, the adjacency is symmetric with equal weights, and both ends
of an edge are vertices. -/
theorem C63_symmetric [DecidableEq V] (ops : List (Op V W)) :
    (Dict.keys (history ops)).Nodup ∧ (∀ u v, (toAbs (history ops)).weight u v = (toAbs (history ops)).weight v u) ∧
      ∀ u v w, (toAbs (history ops)).weight u v = some w →
        u ∈ (toAbs (history ops)).verts ∧ v ∈ (toAbs (history ops)).verts :=
  have hg := (history_spec ops).1
  ⟨hg.wf, fun u v => hg.symm u v, fun _ _ _ h => ⟨mem_of_adj h, hg.mem_right h⟩⟩

example : history [Op.addEdge 1 2 (5 : ℤ), .addVertex 7, .addEdges [(2, 3, 4), (3, 1, 1)], .deleteVertex 1,
    .addEdge 2 3 9] = ([(2, [(3, 9)]), (7, []), (3, [(2, 9)])] : Graph ℕ ℤ) := by decide +kernel

/-- C63, `degree(u)` is the number of neighbours; KeyError if `u` is not a vertex. -/
theorem C63_degree [DecidableEq V] (ops : List (Op V W)) (u : V) : degree (history ops) u =
    if u ∈ Dict.keys (history ops) then .ok {v | (toAbs (history ops)).weight u v ≠ none}.ncard else .error .keyError := by
  have hg := (history_spec ops).1
  split_ifs with h
  · rw [degree_eq h, length_nbrs hg]
    congr 2
    ext v
    rw [Set.mem_setOf_eq, Set.mem_setOf_eq, ← Option.isSome_iff_exists, ← Option.isSome_iff_ne_none]
    rfl
  · rw [degree, Dict.get?_eq_none.2 h]

/-- C63, `neighbors(u)` and `closed_neighborhood(u)`. -/
theorem C63_neighbors [DecidableEq V] (ops : List (Op V W)) (u : V) (hu : u ∈ Dict.keys (history ops)) :
    ∃ N, neighbors (history ops) u = .ok N ∧ closedNeighborhood (history ops) u = .ok (insert u N) ∧
      ∀ v, v ∈ N ↔ (toAbs (history ops)).weight u v ≠ none := by
  refine ⟨_, neighbors_eq hu, by rw [closedNeighborhood, neighbors_eq hu], fun v => ?_⟩
  rw [List.mem_toFinset, mem_nbrs, ← Option.isSome_iff_exists, ← Option.isSome_iff_ne_none]
  rfl

/-- C63, `vertices()` is the sorted list of the vertices, `num_vertices()` their number. -/
theorem C63_vertices [LinearOrder V] (ops : List (Op V W)) :
    (vertices (history ops)).Pairwise (· < ·) ∧ (∀ u, u ∈ vertices (history ops) ↔ u ∈ (toAbs (history ops)).verts) ∧
      numVertices (history ops) = (toAbs (history ops)).verts.ncard := by
  have hg := (history_spec ops).1
  obtain ⟨h1, h2⟩ := vertices_spec hg
  refine ⟨?_, h2, ?_⟩
  · have hs := pairwise_pySort (le := fun a b : V => decide (a ≤ b)) (by simpa using fun a b c => le_trans)
      (by simpa using le_total) (Dict.keys (history ops))
    have := hs.and h1
    exact this.imp fun h => lt_of_le_of_ne (by simpa using h.1) h.2
  · have : (toAbs (history ops)).verts = ((Dict.keys (history ops)).toFinset : Set V) := by
      ext u; simp [toAbs]
    rw [this, Set.ncard_coe_finset, List.toFinset_card_of_nodup hg.wf, Dict.keys, List.length_map, numVertices]

/-- C63, `edge_set()` and `edge_set(weights=True)` list every edge once, smaller end first. -/
theorem C63_edge_set [LinearOrder V] [DecidableEq W] (ops : List (Op V W)) (u v : V) (w : W) :
    ((u, v) ∈ edgeSet (history ops) ↔ u ≤ v ∧ (toAbs (history ops)).weight u v ≠ none) ∧
      ((u, v, w) ∈ edgeSetWeights (history ops) ↔ u ≤ v ∧ (toAbs (history ops)).weight u v = some w) := by
  have hg := (history_spec ops).1
  refine ⟨?_, mem_edgeSetWeights hg⟩
  rw [mem_edgeSet hg, ← Option.isSome_iff_exists, ← Option.isSome_iff_ne_none]
  rfl

/-- C63, the handshake lemma: without loops, `total_degree()` is `2 * num_edges()`. -/
theorem C63_total_degree [LinearOrder V] (ord : Finset V → List V) (hord : ∀ S, (ord S).Nodup ∧ ∀ x, x ∈ ord S ↔ x ∈ S)
    (ops : List (Op V W)) (hloop : ∀ u, (toAbs (history ops)).weight u u = none) :
    totalDegree (history ops) (ord (vertexSet (history ops))) = .ok (2 * numEdges (history ops)) := by
  have hg := (history_spec ops).1
  have hm : ∀ u, u ∈ ord (vertexSet (history ops)) ↔ Mem (history ops) u := fun u => by rw [(hord _).2, mem_vertexSet]
  rw [totalDegree, degrees_eq _ (fun u hu => (hm u).1 hu)]
  have h := handshake hg _ (hord _).1 hm
  have h0 : (ord (vertexSet (history ops))).filter (fun u => u ∈ nbrs (history ops) u) = [] := by
    rw [List.filter_eq_nil_iff]
    intro u _ hu
    rw [decide_eq_true_eq, mem_nbrs] at hu
    obtain ⟨w, hw⟩ := hu
    have := hloop u
    rw [show (toAbs (history ops)).weight u u = adj (history ops) u u from rfl, hw] at this
    simp at this
  rw [h0] at h
  dsimp only
  rw [← h]
  rfl

example : totalDegree petersenGraph [0, 1, 2, 3, 4, 5, 6, 7, 8, 9] = .ok 30 ∧ numEdges petersenGraph = 15 := by
  decide +kernel

/-- C63, `complement()`: two vertices are adjacent exactly when they are different and were not adjacent. -/
theorem C63_complement [LinearOrder V] [DecidableEq W] (ops : List (Op V W)) (one : W) :
    ∃ h, complement (history ops) one = .ok h ∧ (toAbs h).verts = (toAbs (history ops)).verts ∧
      ∀ u v w, (toAbs h).weight u v = some w ↔ w = one ∧ u ∈ (toAbs (history ops)).verts ∧
        v ∈ (toAbs (history ops)).verts ∧ u ≠ v ∧ (toAbs (history ops)).weight u v = none := by
  obtain ⟨h, h1, -, h3, h4⟩ := complement_spec (history_spec ops).1 one
  exact ⟨h, h1, Set.ext h3, h4⟩

/-- C63, `induced_subgraph(vertex_list)`, whatever the order of iteration of Python sets. -/
theorem C63_induced_subgraph [DecidableEq V] (ord : Finset V → List V)
    (hord : ∀ S, (ord S).Nodup ∧ ∀ x, x ∈ ord S ↔ x ∈ S) (ops : List (Op V W)) (us : List V)
    (hus : ∀ u ∈ us, u ∈ (toAbs (history ops)).verts) :
    ∃ h, inducedSubgraph ord (history ops) us = .ok h ∧ (toAbs h).verts = {u | u ∈ us} ∧
      ∀ u v, (toAbs h).weight u v = if u ∈ us ∧ v ∈ us then (toAbs (history ops)).weight u v else none := by
  obtain ⟨h, h1, -, h3, h4⟩ := induced_spec hord (history_spec ops).1 us hus
  exact ⟨h, h1, Set.ext h3, h4⟩

/-- C63: `induced_subgraph` with an unknown vertex raises KeyError. -/
theorem C63_induced_key_error [DecidableEq V] (ord : Finset V → List V)
    (hord : ∀ S, (ord S).Nodup ∧ ∀ x, x ∈ ord S ↔ x ∈ S) (ops : List (Op V W)) (us : List V)
    (hus : ∃ u ∈ us, u ∉ (toAbs (history ops)).verts) :
    inducedSubgraph ord (history ops) us = .error .keyError := by
  obtain ⟨k1, k2, k3⟩ := foldl_set_spec (W := W) (ord us.toFinset) [] good_empty adj_empty
  refine inducedOuter_error hord (history_spec ops).1 us.toFinset (ord us.toFinset) (fun u hu => ((hord _).2 u).1 hu) ?_
    _ k1 ?_ ?_
  · obtain ⟨u, hu, h⟩ := hus
    exact ⟨u, ((hord _).2 u).2 (List.mem_toFinset.2 hu), h⟩
  · intro a
    rw [k3, (hord _).2]
    simp [Mem, Dict.keys]
  · intro a b x hx
    rw [k2] at hx
    simp at hx

/-- C63, `remove_neighborhood(u)` and `remove_closed_neighborhood(u)` leave the rest of the graph. -/
theorem C63_remove_neighborhood [DecidableEq V] (ord : Finset V → List V)
    (hord : ∀ S, (ord S).Nodup ∧ ∀ x, x ∈ ord S ↔ x ∈ S) (ops : List (Op V W)) (u : V)
    (hu : u ∈ (toAbs (history ops)).verts) :
    ∃ h h', removeNeighborhood ord (history ops) u = .ok h ∧ removeClosedNeighborhood ord (history ops) u = .ok h' ∧
      (toAbs h).verts = {v | v ∈ (toAbs (history ops)).verts ∧ (toAbs (history ops)).weight u v = none} ∧
      (toAbs h').verts = {v | v ∈ (toAbs (history ops)).verts ∧ v ≠ u ∧ (toAbs (history ops)).weight u v = none} ∧
      (∀ a b w, (toAbs h).weight a b = some w ↔
        a ∈ (toAbs h).verts ∧ b ∈ (toAbs h).verts ∧ (toAbs (history ops)).weight a b = some w) ∧
      ∀ a b w, (toAbs h').weight a b = some w ↔
        a ∈ (toAbs h').verts ∧ b ∈ (toAbs h').verts ∧ (toAbs (history ops)).weight a b = some w := by
  have hg := (history_spec ops).1
  have hu' : Mem (history ops) u := hu
  have hno : ∀ v, v ∉ nbrs (history ops) u ↔ adj (history ops) u v = none := by
    intro v
    rw [mem_nbrs, ← Option.isSome_iff_exists]
    simp
  have hw : ∀ (l : List V) (a b : V) (w : W), adj (deleteVertices (history ops) l) a b = some w ↔
      Mem (deleteVertices (history ops) l) a ∧ Mem (deleteVertices (history ops) l) b ∧
        adj (history ops) a b = some w := by
    intro l a b w
    have hG := hg.deleteVertices l
    constructor
    · intro h
      refine ⟨mem_of_adj h, hG.mem_right h, ?_⟩
      rw [adj_deleteVertices hg] at h
      split_ifs at h
      exact h
    · rintro ⟨h1, h2, h3⟩
      rw [mem_deleteVertices hg] at h1 h2
      rw [adj_deleteVertices hg, if_neg (by tauto), h3]
  refine ⟨_, _, by rw [removeNeighborhood, neighbors_eq hu'], by rw [removeClosedNeighborhood, closedNeighborhood,
    neighbors_eq hu'], ?_, ?_, ?_, ?_⟩
  · ext v
    have := mem_deleteVertices hg (ord (nbrs (history ops) u).toFinset) v
    rw [(hord _).2, List.mem_toFinset, hno] at this
    refine this.trans ?_
    exact and_comm
  · ext v
    have := mem_deleteVertices hg (ord (insert u (nbrs (history ops) u).toFinset)) v
    rw [(hord _).2, Finset.mem_insert, List.mem_toFinset, not_or, hno] at this
    refine this.trans ?_
    simp only [Set.mem_setOf_eq, toAbs, Mem, adj]
    tauto
  · exact fun a b w => hw _ a b w
  · exact fun a b w => hw _ a b w

/-! ## C87 -/

/-- The number of neighbours of `u` in the graph without the vertices of `gone`. -/
noncomputable def degreeWithout [DecidableEq V] (g : Graph V W) (gone : List V) (u : V) : ℕ :=
  {v | v ∉ gone ∧ (toAbs g).weight u v ≠ none}.ncard

theorem length_nbrs' [DecidableEq V] {g : Graph V W} (hg : Good g) (u : V) : (nbrs g u).length = degreeWithout g [] u := by
  rw [length_nbrs hg, degreeWithout]
  congr 1
  ext v
  rw [Set.mem_setOf_eq, Set.mem_setOf_eq, ← Option.isSome_iff_exists, ← Option.isSome_iff_ne_none]
  simp [toAbs, adj]

theorem length_nbrs_delete [DecidableEq V] {g : Graph V W} (hg : Good g) (a : List V) (u : V) (hu : u ∉ a) :
    (nbrs (deleteVertices g a) u).length = degreeWithout g a u := by
  rw [length_nbrs (hg.deleteVertices a), degreeWithout]
  congr 1
  ext v
  rw [Set.mem_setOf_eq, Set.mem_setOf_eq, ← Option.isSome_iff_exists, ← Option.isSome_iff_ne_none, adj_deleteVertices hg]
  by_cases hv : v ∈ a
  · rw [if_pos (Or.inr hv)]; simp [hv]
  · rw [if_neg (by tauto)]; simp [hv, toAbs, adj]

/-- C87, `maximum_degree()`, `minimum_degree()`, `maximum_degree_vertex()` and `minimum_degree_vertex()` on a graph
with a vertex, whatever the order of iteration of Python sets. -/
theorem C87_extreme_degrees [DecidableEq V] (ord : Finset V → List V)
    (hord : ∀ S, (ord S).Nodup ∧ ∀ x, x ∈ ord S ↔ x ∈ S) (ops : List (Op V W))
    (hne : (toAbs (history ops)).verts.Nonempty) :
    ∃ a b, a ∈ (toAbs (history ops)).verts ∧ b ∈ (toAbs (history ops)).verts ∧
      (∀ u ∈ (toAbs (history ops)).verts, degreeWithout (history ops) [] u ≤ degreeWithout (history ops) [] a ∧
        degreeWithout (history ops) [] b ≤ degreeWithout (history ops) [] u) ∧
      maximumDegree ord (history ops) = .ok (degreeWithout (history ops) [] a) ∧
      minimumDegree ord (history ops) = .ok (degreeWithout (history ops) [] b) ∧
      maximumDegreeVertex ord (history ops) = .ok a ∧ minimumDegreeVertex ord (history ops) = .ok b := by
  have hg := (history_spec ops).1
  obtain ⟨a, a1, a2, a3⟩ := maximumDegreeVertex_spec hord (g := history ops) hne
  obtain ⟨b, b1, b2, b3⟩ := minimumDegreeVertex_spec hord (g := history ops) hne
  simp only [length_nbrs' hg] at a3 b3
  obtain ⟨x, hx⟩ := hne
  have hx' : x ∈ vertexSet (history ops) := mem_vertexSet.2 hx
  have hm : ∀ u, u ∈ ord (vertexSet (history ops)) ↔ Mem (history ops) u := fun u => by rw [(hord _).2, mem_vertexSet]
  refine ⟨a, b, a2, b2, fun u hu => ⟨a3 u hu, b3 u hu⟩, ?_, ?_, a1, b1⟩
  · rw [maximumDegree, if_neg (Finset.card_ne_zero_of_mem hx'), degrees_eq _ (fun u hu => (hm u).1 hu)]
    cases ho : ord (vertexSet (history ops)) with
    | nil => have := (hm x).2 hx; rw [ho] at this; simp at this
    | cons u us =>
      rw [ho] at hm
      simp only [List.map_cons, length_nbrs' hg]
      congr 1
      obtain ⟨k1, k2, k3⟩ := foldl_max_spec (us.map (degreeWithout (history ops) [])) (degreeWithout (history ops) [] u)
      apply le_antisymm
      · rcases k1 with k1 | k1
        · rw [k1]; exact a3 u ((hm u).1 List.mem_cons_self)
        · obtain ⟨v, hv, e⟩ := List.mem_map.1 k1
          rw [← e]; exact a3 v ((hm v).1 (List.mem_cons_of_mem _ hv))
      · rcases List.mem_cons.1 ((hm a).2 a2) with h | h
        · rw [h]; exact k2
        · exact k3 _ (List.mem_map_of_mem h)
  · rw [minimumDegree, if_neg (Finset.card_ne_zero_of_mem hx'), degrees_eq _ (fun u hu => (hm u).1 hu)]
    cases ho : ord (vertexSet (history ops)) with
    | nil => have := (hm x).2 hx; rw [ho] at this; simp at this
    | cons u us =>
      rw [ho] at hm
      simp only [List.map_cons, length_nbrs' hg]
      congr 1
      obtain ⟨k1, k2, k3⟩ := foldl_min_spec (us.map (degreeWithout (history ops) [])) (degreeWithout (history ops) [] u)
      apply le_antisymm
      · rcases List.mem_cons.1 ((hm b).2 b2) with h | h
        · rw [h]; exact k2
        · exact k3 _ (List.mem_map_of_mem h)
      · rcases k1 with k1 | k1
        · rw [k1]; exact b3 u ((hm u).1 List.mem_cons_self)
        · obtain ⟨v, hv, e⟩ := List.mem_map.1 k1
          rw [← e]; exact b3 v ((hm v).1 (List.mem_cons_of_mem _ hv))

/-- C87: on the empty graph all four raise ValueError. -/
theorem C87_no_vertices [DecidableEq V] (ord : Finset V → List V) :
    maximumDegree ord ([] : Graph V W) = .error .valueError ∧ minimumDegree ord ([] : Graph V W) = .error .valueError ∧
      maximumDegreeVertex ord ([] : Graph V W) = .error .valueError ∧
      minimumDegreeVertex ord ([] : Graph V W) = .error .valueError := ⟨rfl, rfl, rfl, rfl⟩

/-- C87, `vertices(order='induced')` lists every vertex once, and every vertex has the least degree among the
vertices from it on, in the graph without the vertices before it. -/
theorem C87_induced_order [DecidableEq V] (ord : Finset V → List V)
    (hord : ∀ S, (ord S).Nodup ∧ ∀ x, x ∈ ord S ↔ x ∈ S) (ops : List (Op V W)) :
    ∃ l, inducedOrder ord (numVertices (history ops)) (history ops) = .ok l ∧ l.Nodup ∧
      (∀ u, u ∈ l ↔ u ∈ (toAbs (history ops)).verts) ∧
      ∀ a u b, l = a ++ u :: b → ∀ v ∈ b, degreeWithout (history ops) a u ≤ degreeWithout (history ops) a v := by
  have hg := (history_spec ops).1
  obtain ⟨l, h1, h2, h3, h4⟩ := inducedOrder_spec hord _ (history ops) hg rfl
  refine ⟨l, h1, h2, h3, fun a u b e v hv => ?_⟩
  have h := h4 a u b e v hv
  rw [e] at h2
  rw [List.nodup_append] at h2
  rwa [length_nbrs_delete hg a u (fun h' => h2.2.2 u h' u List.mem_cons_self rfl),
    length_nbrs_delete hg a v (fun h' => h2.2.2 v h' v (List.mem_cons_of_mem _ hv) rfl)] at h

/-- C87, `vertices(order='degree')` lists every vertex once, in the order of nondecreasing degree. -/
theorem C87_degree_order [DecidableEq V] (ops : List (Op V W)) :
    (degreeOrder (history ops)).Nodup ∧ (∀ u, u ∈ degreeOrder (history ops) ↔ u ∈ (toAbs (history ops)).verts) ∧
      (degreeOrder (history ops)).Pairwise (fun u v =>
        degreeWithout (history ops) [] u ≤ degreeWithout (history ops) [] v) := by
  have hg := (history_spec ops).1
  have hp : (degreeOrder (history ops)).Perm (Dict.keys (history ops)) := by
    rw [degreeOrder]
    refine ((pySort_perm _ _).map _).trans ?_
    rw [List.map_map]
    exact List.Perm.refl _
  refine ⟨hp.nodup_iff.2 hg.wf, fun u => hp.mem_iff, ?_⟩
  rw [degreeOrder, List.pairwise_map]
  have hs := pairwise_pySort (le := fun a b : V × ℕ => decide (a.2 ≤ b.2)) (by
    intro a b c h1 h2
    simp only [decide_eq_true_eq] at *
    omega) (by
    intro a b
    simp only [Bool.or_eq_true, decide_eq_true_eq]
    omega) ((history ops).map (fun e => (e.1, e.2.length)))
  refine hs.imp_of_mem fun {a b} ha hb h => ?_
  have key : ∀ a : V × ℕ, a ∈ pySort ((history ops).map (fun e => (e.1, e.2.length)))
      (fun a b : V × ℕ => decide (a.2 ≤ b.2)) → degreeWithout (history ops) [] a.1 = a.2 := by
    intro a ha
    rw [mem_pySort, List.mem_map] at ha
    obtain ⟨⟨u, N⟩, he, rfl⟩ := ha
    dsimp only
    rw [← length_nbrs' hg, nbrs, Dict.get?_of_mem hg.wf he, Option.getD_some, Dict.keys, List.length_map]
  rw [key a ha, key b hb]
  simpa using h

example : inducedOrder (fun S => (List.range 5).filter (· ∈ S)) 5
    (history [Op.addEdges [(0, 1, (1 : ℤ)), (1, 2, 1), (2, 0, 1), (2, 3, 1), (0, 4, 1), (1, 4, 1)]]) =
    .ok [3, 2, 0, 1, 4] := by decide +kernel

/-! ## C88 -/

/-- C88, `complete_graph(n)` for `n ≠ 1`: vertices `0..n-1`, every two different ones adjacent with weight 1. -/
theorem C88_complete_graph_partial (n : ℕ) (hn : n ≠ 1) : (toAbs (completeGraph n)).verts = {u | u < n} ∧
    ∀ u v w, (toAbs (completeGraph n)).weight u v = some w ↔ w = 1 ∧ u < n ∧ v < n ∧ u ≠ v := by
  have hmem : ∀ (u v : ℕ) (w : ℤ), (u, v, w) ∈ (List.range n).flatMap (fun u => (List.range u).map
      (fun v => (u, v, (1 : ℤ)))) ↔ w = 1 ∧ u < n ∧ v < u := by
    intro u v w
    simp only [List.mem_flatMap, List.mem_map, List.mem_range, Prod.mk.injEq]
    constructor
    · rintro ⟨a, ha, b, hb, rfl, rfl, rfl⟩; exact ⟨rfl, ha, hb⟩
    · rintro ⟨rfl, h1, h2⟩; exact ⟨u, h1, v, h2, rfl, rfl, rfl⟩
  constructor
  · ext u
    have h := mem_addEdges ([] : Graph ℕ ℤ) ((List.range n).flatMap (fun u => (List.range u).map
      (fun v => (u, v, (1 : ℤ))))) u
    refine h.trans ?_
    rw [Set.mem_setOf_eq]
    constructor
    · rintro (⟨⟨a, b, w⟩, he, hu⟩ | hu)
      · have := (hmem a b w).1 he
        dsimp only at hu
        omega
      · simp [Mem, Dict.keys] at hu
    · intro hu
      left
      by_cases h0 : u = 0
      · exact ⟨(1, 0, 1), (hmem _ _ _).2 ⟨rfl, by omega, by omega⟩, Or.inr h0⟩
      · exact ⟨(u, 0, 1), (hmem _ _ _).2 ⟨rfl, hu, by omega⟩, Or.inl rfl⟩
  · intro u v w
    have h := adj_addEdges_const ([] : Graph ℕ ℤ) ((List.range n).flatMap (fun u => (List.range u).map
      (fun v => (u, v, (1 : ℤ))))) 1 (by rintro ⟨a, b, w⟩ he; exact ((hmem a b w).1 he).1) u v
    have e : (toAbs (completeGraph n)).weight u v = adj (completeGraph n) u v := rfl
    rw [e, completeGraph, h, adj_empty]
    split_ifs with hc <;> rw [hmem, hmem] at hc
    · rw [Option.some.injEq]
      constructor
      · intro h; omega
      · intro h; omega
    · constructor
      · intro h; simp at h
      · intro h; omega

/-- C88: `complete_graph(1)` has no vertex. -/
theorem C88_complete_graph_one : completeGraph 1 = [] := by decide

/-- C88, `random_graph(n, d)`: vertices `0..n-1`, and for `i < j` an edge exactly when the draw for the pair
succeeded. -/
theorem C88_random_graph (n : ℕ) (draw : ℕ → ℕ → Bool) : (toAbs (randomGraph n draw)).verts = {u | u < n} ∧
    ∀ u v w, (toAbs (randomGraph n draw)).weight u v = some w ↔
      w = 1 ∧ u < n ∧ v < n ∧ u ≠ v ∧ draw (min u v) (max u v) = true := by
  have hmem : ∀ (u v : ℕ) (w : ℤ), (u, v, w) ∈ (List.range n).flatMap (fun i =>
      ((List.range' (i + 1) (n - (i + 1))).filter (fun j => draw i j)).map (fun j => (i, j, (1 : ℤ)))) ↔
      w = 1 ∧ u < v ∧ v < n ∧ draw u v = true := by
    intro u v w
    simp only [List.mem_flatMap, List.mem_map, List.mem_range, List.mem_filter, List.mem_range'_1, Prod.mk.injEq]
    constructor
    · rintro ⟨a, ha, b, ⟨hb, hd⟩, rfl, rfl, rfl⟩; exact ⟨rfl, by omega, by omega, hd⟩
    · rintro ⟨rfl, h1, h2, h3⟩; exact ⟨u, by omega, v, ⟨by omega, h3⟩, rfl, rfl, rfl⟩
  constructor
  · ext u
    refine (mem_addEdges _ _ u).trans ?_
    rw [Set.mem_setOf_eq, mem_addVertices, List.mem_range]
    constructor
    · rintro (⟨⟨a, b, w⟩, he, hu⟩ | hu | hu)
      · have := (hmem a b w).1 he
        dsimp only at hu
        omega
      · exact hu
      · simp [Mem, Dict.keys] at hu
    · exact fun h => Or.inr (Or.inl h)
  · intro u v w
    have h := adj_addEdges_const (addVertices ([] : Graph ℕ ℤ) (List.range n)) ((List.range n).flatMap (fun i =>
      ((List.range' (i + 1) (n - (i + 1))).filter (fun j => draw i j)).map (fun j => (i, j, (1 : ℤ))))) 1
      (by rintro ⟨a, b, w⟩ he; exact ((hmem a b w).1 he).1) u v
    have e : (toAbs (randomGraph n draw)).weight u v = adj (randomGraph n draw) u v := rfl
    rw [e, randomGraph, h, adj_addVertices, adj_empty]
    have key : (((1 : ℤ) = 1 ∧ u < v ∧ v < n ∧ draw u v = true) ∨ ((1 : ℤ) = 1 ∧ v < u ∧ u < n ∧ draw v u = true)) ↔
        u < n ∧ v < n ∧ u ≠ v ∧ draw (min u v) (max u v) = true := by
      rcases lt_trichotomy u v with h | h | h
      · rw [min_eq_left h.le, max_eq_right h.le]
        constructor
        · rintro (⟨-, -, h2, h3⟩ | ⟨-, h2, -⟩)
          · exact ⟨by omega, h2, by omega, h3⟩
          · omega
        · rintro ⟨-, h2, -, h3⟩; exact Or.inl ⟨rfl, h, h2, h3⟩
      · subst h
        constructor
        · rintro (⟨-, h, -⟩ | ⟨-, h, -⟩) <;> omega
        · rintro ⟨-, -, h, -⟩; exact absurd rfl h
      · rw [min_eq_right h.le, max_eq_left h.le]
        constructor
        · rintro (⟨-, h2, -⟩ | ⟨-, -, h2, h3⟩)
          · omega
          · exact ⟨h2, by omega, by omega, h3⟩
        · rintro ⟨h2, -, -, h3⟩; exact Or.inr ⟨rfl, h, h2, h3⟩
    split_ifs with hc <;> rw [hmem, hmem] at hc
    · rw [Option.some.injEq, ← key]
      exact ⟨fun h => ⟨h.symm, hc⟩, fun h => h.1.symm⟩
    · rw [← key]
      constructor
      · intro h; simp at h
      · intro h; exact absurd h.2 hc

/-- C88, `coprime_pairs_graph(n)` for `n ≥ 2`: vertices `1..n`, two different ones adjacent exactly when coprime. -/
theorem C88_coprime_pairs_graph_partial (n : ℕ) (hn : 2 ≤ n) : (toAbs (coprimePairsGraph n)).verts = {u | 1 ≤ u ∧ u ≤ n} ∧
    ∀ u v w, (toAbs (coprimePairsGraph n)).weight u v = some w ↔
      w = 1 ∧ 1 ≤ u ∧ u ≤ n ∧ 1 ≤ v ∧ v ≤ n ∧ u ≠ v ∧ Nat.Coprime u v := by
  have hmem : ∀ (u v : ℕ) (w : ℤ), (u, v, w) ∈ (List.range' 1 n).flatMap (fun i =>
      ((List.range' 1 (i - 1)).filter (fun j => gcdLoop i j = 1)).map (fun j => (i, j, (1 : ℤ)))) ↔
      w = 1 ∧ 1 ≤ v ∧ v < u ∧ u ≤ n ∧ Nat.Coprime u v := by
    intro u v w
    simp only [List.mem_flatMap, List.mem_map, List.mem_filter, List.mem_range'_1, Prod.mk.injEq, decide_eq_true_eq,
      gcdLoop_eq]
    constructor
    · rintro ⟨a, ha, b, ⟨hb, hd⟩, rfl, rfl, rfl⟩; exact ⟨rfl, by omega, by omega, by omega, hd⟩
    · rintro ⟨rfl, h1, h2, h3, h4⟩; exact ⟨u, by omega, v, ⟨by omega, h4⟩, rfl, rfl, rfl⟩
  constructor
  · ext u
    refine (mem_addEdges _ _ u).trans ?_
    rw [Set.mem_setOf_eq]
    constructor
    · rintro (⟨⟨a, b, w⟩, he, hu⟩ | hu)
      · have := (hmem a b w).1 he
        dsimp only at hu
        omega
      · simp [Mem, Dict.keys] at hu
    · intro hu
      left
      by_cases h0 : u = 1
      · exact ⟨(2, 1, 1), (hmem _ _ _).2 ⟨rfl, by omega, by omega, hn, by decide⟩, Or.inr h0⟩
      · exact ⟨(u, 1, 1), (hmem _ _ _).2 ⟨rfl, by omega, by omega, hu.2, Nat.coprime_one_right u⟩, Or.inl rfl⟩
  · intro u v w
    have h := adj_addEdges_const ([] : Graph ℕ ℤ) ((List.range' 1 n).flatMap (fun i =>
      ((List.range' 1 (i - 1)).filter (fun j => gcdLoop i j = 1)).map (fun j => (i, j, (1 : ℤ))))) 1
      (by rintro ⟨a, b, w⟩ he; exact ((hmem a b w).1 he).1) u v
    have e : (toAbs (coprimePairsGraph n)).weight u v = adj (coprimePairsGraph n) u v := rfl
    rw [e, coprimePairsGraph, h, adj_empty]
    split_ifs with hc <;> rw [hmem, hmem] at hc
    · rw [Option.some.injEq]
      constructor
      · rintro rfl
        rcases hc with ⟨-, h1, h2, h3, h4⟩ | ⟨-, h1, h2, h3, h4⟩
        · exact ⟨rfl, by omega, h3, h1, by omega, by omega, h4⟩
        · exact ⟨rfl, h1, by omega, by omega, h3, by omega, h4.symm⟩
      · exact fun h => h.1.symm
    · constructor
      · intro h; simp at h
      · rintro ⟨-, h1, h2, h3, h4, h5, h6⟩
        exfalso
        apply hc
        rcases lt_or_gt_of_ne h5 with h | h
        · exact Or.inr ⟨rfl, h1, h, h4, h6.symm⟩
        · exact Or.inl ⟨rfl, h3, h, h2, h6⟩

/-- C88: `coprime_pairs_graph(1)` has no vertex. -/
theorem C88_coprime_pairs_graph_one : coprimePairsGraph 1 = [] := by decide

/-- C88, `grid_graph(n)` for `n ≠ 1`: square `(i, j)` of the board is vertex `i * n + j`; two are adjacent exactly
when they share an edge. -/
theorem C88_grid_graph_partial (n : ℕ) (hn : n ≠ 1) : (toAbs (gridGraph n)).verts = {u | u < n * n} ∧
    ∀ i j i' j' w, i < n → j < n → i' < n → j' < n →
      ((toAbs (gridGraph n)).weight (i * n + j) (i' * n + j') = some w ↔
        w = 1 ∧ ((i = i' ∧ (j = j' + 1 ∨ j' = j + 1)) ∨ (j = j' ∧ (i = i' + 1 ∨ i' = i + 1)))) := by
  have hmem : ∀ (u v : ℕ) (w : ℤ), (u, v, w) ∈ (List.range n).flatMap (fun i => (List.range n).flatMap (fun j =>
      (if j < n - 1 then [(i * n + j, i * n + j + 1, (1 : ℤ))] else []) ++
      (if i * n + j + n < n * n then [(i * n + j, i * n + j + n, 1)] else []))) ↔
      w = 1 ∧ ∃ i < n, ∃ j < n, u = i * n + j ∧ ((j < n - 1 ∧ v = u + 1) ∨ (u + n < n * n ∧ v = u + n)) := by
    intro u v w
    simp only [List.mem_flatMap, List.mem_range, List.mem_append]
    constructor
    · rintro ⟨i, hi, j, hj, h | h⟩
      · split_ifs at h with hc
        · simp only [List.mem_singleton, Prod.mk.injEq] at h
          exact ⟨h.2.2, i, hi, j, hj, h.1, Or.inl ⟨hc, by omega⟩⟩
        · simp at h
      · split_ifs at h with hc
        · simp only [List.mem_singleton, Prod.mk.injEq] at h
          exact ⟨h.2.2, i, hi, j, hj, h.1, Or.inr ⟨by omega, by omega⟩⟩
        · simp at h
    · rintro ⟨rfl, i, hi, j, hj, rfl, ⟨hc, rfl⟩ | ⟨hc, rfl⟩⟩
      · exact ⟨i, hi, j, hj, Or.inl (by rw [if_pos hc]; simp)⟩
      · exact ⟨i, hi, j, hj, Or.inr (by rw [if_pos hc]; simp)⟩
  have hlt : ∀ i j, i < n → j < n → i * n + j < n * n := by
    intro i j hi hj
    have : (i + 1) * n ≤ n * n := Nat.mul_le_mul_right n hi
    have e : (i + 1) * n = i * n + n := by ring
    omega
  have hinj : ∀ i j i' j', j < n → j' < n → i * n + j = i' * n + j' → i = i' ∧ j = j' := by
    intro i j i' j' hj hj' h
    have h1 : (i * n + j) / n = i := by
      rw [Nat.mul_comm, Nat.mul_add_div (by omega), Nat.div_eq_of_lt hj, Nat.add_zero]
    have h2 : (i' * n + j') / n = i' := by
      rw [Nat.mul_comm, Nat.mul_add_div (by omega), Nat.div_eq_of_lt hj', Nat.add_zero]
    rw [h, h2] at h1
    subst h1
    exact ⟨rfl, by omega⟩
  constructor
  · ext u
    refine (mem_addEdges _ _ u).trans ?_
    rw [Set.mem_setOf_eq]
    constructor
    · rintro (⟨⟨a, b, w⟩, he, hu⟩ | hu)
      · obtain ⟨-, i, hi, j, hj, rfl, h⟩ := (hmem a b w).1 he
        dsimp only at hu
        have h1 := hlt i j hi hj
        rcases h with ⟨h, rfl⟩ | ⟨h, rfl⟩
        · have h2 := hlt i (j + 1) hi (by omega)
          rcases hu with rfl | rfl <;> omega
        · rcases hu with rfl | rfl <;> omega
      · simp [Mem, Dict.keys] at hu
    · intro hu
      have hn0 : 0 < n := by
        rcases Nat.eq_zero_or_pos n with rfl | h
        · simp at hu
        · exact h
      left
      have hi : u / n < n := Nat.div_lt_of_lt_mul hu
      have hj : u % n < n := Nat.mod_lt _ hn0
      have e : u = u / n * n + u % n := by rw [Nat.mul_comm]; exact (Nat.div_add_mod u n).symm
      by_cases hj' : u % n < n - 1
      · exact ⟨(u, u + 1, 1), (hmem _ _ _).2 ⟨rfl, _, hi, _, hj, e, Or.inl ⟨hj', rfl⟩⟩, Or.inl rfl⟩
      · refine ⟨(u - 1, u, 1), (hmem _ _ _).2 ⟨rfl, u / n, hi, u % n - 1, by omega, by omega, Or.inl ⟨by omega, by omega⟩⟩,
          Or.inr rfl⟩
  · intro i j i' j' w hi hj hi' hj'
    have h := adj_addEdges_const ([] : Graph ℕ ℤ) ((List.range n).flatMap (fun i => (List.range n).flatMap (fun j =>
      (if j < n - 1 then [(i * n + j, i * n + j + 1, (1 : ℤ))] else []) ++
      (if i * n + j + n < n * n then [(i * n + j, i * n + j + n, 1)] else [])))) 1
      (by rintro ⟨a, b, w⟩ he; exact ((hmem a b w).1 he).1) (i * n + j) (i' * n + j')
    have e : (toAbs (gridGraph n)).weight (i * n + j) (i' * n + j') = adj (gridGraph n) (i * n + j) (i' * n + j') := rfl
    rw [e, gridGraph, h, adj_empty]
    have key : ∀ i j i' j', i < n → j < n → i' < n → j' < n →
        ((∃ a < n, ∃ b < n, i * n + j = a * n + b ∧ ((b < n - 1 ∧ i' * n + j' = i * n + j + 1) ∨
          (i * n + j + n < n * n ∧ i' * n + j' = i * n + j + n))) ↔
          (i = i' ∧ j' = j + 1) ∨ (j = j' ∧ i' = i + 1)) := by
      intro i j i' j' hi hj hi' hj'
      constructor
      · rintro ⟨a, ha, b, hb, e, h⟩
        obtain ⟨rfl, rfl⟩ := hinj i j a b hj hb e
        rcases h with ⟨h1, h2⟩ | ⟨h1, h2⟩
        · have := hinj i' j' i (j + 1) hj' (by omega) (by omega)
          exact Or.inl ⟨this.1.symm, this.2⟩
        · have := hinj i' j' (i + 1) j hj' hj (by rw [h2]; ring)
          exact Or.inr ⟨this.2.symm, this.1⟩
      · rintro (⟨rfl, rfl⟩ | ⟨rfl, rfl⟩)
        · exact ⟨i, hi, j, hj, rfl, Or.inl ⟨by omega, by omega⟩⟩
        · refine ⟨i, hi, j, hj, rfl, Or.inr ⟨?_, by ring⟩⟩
          have := hlt (i + 1) j hi' hj
          have e : (i + 1) * n = i * n + n := by ring
          omega
    split_ifs with hc <;> rw [hmem, hmem, key i j i' j' hi hj hi' hj', key i' j' i j hi' hj' hi hj] at hc
    · rw [Option.some.injEq]
      constructor
      · rintro rfl; exact ⟨rfl, by omega⟩
      · exact fun h => h.1.symm
    · constructor
      · intro h; simp at h
      · rintro ⟨-, h⟩; omega

/-- C88: `grid_graph(1)` has no vertex. -/
theorem C88_grid_graph_one : gridGraph 1 = [] := by decide

/-- C88, `petersen_graph()` is the Petersen graph: ten vertices, cubic, and every two vertices that are not adjacent
have exactly one common neighbour while adjacent ones have none. -/
theorem C88_petersen_graph : (∀ u, u ∈ Dict.keys petersenGraph ↔ u < 10) ∧
    (∀ u < 10, degree petersenGraph u = .ok 3) ∧ ∀ u < 10, ∀ v < 10, u ≠ v →
      ((List.range 10).filter (fun x => (adj petersenGraph u x).isSome ∧ (adj petersenGraph v x).isSome)).length =
        if (adj petersenGraph u v).isSome then 0 else 1 := by
  refine ⟨fun u => ?_, by decide +kernel, by decide +kernel⟩
  have : Dict.keys petersenGraph = [0, 1, 4, 5, 2, 6, 3, 7, 8, 9] := by decide +kernel
  rw [this]
  simp only [List.mem_cons, List.not_mem_nil, or_false]
  omega

example : (adj (gridGraph 3) 4 1).isSome = true ∧ adj (coprimePairsGraph 9) 6 9 = none := by decide +kernel

end Rosemary.Props
