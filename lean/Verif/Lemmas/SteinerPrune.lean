import Verif.Model.SteinerTrees
import Verif.Lemmas.Trees
import Verif.Props.Graph

/-!
# The improvement procedure for Steiner trees
-/

namespace Rosemary.SteinerTrees

open Graph Paths SpanningTrees Spec

variable {V W : Type} [LinearOrder V]

/-- The only edge of `T` at `x` is `e`. -/
def LeafEdge (T : Finset (V × V)) (x : V) (e : V × V) : Prop :=
  e ∈ T ∧ (e.1 = x ∨ e.2 = x) ∧ ∀ f ∈ T, f.1 = x ∨ f.2 = x → f = e

/-- In a tree with more than two vertices two leaves are not adjacent. -/
theorem LeafEdge.ne {A : V → V → Option W} {S : Finset V} {T : Finset (V × V)} (hT : SpanningTree A S T) (hS : 2 < S.card)
    {x y : V} {e f : V × V} (hx : x ∈ S) (he : LeafEdge T x e) (hf : LeafEdge T y f) (hxy : x ≠ y) : e ≠ f := by
  rintro rfl
  have hends : ∀ z, z = e.1 ∨ z = e.2 ↔ z = x ∨ z = y := by
    intro z
    rcases he.2.1 with h1 | h1 <;> rcases hf.2.1 with h2 | h2
    · exact absurd (h1.symm.trans h2) hxy
    · rw [h1, h2]
    · rw [h1, h2, or_comm]
    · exact absurd (h1.symm.trans h2) hxy
  have hsub : S ⊆ {x, y} := by
    intro z hz
    have := (hT.joined x hx z hz).const (fun a => a = x ∨ a = y) (fun a b hab => by
      rw [eq_iff_iff]
      constructor
      · rintro (h | h)
        · have := he.2.2 _ hab (Or.inl h)
          exact (hends b).1 (Or.inr (by rw [← this]))
        · have := hf.2.2 _ hab (Or.inl h)
          exact (hends b).1 (Or.inr (by rw [← this]))
      · rintro (h | h)
        · have := he.2.2 _ hab (Or.inr h)
          exact (hends a).1 (Or.inl (by rw [← this]))
        · have := hf.2.2 _ hab (Or.inr h)
          exact (hends a).1 (Or.inl (by rw [← this])))
    rw [eq_iff_iff] at this
    rw [Finset.mem_insert, Finset.mem_singleton]
    exact this.1 (Or.inl rfl)
  have := Finset.card_le_card hsub
  have := Finset.card_le_two (a := x) (b := y)
  omega

/-- The graph `h` has the vertices `S` and the edges `T`, all of weight `one`. -/
structure TreeGraph (one : W) (h : Graph V W) (S : Finset V) (T : Finset (V × V)) : Prop where
  good : Good h
  mem : ∀ v, Mem h v ↔ v ∈ S
  adj : ∀ u v, adj h u v = if (u, v) ∈ T ∨ (v, u) ∈ T then some one else none

theorem mem_leaves {h : Graph V W} (hg : Good h) {x : V} : x ∈ leaves h ↔ ∃ y, nbrs h x = [y] := by
  rw [leaves, List.mem_toFinset, List.mem_map]
  constructor
  · rintro ⟨⟨u, N⟩, h1, rfl⟩
    rw [List.mem_filter] at h1
    have h2 := Dict.get?_of_mem hg.wf h1.1
    have h3 : N.length = 1 := of_decide_eq_true h1.2
    obtain ⟨⟨y, w⟩, rfl⟩ := List.length_eq_one_iff.1 h3
    exact ⟨y, by rw [nbrs, h2]; rfl⟩
  · rintro ⟨y, hy⟩
    rw [nbrs] at hy
    cases h1 : Dict.get? h x with
    | none => rw [h1] at hy; simp [Dict.keys] at hy
    | some N =>
      rw [h1, Option.getD_some] at hy
      refine ⟨(x, N), List.mem_filter.2 ⟨Dict.mem_of_get? h1, decide_eq_true ?_⟩, rfl⟩
      have := congrArg List.length hy
      rw [Dict.keys, List.length_map] at this
      exact this

theorem TreeGraph.mem_leaves {one : W} {A : V → V → Option W} {h : Graph V W} {S : Finset V} {T : Finset (V × V)}
    (ht : TreeGraph one h S T) (hT : SpanningTree A S T) {x : V} : x ∈ leaves h ↔ x ∈ S ∧ ∃ e, LeafEdge T x e := by
  rw [SteinerTrees.mem_leaves ht.good]
  have hnb : ∀ y, y ∈ nbrs h x ↔ (x, y) ∈ T ∨ (y, x) ∈ T := by
    intro y
    rw [mem_nbrs, ht.adj]
    by_cases hh : (x, y) ∈ T ∨ (y, x) ∈ T
    · rw [if_pos hh]; exact ⟨fun _ => hh, fun _ => ⟨one, rfl⟩⟩
    · rw [if_neg hh]; exact ⟨fun ⟨w, hw⟩ => absurd hw (by simp), fun h' => absurd h' hh⟩
  constructor
  · rintro ⟨y, hy⟩
    have hone : ∀ z, (x, z) ∈ T ∨ (z, x) ∈ T ↔ z = y := by
      intro z; rw [← hnb, hy, List.mem_singleton]
    rcases (hone y).2 rfl with h1 | h1
    · refine ⟨(hT.edge _ _ h1).2.1, (x, y), h1, Or.inl rfl, ?_⟩
      rintro ⟨a, b⟩ hf (h2 | h2) <;> dsimp only at h2 <;> subst h2
      · rw [(hone b).1 (Or.inl hf)]
      · have := (hone a).1 (Or.inr hf)
        subst this
        exact absurd (hT.edge _ _ h1).1 (not_lt.2 (hT.edge _ _ hf).1.le)
    · refine ⟨(hT.edge _ _ h1).2.2.1, (y, x), h1, Or.inr rfl, ?_⟩
      rintro ⟨a, b⟩ hf (h2 | h2) <;> dsimp only at h2 <;> subst h2
      · have := (hone b).1 (Or.inl hf)
        subst this
        exact absurd (hT.edge _ _ h1).1 (not_lt.2 (hT.edge _ _ hf).1.le)
      · rw [(hone a).1 (Or.inr hf)]
  · rintro ⟨-, ⟨a, b⟩, he, hex, hu⟩
    have hkey : ∃ y, ∀ z, (x, z) ∈ T ∨ (z, x) ∈ T ↔ z = y := by
      have hlt := (hT.edge _ _ he).1
      rcases hex with h2 | h2 <;> dsimp only at h2 <;> subst h2
      · refine ⟨b, fun z => ⟨?_, fun e => Or.inl (e ▸ he)⟩⟩
        rintro (h3 | h3)
        · exact (Prod.mk.injEq .. ▸ hu _ h3 (Or.inl rfl)).2
        · have := (Prod.mk.injEq .. ▸ hu _ h3 (Or.inr rfl) : z = a ∧ a = b)
          exact absurd hlt (by rw [← this.2]; exact lt_irrefl _)
      · refine ⟨a, fun z => ⟨?_, fun e => Or.inr (e ▸ he)⟩⟩
        rintro (h3 | h3)
        · have := (Prod.mk.injEq .. ▸ hu _ h3 (Or.inl rfl) : b = a ∧ z = b)
          exact absurd hlt (by rw [← this.1]; exact lt_irrefl _)
        · exact (Prod.mk.injEq .. ▸ hu _ h3 (Or.inr rfl)).1
    obtain ⟨y, hy⟩ := hkey
    refine ⟨y, ?_⟩
    have h1 : (nbrs h x).Perm [y] :=
      (List.perm_ext_iff_of_nodup (nodup_nbrs ht.good x) (List.nodup_singleton y)).2
        (fun z => by rw [hnb, hy, List.mem_singleton])
    exact List.perm_singleton.1 h1

theorem TreeGraph.delete {one : W} {A : V → V → Option W} {h : Graph V W} {S : Finset V} {T : Finset (V × V)}
    (ht : TreeGraph one h S T) (hT : SpanningTree A S T) {x : V} {e : V × V} (he : LeafEdge T x e) :
    TreeGraph one (deleteVertex h x) (S.erase x) (T.erase e) := by
  refine ⟨ht.good.deleteVertex x, fun v => ?_, fun u v => ?_⟩
  · rw [mem_deleteVertex ht.good, ht.mem, Finset.mem_erase]
  · rw [adj_deleteVertex ht.good, ht.adj]
    have hk : ∀ a b, (a, b) ∈ T.erase e ↔ (a, b) ∈ T ∧ a ≠ x ∧ b ≠ x := by
      intro a b
      rw [Finset.mem_erase]
      constructor
      · rintro ⟨h1, h2⟩
        exact ⟨h2, fun h3 => h1 (he.2.2 _ h2 (Or.inl h3)), fun h3 => h1 (he.2.2 _ h2 (Or.inr h3))⟩
      · rintro ⟨h1, h2, h3⟩
        refine ⟨?_, h1⟩
        rintro rfl
        exact he.2.1.elim h2 h3
    simp only [hk]
    by_cases h1 : u = x ∨ v = x
    · rw [if_pos h1, if_neg]
      rintro (⟨-, h2, h3⟩ | ⟨-, h2, h3⟩)
      · exact h1.elim h2 h3
      · exact h1.elim h3 h2
    · rw [if_neg h1]
      push Not at h1
      by_cases h2 : (u, v) ∈ T ∨ (v, u) ∈ T
      · rw [if_pos h2, if_pos (h2.imp (fun h => ⟨h, h1.1, h1.2⟩) (fun h => ⟨h, h1.2, h1.1⟩))]
      · rw [if_neg h2, if_neg (fun h => h2 (h.imp And.left And.left))]

variable [AddCommMonoid W] [LinearOrder W] [IsOrderedCancelAddMonoid W]

omit [IsOrderedCancelAddMonoid W] in
theorem totalWeight_erase {A : V → V → Option W} {T : Finset (V × V)} {e : V × V} (he : e ∈ T) :
    totalWeight A T = (A e.1 e.2).getD 0 + totalWeight A (T.erase e) := by
  rw [totalWeight, ← Finset.add_sum_erase _ _ he]; rfl

omit [LinearOrder V] [IsOrderedCancelAddMonoid W] in
theorem getD_nonneg {A : V → V → Option W} (hA : ∀ u v x, A u v = some x → 0 ≤ x) (u v : V) : 0 ≤ (A u v).getD 0 := by
  cases h : A u v with
  | none => exact le_rfl
  | some w => exact hA u v w h

/-- What is known about the tree while leaves are removed. -/
structure Pruned (A : V → V → Option W) (R S0 : Finset V) (T0 : Finset (V × V)) (S : Finset V) (T : Finset (V × V)) : Prop where
  tree : SpanningTree A S T
  term : R ⊆ S
  sub : S ⊆ S0
  sub2 : T ⊆ T0
  le : totalWeight A T ≤ totalWeight A T0

omit [LinearOrder V] [IsOrderedCancelAddMonoid W] in
theorem Pruned.trans [LinearOrder V] {A : V → V → Option W} {R S0 S1 S2 : Finset V} {T0 T1 T2 : Finset (V × V)} (h : Pruned A R S0 T0 S1 T1)
    (h' : Pruned A R S1 T1 S2 T2) : Pruned A R S0 T0 S2 T2 :=
  ⟨h'.tree, h'.term, h'.sub.trans h.sub, h'.sub2.trans h.sub2, le_trans h'.le h.le⟩

theorem prune_spec {A : V → V → Option W} (hA : ∀ u v x, A u v = some x → 0 ≤ x) (one : W) (terminals : List V)
    {R : Finset V} (hR : 2 ≤ R.card) :
    ∀ (ls : List V) (h : Graph V W) (b : Bool) (S : Finset V) (T : Finset (V × V)), TreeGraph one h S T → SpanningTree A S T →
      R ⊆ S → (∀ x ∈ S, x ∈ terminals ↔ x ∈ R) → ls.Nodup → (∀ x ∈ ls, x ∈ S ∧ ∃ e, LeafEdge T x e) →
      ∃ h' b' S' T', prune terminals ls h b = (h', b') ∧ TreeGraph one h' S' T' ∧ Pruned A R S T S' T' ∧
        (b' = false → b = false ∧ h' = h ∧ ∀ x ∈ ls, x ∈ terminals) ∧ (b' = true → b = true ∨ S'.card < S.card) := by
  intro ls
  induction ls with
  | nil =>
    intro h b S T ht hT hsub _ _ _
    exact ⟨h, b, S, T, rfl, ht, ⟨hT, hsub, Finset.Subset.refl _, Finset.Subset.refl _, le_rfl⟩,
      fun e => ⟨e, rfl, fun x hx => by simp at hx⟩, fun e => Or.inl e⟩
  | cons x ls ih =>
    intro h b S T ht hT hsub hRt hnd hls
    rw [List.nodup_cons] at hnd
    rw [prune]
    by_cases hx : x ∉ terminals
    · rw [if_pos hx]
      obtain ⟨hxS, e, he⟩ := hls x List.mem_cons_self
      have hS : 2 < S.card := by
        have h1 : insert x R ⊆ S := Finset.insert_subset hxS hsub
        have h2 := Finset.card_le_card h1
        rw [Finset.card_insert_of_notMem (by rw [← hRt x hxS]; exact hx)] at h2
        omega
      have hT' := hT.erase_leaf hxS he.1 he.2.1 he.2.2
      obtain ⟨h', b', S', T', k1, k2, k3, k4, k5⟩ := ih (deleteVertex h x) true (S.erase x) (T.erase e) (ht.delete hT he) hT'
        (fun u hu => Finset.mem_erase.2 ⟨fun h1 => hx ((hRt x hxS).2 (h1 ▸ hu)), hsub hu⟩)
        (fun y hy => hRt y (Finset.mem_of_mem_erase hy)) hnd.2 (fun y hy => by
          obtain ⟨hyS, f, hf⟩ := hls y (List.mem_cons_of_mem _ hy)
          have hne : x ≠ y := fun h1 => hnd.1 (h1 ▸ hy)
          have hef := LeafEdge.ne hT hS hxS he hf hne
          exact ⟨Finset.mem_erase.2 ⟨hne.symm, hyS⟩, f, Finset.mem_erase.2 ⟨hef.symm, hf.1⟩, hf.2.1,
            fun f' hf' => hf.2.2 f' (Finset.mem_of_mem_erase hf')⟩)
      refine ⟨h', b', S', T', k1, k2, ⟨k3.tree, k3.term, k3.sub.trans (Finset.erase_subset _ _),
        k3.sub2.trans (Finset.erase_subset _ _), le_trans k3.le ?_⟩, fun e => ?_, fun _ => Or.inr ?_⟩
      · rw [totalWeight_erase he.1]
        exact le_add_of_nonneg_left (getD_nonneg hA _ _)
      · exact absurd (k4 e).1 (by simp)
      · have h1 := Finset.card_le_card k3.sub
        have h2 := Finset.card_erase_add_one hxS
        omega
    · rw [if_neg hx]
      obtain ⟨h', b', S', T', k1, k2, k3, k4, k5⟩ := ih h b S T ht hT hsub hRt hnd.2 (fun y hy => hls y (List.mem_cons_of_mem _ hy))
      refine ⟨h', b', S', T', k1, k2, k3, fun e => ⟨(k4 e).1, (k4 e).2.1, fun y hy => ?_⟩, k5⟩
      rcases List.mem_cons.1 hy with rfl | hy
      · exact not_not.1 hx
      · exact (k4 e).2.2 y hy

theorem pruneLoop_spec {ord : Finset V → List V} (hord : ∀ S, (ord S).Nodup ∧ ∀ x, x ∈ ord S ↔ x ∈ S) {A : V → V → Option W}
    (hA : ∀ u v x, A u v = some x → 0 ≤ x) (one : W) (terminals : List V) {R : Finset V} (hR : 2 ≤ R.card) :
    ∀ (n : ℕ) (h : Graph V W) (S : Finset V) (T : Finset (V × V)), S.card = n → TreeGraph one h S T → SpanningTree A S T →
      R ⊆ S → (∀ x ∈ S, x ∈ terminals ↔ x ∈ R) →
      ∃ h' S' T', pruneLoop ord terminals h = some h' ∧ TreeGraph one h' S' T' ∧ Pruned A R S T S' T' ∧
        ∀ x ∈ S', x ∉ R → ¬ ∃ e, LeafEdge T' x e := by
  intro n
  induction n using Nat.strong_induction_on with
  | _ n ih =>
    intro h S T hn ht hT hsub hRt
    obtain ⟨h1, b1, S1, T1, k1, k2, k3, k4, k5⟩ := prune_spec hA one terminals hR (ord (leaves h)) h false S T ht hT hsub hRt (hord _).1
      (fun x hx => (ht.mem_leaves hT).1 (((hord _).2 x).1 hx))
    rw [pruneLoop, k1]
    cases b1 with
    | false =>
      refine ⟨h1, S1, T1, rfl, k2, k3, fun x hx hxt he => hxt ((hRt x (k3.sub hx)).1 ((k4 rfl).2.2 x (((hord _).2 x).2 ?_)))⟩
      rw [← (k4 rfl).2.1]
      exact (k2.mem_leaves k3.tree).2 ⟨hx, he⟩
    | true =>
      have hlt := (k5 rfl).resolve_left (by simp)
      obtain ⟨h', S', T', j1, j2, j3, j4⟩ := ih S1.card (by omega) h1 S1 T1 rfl k2 k3.tree k3.term
        (fun x hx => hRt x (k3.sub hx))
      exact ⟨h', S', T', j1, j2, k3.trans j3, j4⟩

omit [AddCommMonoid W] [LinearOrder W] [IsOrderedCancelAddMonoid W] in
theorem addOnes_spec (one : W) (es : List (V × V)) (h : Graph V W) (hg : Good h) :
    Good (es.foldl (fun tree e => addEdge tree e.1 e.2 one) h) ∧
      (∀ v, Mem (es.foldl (fun tree e => addEdge tree e.1 e.2 one) h) v ↔ (∃ e ∈ es, v = e.1 ∨ v = e.2) ∨ Mem h v) ∧
      ∀ u v, adj (es.foldl (fun tree e => addEdge tree e.1 e.2 one) h) u v =
        if (u, v) ∈ es ∨ (v, u) ∈ es then some one else adj h u v := by
  induction es generalizing h with
  | nil => exact ⟨hg, fun v => by simp, fun u v => by simp⟩
  | cons e es ih =>
    obtain ⟨a, b⟩ := e
    obtain ⟨h1, h2, h3⟩ := ih (addEdge h a b one) (hg.addEdge a b one)
    refine ⟨h1, fun v => ?_, fun u v => ?_⟩
    · rw [List.foldl_cons, h2, mem_addEdge]
      simp only [List.exists_mem_cons_iff]
      generalize (∃ e ∈ es, v = e.1 ∨ v = e.2) = p
      tauto
    · rw [List.foldl_cons, h3, adj_addEdge]
      simp only [List.mem_cons, Prod.mk.injEq]
      by_cases k : (u, v) ∈ es ∨ (v, u) ∈ es
      · rw [if_pos k, if_pos (by tauto)]
      · rw [if_neg k]
        by_cases k' : a = u ∧ b = v ∨ b = u ∧ a = v
        · rw [if_pos k', if_pos]
          rcases k' with ⟨rfl, rfl⟩ | ⟨rfl, rfl⟩
          · exact Or.inl (Or.inl ⟨rfl, rfl⟩)
          · exact Or.inr (Or.inl ⟨rfl, rfl⟩)
        · rw [if_neg k', if_neg]
          rintro ((⟨rfl, rfl⟩ | k1) | (⟨rfl, rfl⟩ | k1))
          · exact k' (Or.inl ⟨rfl, rfl⟩)
          · exact k (Or.inl k1)
          · exact k' (Or.inr ⟨rfl, rfl⟩)
          · exact k (Or.inr k1)

theorem TreeGraph.edges {one : W} {A : V → V → Option W} {h : Graph V W} {S : Finset V} {T : Finset (V × V)}
    (ht : TreeGraph one h S T) (hT : SpanningTree A S T) :
    (edges h).Pairwise (fun a b => toLex a < toLex b) ∧ (edges h).toFinset = T := by
  obtain ⟨h1, h2⟩ := sortPairs_spec (List.nodup_dedup
    (h.flatMap (fun e => (e.2.filter (fun f => ¬ f.1 < e.1)).map (fun f => (e.1, f.1)))))
  refine ⟨h1, ?_⟩
  rw [SteinerTrees.edges, h2]
  ext ⟨a, b⟩
  rw [List.mem_toFinset, List.mem_dedup, List.mem_flatMap]
  constructor
  · rintro ⟨⟨u, N⟩, k1, k2⟩
    rw [List.mem_map] at k2
    obtain ⟨⟨v, w⟩, k3, k4⟩ := k2
    rw [List.mem_filter] at k3
    have k5 : ¬ v < u := of_decide_eq_true k3.2
    injection k4 with e1 e2
    dsimp only at e1 e2
    subst e1 e2
    have g1 := Dict.get?_of_mem ht.good.wf k1
    have g2 : Graph.adj h u v = some w := by
      rw [Graph.adj, g1]
      exact Dict.get?_of_mem (ht.good.inner u N g1) k3.1
    rw [ht.adj] at g2
    by_cases hh : (u, v) ∈ T ∨ (v, u) ∈ T
    · rcases hh with hh | hh
      · exact hh
      · exact absurd (hT.edge _ _ hh).1 k5
    · rw [if_neg hh] at g2; exact absurd g2 (by simp)
  · intro hab
    have g2 : Graph.adj h a b = some one := by rw [ht.adj, if_pos (Or.inl hab)]
    rw [Graph.adj, Option.bind_eq_some_iff] at g2
    obtain ⟨N, n1, n2⟩ := g2
    refine ⟨(a, N), Dict.mem_of_get? n1, List.mem_map.2 ⟨(b, one), List.mem_filter.2 ⟨Dict.mem_of_get? n2, ?_⟩, rfl⟩⟩
    exact decide_eq_true (not_lt.2 (hT.edge _ _ hab).1.le)

omit [LinearOrder W] [IsOrderedCancelAddMonoid W] in
theorem sumWeights_spec {g : Graph V W} (es : List (V × V)) (t : W) (h : ∀ e ∈ es, ∃ w, adj g e.1 e.2 = some w) :
    sumWeights g es t = .ok (t + (es.map (fun e => (adj g e.1 e.2).getD 0)).sum) := by
  induction es generalizing t with
  | nil => rw [sumWeights, List.map_nil, List.sum_nil, add_zero]
  | cons e es ih =>
    obtain ⟨u, v⟩ := e
    obtain ⟨w, hw⟩ := h (u, v) List.mem_cons_self
    dsimp only at hw
    rw [sumWeights]
    have hw' : (Dict.get? g u).bind (fun N => Dict.get? N v) = some w := hw
    rw [hw']
    dsimp only
    rw [ih _ (fun e he => h e (List.mem_cons_of_mem _ he)), List.map_cons, List.sum_cons, hw, add_assoc]; rfl

/-- `prim` without a root on a connected graph. -/
theorem prim_none {g : Graph V W} (hg : Good g) {C : Finset V} (hne : C.Nonempty) (hC : ∀ v, Mem g v ↔ v ∈ C)
    (hconn : ∀ u ∈ C, ∀ v ∈ C, Reach (fun a b => ∃ w, adj g a b = some w) u v) :
    ∃ total es, prim g none = some (.ok (total, es)) ∧ es.Pairwise (fun a b => toLex a < toLex b) ∧
      MinSpanningTree (adj g) C es.toFinset := by
  obtain ⟨x, hx⟩ := hne
  cases hk : Dict.keys g with
  | nil =>
    have := (hC x).2 hx
    rw [Mem, hk] at this
    simp at this
  | cons s ks =>
    have hs : Mem g s := by rw [Mem, hk]; exact List.mem_cons_self
    have hcomp : IsComponent g s C := by
      intro v
      constructor
      · intro hv; exact hconn s ((hC s).1 hs) v hv
      · rintro ⟨n, hn⟩
        rw [← hC]
        cases hn with
        | zero => exact hs
        | succ _ he =>
          obtain ⟨w, hw⟩ := he
          exact hg.mem_right hw
    obtain ⟨P, h1, h2, h3, -⟩ := prim_spec hg hs hcomp
    obtain ⟨k1, k2⟩ := sortPairs_spec h2
    have hcore : primCore g none = primCore g (some s) := by
      rw [primCore, primCore, primRoot, primRoot, hk]
    exact ⟨_, sortPairs (linkEdges P), by rw [prim, hcore, h1]; rfl, k1, by rw [k2]; exact h3⟩

omit [AddCommMonoid W] [LinearOrder W] [IsOrderedCancelAddMonoid W] in
theorem reach_of_joined {g : Graph V W} (hg : Good g) {T : Finset (V × V)} (hT : ∀ e ∈ T, ∃ w, adj g e.1 e.2 = some w) {a b : V}
    (h : Joined T a b) : Reach (fun a b => ∃ w, adj g a b = some w) a b := by
  have hsym : ∀ u v, (∃ w, adj g u v = some w) → ∃ w, adj g v u = some w := fun u v ⟨w, hw⟩ => ⟨w, by rw [hg.symm]; exact hw⟩
  induction h with
  | rel a b h => exact (Reach.refl _ a).step (hT _ h)
  | refl a => exact Reach.refl _ _
  | symm a b _ ih => obtain ⟨n, hn⟩ := ih; exact ⟨n, hn.symm hsym⟩
  | trans a b c _ _ h1 h2 => exact h1.trans h2

/-- The ends of the edges in a list. -/
def ends (es : List (V × V)) : Finset V := (es.flatMap (fun e => [e.1, e.2])).toFinset

omit [AddCommMonoid W] [LinearOrder W] [IsOrderedCancelAddMonoid W] in
theorem mem_ends {es : List (V × V)} {v : V} : v ∈ ends es ↔ ∃ e ∈ es, v = e.1 ∨ v = e.2 := by
  rw [ends, List.mem_toFinset, List.mem_flatMap]
  simp only [List.mem_cons, List.not_mem_nil, or_false]

/-- `_improve`: the result is a tree with the terminals, all leaves are terminals, and it is not heavier than any spanning tree
of the given vertices. -/
theorem improve_spec {ord : Finset V → List V} (hord : ∀ S, (ord S).Nodup ∧ ∀ x, x ∈ ord S ↔ x ∈ S) {g : Graph V W} (hg : Good g)
    (hA : ∀ u v x, adj g u v = some x → 0 ≤ x) (one : W) (terminals : List V) {R : Finset V} (hR : 2 ≤ R.card)
    (es : List (V × V)) (hes : ∀ e ∈ es, ∃ w, adj g e.1 e.2 = some w)
    (hj : ∀ u ∈ ends es, ∀ v ∈ ends es, Joined es.toFinset u v) (hsub : R ⊆ ends es)
    (hRt : ∀ x ∈ ends es, x ∈ terminals ↔ x ∈ R) :
    ∃ weight es', improve ord one g es terminals = some (.ok (weight, es')) ∧ es'.Pairwise (fun a b => toLex a < toLex b) ∧
      weight = totalWeight (adj g) es'.toFinset ∧
      (∃ S, R ⊆ S ∧ SpanningTree (adj g) S es'.toFinset ∧
        ∀ x ∈ S, x ∉ R → ¬ ∃ e, LeafEdge es'.toFinset x e) ∧
      ∀ T, SpanningTree (adj g) (ends es) T → weight ≤ totalWeight (adj g) T := by
  have hmem : ∀ v ∈ ends es, Mem g v := by
    intro v hv
    obtain ⟨e, he, h1⟩ := mem_ends.1 hv
    obtain ⟨w, hw⟩ := hes e he
    rcases h1 with rfl | rfl
    · exact mem_of_adj hw
    · exact hg.mem_right hw
  obtain ⟨h, i1, i2, i3, i4⟩ := Rosemary.Graph.induced_spec hord hg (es.flatMap (fun e => [e.1, e.2]))
    (fun u hu => hmem u (List.mem_toFinset.2 hu))
  have hin : ∀ v, v ∈ es.flatMap (fun e => [e.1, e.2]) ↔ v ∈ ends es := fun v => List.mem_toFinset.symm
  simp only [hin] at i3 i4
  have hne : (ends es).Nonempty := by
    have : 0 < R.card := by omega
    obtain ⟨x, hx⟩ := Finset.card_pos.1 this
    exact ⟨x, hsub hx⟩
  obtain ⟨t1, mst, p1, p2, p3⟩ := prim_none i2 hne i3 (fun u hu v hv => reach_of_joined i2 (fun e he => by
    rw [List.mem_toFinset] at he
    obtain ⟨w, hw⟩ := hes e he
    exact ⟨w, by rw [i4, if_pos ⟨mem_ends.2 ⟨e, he, Or.inl rfl⟩, mem_ends.2 ⟨e, he, Or.inr rfl⟩⟩]; exact hw⟩) (hj u hu v hv))
  -- the same trees in the graph and the induced graph
  have htree : ∀ T, SpanningTree (adj h) (ends es) T ↔ SpanningTree (adj g) (ends es) T := by
    intro T
    constructor
    · intro hT
      refine ⟨fun u v huv => ?_, hT.joined, hT.card⟩
      obtain ⟨k1, k2, k3, w, k4⟩ := hT.edge u v huv
      rw [i4, if_pos ⟨k2, k3⟩] at k4
      exact ⟨k1, k2, k3, w, k4⟩
    · intro hT
      refine ⟨fun u v huv => ?_, hT.joined, hT.card⟩
      obtain ⟨k1, k2, k3, w, k4⟩ := hT.edge u v huv
      exact ⟨k1, k2, k3, w, by rw [i4, if_pos ⟨k2, k3⟩]; exact k4⟩
  have hweight : ∀ T, SpanningTree (adj g) (ends es) T → totalWeight (adj h) T = totalWeight (adj g) T := by
    intro T hT
    apply Finset.sum_congr rfl
    rintro ⟨u, v⟩ huv
    obtain ⟨-, k2, k3, -⟩ := hT.edge u v huv
    dsimp only
    rw [i4, if_pos ⟨k2, k3⟩]
  have hT0 := (htree _).1 p3.tree
  obtain ⟨q1, q2, q3⟩ := addOnes_spec one mst ([] : Graph V W) good_empty
  have htg : TreeGraph one (mst.foldl (fun tree e => addEdge tree e.1 e.2 one) []) (ends es) mst.toFinset := by
    refine ⟨q1, fun v => ?_, fun u v => ?_⟩
    · rw [q2]
      constructor
      · rintro (⟨⟨a, b⟩, he, h1⟩ | h1)
        · obtain ⟨-, k2, k3, -⟩ := hT0.edge a b (List.mem_toFinset.2 he)
          rcases h1 with rfl | rfl
          · exact k2
          · exact k3
        · simp [Mem, Dict.keys] at h1
      · intro hv
        left
        obtain ⟨y, hy, hyv⟩ := Finset.exists_mem_ne (by
          have := Finset.card_le_card hsub
          omega : 1 < (ends es).card) v
        obtain ⟨e, he, h1⟩ := hT0.exists_edge hv hy hyv
        exact ⟨e, List.mem_toFinset.1 he, h1.imp Eq.symm Eq.symm⟩
    · rw [q3]; simp only [List.mem_toFinset]; rfl
  obtain ⟨h', S', T', r1, r2, r3, r4⟩ := pruneLoop_spec hord hA one terminals hR _ _ _ _ rfl htg hT0 hsub hRt
  obtain ⟨s1, s2⟩ := r2.edges r3.tree
  have hnd : (edges h').Nodup := s1.imp (fun h => by rintro rfl; exact lt_irrefl _ h)
  have hsw : sumWeights g (edges h') 0 = .ok (totalWeight (adj g) T') := by
    rw [sumWeights_spec _ _ (fun e he => by
      obtain ⟨u, v⟩ := e
      rw [← List.mem_toFinset, s2] at he
      exact (r3.tree.edge u v he).2.2.2), zero_add, totalWeight, ← s2, List.sum_toFinset _ hnd]
  refine ⟨totalWeight (adj g) T', edges h', ?_, s1, by rw [s2], ⟨S', r3.term, by rw [s2]; exact r3.tree, by rw [s2]; exact r4⟩,
    fun T hT => le_trans r3.le ?_⟩
  · rw [improve, i1]
    dsimp only
    rw [p1]
    dsimp only
    rw [deleteNonterminalLeaves, r1, Option.map_some]
    dsimp only
    rw [hsw]
  · rw [← hweight _ hT0, ← hweight _ hT]
    exact p3.min T ((htree T).2 hT)

end Rosemary.SteinerTrees
