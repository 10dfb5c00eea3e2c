import Verif.Lemmas.ExactColoring

/-!
# Properties of the colorings (C71, C92)

Graphs are those that any sequence of `Graph` operations builds; loops are ignored by all three algorithms.  The order
of iteration of Python sets is the parameter `ord`.
-/

namespace Rosemary.Props

open Rosemary.Graph Rosemary.Coloring Rosemary.Spec
open Rosemary.Traversal (E)

variable {V W : Type}

/-- The number of neighbors of `v` other than `v`. -/
noncomputable def degreeOf (g : Graph V W) [DecidableEq V] (v : V) : ℕ := {u | Linked g v u ∧ u ≠ v}.ncard

section Greedy

variable [DecidableEq V]

theorem le_of_bound {g : Graph V W} {m : List (V × ℕ)} {k : ℕ} (h : Inv (E g) m k) (D : ℕ)
    (hD : ∀ v ∈ Dict.keys m, degreeOf g v ≤ D) : k ≤ D + 1 := by
  by_contra hlt
  obtain ⟨v, hv⟩ := h.all (D + 1) (by omega)
  have h1 := h.rule.le_degree h.wf hv ((nbrs g v).toFinset.erase v) (by
    intro u hu hne
    rw [Finset.mem_erase, List.mem_toFinset]
    exact ⟨hne, hu⟩)
  have h2 : degreeOf g v = ((nbrs g v).toFinset.erase v).card := by
    rw [degreeOf, ← Set.ncard_coe_finset]
    congr 1
    ext u
    rw [← E_eq]
    simp only [E, Finset.coe_erase, List.coe_toFinset, Set.mem_diff, Set.mem_setOf_eq, Set.mem_singleton_iff]
  have h3 := hD v (List.mem_map.2 ⟨_, hv, rfl⟩)
  omega

theorem degreeOrder_ne_nil {ops : List (Op V W)} (hne : (toAbs (history ops)).verts.Nonempty) :
    (degreeOrder (history ops)).reverse ≠ [] := by
  obtain ⟨x, hx⟩ := hne
  exact List.ne_nil_of_mem (List.mem_reverse.2 (((C87_degree_order ops).2.1 x).2 hx))

/-- C71: `greedy_sequential(graph, vertices)` on a nonempty list of different vertices returns a proper coloring of
them.  The colors are given in the order of the list by the first fit rule, the classes are those of the color map, and
the number of colors is at most one more than the largest degree. -/
theorem C71_greedy_given (ops : List (Op V W)) (l : List V) (hne : l ≠ []) (hnd : l.Nodup)
    (hl : ∀ v ∈ l, v ∈ (toAbs (history ops)).verts) :
    ∃ k m cl, greedySequential (history ops) (some l) 1 false = .ok (k, .colorMap m) ∧
      greedySequential (history ops) (some l) 1 true = .ok (k, .classes cl) ∧
      IsColoring {v | v ∈ l} (Linked (history ops)) 0 k m ∧
      IsPartition {v | v ∈ l} (Linked (history ops)) k cl ∧
      m.map Prod.fst = l ∧
      (∀ pre v c post, m = pre ++ (v, c) :: post → FirstFit (Linked (history ops)) pre v c) ∧
      (∀ i (h : i < cl.length) v, v ∈ cl[i] ↔ (v, i) ∈ m) ∧
      ∀ D, (∀ v ∈ l, degreeOf (history ops) v ≤ D) → k ≤ D + 1 := by
  obtain ⟨m, k, h1, h2, h3⟩ := greedyMap_spec hne hnd hl
  have hcol : IsColoring {v | v ∈ l} (Linked (history ops)) 0 k m := by
    rw [← E_eq]
    refine h2.coloring ?_ (fun v => by rw [h3]; rfl)
    intro u v h
    rw [E_eq] at h ⊢
    exact linked_symm ops u v h
  refine ⟨k, m, _, ?_, ?_, hcol, partition_of_coloring hcol, h3, ?_, ?_, ?_⟩
  · rw [greedySequential, h1]
    simp
  · rw [greedySequential, h1]
    dsimp only
    rw [if_pos (Or.inl rfl), classesOf_spec h2.bound]
    rfl
  · rw [← E_eq]; exact h2.rule
  · intro i hi v
    simp only [List.getElem_map, List.getElem_range, List.mem_map, List.mem_filter, decide_eq_true_eq]
    constructor
    · rintro ⟨⟨a, b⟩, ⟨h4, rfl⟩, rfl⟩; exact h4
    · intro h; exact ⟨_, ⟨h, rfl⟩, rfl⟩
  · intro D hD
    exact le_of_bound h2 D (by rw [h3]; exact hD)

/-- C71: without a list, the vertices are those of the graph in the order of nonincreasing degree. -/
theorem C71_greedy_default (ops : List (Op V W)) (passes : ℤ) (classes : Bool) :
    greedySequential (history ops) none passes classes =
      greedySequential (history ops) (some (degreeOrder (history ops)).reverse) passes classes ∧
    (degreeOrder (history ops)).reverse.Nodup ∧
    (∀ v, v ∈ (degreeOrder (history ops)).reverse ↔ v ∈ (toAbs (history ops)).verts) ∧
    (degreeOrder (history ops)).reverse.Pairwise (fun u v =>
      degreeWithout (history ops) [] v ≤ degreeWithout (history ops) [] u) := by
  obtain ⟨h1, h2, h3⟩ := C87_degree_order ops
  exact ⟨rfl, List.nodup_reverse.2 h1, fun v => by rw [List.mem_reverse]; exact h2 v, List.pairwise_reverse.2 h3⟩

/-- C71: with more than one pass the result is again a proper coloring, and it has at most as many colors as with
one pass. -/
theorem C71_greedy_passes (ops : List (Op V W)) (l : List V) (hne : l ≠ []) (hnd : l.Nodup)
    (hl : ∀ v ∈ l, v ∈ (toAbs (history ops)).verts) (passes : ℤ) (hp : 1 < passes) :
    ∃ k r k' m cl, greedySequential (history ops) (some l) 1 true = .ok (k, r) ∧
      greedySequential (history ops) (some l) passes false = .ok (k', .colorMap m) ∧
      greedySequential (history ops) (some l) passes true = .ok (k', .classes cl) ∧
      IsColoring {v | v ∈ l} (Linked (history ops)) 0 k' m ∧
      IsPartition {v | v ∈ l} (Linked (history ops)) k' cl ∧ k' ≤ k := by
  obtain ⟨m, k, h1, h2, h3⟩ := greedyMap_spec hne hnd hl
  have hs : ∀ u v, E (history ops) u v → E (history ops) v u := by
    intro u v h
    rw [E_eq] at h ⊢
    exact linked_symm ops u v h
  have hcol : IsColoring {v | v ∈ l} (E (history ops)) 0 k m := h2.coloring hs (fun v => by rw [h3]; rfl)
  have hpar := partition_of_coloring hcol
  generalize hcl : (List.range k).map (fun i => (m.filter (fun e => e.2 = i)).map Prod.fst) = cl at hpar
  have hperm : cl.reverse.flatten.Perm cl.flatten := (List.reverse_perm cl).flatten
  have hne' : cl.reverse.flatten ≠ [] := by
    obtain ⟨x, hx⟩ := List.exists_mem_of_ne_nil l hne
    exact List.ne_nil_of_mem (hperm.mem_iff.2 ((hpar.verts x).2 hx))
  obtain ⟨m', k', e1, e2, e3⟩ := greedyMap_spec (g := history ops) hne' (hperm.nodup_iff.2 hpar.nodup) (by
    intro v hv
    exact hl v ((hpar.verts v).1 (hperm.mem_iff.1 hv)))
  have hcol' : IsColoring {v | v ∈ l} (Linked (history ops)) 0 k' m' := by
    rw [← E_eq]
    refine e2.coloring hs (fun v => ?_)
    rw [e3, hperm.mem_iff, hpar.verts]
  have hstart : ∀ classes, greedySequential (history ops) (some l) passes classes =
      greedyOnce (history ops) cl.reverse.flatten classes := by
    intro classes
    rw [greedySequential, h1]
    dsimp only
    rw [if_pos (Or.inr hp), classesOf_spec h2.bound, hcl]
    dsimp only
    rw [if_neg (by rintro ⟨-, h⟩; omega), if_pos hp]
  refine ⟨k, .classes cl, k', m', _, ?_, ?_, ?_, hcol', partition_of_coloring hcol', ?_⟩
  · rw [greedySequential, h1]
    dsimp only
    rw [if_pos (Or.inl rfl), classesOf_spec h2.bound, hcl]
    rfl
  · rw [hstart, greedyOnce, e1]
    simp
  · rw [hstart, greedyOnce, e1]
    dsimp only
    rw [if_pos rfl, classesOf_spec e2.bound]
  · exact pass_spec hcol e2 (by rw [e3, hcl])

/-- C71 fails for `passes` below 1: a color map is returned although classes are asked for. -/
theorem C71_greedy_no_pass_violation (ops : List (Op V W)) (l : List V) (hne : l ≠ []) (hnd : l.Nodup)
    (hl : ∀ v ∈ l, v ∈ (toAbs (history ops)).verts) (passes : ℤ) (hp : passes < 1) :
    ∃ k m, greedySequential (history ops) (some l) passes true = .ok (k, .colorMap m) := by
  obtain ⟨m, k, h1, h2, -⟩ := greedyMap_spec hne hnd hl
  refine ⟨k, m, ?_⟩
  rw [greedySequential, h1]
  dsimp only
  rw [if_pos (Or.inl rfl), classesOf_spec h2.bound]
  dsimp only
  rw [if_neg (by rintro ⟨-, h⟩; omega), if_neg (by omega)]

end Greedy

section Dsatur

variable [LinearOrder V]

/-- C71: on the graph without vertices `greedy_sequential` raises IndexError and `dsatur` raises ValueError. -/
theorem C71_no_vertices (ord : Finset V → List V) (passes : ℤ) (classes : Bool) :
    greedySequential ([] : Graph V W) none passes classes = .error .indexError ∧
      dsatur ord ([] : Graph V W) classes = .error .valueError := by
  constructor
  · rfl
  · rw [dsatur, maximumDegreeVertex, if_pos (by rfl)]

/-- C71: `dsatur(graph)` on a graph with vertices returns a proper coloring of all of them, with at most one color more
than the largest degree. -/
theorem C71_dsatur (ord : Finset V → List V) (hord : ∀ S, (ord S).Nodup ∧ ∀ x, x ∈ ord S ↔ x ∈ S)
    (ops : List (Op V W)) (hne : (toAbs (history ops)).verts.Nonempty) :
    ∃ k m cl, dsatur ord (history ops) false = .ok (k, .colorMap m) ∧
      dsatur ord (history ops) true = .ok (k, .classes cl) ∧
      IsColoring (toAbs (history ops)).verts (Linked (history ops)) 0 k m ∧
      IsPartition (toAbs (history ops)).verts (Linked (history ops)) k cl ∧
      (∀ i (h : i < cl.length) v, v ∈ cl[i] ↔ (v, i) ∈ m) ∧
      ∀ D, (∀ v ∈ (toAbs (history ops)).verts, degreeOf (history ops) v ≤ D) → k ≤ D + 1 := by
  obtain ⟨m, k, h1, h2, h3, h4, -⟩ := dsatur_spec hord (history_spec ops).1 hne
  have hcol : IsColoring (toAbs (history ops)).verts (Linked (history ops)) 0 k m := by
    rw [← E_eq]
    refine h3.coloring ?_ h4
    intro u v h
    rw [E_eq] at h ⊢
    exact linked_symm ops u v h
  refine ⟨k, m, _, h1, h2, hcol, partition_of_coloring hcol, ?_, fun D hD => le_of_bound h3 D fun v hv => hD v ((h4 v).1 hv)⟩
  intro i hi v
  simp only [List.getElem_map, List.getElem_range, List.mem_map, List.mem_filter, decide_eq_true_eq]
  constructor
  · rintro ⟨⟨a, b⟩, ⟨h4, rfl⟩, rfl⟩; exact h4
  · intro h; exact ⟨_, ⟨h, rfl⟩, rfl⟩

/-- C71: the order of the color map is that of Brelaz.  The first vertex has maximal degree.  Each later one has, among
the vertices not yet colored, the largest number of colors at its neighbors, then the largest number of uncolored
neighbors; it gets the least possible color. -/
theorem C71_dsatur_rule (ord : Finset V → List V) (hord : ∀ S, (ord S).Nodup ∧ ∀ x, x ∈ ord S ↔ x ∈ S)
    (ops : List (Op V W)) (hne : (toAbs (history ops)).verts.Nonempty) :
    ∃ k m, dsatur ord (history ops) false = .ok (k, .colorMap m) ∧
      ∀ pre v c post, m = pre ++ (v, c) :: post → FirstFit (Linked (history ops)) pre v c ∧
        (pre = [] → ∀ w ∈ (toAbs (history ops)).verts,
          degreeWithout (history ops) [] w ≤ degreeWithout (history ops) [] v) ∧
        (pre ≠ [] → ∀ w ∈ (toAbs (history ops)).verts, w ∉ pre.map Prod.fst →
          saturation (Linked (history ops)) pre w < saturation (Linked (history ops)) pre v ∨
          saturation (Linked (history ops)) pre w = saturation (Linked (history ops)) pre v ∧
            (outside (Linked (history ops)) pre w < outside (Linked (history ops)) pre v ∨
             outside (Linked (history ops)) pre w = outside (Linked (history ops)) pre v ∧ w ≤ v)) := by
  have hg := (history_spec ops).1
  obtain ⟨m, k, h1, -, h3, -, h5⟩ := dsatur_spec hord hg hne
  refine ⟨k, m, h1, ?_⟩
  intro pre v c post e
  rw [← E_eq]
  refine ⟨h3.rule _ _ _ _ e, ?_, ?_⟩
  · intro hp w hw
    have := (h5 _ _ _ _ e).1 hp w hw
    rwa [length_nbrs' hg, length_nbrs' hg] at this
  · intro hp w hw hwp
    have := (h5 _ _ _ _ e).2 hp w hw hwp
    rw [tripleLt] at this
    push Not at this
    dsimp only at this
    obtain ⟨k1, k2⟩ := this
    rcases Nat.lt_or_eq_of_le k1 with h | h
    · exact Or.inl h
    · right
      obtain ⟨k3, k4⟩ := k2 h.symm
      refine ⟨h, ?_⟩
      rcases Nat.lt_or_eq_of_le k3 with h' | h'
      · exact Or.inl h'
      · exact Or.inr ⟨h', k4 h'.symm⟩

/-! ## C92 -/

/-- `f` gives adjacent different vertices different colors. -/
def ProperColoring (g : Graph V W) (f : V → ℕ) : Prop :=
  ∀ u ∈ (toAbs g).verts, ∀ v ∈ (toAbs g).verts, Linked g u v → u ≠ v → f u ≠ f v

/-- `k` is the chromatic number. -/
def IsChromaticNumber (g : Graph V W) (k : ℕ) : Prop :=
  (∃ f : V → ℕ, ProperColoring g f ∧ (f '' (toAbs g).verts).ncard = k) ∧
    ∀ f : V → ℕ, ProperColoring g f → k ≤ (f '' (toAbs g).verts).ncard

theorem proper_iff {g : Graph V W} {f : V → ℕ} : ProperOn g f ↔ ProperColoring g f := by
  rw [ProperOn, ProperColoring, E_eq]
  exact ⟨fun h u hu v hv => h u v hu hv, fun h u v hu hv => h u hu v hv⟩

theorem count_eq {g : Graph V W} (f : V → ℕ) : count g f = (f '' (toAbs g).verts).ncard := by
  rw [count, ← Set.ncard_coe_finset, Finset.coe_image]
  congr 2
  ext v
  exact Graph.mem_vertexSet

/-- A coloring by `k` colors gives a function. -/
theorem function_of_coloring {g : Graph V W} {m : List (V × ℕ)} {k : ℕ}
    (h : IsColoring (toAbs g).verts (Linked g) 1 k m) : ∃ f, ProperColoring g f ∧ (f '' (toAbs g).verts).ncard = k := by
  have hget : ∀ v c, (v, c) ∈ m → Dict.get? m v = some c := fun v c hc => (mem_iff_get? h.nodup).1 hc
  refine ⟨fun v => (Dict.get? m v).getD 0, ?_, ?_⟩
  · intro u hu v hv he hne
    obtain ⟨⟨u, c⟩, hu', rfl⟩ := List.mem_map.1 ((h.verts u).2 hu)
    obtain ⟨⟨v, d⟩, hv', rfl⟩ := List.mem_map.1 ((h.verts v).2 hv)
    dsimp only
    rw [hget _ _ hu', hget _ _ hv']
    exact h.proper _ _ _ _ hu' hv' he hne
  · have : (fun v => (Dict.get? m v).getD 0) '' (toAbs g).verts = (Finset.Ico 1 (1 + k) : Finset ℕ) := by
      ext c
      rw [Finset.mem_coe, Finset.mem_Ico]
      constructor
      · rintro ⟨v, hv, rfl⟩
        obtain ⟨⟨v, d⟩, hv', rfl⟩ := List.mem_map.1 ((h.verts v).2 hv)
        dsimp only
        rw [hget _ _ hv']
        exact h.range _ _ hv'
      · rintro ⟨h1, h2⟩
        obtain ⟨v, hv⟩ := h.all c h1 h2
        refine ⟨v, (h.verts v).1 (List.mem_map.2 ⟨_, hv, rfl⟩), ?_⟩
        dsimp only
        rw [hget _ _ hv]; rfl
    rw [this, Set.ncard_coe_finset]
    simp

/-- An injective function colors properly. -/
theorem exists_injective {g : Graph V W} : ∃ f : V → ℕ, Set.InjOn f (toAbs g).verts := by
  refine ⟨fun v => (Dict.keys g).idxOf v, ?_⟩
  intro u hu v _ h
  exact (List.idxOf_inj hu).1 h

theorem ncard_verts (ops : List (Op V W)) : (toAbs (history ops)).verts.ncard = (vertices (history ops)).length := by
  obtain ⟨h1, h2⟩ := vertices_spec (history_spec ops).1
  rw [← List.toFinset_card_of_nodup h1, ← Set.ncard_coe_finset]
  congr 1
  ext v
  rw [Finset.mem_coe, List.mem_toFinset, h2]
  rfl

theorem bb_spec (ord : Finset V → List V) (hord : ∀ S, (ord S).Nodup ∧ ∀ x, x ∈ ord S ↔ x ∈ S)
    (ops : List (Op V W)) (hne : (toAbs (history ops)).verts.Nonempty) :
    ∃ k m, bbColor ord (history ops) ((vertices (history ops)).length + 1) (vertices (history ops)).toFinset 0 []
        (vertices (history ops)).length ((vertices (history ops)).length, []) = .ok (k, k, m) ∧
      IsChromaticNumber (history ops) k ∧
      ((k = (vertices (history ops)).length ∧ m = []) ∨
        IsColoring (toAbs (history ops)).verts (Linked (history ops)) 1 k m) := by
  have hg := (history_spec ops).1
  obtain ⟨v1, v2⟩ := vertices_spec hg
  have hcard := List.toFinset_card_of_nodup v1
  obtain ⟨x, hx⟩ := hne
  have hpos : 1 ≤ (vertices (history ops)).toFinset.card :=
    Finset.card_pos.2 ⟨x, List.mem_toFinset.2 ((v2 x).2 hx)⟩
  obtain ⟨⟨k, m⟩, h1, h2⟩ := bbColor_spec hord hg ((vertices (history ops)).length + 1) (vertices (history ops)).toFinset
    0 [] ((vertices (history ops)).length, []) (by omega) hpos (by
      intro v
      rw [List.mem_toFinset, v2]
      simp [Dict.keys]) ⟨by simp [Dict.WF, Dict.keys], by simp [Dict.keys], by simp, by intro c; omega, by simp⟩
      (Nat.zero_le _)
  have hopt : ∀ f, ProperColoring (history ops) f → k ≤ (f '' (toAbs (history ops)).verts).ncard := by
    intro f hf
    rw [← count_eq]
    exact h2.opt f (proper_iff.2 hf) (by intro v c hc; simp at hc)
  refine ⟨k, m, h1, ⟨?_, hopt⟩, ?_⟩
  · rcases h2.valid with h | ⟨-, h⟩
    · simp only [Prod.mk.injEq] at h
      obtain ⟨f, hf⟩ := exists_injective (g := history ops)
      refine ⟨f, fun u hu v hv _ hne hc => hne (hf hu hv hc), ?_⟩
      rw [Set.ncard_image_of_injOn hf, ncard_verts, h.1]
    · rw [E_eq] at h
      exact function_of_coloring h
  · rcases h2.valid with h | ⟨-, h⟩
    · left; simpa using h
    · right; rw [E_eq] at h; exact h

theorem branchAndBound_false (ord : Finset V → List V) (g : Graph V W) {k k' : ℕ} {m : Dict V ℕ}
    (h : bbColor ord g ((vertices g).length + 1) (vertices g).toFinset 0 [] (vertices g).length ((vertices g).length, []) =
      .ok (k', k, m)) : branchAndBound ord g false = .ok (k, .colorMap m) := by
  rw [branchAndBound]
  rw [h]
  rfl

/-- C92: the number returned by `branch_and_bound(graph)` is the chromatic number, for every graph with a vertex. -/
theorem C92_number (ord : Finset V → List V) (hord : ∀ S, (ord S).Nodup ∧ ∀ x, x ∈ ord S ↔ x ∈ S)
    (ops : List (Op V W)) (hne : (toAbs (history ops)).verts.Nonempty) :
    ∃ k m cl, branchAndBound ord (history ops) false = .ok (k, .colorMap m) ∧
      branchAndBound ord (history ops) true = .ok (k, .classes cl) ∧ IsChromaticNumber (history ops) k := by
  obtain ⟨k, m, h1, h2, h3⟩ := bb_spec ord hord ops hne
  obtain ⟨cl, e1, -, -⟩ := fillClasses_spec (m.map (fun e => (e.1, e.2 - 1))) (List.replicate k []) (by
    rw [List.length_replicate]
    intro v c hc
    obtain ⟨⟨a, b⟩, hab, e⟩ := List.mem_map.1 hc
    simp only [Prod.mk.injEq] at e
    rcases h3 with ⟨-, rfl⟩ | h3
    · simp at hab
    · have := h3.range _ _ hab; omega)
  refine ⟨k, m, cl, branchAndBound_false ord _ h1, ?_, h2⟩
  rw [branchAndBound]
  rw [h1]
  dsimp only
  rw [if_pos rfl, e1]

/-- The colors counted from 0. -/
theorem coloring_shift {S : Set V} {E : V → V → Prop} {k : ℕ} {m : List (V × ℕ)} (h : IsColoring S E 1 k m) :
    IsColoring S E 0 k (m.map (fun e => (e.1, e.2 - 1))) := by
  have hmem : ∀ v c, (v, c) ∈ m.map (fun e => (e.1, e.2 - 1)) ↔ (v, c + 1) ∈ m := by
    intro v c
    rw [List.mem_map]
    constructor
    · rintro ⟨⟨a, b⟩, hab, e⟩
      simp only [Prod.mk.injEq] at e
      have := h.range _ _ hab
      rw [← e.1, ← e.2, Nat.sub_add_cancel this.1]
      exact hab
    · intro hc; exact ⟨_, hc, rfl⟩
  have hk : (m.map (fun e => (e.1, e.2 - 1))).map Prod.fst = m.map Prod.fst := by rw [List.map_map]; rfl
  refine ⟨by rw [hk]; exact h.nodup, fun v => by rw [hk]; exact h.verts v, ?_, ?_, ?_⟩
  · intro v c hc
    have := h.range _ _ ((hmem v c).1 hc); omega
  · intro c _ hc
    obtain ⟨v, hv⟩ := h.all (c + 1) (by omega) (by omega)
    exact ⟨v, (hmem v c).2 hv⟩
  · intro u c v d hu hv he hne hcd
    exact h.proper _ _ _ _ ((hmem u c).1 hu) ((hmem v d).1 hv) he hne (by rw [hcd])

/-- C92: if some two different vertices are not adjacent, `branch_and_bound(graph)` returns an optimal coloring, as a
color map with the colors 1, ..., k or as a partition. -/
theorem C92_coloring_partial (ord : Finset V → List V) (hord : ∀ S, (ord S).Nodup ∧ ∀ x, x ∈ ord S ↔ x ∈ S)
    (ops : List (Op V W)) (a b : V) (ha : a ∈ (toAbs (history ops)).verts) (hb : b ∈ (toAbs (history ops)).verts)
    (hab : a ≠ b) (hl : ¬ Linked (history ops) a b) :
    ∃ k m cl, branchAndBound ord (history ops) false = .ok (k, .colorMap m) ∧
      branchAndBound ord (history ops) true = .ok (k, .classes cl) ∧ IsChromaticNumber (history ops) k ∧
      IsColoring (toAbs (history ops)).verts (Linked (history ops)) 1 k m ∧
      IsPartition (toAbs (history ops)).verts (Linked (history ops)) k cl := by
  obtain ⟨k, m, h1, h2, h3⟩ := bb_spec ord hord ops ⟨a, ha⟩
  have hcol : IsColoring (toAbs (history ops)).verts (Linked (history ops)) 1 k m := by
    rcases h3 with ⟨h3, -⟩ | h3
    · exfalso
      obtain ⟨f, hf⟩ := exists_injective (g := history ops)
      have hfin : (toAbs (history ops)).verts.Finite := (Dict.keys (history ops)).finite_toSet
      have hle := h2.2 (fun v => if v = b then f a else f v) (by
        intro u hu v hv he hne hc
        dsimp only at hc
        by_cases hub : u = b
        · rw [if_pos hub, if_neg (by rintro rfl; exact hne hub)] at hc
          have := hf ha hv hc
          rw [hub, ← this] at he
          exact hl (linked_symm ops _ _ he)
        · rw [if_neg hub] at hc
          by_cases hvb : v = b
          · rw [if_pos hvb] at hc
            have := hf hu ha hc
            rw [hvb, this] at he
            exact hl he
          · rw [if_neg hvb] at hc
            exact hne (hf hu hv hc))
      have hsub : (fun v => if v = b then f a else f v) '' (toAbs (history ops)).verts ⊆
          f '' ((toAbs (history ops)).verts \ {b}) := by
        rintro _ ⟨v, hv, rfl⟩
        dsimp only
        by_cases hvb : v = b
        · rw [if_pos hvb]; exact ⟨a, ⟨ha, hab⟩, rfl⟩
        · rw [if_neg hvb]; exact ⟨v, ⟨hv, hvb⟩, rfl⟩
      have h4 := Set.ncard_le_ncard hsub ((hfin.diff).image _)
      have h5 := Set.ncard_image_le (f := f) (hfin.diff (t := {b}))
      have h6 := Set.ncard_diff_singleton_add_one hb hfin
      rw [ncard_verts] at h6
      omega
    · exact h3
  have hsh := coloring_shift hcol
  have h5 := classesOf_spec (m := m.map (fun e => (e.1, e.2 - 1))) (k := k) (fun v c hc => by
    have := (hsh.range v c hc).2; omega)
  refine ⟨k, m, _, branchAndBound_false ord _ h1, ?_, h2, hcol, partition_of_coloring hsh⟩
  rw [branchAndBound]
  rw [h1]
  dsimp only
  rw [if_pos rfl]
  rw [classesOf] at h5
  rw [h5]

/-- C92 fails on complete graphs: if all different vertices are adjacent, no vertex is colored.  The color map is empty
and all classes are empty. -/
theorem C92_complete_violation (ord : Finset V → List V) (hord : ∀ S, (ord S).Nodup ∧ ∀ x, x ∈ ord S ↔ x ∈ S)
    (ops : List (Op V W)) (hne : (toAbs (history ops)).verts.Nonempty)
    (hl : ∀ a ∈ (toAbs (history ops)).verts, ∀ b ∈ (toAbs (history ops)).verts, a ≠ b → Linked (history ops) a b) :
    branchAndBound ord (history ops) false = .ok ((toAbs (history ops)).verts.ncard, .colorMap []) ∧
      branchAndBound ord (history ops) true = .ok ((toAbs (history ops)).verts.ncard,
        .classes (List.replicate (toAbs (history ops)).verts.ncard [])) := by
  have hg := (history_spec ops).1
  obtain ⟨v1, v2⟩ := vertices_spec hg
  have hcard := List.toFinset_card_of_nodup v1
  obtain ⟨x, hx⟩ := hne
  have hpos : 1 ≤ (vertices (history ops)).toFinset.card :=
    Finset.card_pos.2 ⟨x, List.mem_toFinset.2 ((v2 x).2 hx)⟩
  obtain ⟨⟨k, m⟩, h1, h2⟩ := bbColor_spec hord hg ((vertices (history ops)).length + 1) (vertices (history ops)).toFinset
    0 [] ((vertices (history ops)).length, []) (by omega) hpos (by
      intro v
      rw [List.mem_toFinset, v2]
      simp [Dict.keys]) ⟨by simp [Dict.WF, Dict.keys], by simp [Dict.keys], by simp, by intro c; omega, by simp⟩
      (Nat.zero_le _)
  have hkm : k = (vertices (history ops)).length ∧ m = [] := by
    rcases h2.valid with h | ⟨hlt, h⟩
    · simpa using h
    · exfalso
      rw [E_eq] at h
      obtain ⟨f, hf, hk⟩ := function_of_coloring h
      have hinj : Set.InjOn f (toAbs (history ops)).verts := by
        intro u hu v hv he
        by_contra hne
        exact hf u hu v hv (hl u hu v hv hne) hne he
      rw [Set.ncard_image_of_injOn hinj, ncard_verts] at hk
      dsimp only at hlt hk
      omega
  obtain ⟨rfl, rfl⟩ := hkm
  rw [ncard_verts]
  refine ⟨branchAndBound_false ord _ h1, ?_⟩
  rw [branchAndBound]
  rw [h1]
  rfl

/-- C92: on the graph without vertices `branch_and_bound` raises ValueError. -/
theorem C92_no_vertices (ord : Finset V → List V) (hord : ∀ S, (ord S).Nodup ∧ ∀ x, x ∈ ord S ↔ x ∈ S) (classes : Bool) :
    branchAndBound ord ([] : Graph V W) classes = .error .valueError := by
  have : ord ∅ = [] := by
    cases h : ord ∅ with
    | nil => rfl
    | cons x l =>
      have := ((hord ∅).2 x).1 (by rw [h]; exact List.mem_cons_self)
      simp at this
  have hv : vertices ([] : Graph V W) = [] := rfl
  rw [branchAndBound]
  rw [hv, List.toFinset_nil, bbColor, this]
  rfl

end Dsatur

/-- A path and a triangle sharing a vertex, for the examples. -/
def colorOps : List (Op ℕ ℤ) := [Op.addEdges [(0, 1, 1), (1, 2, 1), (2, 0, 1), (2, 3, 1), (3, 4, 1)]]

example : greedySequential (history colorOps) (some [4, 0, 3, 1, 2]) 1 false =
    .ok (3, .colorMap [(4, 0), (0, 0), (3, 1), (1, 1), (2, 2)]) := by rfl

example : greedySequential (history colorOps) none 1 true = .ok (3, .classes [[2, 4], [3, 1], [0]]) := by rfl

example : greedySequential (history colorOps) none 2 true = .ok (3, .classes [[0, 3], [1, 4], [2]]) := by rfl

example : dsatur (fun S => (List.range 5).filter (· ∈ S)) (history colorOps) false =
    .ok (3, .colorMap [(2, 0), (3, 1), (1, 1), (0, 2), (4, 0)]) := by rfl

example : branchAndBound (fun S => (List.range 5).filter (· ∈ S)) (history colorOps) false =
    .ok (3, .colorMap [(2, 1), (3, 2), (1, 2), (0, 3), (4, 1)]) := by rfl

/-- The triangle has no coloring according to `branch_and_bound`. -/
example : branchAndBound (fun S => (List.range 5).filter (· ∈ S))
    (history [Op.addEdges [(0, 1, (1 : ℤ)), (1, 2, 1), (2, 0, 1)]]) true = .ok (3, .classes [[], [], []]) := by rfl

end Rosemary.Props
