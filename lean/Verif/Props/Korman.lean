import Verif.Lemmas.Korman
import Verif.Props.Coloring

/-!
# Properties of `korman` and `exact_coloring` (C108)

Graphs are those that any sequence of `Graph` operations builds.  The order of iteration of Python sets is the parameter
`ord`.
-/

namespace Rosemary.Props

open Rosemary.Graph Rosemary.Coloring Rosemary.Spec
open Rosemary.Traversal (E)

variable {V W : Type} [LinearOrder V]

/-- C108: on a graph with vertices, without loops, in which every vertex has a neighbor or all vertices are adjacent,
`exact_coloring` ends and returns the chromatic number with a coloring by that many colors.

What is missing of C108 is false: see the theorems on isolated vertices below.  Graphs with loops are not treated. -/
theorem C108_exact_coloring_partial (ord : Finset V → List V) (hord : ∀ S, (ord S).Nodup ∧ ∀ x, x ∈ ord S ↔ x ∈ S)
    (ops : List (Op V W)) (hne : (toAbs (history ops)).verts.Nonempty) (hloop : ∀ v, ¬ Linked (history ops) v v)
    (hdeg : (∀ u ∈ (toAbs (history ops)).verts, ∃ v, Linked (history ops) u v) ∨
      ∀ u ∈ (toAbs (history ops)).verts, ∀ v ∈ (toAbs (history ops)).verts, u ≠ v → Linked (history ops) u v) :
    ∃ k m cl, exactColoring ord (history ops) false = some (.ok (k, .colorMap m)) ∧
      exactColoring ord (history ops) true = some (.ok (k, .classes cl)) ∧ IsChromaticNumber (history ops) k ∧
      IsColoring (toAbs (history ops)).verts (Linked (history ops)) 1 k m ∧
      IsPartition (toAbs (history ops)).verts (Linked (history ops)) k cl ∧
      ∀ i (h : i < cl.length) v, v ∈ cl[i] ↔ (v, i + 1) ∈ m := by
  rw [← E_eq] at hloop hdeg
  obtain ⟨k, m, h1, h2, h3, h4⟩ := korman_spec hord (history_spec ops).1 hloop hne
    (hdeg.imp id (fun h u v hu hv => h u hu v hv))
  have hcol : IsColoring (toAbs (history ops)).verts (Linked (history ops)) 1 k m := by
    rw [← E_eq]; exact h3
  have hsh := coloring_shift hcol
  refine ⟨k, m, _, h1, h2, ⟨function_of_coloring hcol, ?_⟩, hcol, partition_of_coloring hsh, ?_⟩
  · intro f hf
    rw [← count_eq]
    exact h4 f (proper_iff.2 hf)
  · intro i hi v
    simp only [List.getElem_map, List.getElem_range, List.mem_map, List.mem_filter, decide_eq_true_eq]
    constructor
    · rintro ⟨⟨a, b⟩, ⟨⟨⟨a', b'⟩, h5, h6⟩, h7⟩, rfl⟩
      simp only [Prod.mk.injEq] at h6 h7
      have := hcol.range _ _ h5
      obtain ⟨rfl, rfl⟩ := h6
      dsimp only
      rw [← h7, Nat.sub_add_cancel this.1]
      exact h5
    · intro h
      exact ⟨(v, i), ⟨⟨_, h, rfl⟩, rfl⟩, rfl⟩

/-- If no vertex of a list has a neighbor, none of them is chosen. -/
theorem select_isolated {g : Graph V W} {color : Dict V ℕ} (us : List V) (hus : ∀ u ∈ us, Dict.get? g u = some [])
    (s : Option V) : Korman.select g color us 0 0 s = .ok s := by
  induction us with
  | nil => rfl
  | cons u us ih =>
    rw [Korman.select, hus u List.mem_cons_self]
    show Korman.select g color us 0 0 s = .ok s
    exact ih (fun v hv => hus v (List.mem_cons_of_mem _ hv))

/-- C108 fails in the presence of isolated vertices: if the vertices that have neighbors are pairwise adjacent, and there
is an isolated vertex and another vertex, then `exact_coloring` raises UnboundLocalError.  In particular it does so on
every graph of at least two vertices without edges. -/
theorem C108_isolated_error_violation (ord : Finset V → List V) (hord : ∀ S, (ord S).Nodup ∧ ∀ x, x ∈ ord S ↔ x ∈ S)
    (ops : List (Op V W)) (hloop : ∀ v, ¬ Linked (history ops) v v) (w x : V) (hw : w ∈ (toAbs (history ops)).verts)
    (hx : x ∈ (toAbs (history ops)).verts) (hwx : w ≠ x) (hiso : ∀ v, ¬ Linked (history ops) w v)
    (hclique : ∀ u ∈ (toAbs (history ops)).verts, ∀ v ∈ (toAbs (history ops)).verts, u ≠ v →
      (∃ a, Linked (history ops) u a) → (∃ b, Linked (history ops) v b) → Linked (history ops) u v) (classes : Bool) :
    exactColoring ord (history ops) classes = some (.error .unboundLocalError) := by
  rw [← E_eq] at hloop hiso hclique
  have hg := (history_spec ops).1
  generalize history ops = g at *
  obtain ⟨m0, k0, d1, -, -, -, -⟩ := dsatur_spec hord hg ⟨w, hw⟩
  obtain ⟨q, l, o1, ⟨o2, o3, o4⟩, o5⟩ := Cliques.ostergard_spec hg hloop ⟨w, hw⟩
  dsimp only at o2 o3 o4
  have hlm : ∀ v ∈ l, Mem g v := fun v hv => o3.1 v (List.mem_toFinset.2 hv)
  have hladj : ∀ u ∈ l, ∀ v ∈ l, u ≠ v → E g u v := fun u hu v hv hne =>
    o3.2 u (List.mem_toFinset.2 hu) v (List.mem_toFinset.2 hv) hne
  have hqn : q ≠ (Graph.vertices g).length := by
    intro hq
    have hsub : l ⊆ Graph.vertices g := fun v hv => (Korman.mem_vertices hg).2 (hlm v hv)
    have hperm := (o2.subperm hsub).perm_of_length_le (by omega)
    exact hiso x (hladj w (hperm.mem_iff.2 ((Korman.mem_vertices hg).2 hw)) x
      (hperm.mem_iff.2 ((Korman.mem_vertices hg).2 hx)) hwx)
  have hout : ∀ v, Mem g v → v ∉ l → ∀ a, ¬ E g v a := by
    intro v hv hvl a ha
    have hva : v ≠ a := by rintro rfl; exact hloop _ ha
    have hma : Mem g a := mem_of_mem_nbrs hg ha
    have h2 : 2 ≤ l.length := by
      have := o5 {v, a} ⟨by
        intro y hy
        rcases Finset.mem_insert.1 hy with rfl | hy
        · exact hv
        · rw [Finset.mem_singleton.1 hy]; exact hma, by
        intro y hy z hz hyz
        rw [Finset.mem_insert, Finset.mem_singleton] at hy hz
        rcases hy with rfl | rfl <;> rcases hz with rfl | rfl
        · exact absurd rfl hyz
        · exact ha
        · exact (mem_nbrs_symm hg).1 ha
        · exact absurd rfl hyz⟩
      rw [Finset.card_pair hva] at this
      omega
    have hnb : ∀ y ∈ l, ∃ z, E g y z := by
      intro y hy
      obtain ⟨z, hz, hne⟩ : ∃ z ∈ l, z ≠ y := by
        by_contra hc
        push Not at hc
        have : l ⊆ [y] := fun z hz => by rw [hc z hz]; simp
        have := (o2.subperm this).length_le
        simp at this
        omega
      exact ⟨z, hladj y hy z hz hne.symm⟩
    have := o5 (insert v l.toFinset) ⟨by
      intro y hy
      rcases Finset.mem_insert.1 hy with rfl | hy
      · exact hv
      · exact hlm y (List.mem_toFinset.1 hy), by
      intro y hy z hz hyz
      rw [Finset.mem_insert, List.mem_toFinset] at hy hz
      have hdat : ∀ y, y = v ∨ y ∈ l → Mem g y ∧ ∃ z, E g y z := by
        rintro y (rfl | hy)
        · exact ⟨hv, a, ha⟩
        · exact ⟨hlm y hy, hnb y hy⟩
      exact hclique y (hdat y hy).1 z (hdat z hz).1 hyz (hdat y hy).2 (hdat z hz).2⟩
    rw [Finset.card_insert_of_notMem (by simpa using hvl), List.toFinset_card_of_nodup o2] at this
    omega
  rw [exactColoring, korman, d1]
  dsimp only
  rw [o1]
  dsimp only
  rw [if_pos hqn]
  generalize hr : Korman.colorClique l 0 ((Graph.vertices g).map (fun u => ((u, 0) : V × ℕ)), [], (Graph.vertices g).toFinset) = r
  have hbase := Korman.start_spec hg l o2 hlm hladj ⟨r.1, r.2.2, r.2.1, k0, none, q, true, none, none⟩ (by rw [hr])
  have hloop' : Korman.loop ord g (Graph.vertices g) q ⟨r.1, r.2.2, r.2.1, k0, none, q, true, none, none⟩ =
      some (.error .unboundLocalError) := by
    rw [Korman.loop, if_neg (by simp), Korman.pick, if_pos rfl, select_isolated]
    intro u hu
    obtain ⟨h1, h2⟩ := (hbase.unc u).1 (((hord _).2 u).1 hu)
    rw [Dict.keys, Korman.keys_cliqueColors] at h2
    obtain ⟨N, hN, hk⟩ := Korman.get?_mem_g h1
    rw [hN]
    cases N with
    | nil => rfl
    | cons e N =>
      exfalso
      apply hout u h1 h2 e.1
      show e.1 ∈ nbrs g u
      rw [← hk]
      simp [Dict.keys]
  rw [hloop']

/-! ## A graph on which the search does not end -/

/-- The path `0 - 1 - 2` and the isolated vertex `3`. -/
def isolatedOps : List (Op ℕ ℤ) := [Op.addEdges [(0, 1, 1), (1, 2, 1)], Op.addVertex 3]

/-- The states between which the search on `isolatedOps` changes. -/
inductive Endless : Korman.State ℕ → Prop
  | low (b : ℕ) (hb : b = 2 ∨ b = 3) (sc : Option ℕ) :
    Endless ⟨[(0, 0), (1, 2), (2, 1), (3, 0)], {0, 3}, [(0, 2), (1, 1), (2, 0), (3, 0)], b, none, 2, false, some 0, sc⟩
  | high (b : ℕ) (hb : b = 2 ∨ b = 3) (sc : Option ℕ) (o : Dict ℕ ℕ) (ho : o = [(0, 2), (1, 1), (2, 0)] ∨
      o = [(0, 2), (1, 1), (2, 0), (3, 0)]) :
    Endless ⟨[(0, 1), (1, 2), (2, 1), (3, 0)], {3}, o, b, none, 3, true, some 0, sc⟩

theorem ord_singleton {ord : Finset V → List V} (hord : ∀ S, (ord S).Nodup ∧ ∀ x, x ∈ ord S ↔ x ∈ S) (x : V) :
    ord {x} = [x] := by
  have : (ord {x}).Perm [x] := by
    rw [List.perm_ext_iff_of_nodup (hord _).1 (by simp)]
    intro y
    rw [(hord _).2, Finset.mem_singleton, List.mem_singleton]
  exact List.perm_singleton.1 this

theorem endless_step {ord : Finset ℕ → List ℕ} (hord : ∀ S, (ord S).Nodup ∧ ∀ x, x ∈ ord S ↔ x ∈ S)
    {st : Korman.State ℕ} (h : Endless st) : ¬ st.idx < 2 ∧ ∃ st1 st2, Korman.pick ord (history isolatedOps) st = .ok st1 ∧
      Korman.attempt (history isolatedOps) [0, 1, 2, 3] st1 = .ok st2 ∧ Endless st2 := by
  cases h with
  | low b hb sc =>
    refine ⟨by simp, _, _, rfl, ?_, .high b hb (some 1) _ (Or.inr rfl)⟩
    rcases hb with rfl | rfl <;> rfl
  | high b hb sc o ho =>
    refine ⟨by simp, ⟨[(0, 1), (1, 2), (2, 1), (3, 0)], {3}, [(0, 2), (1, 1), (2, 0), (3, 0)], b, none, 3, false, some 0,
      sc⟩, _, ?_, ?_, .low b hb (some 3)⟩
    · rw [Korman.pick, if_pos rfl, ord_singleton hord]
      rcases ho with rfl | rfl <;> rfl
    · rcases hb with rfl | rfl <;> rfl

theorem endless_none {ord : Finset ℕ → List ℕ} (hord : ∀ S, (ord S).Nodup ∧ ∀ x, x ∈ ord S ↔ x ∈ S)
    {st : Korman.State ℕ} (h : Endless st) : Korman.loop ord (history isolatedOps) [0, 1, 2, 3] 2 st = none := by
  cases hl : Korman.loop ord (history isolatedOps) [0, 1, 2, 3] 2 st with
  | none => rfl
  | some r =>
    exfalso
    refine Korman.loop.partial_correctness ord (history isolatedOps) [0, 1, 2, 3] 2 (fun st _ => ¬ Endless st) ?_ st r hl h
    intro f ih st r hr hst
    obtain ⟨h1, st1, st2, h2, h3, h4⟩ := endless_step hord hst
    rw [if_neg h1, h2] at hr
    dsimp only at hr
    rw [h3] at hr
    exact ih st2 r hr h4

/-- C108 fails in the presence of isolated vertices: on the path of three vertices with one isolated vertex the search of
`exact_coloring` does not end, in whatever order the sets are traversed. -/
theorem C108_isolated_endless_violation (ord : Finset ℕ → List ℕ)
    (hord : ∀ S, (ord S).Nodup ∧ ∀ x, x ∈ ord S ↔ x ∈ S) (classes : Bool) :
    exactColoring ord (history isolatedOps) classes = none := by
  have hne : (toAbs (history isolatedOps)).verts.Nonempty := ⟨0, show 0 ∈ Dict.keys (history isolatedOps) by decide⟩
  obtain ⟨b, m, -, d1, -, d3, -, -, d5⟩ := C71_dsatur ord hord isolatedOps hne
  have hverts : ∀ v, v ∈ (toAbs (history isolatedOps)).verts → v = 0 ∨ v = 1 ∨ v = 2 ∨ v = 3 := by
    intro v hv
    have : v ∈ Dict.keys (history isolatedOps) := hv
    have hk : Dict.keys (history isolatedOps) = [0, 1, 2, 3] := rfl
    rw [hk] at this
    simpa using this
  have hb : b = 2 ∨ b = 3 := by
    have h3 := d5 2 (by
      intro v hv
      have hE : ∀ u, Linked (history isolatedOps) v u → u ∈ nbrs (history isolatedOps) v := by
        intro u hu; rw [← E_eq] at hu; exact hu
      have hsub : {u | Linked (history isolatedOps) v u ∧ u ≠ v} ⊆ ((nbrs (history isolatedOps) v).toFinset : Set ℕ) := by
        intro u hu
        rw [Finset.mem_coe, List.mem_toFinset]
        exact hE u hu.1
      rw [Props.degreeOf]
      refine (Set.ncard_le_ncard hsub (Finset.finite_toSet _)).trans ?_
      rw [Set.ncard_coe_finset]
      rcases hverts v hv with rfl | rfl | rfl | rfl <;> decide)
    have h2 : 2 ≤ b := by
      have hL : Linked (history isolatedOps) 0 1 := by rw [← E_eq]; show 1 ∈ nbrs (history isolatedOps) 0; decide
      obtain ⟨⟨a, c⟩, hc, ha⟩ := List.mem_map.1 ((d3.verts 0).2 (show 0 ∈ Dict.keys (history isolatedOps) by decide))
      obtain ⟨⟨a', c'⟩, hc', ha'⟩ := List.mem_map.1 ((d3.verts 1).2 (show 1 ∈ Dict.keys (history isolatedOps) by decide))
      dsimp only at ha ha'
      subst ha ha'
      have h4 := d3.proper _ _ _ _ hc hc' hL (by decide)
      have h5 := d3.range _ _ hc
      have h6 := d3.range _ _ hc'
      omega
    omega
  have hv : Graph.vertices (history isolatedOps) = [0, 1, 2, 3] := rfl
  have hcl : Cliques.ostergard (history isolatedOps) = .ok (2, [2, 1]) := by rfl
  rw [exactColoring, korman, d1]
  dsimp only
  rw [hcl]
  dsimp only
  rw [hv, if_pos (by decide)]
  have hperm : ord {0, 3} ∈ [[0, 3], [3, 0]] := by
    have h1 : (ord {0, 3}).Perm [0, 3] := by
      rw [List.perm_ext_iff_of_nodup (hord _).1 (by simp)]
      intro y
      rw [(hord _).2]
      simp
    have := List.mem_permutations.2 h1
    simpa [List.permutations, List.permutationsAux, List.permutationsAux.rec, List.permutationsAux2] using this
  have hstart : Korman.loop ord (history isolatedOps) [0, 1, 2, 3] 2
      ⟨[(0, 0), (1, 2), (2, 1), (3, 0)], {0, 3}, [(0, 2), (1, 1)], b, none, 2, true, none, none⟩ = none := by
    rw [Korman.loop, if_neg (by simp)]
    have hpick : Korman.pick ord (history isolatedOps)
        ⟨[(0, 0), (1, 2), (2, 1), (3, 0)], {0, 3}, [(0, 2), (1, 1)], b, none, 2, true, none, none⟩ =
        .ok ⟨[(0, 0), (1, 2), (2, 1), (3, 0)], {0, 3}, [(0, 2), (1, 1), (2, 0)], b, none, 2, false, some 0, none⟩ := by
      rw [Korman.pick, if_pos rfl]
      dsimp only
      simp only [List.mem_cons, List.not_mem_nil, or_false] at hperm
      rcases hperm with e | e <;> rw [e] <;> rfl
    have hatt : Korman.attempt (history isolatedOps) [0, 1, 2, 3]
        ⟨[(0, 0), (1, 2), (2, 1), (3, 0)], {0, 3}, [(0, 2), (1, 1), (2, 0)], b, none, 2, false, some 0, none⟩ =
        .ok ⟨[(0, 1), (1, 2), (2, 1), (3, 0)], {3}, [(0, 2), (1, 1), (2, 0)], b, none, 3, true, some 0, some 1⟩ := by
      rcases hb with rfl | rfl <;> rfl
    rw [hpick]
    dsimp only
    rw [hatt]
    exact endless_none hord (.high b hb _ _ (Or.inl rfl))
  have hinit : Korman.colorClique [2, 1] 0 (List.map (fun u => ((u, 0) : ℕ × ℕ)) [0, 1, 2, 3], [], [0, 1, 2, 3].toFinset) =
      ([(0, 0), (1, 2), (2, 1), (3, 0)], [(0, 2), (1, 1)], {0, 3}) := by rfl
  rw [hinit]
  dsimp only
  rw [hstart]

/-- C108: on the graph without vertices `exact_coloring` raises ValueError. -/
theorem C108_no_vertices (ord : Finset V → List V) (classes : Bool) :
    exactColoring ord ([] : Graph V W) classes = some (.error .valueError) := by
  rw [exactColoring, korman, (C71_no_vertices ord 0 false).2]

/-- The search with a bound for the number of steps, for the examples. -/
def kormanSteps (ord : Finset V → List V) (g : Graph V W) (vs : List V) (q : ℕ) :
    ℕ → Korman.State V → Option (Except PyErr (Korman.State V))
  | 0, _ => none
  | n + 1, st =>
    if st.idx < q then some (.ok st)
    else
      match Korman.pick ord g st with
      | .error e => some (.error e)
      | .ok st =>
        match Korman.attempt g vs st with
        | .error e => some (.error e)
        | .ok st => kormanSteps ord g vs q n st

theorem loop_of_steps {ord : Finset V → List V} {g : Graph V W} {vs : List V} {q : ℕ} (n : ℕ) :
    ∀ {st : Korman.State V} {r}, kormanSteps ord g vs q n st = some r → Korman.loop ord g vs q st = some r := by
  induction n with
  | zero => intro st r h; simp [kormanSteps] at h
  | succ n ih =>
    intro st r h
    rw [kormanSteps] at h
    rw [Korman.loop]
    by_cases hi : st.idx < q
    · rw [if_pos hi] at h ⊢; exact h
    · rw [if_neg hi] at h ⊢
      cases hp : Korman.pick ord g st with
      | error e => rw [hp] at h; exact h
      | ok st1 =>
        rw [hp] at h
        dsimp only at h ⊢
        cases ha : Korman.attempt g vs st1 with
        | error e => rw [ha] at h; exact h
        | ok st2 => rw [ha] at h; exact ih h

/-- A graph with chromatic number 3 for which `dsatur` needs 4 colors, for the examples. -/
def kormanOps : List (Op ℕ ℤ) := [Op.addEdges [(0, 4, 1), (0, 5, 1), (0, 6, 1), (1, 2, 1), (1, 3, 1), (1, 5, 1), (2, 3, 1),
  (2, 4, 1), (3, 5, 1), (4, 6, 1)]]

example : exactColoring (fun S => (List.range 8).filter (· ∈ S)) (history kormanOps) true =
    some (.ok (3, .classes [[0, 1], [2, 5, 6], [3, 4]])) := by
  have h1 : dsatur (fun S => (List.range 8).filter (· ∈ S)) (history kormanOps) false =
    .ok (4, .colorMap [(0, 0), (5, 1), (4, 1), (6, 2), (3, 0), (2, 2), (1, 3)]) := by rfl
  have h2 : Cliques.ostergard (history kormanOps) = .ok (3, [1, 5, 3]) := by rfl
  rw [exactColoring, korman, h1]
  dsimp only
  rw [h2]
  dsimp only
  rw [if_pos (by decide)]
  rw [loop_of_steps 40 (by rfl)]
  rfl

end Rosemary.Props
