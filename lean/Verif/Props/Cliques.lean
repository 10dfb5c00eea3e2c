import Verif.Lemmas.CliqueMasks
import Verif.Model.IndependentSets

/-!
# Properties of the enumeration of maximal cliques (C72)

Graphs are those that any sequence of `Graph` operations builds.  The order of iteration of Python sets and the choice
made by `set.pop` are parameters.
-/

namespace Rosemary.Props

open Rosemary.Graph Rosemary.Cliques Rosemary.Spec
open Rosemary.Traversal (E)

variable {V W : Type}

section Sets

variable [DecidableEq V]

/-- `l` lists every maximal clique of the graph exactly once, each as a list of different vertices. -/
def ListsMaximalCliques (g : Graph V W) (l : List (List V)) : Prop :=
  (∀ c ∈ l, c.Nodup) ∧ (l.map List.toFinset).Nodup ∧
    ∀ S, S ∈ l.map List.toFinset ↔ IsMaximalClique (toAbs g).verts (Linked g) S

theorem isMax_eq (g : Graph V W) (S : Finset V) : IsMax g S ↔ IsMaximalClique (toAbs g).verts (Linked g) S := by
  rw [← E_eq]; exact Iff.rfl

/-- C72, `bron_kerbosch`: every maximal clique is given exactly once and nothing else, whichever vertices `set.pop`
removes.  Loops of the graph do no harm. -/
theorem C72_bron_kerbosch (ops : List (Op V W)) (pop : List V → Finset V → V)
    (hpop : ∀ l S, S.Nonempty → pop l S ∈ S) :
    ListsMaximalCliques (history ops) (bronKerbosch (history ops) pop) := by
  obtain ⟨h1, h2, h3⟩ := bronKerbosch_spec (history_spec ops).1 hpop
  exact ⟨h1, h2, fun S => (h3 S).trans (isMax_eq _ S)⟩

/-- C72, `tomita`: in a graph without loops every maximal clique is given exactly once and nothing else. -/
theorem C72_tomita (ord : Finset V → List V) (hord : ∀ S, (ord S).Nodup ∧ ∀ x, x ∈ ord S ↔ x ∈ S)
    (ops : List (Op V W)) (hloop : ∀ v, ¬ Linked (history ops) v v) :
    ∃ l, tomita ord (history ops) = some l ∧ ListsMaximalCliques (history ops) l := by
  obtain ⟨l, h0, h1, h2, h3⟩ := tomita_spec hord (history_spec ops).1 (by rw [E_eq]; exact hloop)
  exact ⟨l, h0, h1, h2, fun S => (h3 S).trans (isMax_eq _ S)⟩

/-- The loop of `tomita` with a bound on the number of iterations, for the examples. -/
def tomitaLoopN (ord : Finset V → List V) (g : Graph V W) : ℕ → List (Finset V × Finset V × List V) →
    Option (List (List V))
  | 0, _ => none
  | _ + 1, [] => some []
  | n + 1, (subgraph, candidates, used) :: stack =>
    match ord subgraph with
    | [] => (tomitaLoopN ord g n stack).map (used :: ·)
    | v :: vs =>
      let u := pivotLoop g candidates vs v (nb g v ∩ candidates).card
      tomitaLoopN ord g n ((children g subgraph used candidates (ord (candidates \ nb g u))).reverse ++ stack)

theorem tomitaLoop_of_fuel (ord : Finset V → List V) (g : Graph V W) (n : ℕ) : ∀ stack l,
    tomitaLoopN ord g n stack = some l → tomitaLoop ord g stack = some l := by
  induction n with
  | zero => intro stack l h; simp [tomitaLoopN] at h
  | succ n ih =>
    rintro (_ | ⟨⟨S, C, used⟩, stack⟩) l h
    · rw [tomitaLoop.eq_def]; simpa [tomitaLoopN] using h
    · rw [tomitaLoopN] at h
      rw [tomitaLoop.eq_def]
      dsimp only at h ⊢
      cases ho : ord S with
      | nil =>
        rw [ho] at h
        dsimp only at h ⊢
        cases hr : tomitaLoopN ord g n stack with
        | none => rw [hr] at h; simp at h
        | some r =>
          rw [hr] at h
          rw [ih _ _ hr]
          simpa using h
      | cons v vs =>
        rw [ho] at h
        dsimp only at h ⊢
        exact ih _ _ h

/-- C72 fails for `tomita` on graphs with loops: a graph whose only edge is a loop has a maximal clique, but none is
given.  The function `maximal_cliques` uses `tomita` by default. -/
theorem C72_tomita_loop_violation (ord : Finset ℕ → List ℕ) (hord : ∀ S, (ord S).Nodup ∧ ∀ x, x ∈ ord S ↔ x ∈ S) :
    tomita ord (history [Op.addEdge 0 0 (1 : ℤ)]) = some [] ∧
      IsMaximalClique (toAbs (history [Op.addEdge 0 0 (1 : ℤ)])).verts (Linked (history [Op.addEdge 0 0 (1 : ℤ)])) {0} := by
  have hg : Good (history [Op.addEdge 0 0 (1 : ℤ)]) := (history_spec _).1
  have hmem : ∀ v, Mem (history [Op.addEdge 0 0 (1 : ℤ)]) v → v = 0 := by
    intro v hv
    have : v ∈ ([0] : List ℕ) := hv
    simpa using this
  have hv : vertexSet (history [Op.addEdge 0 0 (1 : ℤ)]) = {0} := by decide
  have h1 : ord {0} = [0] := by
    have h := (List.perm_ext_iff_of_nodup (hord {0}).1 (List.nodup_singleton 0)).2 (by
      intro a; rw [(hord {0}).2]; simp)
    exact List.perm_singleton.1 h
  have h2 : ord ∅ = [] := by
    rw [List.eq_nil_iff_forall_not_mem]
    intro x hx
    have := ((hord ∅).2 x).1 hx
    simp at this
  have hn : nb (history [Op.addEdge 0 0 (1 : ℤ)]) 0 = {0} := by decide
  refine ⟨?_, ?_⟩
  · rw [tomita, hv]
    apply tomitaLoop_of_fuel ord _ 2
    simp only [tomitaLoopN, h1, pivotLoop, hn, Finset.sdiff_self, h2, children, List.reverse_nil, List.nil_append]
  · rw [← isMax_eq, isMax_iff hg]
    refine ⟨⟨?_, ?_⟩, ?_⟩
    · intro v hv
      rw [Finset.mem_singleton.1 hv]
      exact List.mem_singleton.2 rfl
    · intro u hu v hv hne
      rw [Finset.mem_singleton.1 hu, Finset.mem_singleton.1 hv] at hne
      exact absurd rfl hne
    · intro v hv
      exact hv.2.1 (Finset.mem_singleton.2 (hmem v hv.1))

end Sets

section Ordered

variable [LinearOrder V]

omit [LinearOrder V] in
theorem lex_imp {r s : V → V → Prop} {k l : List V} (h : List.Lex r k l) :
    (∀ a ∈ k, ∀ b ∈ l, r a b → s a b) → List.Lex s k l := by
  induction h with
  | nil => intro _; exact List.Lex.nil
  | cons _ ih =>
    intro hi
    exact List.Lex.cons (ih (fun a ha b hb => hi a (List.mem_cons_of_mem _ ha) b (List.mem_cons_of_mem _ hb)))
  | rel hab => intro hi; exact List.Lex.rel (hi _ List.mem_cons_self _ List.mem_cons_self hab)

/-- C72, `bron_kerbosch_binary`: every maximal clique is given exactly once and nothing else; each clique is an
increasing list of vertices, and the cliques come in lexicographic order. -/
theorem C72_bron_kerbosch_binary (ord : Finset V → List V) (hord : ∀ S, (ord S).Nodup ∧ ∀ x, x ∈ ord S ↔ x ∈ S)
    (ops : List (Op V W)) :
    ListsMaximalCliques (history ops) (bronKerboschBinary ord (history ops)) ∧
      (∀ c ∈ bronKerboschBinary ord (history ops), c.Pairwise (· < ·)) ∧
      (bronKerboschBinary ord (history ops)).Pairwise (List.Lex (· < ·)) := by
  have hg := (history_spec ops).1
  obtain ⟨hnd, hmem⟩ := vertices_spec hg
  have hsort : (vertices (history ops)).Pairwise (· < ·) := by
    have hs := pairwise_pySort (le := fun a b : V => decide (a ≤ b)) (by simpa using fun a b c => le_trans)
      (by simpa using le_total) (Dict.keys (history ops))
    exact (hs.and hnd).imp fun h => lt_of_le_of_ne (by simpa using h.1) h.2
  have hfin : (vertices (history ops)).toFinset = vertexSet (history ops) := by
    ext v
    rw [List.mem_toFinset, hmem, Graph.mem_vertexSet]
  have hidx : ∀ a ∈ vertices (history ops), ∀ b ∈ vertices (history ops),
      (vertices (history ops)).idxOf a < (vertices (history ops)).idxOf b → a < b := by
    intro a ha b hb hlt
    have := List.pairwise_iff_getElem.1 hsort _ _ (List.idxOf_lt_length_of_mem ha) (List.idxOf_lt_length_of_mem hb) hlt
    rwa [List.getElem_idxOf, List.getElem_idxOf] at this
  rw [bronKerboschBinary]
  by_cases h0 : 2 ^ (vertices (history ops)).length - 1 = 0
  · rw [if_pos h0]
    have he : vertexSet (history ops) = ∅ := by
      rw [← hfin, ← dec_full, h0]
      exact (eq_zero_iff hnd (by positivity)).1 rfl
    refine ⟨?_, by simp, by simp⟩
    have hno : ∀ v, ¬ Mem (history ops) v := by
      intro v hv
      have := Graph.mem_vertexSet.2 hv
      rw [he] at this; simp at this
    refine ⟨by simp, by simp, ?_⟩
    intro S
    rw [← isMax_eq, isMax_iff hg, List.map_singleton, List.mem_singleton, List.toFinset_nil]
    constructor
    · rintro rfl
      exact ⟨⟨by simp, by simp⟩, fun v hv => hno v hv.1⟩
    · intro h
      rw [Finset.eq_empty_iff_forall_notMem]
      exact fun v hv => hno v (h.1.1 v hv)
  · rw [if_neg h0]
    have hlt : 2 ^ (vertices (history ops)).length - 1 < 2 ^ (vertices (history ops)).length := by
      have : 0 < 2 ^ (vertices (history ops)).length := by positivity
      omega
    have hne : vertexSet (history ops) ≠ ∅ := by
      rw [← hfin, ← dec_full]
      exact fun hc => h0 ((eq_zero_iff hnd hlt).2 hc)
    obtain ⟨v0, -⟩ := Finset.nonempty_iff_ne_empty.2 hne
    -- the choice of the first vertex
    let pop : List V → Finset V → V := fun _ S => if h : S.Nonempty then S.min' h else v0
    have hpop : ∀ (l : List V) (S : Finset V), S.Nonempty → pop l S ∈ S ∧ ∀ v ∈ S, pop l S ≤ v := by
      intro l S hS
      simp only [pop, dif_pos hS]
      exact ⟨S.min'_mem hS, fun v hv => S.min'_le v hv⟩
    have hpop' : ∀ (l : List V) (S : Finset V), S.Nonempty → (∀ v ∈ S, v ∈ vertices (history ops)) → pop l S ∈ S ∧
        ∀ v ∈ S, (vertices (history ops)).idxOf (pop l S) ≤ (vertices (history ops)).idxOf v := by
      intro l S hS hsub
      obtain ⟨k1, k2⟩ := hpop l S hS
      refine ⟨k1, fun v hv => ?_⟩
      by_contra hc
      have := hidx v (hsub v hv) _ (hsub _ k1) (by omega)
      exact absurd (k2 v hv) (not_le.2 this)
    have hlen : (vertices (history ops)).length = (vertexSet (history ops)).card := by
      rw [← hfin, List.toFinset_card_of_nodup hnd]
    have heq := bkMaskLoop_eq hord hnd (fun u v h => (hmem v).2 (E_mem hg h)) hpop' (vertices (history ops)).length
      0 (2 ^ (vertices (history ops)).length - 1) 0 (by positivity) hlt (by positivity) (by simp)
    have hl0 : lst (vertices (history ops)) 0 = [] := by
      rw [List.eq_nil_iff_forall_not_mem]
      intro v hv
      rw [mem_lst] at hv; simp at hv
    have hd0 : dec (vertices (history ops)) 0 = ∅ := (eq_zero_iff hnd (by positivity)).1 rfl
    rw [heq, hl0, hd0, dec_full, hfin]
    have hlex := bkLoop_lex (g := history ops) hnd hpop' (vertices (history ops)).length [] (vertexSet (history ops)) ∅
      (fun v hv => (hmem v).2 (Graph.mem_vertexSet.1 hv)) List.Pairwise.nil (by simp)
    have hbk : bkLoop (history ops) pop (vertices (history ops)).length [] (vertexSet (history ops)) ∅ =
        bronKerbosch (history ops) pop := by
      rw [bronKerbosch, if_neg hne, hlen]
    rw [hbk] at hlex ⊢
    have hC := C72_bron_kerbosch ops pop (fun l S hS => (hpop l S hS).1)
    have hsub : ∀ c ∈ bronKerbosch (history ops) pop, ∀ v ∈ c, v ∈ vertices (history ops) := by
      intro c hc v hv
      have := (hC.2.2 c.toFinset).1 (List.mem_map.2 ⟨c, hc, rfl⟩)
      exact (hmem v).2 (this.1.1 v (List.mem_toFinset.2 hv))
    refine ⟨hC, ?_, ?_⟩
    · intro c hc
      obtain ⟨_, _, -, -, hi⟩ := hlex.1 c hc
      refine List.Pairwise.imp_of_mem ?_ hi
      intro a b ha hb hab
      exact hidx a (hsub c hc a ha) b (hsub c hc b hb) hab
    · refine List.Pairwise.imp_of_mem ?_ hlex.2
      intro c d hc hd hcd
      exact lex_imp hcd (fun a ha b hb hab => hidx a (hsub c hc a ha) b (hsub d hd b hb) hab)

/-- C72, `maximal_independent_sets` lists every maximal independent set of the graph exactly once. -/
theorem C72_maximal_independent_sets [DecidableEq W] (ord : Finset V → List V)
    (hord : ∀ S, (ord S).Nodup ∧ ∀ x, x ∈ ord S ↔ x ∈ S) (ops : List (Op V W)) (w : W) :
    ∃ l, IndependentSets.maximalIndependentSets ord (history ops) w = some (.ok l) ∧ (∀ c ∈ l, c.Nodup) ∧
      (l.map List.toFinset).Nodup ∧
      ∀ S, S ∈ l.map List.toFinset ↔ IsMaximalIndependent (toAbs (history ops)).verts (Linked (history ops)) S := by
  have hg := (history_spec ops).1
  obtain ⟨h, h1, h2, h3, h4⟩ := complement_spec hg w
  have hE : ∀ u v, E h u v ↔ Mem (history ops) u ∧ Mem (history ops) v ∧ u ≠ v ∧ ¬ E (history ops) u v := by
    intro u v
    rw [E, E, mem_nbrs, mem_nbrs]
    constructor
    · rintro ⟨x, hx⟩
      obtain ⟨-, k1, k2, k3, k4⟩ := (h4 u v x).1 hx
      exact ⟨k1, k2, k3, by rw [k4]; simp⟩
    · rintro ⟨k1, k2, k3, k4⟩
      refine ⟨w, (h4 u v w).2 ⟨rfl, k1, k2, k3, ?_⟩⟩
      rw [← Option.not_isSome_iff_eq_none, Option.isSome_iff_exists]
      exact k4
  obtain ⟨l, l0, l1, l2, l3⟩ := tomita_spec hord h2 (by intro v hv; exact ((hE v v).1 hv).2.2.1 rfl)
  refine ⟨l, ?_, l1, l2, ?_⟩
  · rw [IndependentSets.maximalIndependentSets, h1]
    dsimp only
    rw [l0]; rfl
  · intro S
    have hcl : ∀ C : Finset V, IsClique {v | Mem h v} (E h) C ↔
        IsIndependent (toAbs (history ops)).verts (Linked (history ops)) C := by
      intro C
      rw [← E_eq]
      constructor
      · rintro ⟨k1, k2⟩
        exact ⟨fun v hv => (h3 v).1 (k1 v hv), fun u hu v hv hne => ((hE u v).1 (k2 u hu v hv hne)).2.2.2⟩
      · rintro ⟨k1, k2⟩
        exact ⟨fun v hv => (h3 v).2 (k1 v hv),
          fun u hu v hv hne => (hE u v).2 ⟨k1 u hu, k1 v hv, hne, k2 u hu v hv hne⟩⟩
    rw [l3, Cliques.IsMax, IsMaximalClique, IsMaximalIndependent]
    simp only [hcl]

end Ordered

/-! ## Examples -/

/-- A path and a triangle sharing a vertex, and an isolated vertex. -/
def cliqueOps : List (Op ℕ ℤ) := [Op.addEdges [(0, 1, 1), (1, 2, 1), (2, 0, 1), (2, 3, 1), (3, 4, 1)], Op.addVertex 5]

example : bronKerbosch (history cliqueOps) (fun _ S => ((List.range 6).filter (· ∈ S)).headD 0) =
    [[0, 1, 2], [2, 3], [3, 4], [5]] := by decide +kernel

example : bronKerboschBinary (fun S => (List.range 6).filter (· ∈ S)) (history cliqueOps) =
    [[0, 1, 2], [2, 3], [3, 4], [5]] := by decide +kernel

example : tomita (fun S => (List.range 6).filter (· ∈ S)) (history cliqueOps) =
    some [[5], [4, 3], [2, 3], [2, 0, 1]] := by
  exact tomitaLoop_of_fuel _ _ 20 _ _ (by decide +kernel)

example : IndependentSets.maximalIndependentSets (fun S => (List.range 6).filter (· ∈ S)) (history cliqueOps) 1 =
    some (.ok [[5, 4, 2], [5, 4, 1], [5, 4, 0], [5, 3, 1], [5, 3, 0]]) := by
  have : complement (history cliqueOps) 1 = .ok (history [Op.addVertices [0, 1, 2, 3, 4, 5], Op.addEdges
      [(3, 0, 1), (3, 1, 1), (4, 0, 1), (4, 1, 1), (4, 2, 1), (5, 0, 1), (5, 1, 1), (5, 2, 1), (5, 3, 1), (5, 4, 1)]]) := by
    decide +kernel
  rw [IndependentSets.maximalIndependentSets, this]
  dsimp only
  rw [tomita, tomitaLoop_of_fuel _ _ 30 _ [[5, 4, 2], [5, 4, 1], [5, 4, 0], [5, 3, 1], [5, 3, 0]] (by decide +kernel)]
  rfl

end Rosemary.Props
